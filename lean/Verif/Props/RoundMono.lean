import Verif.Props.RoundZero
import Verif.Props.RoundLow

/-!
# C188: `Round` keeps the order of numbers
-/

namespace Verif.Misc

open F64

/-- The order of `float64`, as `<=` in Go tells it: NaN is comparable to nothing. -/
def Upto : F64 → F64 → Prop
  | .nan, _ | _, .nan => False
  | .inf true, _ => True
  | _, .inf false => True
  | .fin a, .fin b => a ≤ b
  | _, _ => False

theorem rnd_mono {q r : ℚ} (h : q ≤ r) : rnd q ≤ rnd r := by
  by_contra hc
  rw [not_le] at hc
  have h1 := rnd_nearest q (rnd r) (repr_rnd r)
  have h2 := rnd_nearest r (rnd q) (repr_rnd q)
  have a : rnd q + rnd r ≤ 2 * q := by
    by_contra h'
    rw [not_le] at h'
    have : |rnd r - q| < |rnd q - q| := by
      rw [abs_of_pos (show 0 < rnd q - q by linarith), abs_lt]
      constructor <;> linarith
    linarith
  have b : 2 * r ≤ rnd q + rnd r := by
    by_contra h'
    rw [not_le] at h'
    have : |rnd q - r| < |rnd r - r| := by
      rw [abs_of_neg (show rnd r - r < 0 by linarith), abs_lt]
      constructor <;> linarith
    linarith
  have : q = r := by linarith
  rw [this] at hc
  exact lt_irrefl _ hc

theorem ofRat_mono {q r : ℚ} (h : q ≤ r) : Upto (ofRat q) (ofRat r) := by
  have hm := rnd_mono h
  have hq : 0 ≤ q → 0 ≤ rnd q := fun h => le_rnd _ 0 repr_zero h
  have hr : r < 0 → rnd r ≤ 0 := fun h => rnd_le _ 0 repr_zero h.le
  have one : (0 : ℚ) < 2 ^ 1024 := by positivity
  unfold ofRat
  generalize (2 : ℚ) ^ 1024 = M at one
  split
  · rename_i h1
    by_cases hn : q < 0
    · rw [decide_eq_true hn]
      split <;> trivial
    · have hn' := not_lt.1 hn
      rw [abs_of_nonneg (hq hn')] at h1
      rw [if_pos (le_trans (le_trans h1 hm) (le_abs_self _)), decide_eq_false hn, decide_eq_false (not_lt.2 (le_trans hn' h))]
      trivial
  · rename_i h1
    split
    · rename_i h2
      by_cases hn : r < 0
      · rw [abs_of_nonpos (hr hn)] at h2
        exact absurd (le_trans (by linarith) (neg_le_abs (rnd q))) h1
      · rw [decide_eq_false hn]
        trivial
    · exact hm

theorem ofRat_self (q : ℚ) : Upto (ofRat q) (ofRat q) := ofRat_mono le_rfl

theorem upto_top {x : F64} (h : Upto x x) : Upto (.inf true) x ∧ Upto x (.inf false) := by
  match x, h with
  | .inf true, _ => exact ⟨trivial, trivial⟩
  | .inf false, _ => exact ⟨trivial, trivial⟩
  | .fin _, _ => exact ⟨trivial, trivial⟩

/-- An operation that keeps the infinities and the order of the numbers keeps the order. -/
theorem Upto.map {op : F64 → F64} (hi : ∀ s, op (.inf s) = .inf s) (hf : ∀ a b, a ≤ b → Upto (op (.fin a)) (op (.fin b))) {x y : F64} (h : Upto x y) : Upto (op x) (op y) := by
  match x, y, h with
  | .inf true, .inf true, _ => rw [hi]; trivial
  | .inf true, .inf false, _ => rw [hi, hi]; trivial
  | .inf true, .fin b, _ => rw [hi]; exact (upto_top (hf b b le_rfl)).1
  | .inf false, .inf false, _ => rw [hi]; trivial
  | .fin a, .inf false, _ => rw [hi]; exact (upto_top (hf a a le_rfl)).2
  | .fin a, .fin b, h => exact hf a b h

theorem trunc_mono {a b : ℚ} (h : a ≤ b) : Upto (trunc (.fin a)) (trunc (.fin b)) := by
  show ((if a < 0 then ⌈a⌉ else ⌊a⌋ : ℤ) : ℚ) ≤ ((if b < 0 then ⌈b⌉ else ⌊b⌋ : ℤ) : ℚ)
  rw [Int.cast_le]
  split
  · rename_i ha
    have h0 : ⌈a⌉ ≤ 0 := Int.ceil_le.2 (by push_cast; linarith)
    split
    · exact Int.ceil_mono h
    · rename_i hb
      exact le_trans h0 (Int.floor_nonneg.2 (not_lt.1 hb))
  · rename_i ha
    rw [if_neg (by linarith)]
    exact Int.floor_mono h

/-- **C188** `Round` keeps the order: of all numbers, also negative and infinite ones, and also where it overflows. Outside of this range of `n` all finite numbers have the same result (`C133_low_refuted`, `C133_range_refuted`). -/
theorem C188_order {f g : F64} (n : ℤ) (h : -308 ≤ n) (h' : n ≤ 308) (hfg : Upto f g) : Upto (roundF f n) (roundF g n) := by
  obtain ⟨p, hp, hp0, hlo⟩ := pow10_wide n h h'
  have hw : div (.fin (1 / 2)) (.fin p) = .fin (rnd (1 / 2 / p)) := by
    rw [div, if_neg hp0.ne', ofRat_fin]
    rw [abs_of_pos (by positivity), div_le_iff₀ hp0]
    have e : (1 : ℚ) / 2 ≤ 2 ^ 1023 * 2 ^ (-1024 : ℤ) := by
      rw [← zpow_natCast, ← zpow_add₀ (by norm_num)]
      norm_num
    have := mul_le_mul_of_nonneg_left hlo (show (0 : ℚ) ≤ 2 ^ 1023 by positivity)
    generalize (2 : ℚ) ^ 1023 = M at *
    linarith
  unfold roundF
  rw [hp, hw]
  generalize rnd (1 / 2 / p) = w
  have hneg : decide (p < 0) = false := decide_eq_false (not_lt.2 hp0.le)
  refine Upto.map (op := fun x => div x (.fin p)) (fun s => by simp [div, hneg]) (fun a b hab => ?_) ?_
  · simp only [div, if_neg hp0.ne']
    exact ofRat_mono (div_le_div_of_nonneg_right hab hp0.le)
  refine Upto.map (op := trunc) (fun s => rfl) (fun a b hab => trunc_mono hab) ?_
  refine Upto.map (op := fun x => mul x (.fin p)) (fun s => by simp [mul, hneg, hp0.ne']) (fun a b hab => ?_) ?_
  · exact ofRat_mono (mul_le_mul_of_nonneg_right hab hp0.le)
  exact Upto.map (op := fun x => add x (.fin w)) (fun s => rfl) (fun a b hab => ofRat_mono (by linarith)) hfg

/-- **C188** With no decimals the result is a whole number less than 3/2 away, for every number (the exact ones are in C133). -/
theorem C188_whole (f : ℚ) (hr : Repr64 f) (hb : |f| < 2 ^ 1024) : ∃ k : ℤ, roundF (.fin f) 0 = .fin k ∧ |(k : ℚ) - f| < 3 / 2 := by
  by_cases h : -2 ^ 52 ≤ f ∧ f < 2 ^ 52
  · refine ⟨_, C133_zero_exact f hr h.1 h.2, ?_⟩
    split
    · rename_i e
      rw [e, abs_lt]
      norm_num
    split
    · rename_i e
      have a := Int.le_ceil (f + 1 / 2)
      have b := Int.ceil_lt_add_one (f + 1 / 2)
      rw [abs_lt]; constructor <;> linarith
    rename_i e
    rw [not_le] at e
    split
    · rw [abs_lt]; constructor <;> push_cast <;> linarith
    · have a := Int.floor_le (f + 1 / 2)
      have b := Int.lt_floor_add_one (f + 1 / 2)
      rw [abs_lt]; constructor <;> linarith
  · have h52 : (2 : ℚ) ^ (52 + 0) ≤ |f| := by
      rw [add_zero, le_abs']
      by_cases h1 : -2 ^ 52 ≤ f
      · exact .inr (not_lt.1 fun h2 => h ⟨h1, h2⟩)
      · exact .inl (not_le.1 h1).le
    obtain ⟨m, hm⟩ := repr_large f hr 0 h52
    rw [pow_zero, mul_one] at hm
    by_cases h53 : |f| < 2 ^ 53
    · have hk : |m| < 2 ^ 53 := by
        rw [hm] at h53
        exact_mod_cast h53
      have := C133_whole_exact m hk
      rw [← hm] at this
      split at this
      · exact ⟨m, by rw [this, hm], by rw [← hm]; norm_num⟩
      · exact ⟨m + 1, by rw [this, hm]; push_cast; rfl, by push_cast; rw [← hm]; norm_num [abs_lt]⟩
    · exact ⟨m, by rw [C133_large_exact f hr (not_lt.1 h53) hb, ← hm], by rw [← hm]; norm_num⟩

/-- Numbers on both sides of zero: -1.4 and 0.4 both become 0. -/
example : Upto (.fin (-11 / 8)) (.fin (3 / 8)) ∧ Upto (roundF (.fin (-11 / 8)) 0) (roundF (.fin (3 / 8)) 0) ∧ roundF (.fin (-11 / 8)) 0 = .fin 0 := by
  have h : Upto (.fin (-11 / 8)) (.fin (3 / 8)) := show (-11 / 8 : ℚ) ≤ 3 / 8 by norm_num
  refine ⟨h, C188_order 0 (by norm_num) (by norm_num) h, ?_⟩
  rw [C133_zero_exact _ ⟨-11, -3, by norm_num, by norm_num, by norm_num⟩ (by norm_num) (by norm_num), if_neg (by norm_num), if_pos (by norm_num),
    show ⌈(-11 / 8 + 1 / 2 : ℚ)⌉ = 0 by rw [Int.ceil_eq_iff]; norm_num, Int.cast_zero]

end Verif.Misc
