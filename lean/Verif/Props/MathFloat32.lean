import Verif.Model.MathFloat32
import Verif.Props.MathFloatAll
import Mathlib.Tactic.Linarith
import Mathlib.Tactic.Positivity
import Mathlib.Tactic.NormNum

/-!
# C191: `Max`, `Min` and `Abs` of a `float32`
-/

namespace Verif.MathFloat32

open MathFloat (Le Abs)

def IsNaN (a : BitVec 32) : Prop := val a = .nan

theorem lt_le {a b : BitVec 32} (h : lt a b = true) : Le (val a) (val b) := by
  unfold lt at h
  unfold Le
  cases ha : val a with
  | nan => rw [ha] at h; cases h
  | inf n =>
    cases hb : val b with
    | nan => rw [ha, hb] at h; cases h
    | inf m => rw [ha, hb] at h; cases n <;> cases m <;> simp at h ⊢
    | fin r => rw [ha, hb] at h; cases n <;> simp at h ⊢
  | fin q =>
    cases hb : val b with
    | nan => rw [ha, hb] at h; cases h
    | inf m => rw [ha, hb] at h; cases m <;> simp at h ⊢
    | fin r => rw [ha, hb] at h; simp only [decide_eq_true_eq] at h; exact le_of_lt h

theorem not_lt_le {a b : BitVec 32} (ha : ¬ IsNaN a) (hb : ¬ IsNaN b) (h : ¬ lt a b = true) : Le (val b) (val a) := by
  unfold lt at h
  unfold IsNaN at ha hb
  unfold Le
  cases hva : val a with
  | nan => exact absurd hva ha
  | inf n =>
    cases hvb : val b with
    | nan => exact absurd hvb hb
    | inf m => rw [hva, hvb] at h; cases n <;> cases m <;> simp at h ⊢
    | fin r => rw [hva, hvb] at h; cases n <;> simp at h ⊢
  | fin q =>
    cases hvb : val b with
    | nan => exact absurd hvb hb
    | inf m => rw [hva, hvb] at h; cases m <;> simp at h ⊢
    | fin r => rw [hva, hvb] at h; simp only [decide_eq_true_eq, not_lt] at h; exact h

theorem le_refl {a : BitVec 32} (ha : ¬ IsNaN a) : Le (val a) (val a) := by
  unfold IsNaN at ha
  unfold Le
  cases hva : val a with
  | nan => exact absurd hva ha
  | inf n => cases n <;> trivial
  | fin q => exact _root_.le_refl q

theorem lt_nan_left {a : BitVec 32} (b : BitVec 32) (h : IsNaN a) : lt a b = false := by
  unfold lt; rw [h]

theorem lt_nan_right (a : BitVec 32) {b : BitVec 32} (h : IsNaN b) : lt a b = false := by
  unfold lt; rw [h]; cases val a <;> rfl

/-- **C191.** Of two numbers `Max` and `Min` return one, the largest and the smallest. -/
theorem C191_order (a b : BitVec 32) (ha : ¬ IsNaN a) (hb : ¬ IsNaN b) :
    ((max a b = a ∨ max a b = b) ∧ Le (val a) (val (max a b)) ∧ Le (val b) (val (max a b))) ∧
    ((min a b = a ∨ min a b = b) ∧ Le (val (min a b)) (val a) ∧ Le (val (min a b)) (val b)) := by
  unfold max min
  constructor
  · split
    · rename_i h; exact ⟨Or.inl rfl, le_refl ha, lt_le h⟩
    · rename_i h; exact ⟨Or.inr rfl, not_lt_le hb ha h, le_refl hb⟩
  · split
    · rename_i h; exact ⟨Or.inl rfl, le_refl ha, lt_le h⟩
    · rename_i h; exact ⟨Or.inr rfl, not_lt_le ha hb h, le_refl hb⟩

/-- **C191 (what happens).** If one of the arguments is NaN, the second argument is returned. -/
theorem C191_nan (a b : BitVec 32) (h : IsNaN a ∨ IsNaN b) : max a b = b ∧ min a b = b := by
  unfold max min
  rcases h with h | h
  · rw [lt_nan_left b h, lt_nan_right b h]; exact ⟨rfl, rfl⟩
  · rw [lt_nan_left a h, lt_nan_right a h]; exact ⟨rfl, rfl⟩

/-- **C191 (the order of the arguments matters).** `Max(NaN, 1)` is 1 and `Max(1, NaN)` is NaN; for zeros the sign
of the result is that of the second argument. -/
theorem C191_asymmetric :
    (∃ a b, IsNaN a ∧ ¬ IsNaN b ∧ max a b = b ∧ IsNaN (max b a) ∧ min a b = b ∧ IsNaN (min b a)) ∧
    ∃ a b, val a = .fin 0 ∧ val b = .fin 0 ∧ a ≠ b ∧ max a b = b ∧ max b a = a := by
  have h1 : IsNaN 0x7FC00001#32 := by
    unfold IsNaN val
    rw [if_pos (by decide), if_neg (by decide)]
  have h2 : ¬ IsNaN 0x3F800000#32 := by
    unfold IsNaN val
    rw [if_neg (by decide)]
    simp
  have h3 : val 0#32 = .fin 0 := by
    unfold val size
    rw [if_neg (by decide), if_neg (by decide), if_pos (by decide)]
    simp [fraction, magnitude]
  have h4 : val 0x80000000#32 = .fin 0 := by
    unfold val size
    rw [if_neg (by decide), if_pos (by decide), if_pos (by decide)]
    simp [fraction, magnitude]
  refine ⟨⟨_, _, h1, h2, (C191_nan _ _ (Or.inl h1)).1, ?_, (C191_nan _ _ (Or.inl h1)).2, ?_⟩, ⟨_, _, h3, h4, by decide, ?_, ?_⟩⟩
  · rw [(C191_nan _ _ (Or.inr h1)).1]; exact h1
  · rw [(C191_nan _ _ (Or.inr h1)).2]; exact h1
  · unfold max lt; rw [h3, h4]; simp
  · unfold max lt; rw [h3, h4]; simp

theorem neg_toNat (a : BitVec 32) : (neg a).toNat = if 2 ^ 31 ≤ a.toNat then a.toNat - 2 ^ 31 else a.toNat + 2 ^ 31 := by
  unfold neg
  rw [BitVec.toNat_add, show (0x80000000#32).toNat = 2 ^ 31 by decide]
  have := a.isLt
  split <;> omega

theorem neg_magnitude (a : BitVec 32) : magnitude (neg a) = magnitude a := by
  unfold magnitude
  rw [neg_toNat]
  have := a.isLt
  split <;> omega

theorem neg_negative (a : BitVec 32) : negative (neg a) = !negative a := by
  unfold negative
  rw [neg_toNat]
  have := a.isLt
  by_cases h : 2 ^ 31 ≤ a.toNat
  · rw [if_pos h, decide_eq_true h, Bool.not_true, decide_eq_false_iff_not]; omega
  · rw [if_neg h, decide_eq_false h, Bool.not_false, decide_eq_true_eq]; omega

theorem neg_val (a : BitVec 32) : val (neg a) = MathFloat.Neg (val a) := by
  have he : exponent (neg a) = exponent a := by unfold exponent; rw [neg_magnitude]
  have hf : fraction (neg a) = fraction a := by unfold fraction; rw [neg_magnitude]
  have hs : size (neg a) = size a := by unfold size; rw [he, hf]
  unfold val
  rw [he, hf, hs, neg_negative]
  split
  · split <;> rfl
  · cases negative a <;> simp [MathFloat.Neg]

theorem val_zero : val 0#32 = .fin 0 := by
  unfold val size
  rw [if_neg (by decide), if_neg (by decide), if_pos (by decide)]
  simp [fraction, magnitude]

theorem size_nonneg (a : BitVec 32) : 0 ≤ size a := by
  have h2 : ∀ k : ℤ, (0 : ℚ) ≤ 2 ^ k := fun k => zpow_nonneg (by norm_num) k
  unfold size
  split
  · exact mul_nonneg (Nat.cast_nonneg _) (h2 _)
  · exact mul_nonneg (add_nonneg (by norm_num) (Nat.cast_nonneg _)) (h2 _)

/-- **C191 (absolute values).** `Abs` returns the absolute value of every number and infinity, and NaN for NaN. The bits are those of the argument, apart
from the sign: which is cleared, except that of `-0` and of a NaN, which stays. -/
theorem C191_abs (a : BitVec 32) :
    val (abs a) = Abs (val a) ∧
    (∀ i < 31, (abs a).getLsbD i = a.getLsbD i) ∧
    (negative (abs a) = true ↔ negative a = true ∧ (val a = .fin 0 ∨ IsNaN a)) := by
  have hl : lt a 0#32 = true ↔ (val a = .inf true ∨ ∃ q, q < 0 ∧ val a = .fin q) := by
    unfold lt
    rw [val_zero]
    cases val a with
    | nan => simp
    | inf n => simp
    | fin q => simp
  have hsgn : ∀ q, val a = .fin q → (negative a = true → q ≤ 0) ∧ (negative a = false → 0 ≤ q) := by
    intro q hq
    have hs := size_nonneg a
    unfold val at hq
    split at hq
    · split at hq <;> cases hq
    · injection hq with hq
      subst hq
      cases negative a <;> simp [hs]
  have hinf : ∀ n, val a = .inf n → negative a = n := by
    intro n hq
    unfold val at hq
    split at hq
    · split at hq
      · injection hq
      · cases hq
    · cases hq
  refine ⟨?_, ?_, ?_⟩
  · unfold abs
    split
    · rename_i h
      rw [neg_val]
      rcases hl.mp h with h | ⟨q, hq, h⟩
      · rw [h]; rfl
      · rw [h]; show F64.fin (-q) = F64.fin |q|; rw [abs_of_neg hq]
    · rename_i h
      cases hv : val a with
      | nan => rfl
      | inf n =>
        cases n with
        | false => rfl
        | true => exact absurd (hl.mpr (Or.inl hv)) h
      | fin q =>
        show F64.fin q = F64.fin |q|
        rw [abs_of_nonneg]
        by_contra hq
        exact h (hl.mpr (Or.inr ⟨q, not_le.mp hq, hv⟩))
  · intro i hi
    unfold abs
    split
    · have hm := neg_magnitude a
      unfold magnitude at hm
      have e : ∀ b : BitVec 32, b.getLsbD i = (b.toNat % 2 ^ 31).testBit i := by
        intro b
        rw [Nat.testBit_mod_two_pow, decide_eq_true hi, Bool.true_and]
        rfl
      rw [e, e, hm]
    · rfl
  · unfold abs
    split
    · rename_i h
      rw [neg_negative]
      rcases hl.mp h with h | ⟨q, hq, h⟩
      · rw [hinf _ h, IsNaN, h]; simp
      · have := (hsgn q h).2
        cases hn : negative a with
        | true => rw [IsNaN, h]; simp; exact ne_of_lt hq
        | false => exact absurd (this hn) (not_le.mpr hq)
    · rename_i h
      constructor
      · intro hn
        refine ⟨hn, ?_⟩
        cases hv : val a with
        | nan => exact Or.inr hv
        | inf n => rw [← hinf n hv, hn] at hv; exact absurd (hl.mpr (Or.inl hv)) h
        | fin q =>
          left
          rcases lt_or_eq_of_le ((hsgn q hv).1 hn) with hq | hq
          · exact absurd (hl.mpr (Or.inr ⟨q, hq, hv⟩)) h
          · rw [hq]
      · exact fun hn => hn.1

/-- Non-vacuity: -0 keeps its sign under `Abs`; -1.5 becomes 1.5. -/
example : abs 0x80000000#32 = 0x80000000#32 ∧ abs 0xBFC00000#32 = 0x3FC00000#32 := by
  have h4 : val 0x80000000#32 = .fin 0 := by
    unfold val size
    rw [if_neg (by decide), if_pos (by decide), if_pos (by decide)]
    simp [fraction, magnitude]
  have h5 : val 0xBFC00000#32 = .fin (-3 / 2) := by
    unfold val size
    rw [if_neg (by decide), if_pos (by decide), if_neg (by decide)]
    norm_num [fraction, magnitude, exponent]
  have hz := val_zero
  constructor
  · unfold abs lt; rw [h4, hz]; simp
  · unfold abs lt; rw [h5, hz]; simp [neg]; norm_num

/-- **C191 (the numbers).** The bits that stand for a number stand for one with at most 24 places, none below 2^-149, and below 2^128. -/
theorem C191_numbers (a : BitVec 32) (q : ℚ) (h : val a = .fin q) : Repr32 q ∧ |q| < 2 ^ 128 := by
  have hm : magnitude a < 2 ^ 31 := Nat.mod_lt _ (by norm_num)
  have hf : fraction a < 2 ^ 23 := Nat.mod_lt _ (by norm_num)
  have he : exponent a < 256 := by unfold exponent; omega
  unfold val at h
  split at h
  · split at h <;> cases h
  rename_i hne
  injection h with h
  have key : ∃ m e : ℤ, 0 ≤ m ∧ m < 2 ^ 24 ∧ -149 ≤ e ∧ e ≤ 104 ∧ size a = m * 2 ^ e := by
    unfold size
    split
    · exact ⟨fraction a, -149, by omega, by omega, by omega, by omega, by push_cast; rfl⟩
    · exact ⟨2 ^ 23 + fraction a, (exponent a : ℤ) - 150, by omega, by omega, by omega, by omega, by push_cast; rfl⟩
  obtain ⟨m, e, m0, m1, e0, e1, hs⟩ := key
  have habs : |q| = m * 2 ^ e := by
    rw [← hs, ← h]
    cases negative a <;> simp [abs_of_nonneg (size_nonneg a)]
  constructor
  · cases hn : negative a with
    | true => exact ⟨-m, e, by rw [abs_neg, abs_of_nonneg m0]; omega, e0, by rw [← h, hn, hs]; push_cast; simp⟩
    | false => exact ⟨m, e, by rw [abs_of_nonneg m0]; omega, e0, by rw [← h, hn, hs]; simp⟩
  · rw [habs]
    have h1 : (2 : ℚ) ^ e ≤ 2 ^ (104 : ℤ) := zpow_le_zpow_right₀ (by norm_num) e1
    have h2 : (m : ℚ) < 2 ^ 24 := by exact_mod_cast m1
    have h3 : (0 : ℚ) < 2 ^ e := two_zpow_pos e
    calc (m : ℚ) * 2 ^ e < 2 ^ 24 * 2 ^ e := by exact mul_lt_mul_of_pos_right h2 h3
      _ ≤ 2 ^ 24 * 2 ^ (104 : ℤ) := by exact mul_le_mul_of_nonneg_left h1 (by norm_num)
      _ = 2 ^ 128 := by norm_num

/-- The value of bits put together from their fields. -/
theorem val_fields (s : Bool) (n : ℕ) (h : n < 255 * 2 ^ 23) :
    val (BitVec.ofNat 32 ((if s then 2 ^ 31 else 0) + n)) =
      .fin ((if s then -1 else 1 : ℚ) *
        (if n / 2 ^ 23 = 0 then ((n % 2 ^ 23 : ℕ) : ℚ) * 2 ^ (-149 : ℤ) else (2 ^ 23 + ((n % 2 ^ 23 : ℕ) : ℚ)) * 2 ^ (((n / 2 ^ 23 : ℕ) : ℤ) - 150))) := by
  have ht : (BitVec.ofNat 32 ((if s then 2 ^ 31 else 0) + n)).toNat = (if s then 2 ^ 31 else 0) + n := by
    rw [BitVec.toNat_ofNat, Nat.mod_eq_of_lt]
    cases s <;> simp <;> omega
  have hm : magnitude (BitVec.ofNat 32 ((if s then 2 ^ 31 else 0) + n)) = n := by
    unfold magnitude
    rw [ht]
    cases s <;> simp <;> omega
  have hn : negative (BitVec.ofNat 32 ((if s then 2 ^ 31 else 0) + n)) = s := by
    unfold negative
    rw [ht]
    cases s <;> simp <;> omega
  unfold val size exponent fraction
  rw [hm, hn, if_neg (by omega)]
  generalize (if n / 2 ^ 23 = 0 then _ else _ : ℚ) = z
  cases s <;> simp

/-- **C191 (all numbers).** Every number with at most 24 places, none below 2^-149, that is below 2^128 has its bits. -/
theorem C191_all_numbers (q : ℚ) (h : Repr32 q) (hq : |q| < 2 ^ 128) : ∃ a, val a = .fin q := by
  by_cases h0 : q = 0
  · exact ⟨0#32, by rw [h0]; exact val_zero⟩
  have hp := two_zpow_pos (lastPlace32 q)
  obtain ⟨k, hk⟩ : ∃ k : ℤ, q = k * 2 ^ lastPlace32 q := ⟨_, (rnd32_fixed q h).symm⟩
  have habs : |q| = |k| * 2 ^ lastPlace32 q := by
    conv_lhs => rw [hk]
    rw [abs_mul, abs_of_pos hp]
    push_cast
    rfl
  have hlt : |k| < 2 ^ 24 := by
    have h1 := lt_lastPlace32 q
    rw [habs, zpow_add₀ (by norm_num), mul_comm] at h1
    have h2 := lt_of_mul_lt_mul_left h1 (le_of_lt hp)
    exact_mod_cast h2
  have hge : -149 < lastPlace32 q → 2 ^ 23 ≤ |k| := by
    intro hl
    have h1 := lastPlace32_le q h0 hl
    rw [habs, zpow_add₀ (by norm_num), mul_comm ((|k| : ℤ) : ℚ)] at h1
    have h2 := le_of_mul_le_mul_left h1 hp
    exact_mod_cast h2
  have hl : lastPlace32 q ≤ 104 := by
    by_contra hc
    have h1 := lastPlace32_le q h0 (by omega)
    have h2 : (2 : ℚ) ^ (128 : ℤ) ≤ 2 ^ (lastPlace32 q + 23) := zpow_le_zpow_right₀ (by norm_num) (by omega)
    have h3 : (2 : ℚ) ^ (128 : ℤ) = 2 ^ 128 := by norm_num
    linarith
  have hlo := lastPlace32_ge q
  generalize lastPlace32 q = l at *
  obtain ⟨j, hj⟩ : ∃ j : ℕ, |k| = j := ⟨|k|.toNat, (Int.toNat_of_nonneg (abs_nonneg k)).symm⟩
  obtain ⟨i, hi⟩ : ∃ i : ℕ, l = i - 149 := ⟨(l + 149).toNat, by omega⟩
  have hkj : (k : ℚ) = (if decide (k < 0) then -1 else 1) * (j : ℚ) := by
    have : ((|k| : ℤ) : ℚ) = j := by exact_mod_cast hj
    rw [← this]
    by_cases hneg : k < 0
    · rw [abs_of_neg hneg]; simp [hneg]
    · rw [abs_of_nonneg (not_lt.mp hneg)]; simp [hneg]
  refine ⟨BitVec.ofNat 32 ((if decide (k < 0) then 2 ^ 31 else 0) + (i * 2 ^ 23 + j)), ?_⟩
  rw [val_fields _ _ (by omega), hk, hkj, mul_assoc]
  congr 2
  by_cases hs : j < 2 ^ 23
  · have : i = 0 := by
      by_contra hc
      have := hge (by omega)
      omega
    subst this
    rw [if_pos (by omega), show (0 * 2 ^ 23 + j) % 2 ^ 23 = j by omega, hi]
    norm_num
  · have e1 : (i * 2 ^ 23 + j) / 2 ^ 23 = i + 1 := by omega
    have e2 : 2 ^ 23 + (i * 2 ^ 23 + j) % 2 ^ 23 = j := by omega
    have e3 : (2 : ℚ) ^ 23 + ((i * 2 ^ 23 + j) % 2 ^ 23 : ℕ) = j := by exact_mod_cast e2
    rw [if_neg (by omega), e1, e3, hi]
    congr 2
    push_cast
    ring

/-- **C191 (through `float64`).** Converting to `float64` first, calling there and reading the result gives the same number, since every `float32` is a `float64`. -/
theorem C191_through_float64 (a b : BitVec 32) (A B : BitVec 64) (ha : MathFloat.val A = val a) (hb : MathFloat.val B = val b) :
    MathFloat.val (MathFloat.max A B) = val (max a b) ∧ MathFloat.val (MathFloat.min A B) = val (min a b) ∧
    MathFloat.val (MathFloat.abs A) = val (abs a) := by
  have e : ∀ (x y : BitVec 32) (X Y : BitVec 64), MathFloat.val X = val x → MathFloat.val Y = val y → MathFloat.lt X Y = lt x y := by
    intro x y X Y hx hy
    unfold MathFloat.lt lt
    rw [hx, hy]
    cases val x <;> cases val y <;> rfl
  refine ⟨?_, ?_, ?_⟩
  · unfold MathFloat.max max
    rw [e b a B A hb ha]
    split <;> assumption
  · unfold MathFloat.min min
    rw [e a b A B ha hb]
    split <;> assumption
  · rw [(MathFloat.C139_abs A).1, (C191_abs a).1, ha]

/-- **C191 (`float64` has them all).** Every `float32` is a `float64`, infinities and NaN included. -/
theorem C191_widens (a : BitVec 32) : ∃ A, MathFloat.val A = val a := by
  cases h : val a with
  | nan => exact ⟨0x7FF8000000000001#64, by unfold MathFloat.val; rw [if_pos (by decide), if_neg (by decide)]⟩
  | inf n =>
    cases n with
    | false => exact ⟨0x7FF0000000000000#64, by unfold MathFloat.val; rw [if_pos (by decide), if_pos (by decide)]; rfl⟩
    | true => exact ⟨0xFFF0000000000000#64, by unfold MathFloat.val; rw [if_pos (by decide), if_pos (by decide)]; rfl⟩
  | fin q =>
    obtain ⟨⟨m, e, hm, he, hq⟩, hlt⟩ := C191_numbers a q h
    refine MathFloat.C139_all_numbers q ⟨m, e, by omega, by omega, hq⟩ (lt_trans hlt ?_)
    exact_mod_cast (show (2 ^ 128 : ℕ) < 2 ^ 1024 by decide +kernel)

/-- Non-vacuity: 1.5 as a `float32` and as a `float64`. -/
example : MathFloat.val 0x3FF8000000000000#64 = val 0x3FC00000#32 ∧ val 0x3FC00000#32 = .fin (3 / 2) := by
  have h1 : MathFloat.val 0x3FF8000000000000#64 = .fin (3 / 2) := by
    unfold MathFloat.val MathFloat.size
    rw [if_neg (by decide), if_neg (by decide), if_neg (by decide)]
    norm_num [MathFloat.fraction, MathFloat.magnitude, MathFloat.exponent]
  have h2 : val 0x3FC00000#32 = .fin (3 / 2) := by
    unfold val size
    rw [if_neg (by decide), if_neg (by decide), if_neg (by decide)]
    norm_num [fraction, magnitude, exponent]
  exact ⟨by rw [h1, h2], h2⟩

end Verif.MathFloat32
