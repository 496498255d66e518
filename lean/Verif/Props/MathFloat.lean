import Verif.Model.MathFloat
import Mathlib.Tactic.Linarith
import Mathlib.Tactic.Positivity
import Mathlib.Tactic.NormNum

/-!
# C139: `Max`, `Min` and `Abs` of floating point numbers
-/

namespace Verif.MathFloat

/-- The order of the numbers, with the infinities at the ends; NaN is not in it. -/
def Le : F64 → F64 → Prop
  | .inf true, .inf _ => True
  | .inf true, .fin _ => True
  | .inf false, .inf false => True
  | .fin _, .inf false => True
  | .fin q, .fin r => q ≤ r
  | _, _ => False

/-- The absolute value. -/
def Abs : F64 → F64
  | .nan => .nan
  | .inf _ => .inf false
  | .fin q => .fin |q|

def IsNaN (a : BitVec 64) : Prop := val a = .nan

theorem lt_le {a b : BitVec 64} (h : lt a b = true) : Le (val a) (val b) := by
  unfold lt at h
  unfold Le
  cases ha : val a with
  | nan => rw [ha] at h; cases h
  | inf n =>
    cases hb : val b with
    | nan => rw [ha, hb] at h; cases h
    | inf m => rw [ha, hb] at h; cases n <;> cases m <;> simp at h ⊢
    | fin r => rw [ha, hb] at h; cases n <;> simp at h ⊢
  | fin q =>
    cases hb : val b with
    | nan => rw [ha, hb] at h; cases h
    | inf m => rw [ha, hb] at h; cases m <;> simp at h ⊢
    | fin r => rw [ha, hb] at h; simp only [decide_eq_true_eq] at h; exact le_of_lt h

theorem not_lt_le {a b : BitVec 64} (ha : ¬ IsNaN a) (hb : ¬ IsNaN b) (h : ¬ lt a b = true) : Le (val b) (val a) := by
  unfold lt at h
  unfold IsNaN at ha hb
  unfold Le
  cases hva : val a with
  | nan => exact absurd hva ha
  | inf n =>
    cases hvb : val b with
    | nan => exact absurd hvb hb
    | inf m => rw [hva, hvb] at h; cases n <;> cases m <;> simp at h ⊢
    | fin r => rw [hva, hvb] at h; cases n <;> simp at h ⊢
  | fin q =>
    cases hvb : val b with
    | nan => exact absurd hvb hb
    | inf m => rw [hva, hvb] at h; cases m <;> simp at h ⊢
    | fin r => rw [hva, hvb] at h; simp only [decide_eq_true_eq, not_lt] at h; exact h

theorem le_refl {a : BitVec 64} (ha : ¬ IsNaN a) : Le (val a) (val a) := by
  unfold IsNaN at ha
  unfold Le
  cases hva : val a with
  | nan => exact absurd hva ha
  | inf n => cases n <;> trivial
  | fin q => exact _root_.le_refl q

theorem lt_nan_left {a : BitVec 64} (b : BitVec 64) (h : IsNaN a) : lt a b = false := by
  unfold lt; rw [h]

theorem lt_nan_right (a : BitVec 64) {b : BitVec 64} (h : IsNaN b) : lt a b = false := by
  unfold lt; rw [h]; cases val a <;> rfl

/-- **C139.** Of two numbers `Max` and `Min` return one, the largest and the smallest. -/
theorem C139_order (a b : BitVec 64) (ha : ¬ IsNaN a) (hb : ¬ IsNaN b) :
    ((max a b = a ∨ max a b = b) ∧ Le (val a) (val (max a b)) ∧ Le (val b) (val (max a b))) ∧
    ((min a b = a ∨ min a b = b) ∧ Le (val (min a b)) (val a) ∧ Le (val (min a b)) (val b)) := by
  unfold max min
  constructor
  · split
    · rename_i h; exact ⟨Or.inl rfl, le_refl ha, lt_le h⟩
    · rename_i h; exact ⟨Or.inr rfl, not_lt_le hb ha h, le_refl hb⟩
  · split
    · rename_i h; exact ⟨Or.inl rfl, le_refl ha, lt_le h⟩
    · rename_i h; exact ⟨Or.inr rfl, not_lt_le ha hb h, le_refl hb⟩

/-- **C139 (what happens).** If one of the arguments is NaN, the second argument is returned. -/
theorem C139_nan (a b : BitVec 64) (h : IsNaN a ∨ IsNaN b) : max a b = b ∧ min a b = b := by
  unfold max min
  rcases h with h | h
  · rw [lt_nan_left b h, lt_nan_right b h]; exact ⟨rfl, rfl⟩
  · rw [lt_nan_left a h, lt_nan_right a h]; exact ⟨rfl, rfl⟩

/-- **C139 (refuted: the order of the arguments does not matter; NaN is passed on).** `Max(NaN, 1)` is 1 and `Max(1, NaN)` is NaN; for zeros the sign
of the result is that of the second argument. -/
theorem C139_symmetry_refuted :
    (∃ a b, IsNaN a ∧ ¬ IsNaN b ∧ max a b = b ∧ IsNaN (max b a) ∧ min a b = b ∧ IsNaN (min b a)) ∧
    ∃ a b, val a = .fin 0 ∧ val b = .fin 0 ∧ a ≠ b ∧ max a b = b ∧ max b a = a := by
  have h1 : IsNaN 0x7FF8000000000001#64 := by
    unfold IsNaN val
    rw [if_pos (by decide), if_neg (by decide)]
  have h2 : ¬ IsNaN 0x3FF0000000000000#64 := by
    unfold IsNaN val
    rw [if_neg (by decide)]
    simp
  have h3 : val 0#64 = .fin 0 := by
    unfold val size
    rw [if_neg (by decide), if_neg (by decide), if_pos (by decide)]
    simp [fraction, magnitude]
  have h4 : val 0x8000000000000000#64 = .fin 0 := by
    unfold val size
    rw [if_neg (by decide), if_pos (by decide), if_pos (by decide)]
    simp [fraction, magnitude]
  refine ⟨⟨_, _, h1, h2, (C139_nan _ _ (Or.inl h1)).1, ?_, (C139_nan _ _ (Or.inl h1)).2, ?_⟩, ⟨_, _, h3, h4, by decide, ?_, ?_⟩⟩
  · rw [(C139_nan _ _ (Or.inr h1)).1]; exact h1
  · rw [(C139_nan _ _ (Or.inr h1)).2]; exact h1
  · unfold max lt; rw [h3, h4]; simp
  · unfold max lt; rw [h3, h4]; simp

theorem neg_toNat (a : BitVec 64) : (neg a).toNat = if 2 ^ 63 ≤ a.toNat then a.toNat - 2 ^ 63 else a.toNat + 2 ^ 63 := by
  unfold neg
  rw [BitVec.toNat_add, show (0x8000000000000000#64).toNat = 2 ^ 63 by decide]
  have := a.isLt
  split <;> omega

theorem neg_magnitude (a : BitVec 64) : magnitude (neg a) = magnitude a := by
  unfold magnitude
  rw [neg_toNat]
  have := a.isLt
  split <;> omega

theorem neg_negative (a : BitVec 64) : negative (neg a) = !negative a := by
  unfold negative
  rw [neg_toNat]
  have := a.isLt
  by_cases h : 2 ^ 63 ≤ a.toNat
  · rw [if_pos h, decide_eq_true h, Bool.not_true, decide_eq_false_iff_not]; omega
  · rw [if_neg h, decide_eq_false h, Bool.not_false, decide_eq_true_eq]; omega

/-- The negated number. -/
def Neg : F64 → F64
  | .nan => .nan
  | .inf n => .inf (!n)
  | .fin q => .fin (-q)

theorem neg_val (a : BitVec 64) : val (neg a) = Neg (val a) := by
  have he : exponent (neg a) = exponent a := by unfold exponent; rw [neg_magnitude]
  have hf : fraction (neg a) = fraction a := by unfold fraction; rw [neg_magnitude]
  have hs : size (neg a) = size a := by unfold size; rw [he, hf]
  unfold val
  rw [he, hf, hs, neg_negative]
  split
  · split <;> rfl
  · cases negative a <;> simp [Neg]

theorem val_zero : val 0#64 = .fin 0 := by
  unfold val size
  rw [if_neg (by decide), if_neg (by decide), if_pos (by decide)]
  simp [fraction, magnitude]

theorem size_nonneg (a : BitVec 64) : 0 ≤ size a := by
  have h2 : ∀ k : ℤ, (0 : ℚ) ≤ 2 ^ k := fun k => zpow_nonneg (by norm_num) k
  unfold size
  split
  · exact mul_nonneg (Nat.cast_nonneg _) (h2 _)
  · exact mul_nonneg (add_nonneg (by norm_num) (Nat.cast_nonneg _)) (h2 _)

/-- **C139 (absolute values).** `Abs` returns the absolute value of every number and infinity, and NaN for NaN. The bits are those of the argument, apart
from the sign: which is cleared, except that of `-0` and of a NaN, which stays. -/
theorem C139_abs (a : BitVec 64) :
    val (abs a) = Abs (val a) ∧
    (∀ i < 63, (abs a).getLsbD i = a.getLsbD i) ∧
    (negative (abs a) = true ↔ negative a = true ∧ (val a = .fin 0 ∨ IsNaN a)) := by
  have hl : lt a 0#64 = true ↔ (val a = .inf true ∨ ∃ q, q < 0 ∧ val a = .fin q) := by
    unfold lt
    rw [val_zero]
    cases val a with
    | nan => simp
    | inf n => simp
    | fin q => simp
  have hsgn : ∀ q, val a = .fin q → (negative a = true → q ≤ 0) ∧ (negative a = false → 0 ≤ q) := by
    intro q hq
    have hs := size_nonneg a
    unfold val at hq
    split at hq
    · split at hq <;> cases hq
    · injection hq with hq
      subst hq
      cases negative a <;> simp [hs]
  have hinf : ∀ n, val a = .inf n → negative a = n := by
    intro n hq
    unfold val at hq
    split at hq
    · split at hq
      · injection hq
      · cases hq
    · cases hq
  refine ⟨?_, ?_, ?_⟩
  · unfold abs
    split
    · rename_i h
      rw [neg_val]
      rcases hl.mp h with h | ⟨q, hq, h⟩
      · rw [h]; rfl
      · rw [h]; show F64.fin (-q) = F64.fin |q|; rw [abs_of_neg hq]
    · rename_i h
      cases hv : val a with
      | nan => rfl
      | inf n =>
        cases n with
        | false => rfl
        | true => exact absurd (hl.mpr (Or.inl hv)) h
      | fin q =>
        show F64.fin q = F64.fin |q|
        rw [abs_of_nonneg]
        by_contra hq
        exact h (hl.mpr (Or.inr ⟨q, not_le.mp hq, hv⟩))
  · intro i hi
    unfold abs
    split
    · have hm := neg_magnitude a
      unfold magnitude at hm
      have e : ∀ b : BitVec 64, b.getLsbD i = (b.toNat % 2 ^ 63).testBit i := by
        intro b
        rw [Nat.testBit_mod_two_pow, decide_eq_true hi, Bool.true_and]
        rfl
      rw [e, e, hm]
    · rfl
  · unfold abs
    split
    · rename_i h
      rw [neg_negative]
      rcases hl.mp h with h | ⟨q, hq, h⟩
      · rw [hinf _ h, IsNaN, h]; simp
      · have := (hsgn q h).2
        cases hn : negative a with
        | true => rw [IsNaN, h]; simp; exact ne_of_lt hq
        | false => exact absurd (this hn) (not_le.mpr hq)
    · rename_i h
      constructor
      · intro hn
        refine ⟨hn, ?_⟩
        cases hv : val a with
        | nan => exact Or.inr hv
        | inf n => rw [← hinf n hv, hn] at hv; exact absurd (hl.mpr (Or.inl hv)) h
        | fin q =>
          left
          rcases lt_or_eq_of_le ((hsgn q hv).1 hn) with hq | hq
          · exact absurd (hl.mpr (Or.inr ⟨q, hq, hv⟩)) h
          · rw [hq]
      · exact fun hn => hn.1

/-- Non-vacuity: -0 keeps its sign under `Abs`; -1.5 becomes 1.5. -/
example : abs 0x8000000000000000#64 = 0x8000000000000000#64 ∧ abs 0xBFF8000000000000#64 = 0x3FF8000000000000#64 := by
  have h4 : val 0x8000000000000000#64 = .fin 0 := by
    unfold val size
    rw [if_neg (by decide), if_pos (by decide), if_pos (by decide)]
    simp [fraction, magnitude]
  have h5 : val 0xBFF8000000000000#64 = .fin (-3 / 2) := by
    unfold val size
    rw [if_neg (by decide), if_pos (by decide), if_neg (by decide)]
    norm_num [fraction, magnitude, exponent]
  have hz := val_zero
  constructor
  · unfold abs lt; rw [h4, hz]; simp
  · unfold abs lt; rw [h5, hz]; simp [neg]; norm_num

end Verif.MathFloat
