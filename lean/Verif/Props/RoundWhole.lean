import Verif.Props.Round

/-!
# Property C133 again: `Round(f, 0)` of every whole number
-/

namespace Verif.Misc

open F64

/-- With no decimals: `Trunc(f + 0.5)`, on both sides of zero. -/
theorem roundF_zero' (f s : ℚ) (m : ℤ) (h : ofRat (f + 1 / 2) = .fin s) (hs : ofRat s = .fin s) (hm : (if s < 0 then ⌈s⌉ else ⌊s⌋) = m) (hm' : |m| ≤ 2 ^ 53) :
    roundF (.fin f) 0 = .fin m := by
  have h1 : pow10 0 = .fin 1 := by
    have := pow10_exact 0 (by norm_num) (by norm_num)
    rwa [zpow_zero] at this
  have h2 : ofRat (m : ℚ) = .fin m := by
    have := ofRat_int m 0 hm' (by norm_num) (by norm_num)
    simpa using this
  simp only [roundF, h1, div, one_ne_zero, if_false, div_one, ofRat_half, add, h, mul, mul_one, hs, trunc, hm, h2]

theorem rne_half_even (n : ℤ) (h : n % 2 = 0) : rne (n + 1 / 2) = n := by
  have hf : ⌊(n : ℚ) + 1 / 2⌋ = n := by
    rw [Int.floor_eq_iff]; constructor <;> linarith
  unfold rne
  rw [hf, if_neg (by linarith), if_neg (by linarith), if_pos h]

/-- **C133** What `Round(k, 0)` makes of every whole number below 2^53 in absolute value: it is kept if it is below 2^52 and not negative, or if it is even and beyond 2^52; every other one becomes the
next larger number. -/
theorem C133_whole_exact (k : ℤ) (hk : |k| < 2 ^ 53) :
    roundF (.fin k) 0 = .fin (if (0 ≤ k ∧ k < 2 ^ 52) ∨ (k % 2 = 0 ∧ (2 ^ 52 ≤ k ∨ k < -2 ^ 52)) then (k : ℚ) else (k : ℚ) + 1) := by
  have hk' := abs_lt.1 hk
  have hcast : ∀ a : ℤ, |a| ≤ 2 ^ 53 → ofRat (a : ℚ) = .fin a := by
    intro a ha
    have := ofRat_int a 0 ha (by norm_num) (by norm_num)
    simpa using this
  by_cases hs : -2 ^ 52 ≤ k ∧ k < 2 ^ 52
  · -- the sum is exact
    have h : ofRat ((k : ℚ) + 1 / 2) = .fin ((k : ℚ) + 1 / 2) := by
      have := ofRat_int (2 * k + 1) (-1) (by rw [abs_le]; constructor <;> omega) (by norm_num) (by norm_num)
      rwa [show ((2 * k + 1 : ℤ) : ℚ) * 2 ^ (-1 : ℤ) = (k : ℚ) + 1 / 2 by push_cast; rw [zpow_neg_one]; ring] at this
    by_cases h0 : 0 ≤ k
    · rw [if_pos (.inl ⟨h0, hs.2⟩)]
      have hq : (0 : ℚ) ≤ k := by exact_mod_cast h0
      exact roundF_zero' _ _ k h h (by rw [if_neg (by linarith), Int.floor_eq_iff]; constructor <;> linarith) hk.le
    · have hq : (k : ℚ) ≤ -1 := by exact_mod_cast (show k ≤ -1 by omega)
      rw [if_neg (by omega)]
      have := roundF_zero' _ _ (k + 1) h h (by rw [if_pos (by linarith), Int.ceil_eq_iff]; push_cast; constructor <;> linarith)
        (by rw [abs_le]; constructor <;> omega)
      rw [this]
      push_cast
      rfl
  · have hbig : (2 : ℚ) ^ 52 ≤ |(k : ℚ) + 1 / 2| ∧ |(k : ℚ) + 1 / 2| < 2 ^ 53 := by
      rcases (show 2 ^ 52 ≤ k ∨ k ≤ -2 ^ 52 - 1 by omega) with h1 | h1
      · have a : (2 : ℚ) ^ 52 ≤ k := by exact_mod_cast h1
        have b : (k : ℚ) ≤ 2 ^ 53 - 1 := by exact_mod_cast (show k ≤ 2 ^ 53 - 1 by omega)
        rw [abs_of_pos (by linarith [pow_pos (show (0 : ℚ) < 2 by norm_num) 52])]
        constructor <;> linarith
      · have a : (k : ℚ) ≤ -2 ^ 52 - 1 := by exact_mod_cast h1
        have b : (-2 ^ 53 + 1 : ℚ) ≤ k := by exact_mod_cast (show -2 ^ 53 + 1 ≤ k by omega)
        rw [abs_of_neg (by linarith [pow_pos (show (0 : ℚ) < 2 by norm_num) 52])]
        constructor <;> linarith
    have hr : rnd ((k : ℚ) + 1 / 2) = rne ((k : ℚ) + 1 / 2) := by
      rw [rnd_eq _ 0 (by norm_num) (by exact_mod_cast hbig.1) (by exact_mod_cast hbig.2), zpow_zero, div_one, mul_one]
    have ho : ofRat ((k : ℚ) + 1 / 2) = .fin (rne ((k : ℚ) + 1 / 2) : ℤ) := by
      rw [ofRat_fin, hr]
      exact le_trans hbig.2.le (pow_le_pow_right₀ (by norm_num) (by norm_num))
    have fin : ∀ m : ℤ, rne ((k : ℚ) + 1 / 2) = m → |m| ≤ 2 ^ 53 → roundF (.fin k) 0 = .fin m := by
      intro m hm hm'
      rw [hm] at ho
      exact roundF_zero' _ _ m ho (hcast m hm') (by split <;> simp) hm'
    by_cases he : k % 2 = 0
    · rw [if_pos (.inr ⟨he, by omega⟩)]
      exact fin k (rne_half_even k he) hk.le
    · rw [if_neg (by omega)]
      have := fin (k + 1) (rne_half k (by omega)) (by rw [abs_le]; constructor <;> omega)
      rw [this]
      push_cast
      rfl

/-- **C133 (refuted: whole numbers are kept).** No whole number from -2^52 to -1 is kept. -/
theorem C133_negative_whole_refuted (k : ℤ) (h : k < 0) (h' : -2 ^ 52 ≤ k) : roundF (.fin k) 0 = .fin (k + 1) := by
  rw [C133_whole_exact k (by rw [abs_lt]; constructor <;> omega), if_neg (by omega)]

/-- **C133 (refuted: rounding twice changes nothing).** Rounding -k again and again goes up by one each time, until zero. -/
theorem C133_negative_idempotent_refuted (k : ℕ) (hk : (k : ℤ) ≤ 2 ^ 52) (j : ℕ) : (fun x => roundF x 0)^[j] (.fin (-(k : ℚ))) = .fin (-((k - j : ℕ) : ℚ)) := by
  induction j with
  | zero => rfl
  | succ j ih =>
    rw [Function.iterate_succ_apply', ih]
    show roundF (.fin (-((k - j : ℕ) : ℚ))) 0 = _
    by_cases hz : k - j = 0
    · have := C133_whole_exact 0 (by norm_num)
      rw [if_pos (.inl (by norm_num))] at this
      rw [hz, show k - (j + 1) = 0 by omega]
      simpa using this
    · have h := C133_negative_whole_refuted (-((k - j : ℕ) : ℤ)) (by omega) (by omega)
      rw [show ((-((k - j : ℕ) : ℤ) : ℤ) : ℚ) = -((k - j : ℕ) : ℚ) by push_cast; rfl] at h
      rw [h]
      congr 1
      have : (((k - (j + 1) : ℕ) : ℚ)) + 1 = ((k - j : ℕ) : ℚ) := by exact_mod_cast (show k - (j + 1) + 1 = k - j by omega)
      linarith

/-- -3, -2, -1, 0, 0. -/
example : roundF (.fin (-3 : ℤ)) 0 = .fin (((-3 : ℤ) : ℚ) + 1) := C133_negative_whole_refuted (-3) (by norm_num) (by norm_num)

end Verif.Misc
