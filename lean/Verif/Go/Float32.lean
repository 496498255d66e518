import Verif.Go.Float64

/-!
# `float32` of Go

The numbers of a `float32` are those with 24 places, none below 2^-149, and below 2^128 in size; a conversion from a `float64` rounds to the nearest of them, to the even one of two (IEEE 754, as the language definition
asks for). The type `F64` holds the values of both types: every `float32` is a `float64`. The lemmas are those of Verif.Go.Float64 with other widths.
-/

namespace Verif

/-- The exponent of the last of 24 places of `q`, none below 2^-149. -/
def lastPlace32 (q : ℚ) : ℤ := max (Int.log 2 |q| - 23) (-149)

/-- The nearest number with 24 places, the even one of two. -/
def rnd32 (q : ℚ) : ℚ := rne (q / 2 ^ lastPlace32 q) * 2 ^ lastPlace32 q

/-- The conversion `float32(x)` of a `float64`. -/
def F64.to32 : F64 → F64
  | .fin q => if 2 ^ 128 ≤ |rnd32 q| then .inf (decide (q < 0)) else .fin (rnd32 q)
  | x => x

/-- `q` has at most 24 places, none below 2^-149. -/
def Repr32 (q : ℚ) : Prop := ∃ m e : ℤ, |m| ≤ 2 ^ 24 ∧ -149 ≤ e ∧ q = m * 2 ^ e


theorem lastPlace32_ge (q : ℚ) : -149 ≤ lastPlace32 q := le_max_right _ _

theorem lt_lastPlace32 (q : ℚ) : |q| < 2 ^ (lastPlace32 q + 24) := by
  have h := Int.lt_zpow_succ_log_self (b := 2) (by norm_num) |q|
  refine lt_of_lt_of_le h ?_
  push_cast
  refine zpow_le_zpow_right₀ (by norm_num) ?_
  have : Int.log 2 |q| - 23 ≤ lastPlace32 q := le_max_left _ _
  omega

theorem lastPlace32_le (q : ℚ) (h0 : q ≠ 0) (h : -149 < lastPlace32 q) : (2 : ℚ) ^ (lastPlace32 q + 23) ≤ |q| := by
  have h1 : lastPlace32 q = Int.log 2 |q| - 23 := by
    unfold lastPlace32 at h ⊢
    omega
  rw [h1, show Int.log 2 |q| - 23 + 23 = Int.log 2 |q| by ring]
  have := Int.zpow_log_le_self (b := 2) (by norm_num) (abs_pos.2 h0)
  exact_mod_cast this

theorem rnd32_zero : rnd32 0 = 0 := by
  have : rne 0 = 0 := by simp [rne]
  simp [rnd32, this]

/-- The error is at most half a unit of the last place. -/
theorem rnd32_err_place (q : ℚ) : |rnd32 q - q| ≤ 2 ^ lastPlace32 q / 2 := by
  have hp := two_zpow_pos (lastPlace32 q)
  have h := rne_err (q / 2 ^ lastPlace32 q)
  have e : rnd32 q - q = (rne (q / 2 ^ lastPlace32 q) - q / 2 ^ lastPlace32 q) * 2 ^ lastPlace32 q := by
    unfold rnd32
    field_simp
  rw [e, abs_mul, abs_of_pos hp]
  nlinarith

theorem repr_rnd32 (q : ℚ) : Repr32 (rnd32 q) := by
  refine ⟨rne (q / 2 ^ lastPlace32 q), lastPlace32 q, ?_, lastPlace32_ge q, rfl⟩
  have hp := two_zpow_pos (lastPlace32 q)
  have h1 : |q / 2 ^ lastPlace32 q| < 2 ^ 24 := by
    rw [abs_div, abs_of_pos hp, div_lt_iff₀ hp]
    have := lt_lastPlace32 q
    rwa [show lastPlace32 q + 24 = lastPlace32 q + (24 : ℕ) by norm_num, zpow_step] at this
  have h2 := rne_err (q / 2 ^ lastPlace32 q)
  have h3 := abs_sub_abs_le_abs_sub (rne (q / 2 ^ lastPlace32 q) : ℚ) (q / 2 ^ lastPlace32 q)
  have h4 : |(rne (q / 2 ^ lastPlace32 q) : ℚ)| < 2 ^ 24 + 1 := by linarith
  have h5 : |rne (q / 2 ^ lastPlace32 q)| < 2 ^ 24 + 1 := by exact_mod_cast h4
  omega

/-- No number with 24 places is nearer. -/
theorem rnd32_nearest (q y : ℚ) (h : Repr32 y) : |rnd32 q - q| ≤ |y - q| := by
  by_cases h0 : q = 0
  · rw [h0, rnd32_zero]; simp
  have hp := two_zpow_pos (lastPlace32 q)
  -- multiples of the last place
  have key : ∀ n : ℤ, |rnd32 q - q| ≤ |(n : ℚ) * 2 ^ lastPlace32 q - q| := by
    intro n
    have h := rne_nearest (q / 2 ^ lastPlace32 q) n
    have e1 : rnd32 q - q = (rne (q / 2 ^ lastPlace32 q) - q / 2 ^ lastPlace32 q) * 2 ^ lastPlace32 q := by
      unfold rnd32
      field_simp
    have e2 : (n : ℚ) * 2 ^ lastPlace32 q - q = (n - q / 2 ^ lastPlace32 q) * 2 ^ lastPlace32 q := by field_simp
    rw [e1, e2, abs_mul, abs_mul, abs_of_pos hp]
    exact mul_le_mul_of_nonneg_right h hp.le
  obtain ⟨m, e, hm, he, rfl⟩ := h
  by_cases hle : lastPlace32 q ≤ e
  · have := key (m * 2 ^ (e - lastPlace32 q).toNat)
    have e1 : ((m * 2 ^ (e - lastPlace32 q).toNat : ℤ) : ℚ) * 2 ^ lastPlace32 q = m * 2 ^ e := by
      push_cast
      rw [mul_assoc, ← zpow_step, show lastPlace32 q + ((e - lastPlace32 q).toNat : ℤ) = e by omega]
    rwa [e1] at this
  · have h1 : (2 : ℚ) ^ (lastPlace32 q + 23) ≤ |q| := lastPlace32_le q h0 (by omega)
    have h2 : |(m : ℚ) * 2 ^ e| ≤ 2 ^ (lastPlace32 q + 23) := by
      rw [abs_mul, abs_of_pos (two_zpow_pos e)]
      have hm' : |(m : ℚ)| ≤ 2 ^ 24 := by exact_mod_cast hm
      calc |(m : ℚ)| * 2 ^ e ≤ 2 ^ 24 * 2 ^ e := mul_le_mul_of_nonneg_right hm' (two_zpow_pos e).le
        _ = 2 ^ (e + (24 : ℕ)) := (zpow_step e 24).symm
        _ ≤ 2 ^ (lastPlace32 q + 23) := zpow_le_zpow_right₀ (by norm_num) (by push_cast; omega)
    have h3 : (2 : ℚ) ^ (lastPlace32 q + 23) = ((2 ^ 23 : ℤ) : ℚ) * 2 ^ lastPlace32 q := by
      rw [show lastPlace32 q + 23 = lastPlace32 q + (23 : ℕ) by norm_num, zpow_step]; norm_num
    rcases lt_or_gt_of_ne h0 with hq | hq
    · have h4 := key (-2 ^ 23)
      push_cast at h3 h4
      rw [neg_mul, ← h3] at h4
      rw [abs_of_neg hq] at h1
      rw [abs_le] at h2
      have h5 : |-(2 : ℚ) ^ (lastPlace32 q + 23) - q| = -(2 : ℚ) ^ (lastPlace32 q + 23) - q := abs_of_nonneg (by linarith)
      have h6 := le_abs_self ((m : ℚ) * 2 ^ e - q)
      linarith [h2.1]
    · have h4 := key (2 ^ 23)
      rw [← h3] at h4
      rw [abs_of_pos hq] at h1
      rw [abs_le] at h2
      have h5 : |(2 : ℚ) ^ (lastPlace32 q + 23) - q| = -((2 : ℚ) ^ (lastPlace32 q + 23) - q) := abs_of_nonpos (by linarith)
      have h6 := neg_abs_le ((m : ℚ) * 2 ^ e - q)
      linarith [h2.2]

theorem rnd32_fixed (y : ℚ) (h : Repr32 y) : rnd32 y = y := by
  have := rnd32_nearest y y h
  rw [sub_self, abs_zero] at this
  exact sub_eq_zero.1 (abs_eq_zero.1 (le_antisymm this (abs_nonneg _)))

theorem rnd32_le (q c : ℚ) (h : Repr32 c) (hq : q ≤ c) : rnd32 q ≤ c := by
  by_contra hc
  have h1 := rnd32_nearest q c h
  rw [abs_of_pos (by linarith), abs_of_nonneg (by linarith)] at h1
  linarith

theorem le_rnd32 (q c : ℚ) (h : Repr32 c) (hq : c ≤ q) : c ≤ rnd32 q := by
  by_contra hc
  have h1 := rnd32_nearest q c h
  rw [abs_of_neg (by linarith), abs_of_nonpos (by linarith)] at h1
  linarith

/-- The relative error is at most 2^-24, above the smallest numbers. -/
theorem rnd32_err (q : ℚ) (h : (2 : ℚ) ^ (-126 : ℤ) ≤ |q|) : |rnd32 q - q| ≤ |q| / 2 ^ 24 := by
  have h0 : q ≠ 0 := by
    rintro rfl
    rw [abs_zero] at h
    exact absurd (two_zpow_pos (-126)) (not_lt.2 h)
  have h1 := rnd32_err_place q
  have h2 : (2 : ℚ) ^ (lastPlace32 q + (23 : ℕ)) ≤ |q| := by
    by_cases hl : -149 < lastPlace32 q
    · exact_mod_cast lastPlace32_le q h0 hl
    · have := lastPlace32_ge q
      rwa [show lastPlace32 q = -149 by omega]
  rw [zpow_step] at h2
  rw [le_div_iff₀ (by norm_num)]
  have : (2 : ℚ) ^ 24 = 2 * 2 ^ 23 := by norm_num
  rw [this]
  nlinarith

theorem repr32_int (n : ℤ) (h : |n| ≤ 2 ^ 24) : Repr32 n := ⟨n, 0, h, by norm_num, by simp⟩

theorem repr64_of_32 {q : ℚ} (h : Repr32 q) : Repr64 q := by
  obtain ⟨m, e, h1, h2, h3⟩ := h
  exact ⟨m, e, le_trans h1 (by norm_num), by omega, h3⟩

theorem rnd32_mono {q q' : ℚ} (h : q ≤ q') : rnd32 q ≤ rnd32 q' := by
  by_contra hc
  have hc := not_le.1 hc
  have h1 : q' < rnd32 q := by
    by_contra h1
    exact absurd (le_rnd32 q' (rnd32 q) (repr_rnd32 q) (not_lt.1 h1)) (not_le.2 hc)
  have h2 : rnd32 q' < q := by
    by_contra h2
    exact absurd (rnd32_le q (rnd32 q') (repr_rnd32 q') (not_lt.1 h2)) (not_le.2 hc)
  have h3 := rnd32_nearest q (rnd32 q') (repr_rnd32 q')
  have h4 := rnd32_nearest q' (rnd32 q) (repr_rnd32 q)
  rw [abs_of_pos (by linarith), abs_of_neg (by linarith)] at h3
  rw [abs_of_neg (by linarith), abs_of_pos (by linarith)] at h4
  have : q = q' := by linarith
  rw [this] at hc
  exact absurd hc (lt_irrefl _)

/-- Whole numbers of moderate size on both sides bound the result of the conversion, which is then finite. -/
theorem F64.to32_fin (q : ℚ) (h : |q| ≤ 2 ^ 24) : F64.to32 (.fin q) = .fin (rnd32 q) := by
  rw [abs_le] at h
  have h1 := le_rnd32 q ((-2 ^ 24 : ℤ) : ℚ) (repr32_int _ (by norm_num)) (by push_cast; linarith)
  have h2 := rnd32_le q ((2 ^ 24 : ℤ) : ℚ) (repr32_int _ (by norm_num)) (by push_cast; linarith)
  push_cast at h1 h2
  have h3 : |rnd32 q| ≤ 2 ^ 24 := abs_le.2 ⟨by linarith, h2⟩
  unfold F64.to32
  dsimp only
  rw [if_neg (not_le.2 (lt_of_le_of_lt h3 (pow_lt_pow_right₀ (by norm_num) (by norm_num))))]

end Verif
