import Verif.Model.BloomFloat
import Mathlib.Analysis.SpecialFunctions.Log.Deriv
import Mathlib.Analysis.Complex.ExponentialBounds

/-!
# Rounding errors
-/

namespace Verif.Bloom

open F64

/-- `math.Ln2` is the logarithm of 2, to 27 digits and more. -/
theorem ln2_near : |Real.log 2 - (ln2 : ℝ)| ≤ 1 / 2 ^ 89 := by
  have t : |(2⁻¹ : ℝ)| = 2⁻¹ := by rw [abs_of_pos]; norm_num
  have z := Real.abs_log_sub_add_sum_range_le (show |(2⁻¹ : ℝ)| < 1 by rw [t]; norm_num) 90
  rw [t] at z
  norm_num1 at z
  rw [one_div (2 : ℝ), Real.log_inv, ← sub_eq_add_neg, abs_sub_comm] at z
  have e : (ln2 : ℝ) = 693147180559945309417232121458176568075500134360255254120680009 / 10 ^ 63 := by
    unfold ln2
    push_cast
    rfl
  rw [e]
  rw [abs_le] at z ⊢
  constructor
  · have := z.1
    norm_num1 at this ⊢
    linarith
  · have := z.2
    norm_num1 at this ⊢
    linarith

/-! ## Relative errors -/

/-- `x` is `y` up to `i` parts in 2^53. -/
def Off (i : ℝ) (x y : ℝ) : Prop := ∃ d : ℝ, x = y * (1 + d) ∧ |d| ≤ i / 2 ^ 53

theorem off_mono {i j x y : ℝ} (h : Off i x y) (hij : i ≤ j) : Off j x y := by
  obtain ⟨d, h1, h2⟩ := h
  exact ⟨d, h1, le_trans h2 (by gcongr)⟩

theorem off_join {i j a b : ℝ} (hi : 0 ≤ i) (hj : 0 ≤ j) (hi' : i ≤ 100) (hj' : j ≤ 100) (ha : |a| ≤ i / 2 ^ 53) (hb : |b| ≤ j / 2 ^ 53) :
    ∃ d : ℝ, (1 + a) * (1 + b) = 1 + d ∧ |d| ≤ (i + j + 1) / 2 ^ 53 := by
  refine ⟨a + b + a * b, by ring, ?_⟩
  have h1 := abs_add_le (a + b) (a * b)
  have h2 := abs_add_le a b
  have h3 : |a * b| ≤ (i / 2 ^ 53) * (j / 2 ^ 53) := by
    rw [abs_mul]
    exact mul_le_mul ha hb (abs_nonneg _) (by positivity)
  have h4 : (i / 2 ^ 53) * (j / 2 ^ 53) ≤ 1 / 2 ^ 53 := by
    have : i * j ≤ 100 * 100 := mul_le_mul hi' hj' hj (by norm_num)
    rw [div_mul_div_comm, div_le_div_iff₀ (by positivity) (by positivity)]
    nlinarith
  have h5 : (i + j + 1) / 2 ^ 53 = i / 2 ^ 53 + j / 2 ^ 53 + 1 / 2 ^ 53 := by ring
  rw [h5]
  linarith

theorem off_mul {i j x y x' y' : ℝ} (hi : 0 ≤ i) (hj : 0 ≤ j) (hi' : i ≤ 100) (hj' : j ≤ 100) (h : Off i x y) (h' : Off j x' y') :
    Off (i + j + 1) (x * x') (y * y') := by
  obtain ⟨a, h1, h2⟩ := h
  obtain ⟨b, h3, h4⟩ := h'
  obtain ⟨d, h5, h6⟩ := off_join hi hj hi' hj' h2 h4
  exact ⟨d, by rw [h1, h3, ← h5]; ring, h6⟩

theorem off_trans {i j x y z : ℝ} (hi : 0 ≤ i) (hj : 0 ≤ j) (hi' : i ≤ 100) (hj' : j ≤ 100) (h : Off i x y) (h' : Off j y z) :
    Off (i + j + 1) x z := by
  obtain ⟨a, h1, h2⟩ := h
  obtain ⟨b, h3, h4⟩ := h'
  obtain ⟨d, h5, h6⟩ := off_join hi hj hi' hj' h2 h4
  exact ⟨d, by rw [h1, h3, ← h5]; ring, h6⟩

theorem off_inv {i x y : ℝ} (hi : 0 ≤ i) (hi' : i ≤ 100) (h : Off i x y) : Off (i + 1) x⁻¹ y⁻¹ := by
  obtain ⟨a, h1, h2⟩ := h
  have h3 : |a| ≤ 1 / 2 := by
    refine le_trans h2 ?_
    rw [div_le_div_iff₀ (by positivity) (by norm_num)]
    linarith
  have h4 : 0 < 1 + a := by
    have := neg_abs_le a
    linarith
  refine ⟨-a / (1 + a), ?_, ?_⟩
  · rw [h1, mul_inv]
    congr 1
    field_simp
    ring
  · rw [abs_div, abs_neg, abs_of_pos h4, div_le_iff₀ h4]
    have h5 : 1 - i / 2 ^ 53 ≤ 1 + a := by
      have := neg_abs_le a
      linarith
    have h6 : i / 2 ^ 53 ≤ (i + 1) / 2 ^ 53 * (1 - i / 2 ^ 53) := by
      have h7 : (i + 1) / 2 ^ 53 * (1 - i / 2 ^ 53) - i / 2 ^ 53 = (1 - (i + 1) * i / 2 ^ 53) / 2 ^ 53 := by ring
      have h8 : (i + 1) * i / 2 ^ 53 ≤ 1 := by
        rw [div_le_one (by positivity)]
        nlinarith
      have : 0 ≤ (1 - (i + 1) * i / 2 ^ 53) / 2 ^ 53 := div_nonneg (by linarith) (by positivity)
      linarith
    calc |a| ≤ i / 2 ^ 53 := h2
      _ ≤ (i + 1) / 2 ^ 53 * (1 - i / 2 ^ 53) := h6
      _ ≤ (i + 1) / 2 ^ 53 * (1 + a) := by gcongr

theorem off_size {i x y : ℝ} (hi' : i ≤ 100) (h : Off i x y) (hy : 0 < y) : y / 2 ≤ x ∧ x ≤ 2 * y := by
  obtain ⟨a, h1, h2⟩ := h
  have h3 : |a| ≤ 1 / 2 := by
    refine le_trans h2 ?_
    rw [div_le_div_iff₀ (by positivity) (by norm_num)]
    linarith
  rw [abs_le] at h3
  rw [h1]
  constructor <;> nlinarith

/-- Rounding a number of ordinary size. -/
theorem off_rnd (q : ℚ) (h1 : (2 : ℝ) ^ (-100 : ℤ) ≤ q) (h2 : (q : ℝ) ≤ 2 ^ 200) : ofRat q = .fin (rnd q) ∧ Off 1 (rnd q) q := by
  have g1 : (2 : ℚ) ^ (-100 : ℤ) ≤ q := by
    have : (((2 : ℚ) ^ (-100 : ℤ) : ℚ) : ℝ) ≤ q := by rw [Rat.cast_zpow]; exact h1
    exact Rat.cast_le.1 this
  have g2 : q ≤ 2 ^ 200 := by exact_mod_cast h2
  have g0 : 0 < q := lt_of_lt_of_le (two_zpow_pos _) g1
  refine ⟨ofRat_fin q ?_, ?_⟩
  · rw [abs_of_pos g0]
    exact le_trans g2 (pow_le_pow_right₀ (by norm_num) (by norm_num))
  · obtain ⟨d, e1, e2⟩ := rnd_mul q (by
      rw [abs_of_pos g0]
      exact le_trans (zpow_le_zpow_right₀ (by norm_num) (by norm_num)) g1)
    refine ⟨d, ?_, ?_⟩
    · rw [e1]; push_cast; rfl
    · have : ((|d| : ℚ) : ℝ) ≤ ((1 / 2 ^ 53 : ℚ) : ℝ) := by exact_mod_cast e2
      push_cast at this
      exact this

theorem ln2_off : Off 1 (ln2 : ℝ) (Real.log 2) := by
  have hl : (1 / 2 : ℝ) < Real.log 2 := lt_trans (by norm_num) Real.log_two_gt_d9
  have h0 : (0 : ℝ) < Real.log 2 := by linarith
  refine ⟨(ln2 - Real.log 2) / Real.log 2, by field_simp; ring, ?_⟩
  rw [abs_div, abs_of_pos h0, div_le_iff₀ h0, abs_sub_comm]
  refine le_trans ln2_near ?_
  have : (1 : ℝ) / 2 ^ 89 ≤ 1 / 2 ^ 53 * (1 / 2) := by norm_num
  refine le_trans this ?_
  gcongr

/-! ## Rates -/

/-- What is needed of `math.Log`: it is right up to a part in 2^50. -/
def LogAcc (lg : ℚ → ℚ) : Prop := ∀ p : ℚ, 0 < p → p < 1 → |(lg p : ℝ) - Real.log p| ≤ |Real.log p| / 2 ^ 50

/-- The greatest rate below 1. -/
theorem rate_le {p : ℚ} (hp : Repr64 p) (h0 : 0 < p) (h1 : p < 1) : p ≤ 1 - 1 / 2 ^ 53 := by
  obtain ⟨m, e, hm, -, rfl⟩ := hp
  have hpe := two_zpow_pos e
  have hm0 : 0 < m := by
    have : (0 : ℚ) < m := by
      by_contra hc
      exact absurd h0 (not_lt.2 (mul_nonpos_of_nonpos_of_nonneg (not_lt.1 hc) hpe.le))
    exact_mod_cast this
  have hm1 : m ≤ 2 ^ 53 := le_trans (le_abs_self m) hm
  by_cases he : -53 ≤ e
  · by_cases he0 : 0 ≤ e
    · exfalso
      have a1 : (1 : ℚ) ≤ 2 ^ e := one_le_zpow₀ (by norm_num) he0
      have a2 : (1 : ℚ) ≤ m := by exact_mod_cast hm0
      nlinarith
    · have a1 : (m : ℚ) < 2 ^ (-e) := by
        rw [zpow_neg, lt_inv_comm₀ (by exact_mod_cast hm0) hpe, ← one_div, lt_div_iff₀ (by exact_mod_cast hm0)]
        linarith
      obtain ⟨k, hk⟩ : ∃ k : ℕ, -e = k := ⟨(-e).toNat, by omega⟩
      rw [hk, zpow_natCast] at a1
      have a2 : m < 2 ^ k := by exact_mod_cast a1
      have a3 : (m : ℚ) + 1 ≤ 2 ^ k := by exact_mod_cast a2
      have a4 : (2 : ℚ) ^ e * 2 ^ k = 1 := by
        rw [← zpow_natCast, ← hk, ← zpow_add₀ (by norm_num)]; simp
      have a5 : (1 : ℚ) / 2 ^ 53 ≤ 2 ^ e := by
        have : (2 : ℚ) ^ (-53 : ℤ) ≤ 2 ^ e := zpow_le_zpow_right₀ (by norm_num) he
        refine le_trans (le_of_eq ?_) this
        norm_num
      nlinarith
  · have a1 : (2 : ℚ) ^ e ≤ 2 ^ (-54 : ℤ) := zpow_le_zpow_right₀ (by norm_num) (by omega)
    have a2 : (m : ℚ) ≤ 2 ^ 53 := by exact_mod_cast hm1
    have a3 : (2 : ℚ) ^ (-54 : ℤ) = 1 / 2 ^ 54 := by norm_num
    have a4 : (m : ℚ) * 2 ^ e ≤ 2 ^ 53 * (1 / 2 ^ 54) := by
      rw [← a3]
      exact mul_le_mul a2 a1 hpe.le (by positivity)
    refine le_trans a4 ?_
    norm_num

/-- The least rate. -/
theorem rate_ge {p : ℚ} (hp : Repr64 p) (h0 : 0 < p) : (2 : ℚ) ^ (-1074 : ℤ) ≤ p := by
  obtain ⟨m, e, -, he, rfl⟩ := hp
  have hpe := two_zpow_pos e
  have hm0 : 0 < m := by
    have : (0 : ℚ) < m := by
      by_contra hc
      exact absurd h0 (not_lt.2 (mul_nonpos_of_nonpos_of_nonneg (not_lt.1 hc) hpe.le))
    exact_mod_cast this
  have a1 : (2 : ℚ) ^ (-1074 : ℤ) ≤ 2 ^ e := zpow_le_zpow_right₀ (by norm_num) he
  have a2 : (1 : ℚ) ≤ m := by exact_mod_cast hm0
  nlinarith

theorem rate_log {p : ℚ} (hp : Repr64 p) (h0 : 0 < p) (h1 : p < 1) : 1 / 2 ^ 53 ≤ -Real.log p ∧ -Real.log p ≤ 1074 * Real.log 2 := by
  have h0' : (0 : ℝ) < p := by exact_mod_cast h0
  constructor
  · have a : (p : ℝ) ≤ 1 - 1 / 2 ^ 53 := by
      have := rate_le hp h0 h1
      have h : ((p : ℚ) : ℝ) ≤ ((1 - 1 / 2 ^ 53 : ℚ) : ℝ) := by exact_mod_cast this
      push_cast at h
      exact h
    have := Real.log_le_sub_one_of_pos h0'
    linarith
  · have a : (2 : ℝ) ^ (-1074 : ℤ) ≤ p := by
      have : (((2 : ℚ) ^ (-1074 : ℤ) : ℚ) : ℝ) ≤ p := Rat.cast_le.2 (rate_ge hp h0)
      rw [Rat.cast_zpow] at this
      exact this
    have := Real.log_le_log (by positivity) a
    rw [Real.log_zpow] at this
    push_cast at this
    linarith

theorem log_off {lg : ℚ → ℚ} (hlg : LogAcc lg) {p : ℚ} (h0 : 0 < p) (h1 : p < 1) : Off 8 (-lg p : ℚ) (-Real.log p) := by
  have h0' : (0 : ℝ) < p := by exact_mod_cast h0
  have h1' : (p : ℝ) < 1 := by exact_mod_cast h1
  have hl := Real.log_neg h0' h1'
  refine ⟨(lg p - Real.log p) / Real.log p, ?_, ?_⟩
  · have hne := hl.ne
    push_cast
    field_simp
    ring
  · rw [abs_div, div_le_iff₀ (abs_pos.2 hl.ne)]
    refine le_trans (hlg p h0 h1) ?_
    have : |Real.log (p : ℝ)| / 2 ^ 50 = 8 / 2 ^ 53 * |Real.log (p : ℝ)| := by ring
    rw [this]

/-! ## The two sizes -/

theorem size_of_nat {n : ℕ} (h1 : 1 ≤ n) (h2 : n < 2 ^ 64) : ofRat n = .fin (rnd n) ∧ Off 1 (rnd n) n := by
  have a : (1 : ℝ) ≤ n := by exact_mod_cast h1
  have b : (n : ℝ) ≤ 2 ^ 64 := by exact_mod_cast h2.le
  have := off_rnd (n : ℚ) (by
    push_cast
    refine le_trans ?_ a
    exact zpow_le_one_of_nonpos₀ (by norm_num) (by norm_num)) (by
    push_cast
    refine le_trans b ?_
    exact pow_le_pow_right₀ (by norm_num) (by norm_num))
  push_cast at this
  exact this

theorem small100 : (2 : ℝ) ^ (-100 : ℤ) ≤ 1 / 2 ^ 53 / 4 := by norm_num

theorem bits_near {lg : ℚ → ℚ} (hlg : LogAcc lg) {n : ℕ} (h1 : 1 ≤ n) (h2 : n < 2 ^ 64) {p : ℚ} (hp : Repr64 p) (hp0 : 0 < p) (hp1 : p < 1) :
    ∃ q : ℚ, floatBits lg n p = toNat 64 (.fin (⌈q⌉ : ℤ)) ∧ Off 21 q (n * (-Real.log p / (Real.log 2 * Real.log 2))) := by
  obtain ⟨l1, l2⟩ := rate_log hp hp0 hp1
  have d1 := Real.log_two_gt_d9
  have d2 := Real.log_two_lt_d9
  have hL : 0 < -Real.log (p : ℝ) := lt_of_lt_of_le (by positivity) l1
  have hlo := log_off hlg hp0 hp1
  obtain ⟨n1, n2⟩ := size_of_nat h1 h2
  have nr1 : (1 : ℝ) ≤ n := by exact_mod_cast h1
  have nr2 : (n : ℝ) ≤ 2 ^ 64 := by exact_mod_cast h2.le
  -- the square
  have hsq : Off 3 ((ln2 * ln2 : ℚ) : ℝ) (Real.log 2 * Real.log 2) := by
    have := off_mul (by norm_num) (by norm_num) (by norm_num) (by norm_num) ln2_off ln2_off
    push_cast
    exact off_mono this (by norm_num)
  have hq2 : (0.48 : ℝ) < Real.log 2 * Real.log 2 ∧ Real.log 2 * Real.log 2 < 0.49 := by constructor <;> nlinarith
  have sq1 := off_size (by norm_num) hsq (by linarith [hq2.1])
  obtain ⟨c1, c2⟩ := off_rnd (ln2 * ln2) (le_trans (le_trans small100 (by norm_num)) (le_trans (by linarith [hq2.1] : (0.24 : ℝ) ≤ _) sq1.1))
    (le_trans sq1.2 (by linarith [hq2.2, (by norm_num : (1 : ℝ) ≤ 2 ^ 200)]))
  have hc := off_trans (by norm_num) (by norm_num) (by norm_num) (by norm_num) c2 hsq
  have hc0 := off_size (by norm_num) hc (by linarith [hq2.1])
  have hcne : rnd (ln2 * ln2) ≠ 0 := by
    intro h
    rw [h] at hc0
    push_cast at hc0
    linarith [hc0.1, hq2.1]
  -- the quotient
  have hdiv : Off 15 ((-lg p / rnd (ln2 * ln2) : ℚ) : ℝ) (-Real.log p / (Real.log 2 * Real.log 2)) := by
    have := off_mul (by norm_num) (by norm_num) (by norm_num) (by norm_num) hlo (off_inv (by norm_num) (by norm_num) hc)
    push_cast at this ⊢
    rw [div_eq_mul_inv, div_eq_mul_inv]
    exact off_mono this (by norm_num)
  have hqp : 0 < -Real.log (p : ℝ) / (Real.log 2 * Real.log 2) := div_pos hL (by linarith [hq2.1])
  have hq1 : 1 / 2 ^ 53 ≤ -Real.log (p : ℝ) / (Real.log 2 * Real.log 2) := by
    rw [le_div_iff₀ (by linarith [hq2.1])]
    nlinarith
  have hq3 : -Real.log (p : ℝ) / (Real.log 2 * Real.log 2) ≤ 2 ^ 12 := by
    rw [div_le_iff₀ (by linarith [hq2.1])]
    nlinarith
  have dv1 := off_size (by norm_num) hdiv hqp
  obtain ⟨f1, f2⟩ := off_rnd (-lg p / rnd (ln2 * ln2)) (le_trans (le_trans small100 (by linarith)) dv1.1)
    (le_trans dv1.2 (le_trans (mul_le_mul_of_nonneg_left hq3 (by norm_num)) (by norm_num)))
  have hf := off_trans (by norm_num) (by norm_num) (by norm_num) (by norm_num) f2 hdiv
  -- the product
  have hmul : Off 19 ((rnd n * rnd (-lg p / rnd (ln2 * ln2)) : ℚ) : ℝ) (n * (-Real.log p / (Real.log 2 * Real.log 2))) := by
    have := off_mul (by norm_num) (by norm_num) (by norm_num) (by norm_num) n2 hf
    push_cast at this ⊢
    exact off_mono this (by norm_num)
  have hmp : 0 < (n : ℝ) * (-Real.log (p : ℝ) / (Real.log 2 * Real.log 2)) := mul_pos (by linarith) hqp
  have ml1 := off_size (by norm_num) hmul hmp
  obtain ⟨g1, g2⟩ := off_rnd (rnd n * rnd (-lg p / rnd (ln2 * ln2))) (le_trans (le_trans small100 (by nlinarith)) ml1.1)
    (le_trans ml1.2 (by
      have : (n : ℝ) * (-Real.log (p : ℝ) / (Real.log 2 * Real.log 2)) ≤ 2 ^ 64 * 2 ^ 12 := mul_le_mul nr2 hq3 hqp.le (by positivity)
      refine le_trans (mul_le_mul_of_nonneg_left this (by norm_num)) (by norm_num)))
  have hg := off_trans (by norm_num) (by norm_num) (by norm_num) (by norm_num) g2 hmul
  refine ⟨_, ?_, off_mono hg (by norm_num)⟩
  simp only [floatBits, c1, div, if_neg hcne, f1, n1, mul, g1, ceil]

theorem seeds_near {n m : ℕ} (h1 : 1 ≤ n) (h2 : n < 2 ^ 64) (h3 : 1 ≤ m) (h4 : m < 2 ^ 64) :
    ∃ q : ℚ, floatSeeds n m = toNat 63 (.fin (⌈q⌉ : ℤ)) ∧ Off 12 q (Real.log 2 * m / n) := by
  have d1 := Real.log_two_gt_d9
  have d2 := Real.log_two_lt_d9
  obtain ⟨n1, n2⟩ := size_of_nat h1 h2
  obtain ⟨m1, m2⟩ := size_of_nat h3 h4
  have nr1 : (1 : ℝ) ≤ n := by exact_mod_cast h1
  have nr2 : (n : ℝ) ≤ 2 ^ 64 := by exact_mod_cast h2.le
  have mr1 : (1 : ℝ) ≤ m := by exact_mod_cast h3
  have mr2 : (m : ℝ) ≤ 2 ^ 64 := by exact_mod_cast h4.le
  have hl1 := off_size (by norm_num) ln2_off (by linarith)
  obtain ⟨c1, c2⟩ := off_rnd ln2 (le_trans (le_trans small100 (by norm_num)) (le_trans (by linarith : (0.3 : ℝ) ≤ _) hl1.1))
    (le_trans hl1.2 (by linarith [(by norm_num : (2 : ℝ) ≤ 2 ^ 200)]))
  have hc := off_trans (by norm_num) (by norm_num) (by norm_num) (by norm_num) c2 ln2_off
  have hmul : Off 5 ((rnd ln2 * rnd m : ℚ) : ℝ) (Real.log 2 * m) := by
    have := off_mul (by norm_num) (by norm_num) (by norm_num) (by norm_num) hc m2
    push_cast at this ⊢
    exact off_mono this (by norm_num)
  have hmp : 0 < Real.log 2 * (m : ℝ) := mul_pos (by linarith) (by linarith)
  have ml1 := off_size (by norm_num) hmul hmp
  obtain ⟨f1, f2⟩ := off_rnd (rnd ln2 * rnd m) (le_trans (le_trans small100 (by nlinarith)) ml1.1)
    (le_trans ml1.2 (by
      have : Real.log 2 * (m : ℝ) ≤ 1 * 2 ^ 64 := mul_le_mul (by linarith) mr2 (by linarith) (by norm_num)
      refine le_trans (mul_le_mul_of_nonneg_left this (by norm_num)) (by norm_num)))
  have hf := off_trans (by norm_num) (by norm_num) (by norm_num) (by norm_num) f2 hmul
  have hn0 := off_size (by norm_num) n2 (by linarith)
  have hnne : rnd (n : ℚ) ≠ 0 := by
    intro h
    rw [h] at hn0
    push_cast at hn0
    linarith [hn0.1]
  have hdiv : Off 10 ((rnd (rnd ln2 * rnd m) / rnd n : ℚ) : ℝ) (Real.log 2 * m / n) := by
    have := off_mul (by norm_num) (by norm_num) (by norm_num) (by norm_num) hf (off_inv (by norm_num) (by norm_num) n2)
    push_cast at this ⊢
    rw [div_eq_mul_inv, div_eq_mul_inv]
    exact off_mono this (by norm_num)
  have hqp : 0 < Real.log 2 * (m : ℝ) / n := div_pos hmp (by linarith)
  have hq1 : 0.6 / 2 ^ 64 ≤ Real.log 2 * (m : ℝ) / n := by
    rw [div_le_div_iff₀ (by positivity) (by linarith)]
    nlinarith
  have hq3 : Real.log 2 * (m : ℝ) / n ≤ 2 ^ 64 := by
    rw [div_le_iff₀ (by linarith)]
    nlinarith
  have dv1 := off_size (by norm_num) hdiv hqp
  obtain ⟨g1, g2⟩ := off_rnd (rnd (rnd ln2 * rnd m) / rnd n) (le_trans (by norm_num) (le_trans (div_le_div_of_nonneg_right hq1 (by norm_num)) dv1.1))
    (le_trans dv1.2 (le_trans (mul_le_mul_of_nonneg_left hq3 (by norm_num)) (by norm_num)))
  have hg := off_trans (by norm_num) (by norm_num) (by norm_num) (by norm_num) g2 hdiv
  refine ⟨_, ?_, off_mono hg (by norm_num)⟩
  simp only [floatSeeds, c1, div, if_neg hnne, f1, n1, m1, mul, g1, ceil]

end Verif.Bloom
