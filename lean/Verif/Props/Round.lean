import Verif.Model.Round

/-!
# C133: `Round` on `float64`
-/

namespace Verif.Misc

open F64

/-! ## Three roundings -/

theorem three_errors (A d1 d2 d3 u : ℚ) (hA : 0 ≤ A) (hu : 0 ≤ u) (hu' : u ≤ 1 / 16) (h1 : |d1| ≤ u) (h2 : |d2| ≤ u) (h3 : |d3| ≤ u) :
    |(A + 1 / 2 * (1 + d1)) * (1 + d2) * (1 + d3) - (A + 1 / 2)| ≤ (A + 1 / 2) * (4 * u) := by
  rw [abs_le] at h1 h2 h3
  have hS : 0 < A + 1 / 2 := by linarith
  have l1 : (A + 1 / 2) * (1 - u) ≤ A + 1 / 2 * (1 + d1) := by nlinarith
  have r1 : A + 1 / 2 * (1 + d1) ≤ (A + 1 / 2) * (1 + u) := by nlinarith
  have hS1 : 0 ≤ (A + 1 / 2) * (1 - u) := mul_nonneg hS.le (by linarith)
  have l2 : (A + 1 / 2) * (1 - u) * (1 - u) ≤ (A + 1 / 2 * (1 + d1)) * (1 + d2) := mul_le_mul l1 (by linarith) (by linarith) (by linarith)
  have r2 : (A + 1 / 2 * (1 + d1)) * (1 + d2) ≤ (A + 1 / 2) * (1 + u) * (1 + u) := mul_le_mul r1 (by linarith) (by linarith) (by nlinarith)
  have hS2 : 0 ≤ (A + 1 / 2) * (1 - u) * (1 - u) := mul_nonneg hS1 (by linarith)
  have l3 : (A + 1 / 2) * (1 - u) * (1 - u) * (1 - u) ≤ (A + 1 / 2 * (1 + d1)) * (1 + d2) * (1 + d3) :=
    mul_le_mul l2 (by linarith) (by linarith) (by linarith)
  have r3 : (A + 1 / 2 * (1 + d1)) * (1 + d2) * (1 + d3) ≤ (A + 1 / 2) * (1 + u) * (1 + u) * (1 + u) :=
    mul_le_mul r2 (by linarith) (by linarith) (by positivity)
  have c1 : (1 + u) * (1 + u) * (1 + u) ≤ 1 + 4 * u := by nlinarith [mul_nonneg hu hu, mul_nonneg (mul_nonneg hu hu) hu]
  have c2 : 1 - 4 * u ≤ (1 - u) * (1 - u) * (1 - u) := by nlinarith [mul_nonneg hu hu, mul_nonneg (mul_nonneg hu hu) hu]
  have c3 := mul_le_mul_of_nonneg_left c1 hS.le
  have c4 := mul_le_mul_of_nonneg_left c2 hS.le
  rw [abs_le]
  constructor <;> nlinarith

theorem floor_arg (f p : ℚ) (hf : 0 ≤ f) (hp : 2 ^ (-1000 : ℤ) ≤ p) (hp' : p ≤ 2 ^ 1000) (hf' : f ≤ 2 ^ 1000) (hfp : f * p ≤ 2 ^ 1000) :
    ∃ x : ℚ, mul (add (.fin f) (div (.fin (1 / 2)) (.fin p))) (.fin p) = .fin x ∧ |x - (f * p + 1 / 2)| ≤ (f * p + 1 / 2) / 2 ^ 51 := by
  have hp0 : 0 < p := lt_of_lt_of_le (two_zpow_pos _) hp
  have s1 : (2 : ℚ) ^ 1000 * 2 ^ (-1000 : ℤ) = 1 := by
    rw [← zpow_natCast, ← zpow_add₀ (by norm_num)]; norm_num
  have hs : (4 : ℚ) * 2 ^ 1000 ≤ 2 ^ 1023 := by
    rw [show (4 : ℚ) = 2 ^ 2 by norm_num, ← pow_add]
    exact pow_le_pow_right₀ (by norm_num) (by norm_num)
  have hs' : (16 : ℚ) * 2 ^ (-1022 : ℤ) ≤ 2 ^ (-1000 : ℤ) := by
    rw [show (16 : ℚ) = 2 ^ (4 : ℤ) by norm_num, ← zpow_add₀ (by norm_num)]
    exact zpow_le_zpow_right₀ (by norm_num) (by norm_num)
  have hbig : (1 : ℚ) ≤ 2 ^ 1000 := one_le_pow₀ (by norm_num)
  have hb0 : (0 : ℚ) < 2 ^ (-1000 : ℤ) := two_zpow_pos _
  have hm : ∀ q : ℚ, 2 ^ (-1022 : ℤ) ≤ q → ∃ d, rnd q = q * (1 + d) ∧ |d| ≤ 1 / 2 ^ 53 := fun q h =>
    rnd_mul q (le_trans h (le_abs_self q))
  have hM : ∀ q : ℚ, 0 ≤ q → q ≤ 2 ^ 1023 → ofRat q = .fin (rnd q) := fun q h0 h => ofRat_fin q (by rwa [abs_of_nonneg h0])
  generalize (2 : ℚ) ^ 1000 = B at *
  generalize (2 : ℚ) ^ (-1000 : ℤ) = b at *
  generalize (2 : ℚ) ^ (-1022 : ℤ) = m at *
  generalize (2 : ℚ) ^ 1023 = M at *
  have hu : (1 : ℚ) / 2 ^ 53 ≤ 1 / 16 := by norm_num
  have hu0 : (0 : ℚ) ≤ 1 / 2 ^ 53 := by norm_num
  have hB : (4 : ℚ) * (1 / 2 ^ 53) = 1 / 2 ^ 51 := by norm_num
  rw [show (f * p + 1 / 2) / 2 ^ 51 = (f * p + 1 / 2) * (4 * (1 / 2 ^ 53)) by rw [hB]; ring]
  generalize (1 : ℚ) / 2 ^ 53 = u at *
  -- 0.5 / p
  have h1 : (1 : ℚ) / 2 / p ≤ B / 2 := by
    rw [div_le_iff₀ hp0]
    nlinarith
  have h1' : b / 2 ≤ (1 : ℚ) / 2 / p := by
    rw [le_div_iff₀ hp0]
    nlinarith
  obtain ⟨d1, e1, hd1⟩ := hm (1 / 2 / p) (by linarith)
  have hd1' := abs_le.1 hd1
  have r1 : div (.fin (1 / 2)) (.fin p) = .fin (rnd (1 / 2 / p)) := by
    unfold div
    simp only
    rw [if_neg hp0.ne', hM _ (by positivity) (by linarith)]
  have hh : rnd (1 / 2 / p) * p = 1 / 2 * (1 + d1) := by rw [e1]; field_simp
  have hh1 : rnd (1 / 2 / p) ≤ B := by
    rw [e1]
    have : 1 / 2 / p * (1 + d1) ≤ 1 / 2 / p * 2 := mul_le_mul_of_nonneg_left (by linarith) (by positivity)
    linarith
  have hh0 : b / 4 ≤ rnd (1 / 2 / p) := by
    rw [e1]
    have : 1 / 2 / p * (1 / 2) ≤ 1 / 2 / p * (1 + d1) := mul_le_mul_of_nonneg_left (by linarith) (by positivity)
    linarith
  clear e1
  generalize rnd (1 / 2 / p) = h at *
  -- f + h
  obtain ⟨d2, e2, hd2⟩ := hm (f + h) (by linarith)
  have r2 : add (.fin f) (.fin h) = .fin (rnd (f + h)) := by
    unfold add
    simp only
    rw [hM _ (by linarith) (by linarith)]
  have hd2' := abs_le.1 hd2
  -- product
  have hq : rnd (f + h) * p = (f * p + 1 / 2 * (1 + d1)) * (1 + d2) := by
    rw [e2, ← hh]; ring
  clear e2
  have hfp0 : 0 ≤ f * p := mul_nonneg hf hp0.le
  have hq0 : 1 / 8 ≤ rnd (f + h) * p := by
    rw [hq, show (1 : ℚ) / 8 = 1 / 4 * (1 / 2) by norm_num]
    exact mul_le_mul (by linarith) (by linarith) (by norm_num) (by linarith)
  have hq1 : rnd (f + h) * p ≤ 4 * B := by
    rw [hq, show 4 * B = 2 * B * 2 by ring]
    exact mul_le_mul (by linarith) (by linarith) (by linarith) (by linarith)
  have hb1 : b ≤ 1 := by
    have := mul_le_mul_of_nonneg_right hbig hb0.le
    linarith
  obtain ⟨d3, e3, hd3⟩ := hm (rnd (f + h) * p) (by linarith)
  have r3 : mul (.fin (rnd (f + h))) (.fin p) = .fin (rnd (rnd (f + h) * p)) := by
    unfold mul
    simp only
    rw [hM _ (by linarith) (by linarith)]
  refine ⟨rnd (rnd (f + h) * p), by rw [r1, r2, r3], ?_⟩
  rw [e3, hq]
  exact three_errors (f * p) d1 d2 d3 u hfp0 hu0 hu hd1 hd2 hd3

/-- Dividing a whole number by `p`. -/
theorem div_back (K : ℤ) (p : ℚ) (hp : 2 ^ (-1000 : ℤ) ≤ p) (hp' : p ≤ 2 ^ 1000) (hK : 0 ≤ K) (hK' : (K : ℚ) / p ≤ 2 ^ 1002) :
    div (.fin (K : ℚ)) (.fin p) = .fin (rnd (K / p)) ∧ |rnd (K / p) - K / p| ≤ K / p / 2 ^ 53 := by
  have hp0 : 0 < p := lt_of_lt_of_le (two_zpow_pos _) hp
  have hKp : (0 : ℚ) ≤ K / p := div_nonneg (by exact_mod_cast hK) hp0.le
  constructor
  · unfold div
    simp only
    rw [if_neg hp0.ne', ofRat_fin]
    rw [abs_of_nonneg hKp]
    exact le_trans hK' (pow_le_pow_right₀ (by norm_num) (by norm_num))
  · by_cases h0 : K = 0
    · simp [h0, rnd_zero]
    · have h1 := rnd_err (K / p) (by
        rw [abs_of_nonneg hKp, le_div_iff₀ hp0]
        have : (1 : ℚ) ≤ K := by exact_mod_cast (show (1 : ℤ) ≤ K by omega)
        refine le_trans (mul_le_mul_of_nonneg_left hp' (two_zpow_pos _).le) (le_trans ?_ this)
        rw [← zpow_natCast, ← zpow_add₀ (by norm_num)]
        exact zpow_le_one_of_nonpos₀ (by norm_num) (by norm_num))
      rwa [abs_of_nonneg hKp] at h1

/-- What is computed, for any factor `p` in place of the power of ten. -/
def roundBy (f p : F64) : F64 := div (trunc (mul (add f (div (.fin (1 / 2)) p)) p)) p

theorem roundBy_spec (f p : ℚ) (hf : 0 ≤ f) (hp : 2 ^ (-1000 : ℤ) ≤ p) (hp' : p ≤ 2 ^ 1000) (hf' : f ≤ 2 ^ 1000) (hfp : f * p ≤ 2 ^ 1000) :
    ∃ K : ℤ, 0 ≤ K ∧ roundBy (.fin f) (.fin p) = .fin (rnd (K / p)) ∧ |rnd (K / p) - K / p| ≤ K / p / 2 ^ 53 ∧
      |(K : ℚ) - f * p| ≤ 1 / 2 + (f * p + 1 / 2) / 2 ^ 51 ∧
      ∀ k : ℤ, |(k : ℚ) - f * p| ≤ 1 / 2 - (f * p + 1) / 2 ^ 50 → K = k := by
  obtain ⟨x, hx, he⟩ := floor_arg f p hf hp hp' hf' hfp
  have hp0 : 0 < p := lt_of_lt_of_le (two_zpow_pos _) hp
  have hA : 0 ≤ f * p := mul_nonneg hf hp0.le
  have he' := abs_le.1 he
  have hx0 : 0 ≤ x := by
    have : (f * p + 1 / 2) / 2 ^ 51 ≤ (f * p + 1 / 2) / 1 := div_le_div_of_nonneg_left (by linarith) (by norm_num) (by norm_num)
    linarith
  have hfl := Int.floor_le x
  have hfu := Int.lt_floor_add_one x
  have hK : 0 ≤ ⌊x⌋ := Int.floor_nonneg.2 hx0
  have hKb : (⌊x⌋ : ℚ) / p ≤ 2 ^ 1002 := by
    rw [div_le_iff₀ hp0]
    have e1 : (f * p + 1 / 2) / 2 ^ 51 ≤ f * p + 1 / 2 := div_le_self (by linarith) (by norm_num)
    have e2 : (2 : ℚ) ^ 1002 = 4 * 2 ^ 1000 := by rw [show (4 : ℚ) = 2 ^ 2 by norm_num, ← pow_add]
    have s1 : (2 : ℚ) ^ 1000 * 2 ^ (-1000 : ℤ) = 1 := by
      rw [← zpow_natCast, ← zpow_add₀ (by norm_num)]; norm_num
    rw [e2]
    have hB0 : (0 : ℚ) < 2 ^ 1000 := pow_pos (by norm_num) _
    generalize (2 : ℚ) ^ 1000 = B at *
    generalize (2 : ℚ) ^ (-1000 : ℤ) = b at *
    have e3 : f * p ≤ B * p := mul_le_mul_of_nonneg_right hf' hp0.le
    have e4 : B * b ≤ B * p := mul_le_mul_of_nonneg_left hp hB0.le
    linarith [he'.2]
  obtain ⟨g1, g2⟩ := div_back ⌊x⌋ p hp hp' hK hKb
  refine ⟨⌊x⌋, hK, ?_, g2, ?_, ?_⟩
  · unfold roundBy
    rw [hx, trunc, if_neg (not_lt.2 hx0), g1]
  · rw [abs_le]
    constructor
    · linarith [he'.1]
    · linarith [he'.2]
  · intro k hk
    have hk' := abs_le.1 hk
    have c : (f * p + 1) / 2 ^ 50 = 2 * ((f * p + 1) / 2 ^ 51) := by ring
    have c2 : (f * p + 1 / 2) / 2 ^ 51 < (f * p + 1) / 2 ^ 51 := by
      rw [div_lt_div_iff_of_pos_right (by norm_num)]; linarith
    have c3 : 0 ≤ (f * p + 1 / 2) / 2 ^ 51 := div_nonneg (by linarith) (by norm_num)
    rw [Int.floor_eq_iff]
    constructor
    · linarith [he'.1, hk'.2]
    · linarith [he'.2, hk'.1]

/-! ## `math.Pow10` -/

theorem three_factors (d1 d2 d3 u w : ℚ) (hu : 0 ≤ u) (hu' : u ≤ 1 / 16) (hw : w = 9 / 8 * u) (h1 : |d1| ≤ w) (h2 : |d2| ≤ w) (h3 : |d3| ≤ w) :
    |(1 + d1) * (1 + d2) * (1 + d3) - 1| ≤ 4 * u := by
  rw [abs_le] at h1 h2 h3
  have hw0 : 0 ≤ w := by rw [hw]; linarith
  have hw1 : w ≤ 9 / 128 := by rw [hw]; linarith
  have l2 : (1 - w) * (1 - w) ≤ (1 + d1) * (1 + d2) := mul_le_mul (by linarith) (by linarith) (by linarith) (by linarith)
  have r2 : (1 + d1) * (1 + d2) ≤ (1 + w) * (1 + w) := mul_le_mul (by linarith) (by linarith) (by linarith) (by linarith)
  have p2 : 0 ≤ (1 - w) * (1 - w) := mul_nonneg (by linarith) (by linarith)
  have l3 : (1 - w) * (1 - w) * (1 - w) ≤ (1 + d1) * (1 + d2) * (1 + d3) := mul_le_mul l2 (by linarith) (by linarith) (by linarith)
  have r3 : (1 + d1) * (1 + d2) * (1 + d3) ≤ (1 + w) * (1 + w) * (1 + w) := mul_le_mul r2 (by linarith) (by linarith) (by positivity)
  have hww : w * w ≤ 9 / 128 * w := mul_le_mul_of_nonneg_right hw1 hw0
  have hww0 : 0 ≤ w * w := mul_nonneg hw0 hw0
  have hwww : w * w * w ≤ 9 / 128 * (9 / 128 * w) := by
    rw [mul_assoc]
    exact mul_le_mul hw1 hww hww0 (by norm_num)
  have hwww0 : 0 ≤ w * w * w := mul_nonneg hww0 hw0
  have c1 : (1 + w) * (1 + w) * (1 + w) ≤ 1 + 4 * u := by
    have : (1 + w) * (1 + w) * (1 + w) = 1 + 3 * w + 3 * (w * w) + w * w * w := by ring
    linarith
  have c2 : 1 - 4 * u ≤ (1 - w) * (1 - w) * (1 - w) := by
    have : (1 - w) * (1 - w) * (1 - w) = 1 - 3 * w + 3 * (w * w) - w * w * w := by ring
    linarith
  rw [abs_le]
  constructor <;> linarith

theorem ten_bounds (k : ℤ) (h : -290 ≤ k) (h' : k ≤ 290) : (2 : ℚ) ^ (-980 : ℤ) ≤ 10 ^ k ∧ (10 : ℚ) ^ k ≤ 2 ^ 980 := by
  have h1 : (10 : ℚ) ^ 290 ≤ 2 ^ 980 := by
    rw [show (290 : ℕ) = 29 * 10 by norm_num, show (980 : ℕ) = 98 * 10 by norm_num, pow_mul, pow_mul]
    exact pow_le_pow_left₀ (by norm_num) (by norm_num) 10
  constructor
  · have h2 : (2 : ℚ) ^ (-980 : ℤ) ≤ 10 ^ (-290 : ℤ) := by
      rw [zpow_neg, zpow_neg]
      exact inv_anti₀ (zpow_pos (by norm_num) _) (by exact_mod_cast h1)
    exact le_trans h2 (zpow_le_zpow_right₀ (by norm_num) h)
  · refine le_trans (zpow_le_zpow_right₀ (by norm_num) h') ?_
    exact_mod_cast h1

/-- The rounded power of ten. -/
theorem ten_rnd (k : ℤ) (h : -290 ≤ k) (h' : k ≤ 290) :
    ofRat (10 ^ k) = .fin (rnd (10 ^ k)) ∧ ∃ d, rnd (10 ^ k) = 10 ^ k * (1 + d) ∧ |d| ≤ 1 / 2 ^ 53 := by
  obtain ⟨h1, h2⟩ := ten_bounds k h h'
  have hp : (0 : ℚ) < 10 ^ k := zpow_pos (by norm_num) k
  constructor
  · rw [ofRat_fin]
    rw [abs_of_pos hp]
    exact le_trans h2 (pow_le_pow_right₀ (by norm_num) (by norm_num))
  · refine rnd_mul _ ?_
    rw [abs_of_pos hp]
    exact le_trans (zpow_le_zpow_right₀ (by norm_num) (by norm_num)) h1

/-- `math.Pow10` is right up to three roundings. -/
theorem pow10_close (n : ℤ) (h : -290 ≤ n) (h' : n ≤ 290) : ∃ p, pow10 n = .fin p ∧ |p - 10 ^ n| ≤ 10 ^ n / 2 ^ 51 := by
  have hu : (0 : ℚ) ≤ 1 / 2 ^ 53 := by norm_num
  have hu' : (1 : ℚ) / 2 ^ 53 ≤ 1 / 16 := by norm_num
  have hp : (0 : ℚ) < 10 ^ n := zpow_pos (by norm_num) n
  obtain ⟨b1, b2⟩ := ten_bounds n h h'
  have hlow : (4 : ℚ) * 2 ^ (-1022 : ℤ) ≤ 2 ^ (-980 : ℤ) := by
    rw [show (4 : ℚ) = 2 ^ (2 : ℤ) by norm_num, ← zpow_add₀ (by norm_num)]
    exact zpow_le_zpow_right₀ (by norm_num) (by norm_num)
  have hhigh : (4 : ℚ) * 2 ^ 980 ≤ 2 ^ 1023 := by
    rw [show (4 : ℚ) = 2 ^ 2 by norm_num, ← pow_add]
    exact pow_le_pow_right₀ (by norm_num) (by norm_num)
  have hu4 : (4 : ℚ) * (1 / 2 ^ 53) = 1 / 2 ^ 51 := by norm_num
  -- the last rounding
  have last : ∀ d1 d2 : ℚ, |d1| ≤ 9 / 8 * (1 / 2 ^ 53) → |d2| ≤ 9 / 8 * (1 / 2 ^ 53) →
      ofRat (10 ^ n * ((1 + d1) * (1 + d2))) = .fin (rnd (10 ^ n * ((1 + d1) * (1 + d2)))) ∧
      |rnd (10 ^ n * ((1 + d1) * (1 + d2))) - 10 ^ n| ≤ 10 ^ n / 2 ^ 51 := by
    intro d1 d2 h1 h2
    have h0 := three_factors d1 d2 0 (1 / 2 ^ 53) _ hu hu' rfl h1 h2 (by rw [abs_zero]; positivity)
    rw [add_zero, mul_one] at h0
    have h0' := abs_le.1 h0
    have hc1 : (1 : ℚ) / 2 ≤ (1 + d1) * (1 + d2) := by linarith
    have hc2 : (1 + d1) * (1 + d2) ≤ 2 := by linarith
    have hq0 : (10 : ℚ) ^ n * (1 / 2) ≤ 10 ^ n * ((1 + d1) * (1 + d2)) := mul_le_mul_of_nonneg_left hc1 hp.le
    have hq1 : (10 : ℚ) ^ n * ((1 + d1) * (1 + d2)) ≤ 10 ^ n * 2 := mul_le_mul_of_nonneg_left hc2 hp.le
    have ha : |(10 : ℚ) ^ n * ((1 + d1) * (1 + d2))| = 10 ^ n * ((1 + d1) * (1 + d2)) := abs_of_nonneg (by linarith)
    have hm := rnd_mul (10 ^ n * ((1 + d1) * (1 + d2)))
    have hM := ofRat_fin (10 ^ n * ((1 + d1) * (1 + d2)))
    rw [ha] at hm hM
    have hmm : (0 : ℚ) < 2 ^ (-1022 : ℤ) := two_zpow_pos _
    generalize (2 : ℚ) ^ (-1022 : ℤ) = m at *
    generalize (2 : ℚ) ^ (-980 : ℤ) = b at *
    generalize (2 : ℚ) ^ 1023 = M at *
    generalize (2 : ℚ) ^ 980 = B at *
    obtain ⟨d3, e3, hd3⟩ := hm (by linarith)
    refine ⟨hM (by linarith), ?_⟩
    rw [e3, show (10 : ℚ) ^ n * ((1 + d1) * (1 + d2)) * (1 + d3) - 10 ^ n = 10 ^ n * ((1 + d1) * (1 + d2) * (1 + d3) - 1) by ring,
      abs_mul, abs_of_pos hp, div_eq_mul_one_div, ← hu4]
    refine mul_le_mul_of_nonneg_left ?_ hp.le
    exact three_factors d1 d2 d3 _ _ hu hu' rfl h1 h2 (le_trans hd3 (by linarith))
  by_cases hn : 0 ≤ n
  · obtain ⟨f1, d1, e1, h1⟩ := ten_rnd (n / 32 * 32) (by omega) (by omega)
    obtain ⟨f2, d2, e2, h2⟩ := ten_rnd (n % 32) (by omega) (by omega)
    obtain ⟨g1, g2⟩ := last d1 d2 (by linarith) (by linarith)
    refine ⟨_, ?_, g2⟩
    rw [pow10, if_pos ⟨hn, by omega⟩, f1, f2, e1, e2, mul, ← g1]
    refine congrArg ofRat ?_
    have : (10 : ℚ) ^ n = 10 ^ (n / 32 * 32) * 10 ^ (n % 32) := by
      rw [← zpow_add₀ (by norm_num), show n / 32 * 32 + n % 32 = n by omega]
    rw [this]
    ring
  · obtain ⟨f1, d1, e1, h1⟩ := ten_rnd (-(-n / 32 * 32)) (by omega) (by omega)
    obtain ⟨f2, d2, e2, h2⟩ := ten_rnd (-n % 32) (by omega) (by omega)
    have h2' := abs_le.1 h2
    have hpos : 0 < 1 + d2 := by linarith
    have hinv : |-(d2 / (1 + d2))| ≤ 9 / 8 * (1 / 2 ^ 53) := by
      rw [abs_neg, abs_div, abs_of_pos hpos, div_le_iff₀ hpos]
      have : 9 / 8 * (1 / 2 ^ 53 : ℚ) * (15 / 16) ≤ 9 / 8 * (1 / 2 ^ 53 : ℚ) * (1 + d2) := mul_le_mul_of_nonneg_left (by linarith) (by positivity)
      linarith
    obtain ⟨g1, g2⟩ := last d1 (-(d2 / (1 + d2))) (by linarith) hinv
    refine ⟨_, ?_, g2⟩
    have hne : (10 : ℚ) ^ (-n % 32) * (1 + d2) ≠ 0 := mul_ne_zero (zpow_pos (by norm_num) _).ne' hpos.ne'
    rw [pow10, if_neg (by omega), if_pos ⟨by omega, by omega⟩, f1, f2, e1, e2, div, if_neg hne, ← g1]
    refine congrArg ofRat ?_
    have : (10 : ℚ) ^ n = 10 ^ (-(-n / 32 * 32)) / 10 ^ (-n % 32) := by
      rw [← zpow_sub₀ (by norm_num), show -(-n / 32 * 32) - -n % 32 = n by omega]
    rw [this]
    have : (10 : ℚ) ^ (-n % 32) ≠ 0 := (zpow_pos (by norm_num) _).ne'
    field_simp
    ring

/-- Up to 22 the power of ten is exact. -/
theorem pow10_exact (n : ℤ) (h : 0 ≤ n) (h' : n ≤ 22) : pow10 n = .fin (10 ^ n) := by
  have hr : Repr64 (10 ^ n) := by
    obtain ⟨k, rfl⟩ := Int.eq_ofNat_of_zero_le h
    refine ⟨5 ^ k, k, ?_, by omega, ?_⟩
    · rw [abs_of_nonneg (by positivity)]
      exact le_trans (pow_le_pow_right₀ (by norm_num) (show k ≤ 22 by omega)) (by norm_num)
    · push_cast
      rw [zpow_natCast, zpow_natCast, ← mul_pow]
      norm_num
  have hone : ofRat 1 = .fin 1 := by
    rw [ofRat_fin _ (by rw [abs_one]; exact one_le_pow₀ (by norm_num)), rnd_fixed _ (by exact_mod_cast repr_int 1 (by norm_num))]
  obtain ⟨f2, -⟩ := ten_rnd n (by omega) (by omega)
  rw [pow10, if_pos ⟨h, by omega⟩, show n / 32 * 32 = 0 by omega, show n % 32 = n by omega, zpow_zero, hone, f2, mul, one_mul, rnd_fixed _ hr,
    f2, rnd_fixed _ hr]

/-- The factor that is used and its range. -/
theorem factor (f : ℚ) (n : ℤ) (h : -290 ≤ n) (h' : n ≤ 290) (hf : 0 ≤ f) (hf' : f * 10 ^ n ≤ 2 ^ 900) :
    ∃ p, pow10 n = .fin p ∧ 2 ^ (-1000 : ℤ) ≤ p ∧ p ≤ 2 ^ 1000 ∧ f * p ≤ 2 ^ 1000 ∧ |p - 10 ^ n| ≤ 10 ^ n / 2 ^ 51 := by
  obtain ⟨p, h1, h2⟩ := pow10_close n h h'
  obtain ⟨b1, b2⟩ := ten_bounds n h h'
  have hp : (0 : ℚ) < 10 ^ n := zpow_pos (by norm_num) n
  have h2' := abs_le.1 h2
  have e1 : (10 : ℚ) ^ n / 2 ^ 51 ≤ 10 ^ n / 2 := div_le_div_of_nonneg_left hp.le (by norm_num) (by norm_num)
  have hlow : (2 : ℚ) * 2 ^ (-1000 : ℤ) ≤ 2 ^ (-980 : ℤ) := by
    rw [← zpow_one_add₀ (by norm_num)]
    exact zpow_le_zpow_right₀ (by norm_num) (by norm_num)
  have hhigh : (2 : ℚ) * 2 ^ 980 ≤ 2 ^ 1000 := by
    rw [← pow_succ']
    exact pow_le_pow_right₀ (by norm_num) (by norm_num)
  have hhigh' : (2 : ℚ) * 2 ^ 900 ≤ 2 ^ 1000 := by
    rw [← pow_succ']
    exact pow_le_pow_right₀ (by norm_num) (by norm_num)
  refine ⟨p, h1, ?_⟩
  generalize (2 : ℚ) ^ (-1000 : ℤ) = b at *
  generalize (2 : ℚ) ^ (-980 : ℤ) = b' at *
  generalize (2 : ℚ) ^ 1000 = B at *
  generalize (2 : ℚ) ^ 980 = B' at *
  generalize (2 : ℚ) ^ 900 = B'' at *
  refine ⟨?_, ?_, ?_, h2⟩
  · linarith [h2'.1]
  · linarith [h2'.2]
  · have : f * p ≤ f * (2 * 10 ^ n) := mul_le_mul_of_nonneg_left (by linarith [h2'.2]) hf
    linarith

theorem roundF_eq (f : F64) (n : ℤ) : roundF f n = roundBy f (pow10 n) := rfl

/-- `f·p` against `f·10^n`. -/
theorem scaled (f p P : ℚ) (hf : 0 ≤ f) (h : |p - P| ≤ P / 2 ^ 51) : |f * p - f * P| ≤ f * P / 2 ^ 51 := by
  rw [← mul_sub, abs_mul, abs_of_nonneg hf, mul_div_assoc]
  exact mul_le_mul_of_nonneg_left h hf

theorem near_quotient (k p P r : ℚ) (hk : 0 ≤ k) (hP : 0 < P) (hp : 0 < p) (h : |p - P| ≤ P / 2 ^ 51) (hr : |r - k / p| ≤ k / p / 2 ^ 53) :
    |r - k / P| ≤ k / P / 2 ^ 50 := by
  have hkP : 0 ≤ k / P := div_nonneg hk hP.le
  have h' := abs_le.1 h
  have e1 : P / 2 ^ 51 ≤ P / 4 := div_le_div_of_nonneg_left hP.le (by norm_num) (by norm_num)
  have h1 : k / p ≤ 4 / 3 * (k / P) := by
    rw [div_le_iff₀ hp]
    have : 4 / 3 * (k / P) * p = k * (4 / 3 * (p / P)) := by ring
    rw [this]
    refine le_mul_of_one_le_right hk ?_
    have : 3 / 4 ≤ p / P := by rw [le_div_iff₀ hP]; linarith
    linarith
  have h2 : |k / p - k / P| ≤ k / p / 2 ^ 51 := by
    have : k / p - k / P = k / p * ((P - p) / P) := by field_simp
    rw [this, abs_mul, abs_of_nonneg (div_nonneg hk hp.le), div_eq_mul_one_div (k / p)]
    refine mul_le_mul_of_nonneg_left ?_ (div_nonneg hk hp.le)
    rw [abs_div, abs_of_pos hP, div_le_iff₀ hP, abs_sub_comm]
    linarith
  have h3 := abs_sub_le r (k / p) (k / P)
  have h4 : k / p / 2 ^ 53 + k / p / 2 ^ 51 ≤ k / P / 2 ^ 50 := by
    generalize k / p = a at *
    generalize k / P = b at *
    field_simp
    linarith
  linarith

theorem close_900 : (2 : ℚ) ^ 900 ≤ 2 ^ 1000 := pow_le_pow_right₀ (by norm_num) (by norm_num)

/-- **C133 (partial).** For `0 ≤ f`, as long as nothing overflows: if `K` is the whole number next to `f·10^n`, and `f·10^n` is not within
`(f·10^n + 1)/2^49` of the middle of two, then the result is `K/10^n` up to a few roundings; for `n` from 0 to 22 it is exactly the
`float64` next to `K/10^n`. -/
theorem C133_decimal_partial (f : ℚ) (n : ℤ) (h : -290 ≤ n) (h' : n ≤ 290) (hf : 0 ≤ f) (hf' : f ≤ 2 ^ 900) (hfn : f * 10 ^ n ≤ 2 ^ 900)
    (K : ℤ) (hK : |(K : ℚ) - f * 10 ^ n| ≤ 1 / 2 - (f * 10 ^ n + 1) / 2 ^ 49) :
    ∃ r, roundF (.fin f) n = .fin r ∧ |r - K / 10 ^ n| ≤ K / 10 ^ n / 2 ^ 50 ∧ (0 ≤ n → n ≤ 22 → r = rnd (K / 10 ^ n)) := by
  obtain ⟨p, e1, p1, p2, p3, e2⟩ := factor f n h h' hf hfn
  have hp0 : 0 < p := lt_of_lt_of_le (two_zpow_pos _) p1
  have hP : (0 : ℚ) < 10 ^ n := zpow_pos (by norm_num) n
  obtain ⟨k, k0, k1, k2, k3, k4⟩ := roundBy_spec f p hf p1 p2 (le_trans hf' close_900) p3
  have hA : 0 ≤ f * 10 ^ n := mul_nonneg hf hP.le
  have hs := scaled f p _ hf e2
  have hs' := abs_le.1 hs
  have hKk : k = K := by
    refine k4 K ?_
    have := abs_sub_le (K : ℚ) (f * 10 ^ n) (f * p)
    rw [abs_sub_comm (f * 10 ^ n)] at this
    have c : f * 10 ^ n / 2 ^ 51 ≤ f * 10 ^ n := div_le_self hA (by norm_num)
    generalize f * 10 ^ n = A at *
    generalize f * p = a at *
    have c2 : (a + 1) / 2 ^ 50 ≤ (A + A / 2 ^ 51 + 1) / 2 ^ 50 := div_le_div_of_nonneg_right (by linarith) (by norm_num)
    have c3 : (A + A / 2 ^ 51 + 1) / 2 ^ 50 + A / 2 ^ 51 ≤ (A + 1) / 2 ^ 49 := by
      field_simp
      linarith
    linarith
  subst hKk
  refine ⟨rnd (k / p), by rw [roundF_eq, e1, k1], ?_, ?_⟩
  · have hk : (0 : ℚ) ≤ k := by exact_mod_cast k0
    exact near_quotient k p _ _ hk hP hp0 e2 k2
  · intro h0 h22
    have : p = 10 ^ n := by
      have := (pow10_exact n h0 h22).symm.trans e1
      exact (F64.fin.inj this).symm
    rw [this]

/-- **C133 (partial).** In any case the result is within half a unit of `f`, up to a part in 2^48 of `f` and of the unit. -/
theorem C133_near_partial (f : ℚ) (n : ℤ) (h : -290 ≤ n) (h' : n ≤ 290) (hf : 0 ≤ f) (hf' : f ≤ 2 ^ 900) (hfn : f * 10 ^ n ≤ 2 ^ 900) :
    ∃ r, roundF (.fin f) n = .fin r ∧ |r - f| * 10 ^ n ≤ 1 / 2 + (f * 10 ^ n + 1) / 2 ^ 48 := by
  obtain ⟨p, e1, p1, p2, p3, e2⟩ := factor f n h h' hf hfn
  have hp0 : 0 < p := lt_of_lt_of_le (two_zpow_pos _) p1
  have hP : (0 : ℚ) < 10 ^ n := zpow_pos (by norm_num) n
  obtain ⟨k, k0, k1, k2, k3, -⟩ := roundBy_spec f p hf p1 p2 (le_trans hf' close_900) p3
  refine ⟨rnd (k / p), by rw [roundF_eq, e1, k1], ?_⟩
  have hk : (0 : ℚ) ≤ k := by exact_mod_cast k0
  clear p1 p2 p3 k1 hf' hfn
  generalize rnd (k / p) = r at *
  generalize (10 : ℚ) ^ n = P at *
  have e2' := abs_le.1 e2
  have k3' := abs_le.1 k3
  have hA : 0 ≤ f * P := mul_nonneg hf hP.le
  have hs' := abs_le.1 (scaled f p _ hf e2)
  -- the distance times `p`
  have h1 : |r - f| * p ≤ 1 / 2 + (f * P + 1) / 2 ^ 49 := by
    have t := abs_sub_le r (k / p) f
    have t2 : |(k : ℚ) / p - f| * p = |(k : ℚ) - f * p| := by
      rw [← abs_of_pos hp0, ← abs_mul, abs_of_pos hp0, sub_mul, div_mul_cancel₀ _ hp0.ne']
    have t3 : |r - k / p| * p ≤ k / 2 ^ 53 := by
      have := mul_le_mul_of_nonneg_right k2 hp0.le
      have e : (k : ℚ) / p / 2 ^ 53 * p = k / 2 ^ 53 := by field_simp
      rwa [e] at this
    have t4 := mul_le_mul_of_nonneg_right t hp0.le
    rw [add_mul, t2] at t4
    have c : f * P / 2 ^ 51 ≤ f * P := div_le_self hA (by norm_num)
    have c2 : (f * p + 1 / 2) / 2 ^ 51 ≤ f * p + 1 / 2 := div_le_self (by
      have := mul_nonneg hf hp0.le
      linarith) (by norm_num)
    generalize f * P = A at *
    generalize f * p = a at *
    have c3 : (k : ℚ) / 2 ^ 53 ≤ (4 * A + 2) / 2 ^ 53 := div_le_div_of_nonneg_right (by linarith) (by norm_num)
    have c4 : (a + 1 / 2) / 2 ^ 51 ≤ (2 * A + 1 / 2) / 2 ^ 51 := div_le_div_of_nonneg_right (by linarith) (by norm_num)
    have c5 : (4 * A + 2) / 2 ^ 53 + (2 * A + 1 / 2) / 2 ^ 51 ≤ (A + 1) / 2 ^ 49 := by
      field_simp
      linarith
    linarith
  have h2 : P ≤ (1 + 1 / 2 ^ 50) * p := by
    field_simp
    have e : P / 2 ^ 51 * 2 ^ 51 = P := by field_simp
    linarith [e2'.1]
  have h3 : |r - f| * P ≤ (1 + 1 / 2 ^ 50) * (|r - f| * p) := by
    have := mul_le_mul_of_nonneg_left h2 (abs_nonneg (r - f))
    linarith
  have h4 := mul_le_mul_of_nonneg_left h1 (show (0 : ℚ) ≤ 1 + 1 / 2 ^ 50 by norm_num)
  refine le_trans h3 (le_trans h4 ?_)
  generalize f * P = A at *
  field_simp
  linarith

/-- **C133 (rounding twice).** For `f·10^n` up to 2^46 rounding a rounded number changes nothing. -/
theorem C133_idempotent (f : ℚ) (n : ℤ) (h : -290 ≤ n) (h' : n ≤ 290) (hf : 0 ≤ f) (hf' : f ≤ 2 ^ 900) (hfn : f * 10 ^ n ≤ 2 ^ 46) :
    roundF (roundF (.fin f) n) n = roundF (.fin f) n := by
  have h900 : (2 : ℚ) ^ 46 ≤ 2 ^ 900 := pow_le_pow_right₀ (by norm_num) (by norm_num)
  obtain ⟨p, e1, p1, p2, p3, e2⟩ := factor f n h h' hf (le_trans hfn h900)
  have hp0 : 0 < p := lt_of_lt_of_le (two_zpow_pos _) p1
  have hP : (0 : ℚ) < 10 ^ n := zpow_pos (by norm_num) n
  obtain ⟨k, k0, k1, k2, k3, -⟩ := roundBy_spec f p hf p1 p2 (le_trans hf' close_900) p3
  have hk : (0 : ℚ) ≤ k := by exact_mod_cast k0
  have k3' := abs_le.1 k3
  have hA : 0 ≤ f * 10 ^ n := mul_nonneg hf hP.le
  have hs' := abs_le.1 (scaled f p _ hf e2)
  have ha : f * p ≤ 2 ^ 47 := by
    have c : f * 10 ^ n / 2 ^ 51 ≤ f * 10 ^ n := div_le_self hA (by norm_num)
    linarith
  have hk' : (k : ℚ) ≤ 2 ^ 48 := by
    have c2 : (f * p + 1 / 2) / 2 ^ 51 ≤ (2 ^ 47 + 1 / 2) / 2 ^ 51 := div_le_div_of_nonneg_right (by linarith) (by norm_num)
    linarith
  have hg : |rnd (k / p) * p - k| ≤ k / 2 ^ 53 := by
    have := mul_le_mul_of_nonneg_right k2 hp0.le
    have e : (k : ℚ) / p / 2 ^ 53 * p = k / 2 ^ 53 := by field_simp
    rw [e] at this
    rwa [← abs_of_pos hp0, ← abs_mul, abs_of_pos hp0, sub_mul, div_mul_cancel₀ _ hp0.ne'] at this
  have hg' := abs_le.1 hg
  have hkd : (k : ℚ) / 2 ^ 53 ≤ 2 ^ 48 / 2 ^ 53 := div_le_div_of_nonneg_right hk' (by norm_num)
  have hg0 : 0 ≤ rnd (k / p) := by
    have := le_rnd (k / p) 0 ⟨0, 0, by norm_num, by norm_num, by norm_num⟩ (div_nonneg hk hp0.le)
    exact this
  have hr : roundF (.fin f) n = .fin (rnd (k / p)) := by rw [roundF_eq, e1, k1]
  have hgp : rnd (k / p) * p ≤ 2 ^ 49 := by linarith
  have hg1 : rnd (k / p) ≤ 2 ^ 1000 := by
    refine rnd_le _ _ (by exact_mod_cast repr_two_zpow 1000 (by norm_num)) ?_
    rw [div_le_iff₀ hp0]
    have b := (ten_bounds n h h').1
    have c1 : (10 : ℚ) ^ n / 2 ^ 51 ≤ 10 ^ n / 2 := div_le_div_of_nonneg_left hP.le (by norm_num) (by norm_num)
    have c2 : (f * p + 1 / 2) / 2 ^ 51 ≤ (2 ^ 47 + 1 / 2) / 2 ^ 51 := div_le_div_of_nonneg_right (by linarith) (by norm_num)
    have c3 : (2 : ℚ) ^ 980 * 2 ^ (-980 : ℤ) = 1 := by
      rw [← zpow_natCast, ← zpow_add₀ (by norm_num)]; norm_num
    have c4 : (4 : ℚ) * 2 ^ 980 ≤ 2 ^ 1000 := by
      rw [show (4 : ℚ) = 2 ^ 2 by norm_num, ← pow_add]
      exact pow_le_pow_right₀ (by norm_num) (by norm_num)
    have c5 : (2 : ℚ) ^ 900 ≤ 2 ^ 980 := pow_le_pow_right₀ (by norm_num) (by norm_num)
    have c6 : (0 : ℚ) < 2 ^ 980 := pow_pos (by norm_num) _
    have e2' := abs_le.1 e2
    clear h900 p1 p2 p3
    generalize (2 : ℚ) ^ 1000 = B at *
    generalize (2 : ℚ) ^ 980 = C at *
    generalize (2 : ℚ) ^ (-980 : ℤ) = c at *
    generalize (2 : ℚ) ^ 900 = D at *
    have d1 : c ≤ 2 * p := by linarith [e2'.1]
    have d2 : C * c ≤ C * (2 * p) := mul_le_mul_of_nonneg_left d1 c6.le
    have d3 : f * p ≤ C * p := mul_le_mul_of_nonneg_right (by linarith) hp0.le
    have d4 : 4 * C * p ≤ B * p := mul_le_mul_of_nonneg_right c4 hp0.le
    linarith [k3'.2]
  obtain ⟨k', -, l1, -, -, l4⟩ := roundBy_spec (rnd (k / p)) p hg0 p1 p2 hg1
    (le_trans hgp (pow_le_pow_right₀ (by norm_num) (by norm_num)))
  have : k' = k := by
    refine l4 k ?_
    rw [abs_sub_comm]
    have : (rnd (k / p) * p + 1) / 2 ^ 50 ≤ (2 ^ 48 + 2) / 2 ^ 50 := div_le_div_of_nonneg_right (by linarith) (by norm_num)
    linarith
  rw [hr, roundF_eq, e1, l1, this]

/-! ## What goes wrong -/

theorem ofRat_int (m e : ℤ) (hm : |m| ≤ 2 ^ 53) (he : -1074 ≤ e) (he' : e ≤ 900) : ofRat (m * 2 ^ e) = .fin (m * 2 ^ e) := by
  rw [ofRat_fin, rnd_fixed _ ⟨m, e, hm, he, rfl⟩]
  rw [abs_mul, abs_of_pos (two_zpow_pos e)]
  have h1 : |(m : ℚ)| ≤ 2 ^ 53 := by exact_mod_cast hm
  have h2 : (2 : ℚ) ^ e ≤ 2 ^ 900 := by
    rw [← zpow_natCast]
    exact zpow_le_zpow_right₀ (by norm_num) (by omega)
  refine le_trans (mul_le_mul h1 h2 (two_zpow_pos e).le (by norm_num)) ?_
  rw [← pow_add]
  exact pow_le_pow_right₀ (by norm_num) (by norm_num)

theorem ofRat_one : ofRat 1 = .fin 1 := by
  have := ofRat_int 1 0 (by norm_num) (by norm_num) (by norm_num)
  simpa using this

theorem ofRat_half : ofRat (1 / 2) = .fin (1 / 2) := by
  have := ofRat_int 1 (-1) (by norm_num) (by norm_num) (by norm_num)
  rwa [show ((1 : ℤ) : ℚ) * 2 ^ (-1 : ℤ) = 1 / 2 by norm_num] at this

/-- With no decimals: `Trunc(f + 0.5)`. -/
theorem roundF_zero (f s : ℚ) (m : ℤ) (h : ofRat (f + 1 / 2) = .fin s) (hs : ofRat s = .fin s) (hs0 : 0 ≤ s) (hm : ⌊s⌋ = m) (hm' : |m| ≤ 2 ^ 53) :
    roundF (.fin f) 0 = .fin m := by
  have h1 : pow10 0 = .fin 1 := by
    have := pow10_exact 0 (by norm_num) (by norm_num)
    rwa [zpow_zero] at this
  have h2 : ofRat (m : ℚ) = .fin m := by
    have := ofRat_int m 0 hm' (by norm_num) (by norm_num)
    simpa using this
  simp only [roundF, h1, div, one_ne_zero, if_false, div_one, ofRat_half, add, h, mul, mul_one, hs, trunc, if_neg (not_lt.2 hs0), hm, h2]

/-- **C133 (refuted: the nearest).** 0.49999999999999994 is rounded to 1. -/
theorem C133_half_refuted : Repr64 (1 / 2 - 1 / 2 ^ 54) ∧ roundF (.fin (1 / 2 - 1 / 2 ^ 54)) 0 = .fin 1 ∧
    (1 : ℚ) / 2 < |1 - (1 / 2 - 1 / 2 ^ 54)| := by
  refine ⟨⟨2 ^ 53 - 1, -54, by norm_num, by norm_num, by norm_num⟩, ?_, ?_⟩
  · have h : ofRat (1 / 2 - 1 / 2 ^ 54 + 1 / 2) = .fin 1 := by
      rw [ofRat_fin]
      · rw [rnd_eq _ (-53) (by norm_num) (by rw [abs_of_pos (by norm_num)]; norm_num) (by rw [abs_of_pos (by norm_num)]; norm_num)]
        have e : (1 / 2 - 1 / 2 ^ 54 + 1 / 2 : ℚ) / 2 ^ (-53 : ℤ) = ((2 ^ 53 - 1 : ℤ) : ℚ) + 1 / 2 := by norm_num
        rw [e, rne_half _ (by norm_num)]
        norm_num
      · rw [abs_of_pos (by norm_num)]
        exact le_trans (by norm_num) (one_le_pow₀ (by norm_num))
    have := roundF_zero _ 1 1 h ofRat_one (by norm_num) (by norm_num) (by norm_num)
    exact_mod_cast this
  · rw [abs_of_pos (by norm_num)]; norm_num

/-- **C133 (refuted: whole numbers are kept).** 2^52+1 becomes 2^52+2. -/
theorem C133_whole_refuted : roundF (.fin (2 ^ 52 + 1)) 0 = .fin (2 ^ 52 + 2) := by
  have h : ofRat (2 ^ 52 + 1 + 1 / 2) = .fin (2 ^ 52 + 2) := by
    rw [ofRat_fin]
    · rw [rnd_eq _ 0 (by norm_num) (by rw [abs_of_pos (by norm_num)]; norm_num) (by rw [abs_of_pos (by norm_num)]; norm_num)]
      have e : (2 ^ 52 + 1 + 1 / 2 : ℚ) / 2 ^ (0 : ℤ) = ((2 ^ 52 + 1 : ℤ) : ℚ) + 1 / 2 := by norm_num
      rw [e, rne_half _ (by norm_num)]
      norm_num
    · rw [abs_of_pos (by norm_num)]
      exact le_trans (show (2 ^ 52 + 1 + 1 / 2 : ℚ) ≤ 2 ^ 53 by norm_num) (pow_le_pow_right₀ (by norm_num) (by norm_num))
  have hs : ofRat (2 ^ 52 + 2) = .fin (2 ^ 52 + 2) := by
    have := ofRat_int (2 ^ 52 + 2) 0 (by norm_num) (by norm_num) (by norm_num)
    rw [zpow_zero, mul_one] at this
    exact_mod_cast this
  have hfl : ⌊(2 ^ 52 + 2 : ℚ)⌋ = (2 : ℤ) ^ 52 + 2 := by
    rw [Int.floor_eq_iff]; norm_num
  have := roundF_zero _ _ _ h hs (by norm_num) hfl (by norm_num)
  rw [this]
  norm_num

/-- **C133 (refuted: the result is a number near `f`).** If `f·10^n` is too large for a `float64`, the result is infinite. -/
theorem C133_overflow_refuted (f : ℚ) (n : ℤ) (hr : Repr64 f) (hf : 0 ≤ f) (h : 0 ≤ n) (h' : n ≤ 22) (hb : 2 ^ 1024 ≤ f * 10 ^ n) :
    roundF (.fin f) n = .inf false := by
  have hP : (0 : ℚ) < 10 ^ n := zpow_pos (by norm_num) n
  have hP1 : (1 : ℚ) ≤ 10 ^ n := one_le_zpow₀ (by norm_num) h
  have h0 : Repr64 0 := ⟨0, 0, by norm_num, by norm_num, by norm_num⟩
  have hone : (1 : ℚ) ≤ 2 ^ 1023 := one_le_pow₀ (by norm_num)
  have e1 : div (.fin (1 / 2)) (.fin (10 ^ n)) = .fin (rnd (1 / 2 / 10 ^ n)) := by
    rw [div, if_neg hP.ne', ofRat_fin]
    rw [abs_of_pos (by positivity)]
    refine le_trans ?_ hone
    rw [div_le_iff₀ hP]
    linarith
  have hh : 0 ≤ rnd (1 / 2 / 10 ^ n) := le_rnd _ 0 h0 (by positivity)
  generalize rnd (1 / 2 / 10 ^ n) = w at *
  have hs : f ≤ rnd (f + w) := le_rnd _ f hr (by linarith)
  have hinf : mul (add (.fin f) (.fin w)) (.fin (10 ^ n)) = .inf false := by
    rw [add]
    unfold ofRat
    split
    · rw [show decide (f + w < 0) = false by simp; linarith, mul, if_neg hP.ne']
      simp [hP.le]
    · rw [mul]
      have h1 : (2 : ℚ) ^ 1024 ≤ rnd (rnd (f + w) * 10 ^ n) := by
        refine le_rnd _ _ (by exact_mod_cast repr_two_zpow 1024 (by norm_num)) (le_trans hb ?_)
        exact mul_le_mul_of_nonneg_right hs hP.le
      unfold ofRat
      rw [if_pos (le_trans h1 (le_abs_self _))]
      have : 0 ≤ rnd (f + w) * 10 ^ n := mul_nonneg (by linarith) hP.le
      simp [this]
  rw [roundF, pow10_exact n h h', e1, hinf, trunc, div]
  · simp [hP.le]
  · simp

/-- **C133 (refuted: every number of decimals).** Above 308 and below -323 the result is no number. -/
theorem C133_range_refuted (f : ℚ) (n : ℤ) (h : 308 < n ∨ n < -323) : roundF (.fin f) n = .nan := by
  rcases h with h | h
  · have e : pow10 n = .inf false := by
      rw [pow10, if_neg (by omega), if_neg (by omega), if_pos (by omega)]
    rw [roundF, e]
    have hd : div (.fin (1 / 2)) (.inf false) = .fin 0 := by simp [div]
    rw [hd, add]
    obtain ⟨s, hs⟩ | ⟨q, hq⟩ : (∃ s, ofRat (f + 0) = .inf s) ∨ ∃ q, ofRat (f + 0) = .fin q := by
      unfold ofRat
      split
      · exact Or.inl ⟨_, rfl⟩
      · exact Or.inr ⟨_, rfl⟩
    · rw [hs]
      simp [mul, trunc, div]
    · rw [hq, mul]
      split <;> simp [trunc, div]
  · have e : pow10 n = .fin 0 := by
      rw [pow10, if_neg (by omega), if_neg (by omega), if_neg (by omega)]
    rw [roundF, e]
    simp [div, add, mul, trunc]

/-- **C133 (what is no number).** NaN stays NaN, and an infinity stays that infinity. -/
theorem C133_special (n : ℤ) : roundF .nan n = .nan ∧ (-290 ≤ n → n ≤ 290 → ∀ s, roundF (.inf s) n = .inf s) := by
  refine ⟨by simp [roundF, add, mul, trunc, div], fun h h' s => ?_⟩
  obtain ⟨p, e, hlow, -, -, -⟩ := factor 0 n h h' le_rfl (by rw [zero_mul]; positivity)
  have hpos : 0 < p := lt_of_lt_of_le (zpow_pos (by norm_num) _) hlow
  have hsm : ∃ q, div (.fin (1 / 2)) (.fin p) = .fin q := by
    rw [div, if_neg hpos.ne', ofRat_fin]
    · exact ⟨_, rfl⟩
    · rw [abs_of_pos (by positivity), div_le_iff₀ hpos]
      have h1 : (2 : ℚ) ^ (-1000 : ℤ) * 2 ^ 1023 ≤ p * 2 ^ 1023 := mul_le_mul_of_nonneg_right hlow (by positivity)
      have h2 : (1 : ℚ) / 2 ≤ 2 ^ (-1000 : ℤ) * 2 ^ 1023 := by
        rw [← zpow_natCast, ← zpow_add₀ (by norm_num)]
        norm_num
      rw [mul_comm]
      exact le_trans h2 h1
  rw [roundF, e]
  obtain ⟨q, hq⟩ := hsm
  rw [hq]
  have : decide (p < 0) = false := by simp [hpos.le]
  simp [add, mul, trunc, div, hpos.ne', this]

/-- **C133 (refuted: below zero).** -1 becomes 0. -/
theorem C133_negative_refuted : roundF (.fin (-1)) 0 = .fin 0 := by
  have h1 : pow10 0 = .fin 1 := by
    have := pow10_exact 0 (by norm_num) (by norm_num)
    rwa [zpow_zero] at this
  have h2 : ofRat (-1 / 2) = .fin (-1 / 2) := by
    have := ofRat_int (-1) (-1) (by norm_num) (by norm_num) (by norm_num)
    rwa [show ((-1 : ℤ) : ℚ) * 2 ^ (-1 : ℤ) = -1 / 2 by norm_num] at this
  have h3 : ofRat 0 = .fin 0 := by
    have := ofRat_int 0 0 (by norm_num) (by norm_num) (by norm_num)
    simpa using this
  have e : (-1 : ℚ) + 1 / 2 = -1 / 2 := by norm_num
  have hc : ⌈(-1 / 2 : ℚ)⌉ = 0 := by
    rw [Int.ceil_eq_iff]; norm_num
  have hl : (-1 / 2 : ℚ) < 0 := by norm_num
  simp only [roundF, h1, div, one_ne_zero, if_false, div_one, ofRat_half, add, e, h2, mul, mul_one, trunc, if_pos hl, hc, Int.cast_zero, h3]

example : ∃ r, roundF (.fin (rnd (314159 / 100000))) 2 = .fin r ∧ r = rnd (314 / 10 ^ (2 : ℤ)) := by
  have hq := abs_le.1 (rnd_err (314159 / 100000) (by
    rw [abs_of_pos (by norm_num)]
    exact le_trans (zpow_le_one_of_nonpos₀ (by norm_num) (by norm_num)) (by norm_num)))
  rw [abs_of_pos (show (0 : ℚ) < 314159 / 100000 by norm_num)] at hq
  norm_num at hq
  have h900 : (2 : ℚ) ^ 20 ≤ 2 ^ 900 := pow_le_pow_right₀ (by norm_num) (by norm_num)
  obtain ⟨r, h1, -, h3⟩ := C133_decimal_partial (rnd (314159 / 100000)) 2 (by norm_num) (by norm_num) (by linarith [hq.1])
    (le_trans (by norm_num; linarith [hq.2]) h900) (le_trans (by norm_num; linarith [hq.2]) h900) 314
    (by norm_num; rw [abs_le]; constructor <;> linarith [hq.1, hq.2])
  exact ⟨r, h1, by simpa using h3 (by norm_num) (by norm_num)⟩

example : Repr64 (2 ^ 1023) ∧ (2 : ℚ) ^ 1024 ≤ 2 ^ 1023 * 10 ^ (1 : ℤ) := by
  refine ⟨by exact_mod_cast repr_two_zpow 1023 (by norm_num), ?_⟩
  rw [pow_succ]
  exact mul_le_mul_of_nonneg_left (by norm_num) (pow_nonneg (by norm_num) _)

end Verif.Misc
