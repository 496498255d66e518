import Verif.Model.Log2
import Mathlib.Analysis.SpecialFunctions.Log.Base
import Mathlib.Analysis.Complex.ExponentialBounds

/-!
# C134: `Log2`
-/

namespace Verif.Math

open F64

/-- What is needed of `math.Log`: the logarithm of the fraction is right up to a part in 2^50. -/
def LogOk (lg : ℚ → ℚ) : Prop :=
  ∀ y : ℚ, 1 / 2 < y → y < 1 → |(lg y : ℝ) - Real.logb 2 y| ≤ |Real.logb 2 y| / 2 ^ 50

theorem ofRat_small (a : ℤ) (h : |a| ≤ 2 ^ 53) : ofRat a = .fin a := by
  rw [ofRat_fin, rnd_fixed _ (repr_int a h)]
  have : |(a : ℚ)| ≤ 2 ^ 53 := by exact_mod_cast h
  exact le_trans this (pow_le_pow_right₀ (by norm_num) (by norm_num))

theorem log_eq (x : ℚ) (k : ℤ) (h1 : 2 ^ k ≤ x) (h2 : x < 2 ^ (k + 1)) : Int.log 2 x = k := by
  have h0 : 0 < x := lt_of_lt_of_le (two_zpow_pos _) h1
  have a := (Int.zpow_le_iff_le_log (b := 2) (by norm_num) h0).1 (by exact_mod_cast h1)
  have b := (Int.lt_zpow_iff_log_lt (b := 2) (by norm_num) h0).1 (by exact_mod_cast h2)
  omega

/-- From the sum to the result. -/
theorem log2_of (lg : ℚ → ℚ) (a : ℤ) (x : ℚ) (k m : ℤ) (hx : ofRat a = .fin x) (h1 : 2 ^ k < x) (h2 : x < 2 ^ (k + 1))
    (hb : |lg (x / 2 ^ (k + 1)) + ((k + 1 : ℤ) : ℚ)| ≤ 2 ^ 53)
    (h3 : (m : ℚ) ≤ rnd (lg (x / 2 ^ (k + 1)) + ((k + 1 : ℤ) : ℚ))) (h4 : rnd (lg (x / 2 ^ (k + 1)) + ((k + 1 : ℤ) : ℚ)) < m + 1) (hm : 0 ≤ m) :
    log2 lg a = some m := by
  have h0 : 0 < x := lt_trans (two_zpow_pos _) h1
  have hl := log_eq x k h1.le h2
  have hne : x / 2 ^ (k + 1) ≠ 1 / 2 := by
    intro hc
    rw [div_eq_iff (two_zpow_pos _).ne', zpow_add_one₀ (by norm_num)] at hc
    linarith
  have hf : log2F lg x = .fin (rnd (lg (x / 2 ^ (k + 1)) + ((k + 1 : ℤ) : ℚ))) := by
    simp only [log2F, hl, if_neg hne, add]
    rw [ofRat_fin]
    exact le_trans hb (pow_le_pow_right₀ (by norm_num) (by norm_num))
  have hm' : (0 : ℚ) ≤ m := by exact_mod_cast hm
  simp only [log2, hx, if_neg (not_le.2 h0), hf, trunc, if_neg (not_lt.2 (le_trans hm' h3)), Int.floor_intCast]
  rw [Int.floor_eq_iff.2 ⟨h3, h4⟩]

theorem log2_pow (lg : ℚ → ℚ) (a : ℤ) (k : ℕ) (hx : ofRat a = .fin (2 ^ k)) : log2 lg a = some (k : ℤ) := by
  have hl : Int.log 2 ((2 : ℚ) ^ k) = k := by
    refine log_eq _ k (by simp) ?_
    rw [zpow_add_one₀ (by norm_num), zpow_natCast]
    have : (0 : ℚ) < 2 ^ k := by positivity
    linarith
  have hne : (2 : ℚ) ^ k / 2 ^ ((k : ℤ) + 1) = 1 / 2 := by
    rw [zpow_add_one₀ (by norm_num), zpow_natCast]
    field_simp
  have hp : ¬ (2 : ℚ) ^ k ≤ 0 := not_le.2 (by positivity)
  have hk0 : ¬ ((k : ℤ) : ℚ) < 0 := not_lt.2 (by exact_mod_cast Nat.zero_le k)
  simp only [log2, hx, if_neg hp, log2F, hl, if_pos hne, trunc, add_sub_cancel_right, if_neg hk0, Int.floor_intCast]

/-- **C134 (powers of two).** The logarithm of a power of two is its exponent, whatever `math.Log` does. -/
theorem C134_pow (lg : ℚ → ℚ) (k : ℕ) (hk : k ≤ 63) : log2 lg (2 ^ k) = some (k : ℤ) := by
  have hx : ofRat ((2 ^ k : ℤ) : ℚ) = .fin (2 ^ k) := by
    push_cast
    have hr : Repr64 (2 ^ k) := by exact_mod_cast repr_two_zpow k (by omega)
    rw [ofRat_fin, rnd_fixed _ hr]
    rw [abs_of_pos (by positivity)]
    exact pow_le_pow_right₀ (by norm_num) (by omega)
  exact log2_pow lg _ k hx

theorem logb_upper (y : ℝ) (t : ℝ) (ht : 0 ≤ t) (h0 : 0 < y) (h : y ≤ 1 - t) : Real.logb 2 y ≤ -(1.44 * t) := by
  have h1 := Real.log_le_sub_one_of_pos h0
  have h2 := Real.log_two_lt_d9
  have h3 := Real.log_two_gt_d9
  rw [Real.logb, div_le_iff₀ (by linarith)]
  have : 1.44 * t * Real.log 2 ≤ 1.44 * t * 0.6931471808 := mul_le_mul_of_nonneg_left h2.le (by positivity)
  linarith

theorem logb_lower (y : ℝ) (t : ℝ) (ht : 0 ≤ t) (ht' : t ≤ 1 / 1000) (h : 1 - t ≤ y) : -(1.45 * t) ≤ Real.logb 2 y := by
  have h0 : 0 < y := by linarith
  have h1 := Real.one_sub_inv_le_log_of_pos h0
  have h3 := Real.log_two_gt_d9
  rw [Real.logb, le_div_iff₀ (by linarith)]
  have h4 : y⁻¹ ≤ 1 + 1.002 * t := by
    rw [inv_le_iff_one_le_mul₀ h0]
    have : (1 - t) * (1 + 1.002 * t) ≤ y * (1 + 1.002 * t) := mul_le_mul_of_nonneg_right h (by positivity)
    have h5 : t * t ≤ 1 / 1000 * t := mul_le_mul_of_nonneg_right ht' ht
    nlinarith
  have : 1.45 * t * 0.6931471803 ≤ 1.45 * t * Real.log 2 := mul_le_mul_of_nonneg_left h3.le (by positivity)
  linarith

/-- **C134 (partial).** Below 2^48 the result is the whole part of the logarithm. -/
theorem C134_floor_partial (lg : ℚ → ℚ) (hlg : LogOk lg) (a : ℤ) (h1 : 1 ≤ a) (h2 : a < 2 ^ 48) :
    ∃ k : ℕ, log2 lg a = some (k : ℤ) ∧ 2 ^ k ≤ a ∧ a < 2 ^ (k + 1) := by
  obtain ⟨n, rfl⟩ := Int.eq_ofNat_of_zero_le (show 0 ≤ a by omega)
  have hn : n ≠ 0 := by rintro rfl; simp at h1
  have b1 : 2 ^ Nat.log 2 n ≤ n := Nat.pow_log_le_self 2 hn
  have b2 : n < 2 ^ (Nat.log 2 n + 1) := Nat.lt_pow_succ_log_self (by norm_num) n
  have b3 : Nat.log 2 n < 48 := Nat.log_lt_of_lt_pow hn (by exact_mod_cast h2)
  generalize Nat.log 2 n = k at *
  refine ⟨k, ?_, by exact_mod_cast b1, by exact_mod_cast b2⟩
  rcases Nat.eq_or_lt_of_le b1 with he | hlt
  · rw [← he]
    exact_mod_cast C134_pow lg k (by omega)
  have hx : ofRat ((n : ℤ) : ℚ) = .fin (n : ℚ) := by
    rw [ofRat_small]
    · simp
    · rw [abs_of_nonneg (by positivity)]; linarith
  have hpk : (0 : ℚ) < 2 ^ (k + 1) := by positivity
  -- the fraction
  have hk48 : (2 : ℚ) ^ (k + 1) ≤ 2 ^ 48 := pow_le_pow_right₀ (by norm_num) (by omega)
  have y1 : (n : ℚ) / 2 ^ (k + 1) ≤ 1 - 1 / 2 ^ 48 := by
    rw [div_le_iff₀ hpk]
    have : (n : ℚ) + 1 ≤ 2 ^ (k + 1) := by exact_mod_cast b2
    have e : (1 : ℚ) / 2 ^ 48 * 2 ^ (k + 1) ≤ 1 := by
      rw [div_mul_eq_mul_div, one_mul, div_le_one (by norm_num)]; exact hk48
    linarith
  have y2 : 1 / 2 + 1 / 2 ^ 48 ≤ (n : ℚ) / 2 ^ (k + 1) := by
    rw [le_div_iff₀ hpk]
    have : (2 : ℚ) ^ k + 1 ≤ n := by exact_mod_cast hlt
    have e : (1 : ℚ) / 2 ^ 48 * 2 ^ (k + 1) ≤ 1 := by
      rw [div_mul_eq_mul_div, one_mul, div_le_one (by norm_num)]; exact hk48
    have e2 : (2 : ℚ) ^ (k + 1) = 2 * 2 ^ k := by rw [pow_succ]; ring
    linarith
  have hz : (n : ℚ) / 2 ^ ((k : ℤ) + 1) = n / 2 ^ (k + 1) := by
    rw [show ((k : ℤ) + 1) = ((k + 1 : ℕ) : ℤ) by norm_num, zpow_natCast]
  have hlog := hlg (n / 2 ^ (k + 1)) (lt_of_lt_of_le (by norm_num) y2) (lt_of_le_of_lt y1 (by norm_num))
  have q : -1 ≤ lg (n / 2 ^ (k + 1)) ∧ lg (n / 2 ^ (k + 1)) ≤ -(1.4 / 2 ^ 48) := by
    generalize (n : ℚ) / 2 ^ (k + 1) = y at *
    have y1' : (y : ℝ) ≤ 1 - 1 / 2 ^ 48 := by
      have : (y : ℝ) ≤ ((1 - 1 / 2 ^ 48 : ℚ) : ℝ) := by exact_mod_cast y1
      push_cast at this
      exact this
    have y2' : 1 / 2 + 1 / 2 ^ 48 ≤ (y : ℝ) := by
      have : ((1 / 2 + 1 / 2 ^ 48 : ℚ) : ℝ) ≤ (y : ℝ) := by exact_mod_cast y2
      push_cast at this
      exact this
    have u := logb_upper y (1 / 2 ^ 48) (by norm_num) (by linarith) y1'
    have l : -1 + 1 / 2 ^ 49 ≤ Real.logb 2 y := by
      have h0 : (0 : ℝ) < y := by linarith
      have g1 := Real.one_sub_inv_le_log_of_pos (show (0 : ℝ) < 2 * y by linarith)
      rw [Real.log_mul (by norm_num) h0.ne'] at g1
      have g2 : (2 * (y : ℝ))⁻¹ ≤ 1 - 1 / 2 ^ 49 := by
        rw [inv_le_iff_one_le_mul₀ (by linarith)]
        linarith
      have g3 := Real.log_two_gt_d9
      have g4 := Real.log_two_lt_d9
      rw [Real.logb, le_div_iff₀ (by linarith)]
      linarith
    rw [abs_of_nonpos (show Real.logb 2 (y : ℝ) ≤ 0 by linarith)] at hlog
    rw [abs_le] at hlog
    have c1 : (-1 : ℝ) ≤ lg y := by linarith [hlog.1]
    have c2 : (lg y : ℝ) ≤ -(1.4 / 2 ^ 48) := by linarith [hlog.2]
    refine ⟨by exact_mod_cast c1, ?_⟩
    have : ((lg y : ℚ) : ℝ) ≤ ((-(1.4 / 2 ^ 48) : ℚ) : ℝ) := by push_cast; exact c2
    exact_mod_cast this
  have hkq : (k : ℚ) ≤ 47 := by exact_mod_cast (show k ≤ 47 by omega)
  have hkq0 : (0 : ℚ) ≤ k := by positivity
  refine log2_of lg n n k k hx ?_ ?_ ?_ ?_ ?_ (by omega)
  · rw [zpow_natCast]; exact_mod_cast hlt
  · rw [show ((k : ℤ) + 1) = ((k + 1 : ℕ) : ℤ) by norm_num, zpow_natCast]; exact_mod_cast b2
  · rw [hz, abs_le]
    push_cast
    constructor <;> linarith [q.1, q.2]
  · rw [hz]
    push_cast
    refine le_rnd _ _ ?_ (by linarith [q.1])
    have := repr_int k (by rw [abs_of_nonneg (by omega)]; omega)
    exact_mod_cast this
  · rw [hz]
    push_cast
    generalize lg (n / 2 ^ (k + 1)) = g at *
    have r1 : Repr64 ((k : ℚ) + 1) := by
      have := repr_int (k + 1) (by rw [abs_of_nonneg (by omega)]; omega)
      exact_mod_cast this
    have r2 : Repr64 ((k : ℚ) + 1 - 1 / 2 ^ 47) := by
      refine ⟨(k + 1) * 2 ^ 47 - 1, -47, ?_, by norm_num, ?_⟩
      · rw [abs_of_nonneg (by omega)]; omega
      · push_cast
        rw [zpow_neg]
        norm_num
        ring
    have h5 : rnd (g + (k + 1)) ≤ k + 1 := rnd_le _ _ r1 (by linarith [q.2])
    refine lt_of_le_of_ne h5 fun hc => ?_
    have h6 := rnd_nearest (g + (k + 1)) _ r2
    rw [hc, show (k : ℚ) + 1 - (g + (k + 1)) = -g by ring, show (k : ℚ) + 1 - 1 / 2 ^ 47 - (g + (k + 1)) = -(g + 1 / 2 ^ 47) by ring,
      abs_neg, abs_neg, abs_of_nonpos (show g ≤ 0 by linarith [q.2])] at h6
    rcases abs_cases (g + 1 / 2 ^ 47) with ⟨e, -⟩ | ⟨e, -⟩ <;> rw [e] at h6 <;> linarith [q.2]

/-- **C134 (all numbers).** The result is the whole part of the logarithm or one more. -/
theorem C134_within (lg : ℚ → ℚ) (hlg : LogOk lg) (a : ℤ) (h1 : 1 ≤ a) (h2 : a < 2 ^ 64) :
    ∃ k : ℕ, (log2 lg a = some (k : ℤ) ∨ log2 lg a = some (k + 1 : ℤ)) ∧ 2 ^ k ≤ a ∧ a < 2 ^ (k + 1) := by
  by_cases hs : a < 2 ^ 48
  · obtain ⟨k, e, b⟩ := C134_floor_partial lg hlg a h1 hs
    exact ⟨k, Or.inl e, b⟩
  obtain ⟨n, rfl⟩ := Int.eq_ofNat_of_zero_le (show 0 ≤ a by omega)
  have hn : n ≠ 0 := by rintro rfl; simp at h1
  have b1 : 2 ^ Nat.log 2 n ≤ n := Nat.pow_log_le_self 2 hn
  have b2 : n < 2 ^ (Nat.log 2 n + 1) := Nat.lt_pow_succ_log_self (by norm_num) n
  have b3 : Nat.log 2 n < 64 := Nat.log_lt_of_lt_pow hn (by exact_mod_cast h2)
  have b4 : 48 ≤ Nat.log 2 n := (Nat.le_log_iff_pow_le (by norm_num) hn).2 (by
    have : (2 ^ 48 : ℤ) ≤ n := by omega
    exact_mod_cast this)
  generalize Nat.log 2 n = k at *
  refine ⟨k, ?_, by exact_mod_cast b1, by exact_mod_cast b2⟩
  -- the converted number
  have r1 : Repr64 ((2 : ℚ) ^ k) := by exact_mod_cast repr_two_zpow k (by omega)
  have r2 : Repr64 ((2 : ℚ) ^ (k + 1)) := by exact_mod_cast repr_two_zpow (k + 1 : ℕ) (by omega)
  have x1 : (2 : ℚ) ^ k ≤ rnd n := le_rnd _ _ r1 (by exact_mod_cast b1)
  have x2 : rnd n ≤ (2 : ℚ) ^ (k + 1) := rnd_le _ _ r2 (by exact_mod_cast b2.le)
  have hx : ofRat ((n : ℤ) : ℚ) = .fin (rnd n) := by
    rw [ofRat_fin]
    · simp
    · rw [abs_of_nonneg (by positivity)]
      have : (n : ℚ) ≤ 2 ^ (k + 1) := by exact_mod_cast b2.le
      refine le_trans (by exact_mod_cast this) (pow_le_pow_right₀ (by norm_num) (show k + 1 ≤ 1023 by omega))
  rcases x2.eq_or_lt with x2 | x2
  · -- a power of two
    right
    rw [x2] at hx
    exact_mod_cast log2_pow lg n (k + 1) hx
  rcases x1.eq_or_lt with x1 | x1
  · left
    rw [← x1] at hx
    exact log2_pow lg n k hx
  generalize rnd (n : ℚ) = x at *
  have hpk : (0 : ℚ) < 2 ^ (k + 1) := by positivity
  have e2 : (2 : ℚ) ^ (k + 1) = 2 * 2 ^ k := by rw [pow_succ]; ring
  have y1 : x / 2 ^ (k + 1) < 1 := by rwa [div_lt_one hpk]
  have y2 : 1 / 2 < x / 2 ^ (k + 1) := by
    rw [lt_div_iff₀ hpk]; linarith
  have hz : x / 2 ^ ((k : ℤ) + 1) = x / 2 ^ (k + 1) := by
    rw [show ((k : ℤ) + 1) = ((k + 1 : ℕ) : ℤ) by norm_num, zpow_natCast]
  have hlog := hlg (x / 2 ^ (k + 1)) y2 y1
  have q : -1 - 1 / 2 ^ 50 ≤ lg (x / 2 ^ (k + 1)) ∧ lg (x / 2 ^ (k + 1)) ≤ 0 := by
    generalize x / 2 ^ (k + 1) = y at *
    have y0 : (0 : ℝ) < y := by exact_mod_cast lt_trans (by norm_num) y2
    have u : Real.logb 2 y ≤ 0 := Real.logb_nonpos (by norm_num) y0.le (by exact_mod_cast y1.le)
    have l : -1 ≤ Real.logb 2 y := by
      rw [Real.le_logb_iff_rpow_le (by norm_num) y0, Real.rpow_neg_one]
      have : ((1 / 2 : ℚ) : ℝ) ≤ y := by exact_mod_cast y2.le
      push_cast at this
      linarith
    rw [abs_of_nonpos u, abs_le] at hlog
    constructor
    · have : ((-1 - 1 / 2 ^ 50 : ℚ) : ℝ) ≤ ((lg y : ℚ) : ℝ) := by push_cast; linarith [hlog.1]
      exact_mod_cast this
    · have : (lg y : ℝ) ≤ 0 := by linarith [hlog.2]
      exact_mod_cast this
  have hkq : (k : ℚ) ≤ 63 := by exact_mod_cast (show k ≤ 63 by omega)
  have hkq0 : (48 : ℚ) ≤ k := by exact_mod_cast b4
  have hlow : (k : ℚ) ≤ rnd (lg (x / 2 ^ (k + 1)) + ((k + 1 : ℤ) : ℚ)) := by
    generalize lg (x / 2 ^ (k + 1)) = g at *
    push_cast
    have rk : Repr64 (k : ℚ) := by
      have := repr_int k (by rw [abs_of_nonneg (by omega)]; omega)
      exact_mod_cast this
    by_cases hg : -1 ≤ g
    · exact le_rnd _ _ rk (by linarith)
    · have hpos : (0 : ℚ) < g + (k + 1) := by linarith [q.1]
      rw [rnd_eq _ (-47) (by norm_num) (by rw [abs_of_pos hpos]; norm_num; linarith [q.1])
        (by rw [abs_of_pos hpos]; norm_num; linarith [q.2]), rne_eq _ (k * 2 ^ 47)]
      · push_cast
        rw [zpow_neg]
        norm_num
        linarith
      · push_cast
        rw [zpow_neg, div_inv_eq_mul, abs_lt]
        norm_num
        constructor <;> linarith [q.1, q.2]
  have hup : rnd (lg (x / 2 ^ (k + 1)) + ((k + 1 : ℤ) : ℚ)) ≤ k + 1 := by
    refine rnd_le _ _ ?_ (by push_cast; linarith [q.2])
    have := repr_int (k + 1) (by rw [abs_of_nonneg (by omega)]; omega)
    exact_mod_cast this
  have hbd : |lg (x / 2 ^ ((k : ℤ) + 1)) + ((k + 1 : ℤ) : ℚ)| ≤ 2 ^ 53 := by
    rw [hz, abs_le]
    push_cast
    constructor <;> linarith [q.1, q.2]
  have g1 : (2 : ℚ) ^ (k : ℤ) < x := by rw [zpow_natCast]; exact x1
  have g2 : x < (2 : ℚ) ^ ((k : ℤ) + 1) := by
    rw [show ((k : ℤ) + 1) = ((k + 1 : ℕ) : ℤ) by norm_num, zpow_natCast]; exact x2
  rcases hup.eq_or_lt with he | hlt
  · right
    refine log2_of lg n x k (k + 1) hx g1 g2 hbd ?_ ?_ (by omega)
    · rw [hz, he]; push_cast; exact le_rfl
    · rw [hz, he]; push_cast; linarith
  · left
    refine log2_of lg n x k k hx g1 g2 hbd ?_ ?_ (by omega)
    · rw [hz]; exact_mod_cast hlow
    · rw [hz]; exact_mod_cast hlt

/-- **C134 (refuted: all whole numbers).** 2^49-1 gives 49, not 48. -/
theorem C134_above_refuted (lg : ℚ → ℚ) (hlg : LogOk lg) : log2 lg (2 ^ 49 - 1) = some 49 := by
  have hx : ofRat ((2 ^ 49 - 1 : ℤ) : ℚ) = .fin (2 ^ 49 - 1) := by
    rw [ofRat_small _ (by norm_num)]; norm_num
  have hz : (2 ^ 49 - 1 : ℚ) / 2 ^ ((48 : ℤ) + 1) = 1 - 1 / 2 ^ 49 := by norm_num
  have hlog := hlg (1 - 1 / 2 ^ 49) (by norm_num) (by norm_num)
  have q : -(1.5 / 2 ^ 49) ≤ lg (1 - 1 / 2 ^ 49) ∧ lg (1 - 1 / 2 ^ 49) < 0 := by
    have l := logb_lower ((1 - 1 / 2 ^ 49 : ℚ) : ℝ) (1 / 2 ^ 49) (by norm_num) (by norm_num) (by push_cast; norm_num)
    have u := logb_upper ((1 - 1 / 2 ^ 49 : ℚ) : ℝ) (1 / 2 ^ 49) (by norm_num) (by norm_num) (by push_cast; norm_num)
    generalize Real.logb 2 ((1 - 1 / 2 ^ 49 : ℚ) : ℝ) = L at *
    rw [abs_of_nonpos (show L ≤ 0 by linarith), abs_le] at hlog
    constructor
    · have : ((-(1.5 / 2 ^ 49) : ℚ) : ℝ) ≤ ((lg (1 - 1 / 2 ^ 49) : ℚ) : ℝ) := by push_cast; linarith [hlog.1]
      exact_mod_cast this
    · have : ((lg (1 - 1 / 2 ^ 49) : ℚ) : ℝ) < 0 := by linarith [hlog.2]
      exact_mod_cast this
  have hr : rnd (lg (1 - 1 / 2 ^ 49) + ((48 + 1 : ℤ) : ℚ)) = 49 := by
    generalize lg (1 - 1 / 2 ^ 49) = g at *
    have hpos : (0 : ℚ) < g + ((48 + 1 : ℤ) : ℚ) := by push_cast; linarith [q.1]
    rw [rnd_eq _ (-47) (by norm_num) (by rw [abs_of_pos hpos]; push_cast; norm_num; linarith [q.1])
      (by rw [abs_of_pos hpos]; push_cast; norm_num; linarith [q.2])]
    rw [rne_eq _ (49 * 2 ^ 47)]
    · push_cast; norm_num
    · push_cast
      rw [zpow_neg, div_inv_eq_mul, abs_lt]
      norm_num
      constructor <;> linarith [q.1, q.2]
  refine log2_of lg _ _ 48 49 hx (by norm_num) (by norm_num) ?_ ?_ ?_ (by norm_num)
  · rw [hz, abs_le]
    push_cast
    constructor <;> linarith [q.1, q.2]
  · rw [hz, hr]; norm_num
  · rw [hz, hr]; norm_num

/-- **C134 (refuted: all whole numbers).** From 2^54 on the number below a power of two already becomes the power when it is converted:
`Log2(math.MaxInt64)` is 63. -/
theorem C134_convert_refuted (lg : ℚ → ℚ) (k : ℕ) (h : 54 ≤ k) (h' : k ≤ 63) : log2 lg (2 ^ k - 1) = some (k : ℤ) := by
  have hx : ofRat ((2 ^ k - 1 : ℤ) : ℚ) = ofRat ((2 ^ k : ℤ) : ℚ) := by
    obtain ⟨j, rfl⟩ : ∃ j, k = 53 + j := ⟨k - 53, by omega⟩
    have hj : (2 : ℚ) ^ (53 + j) = 2 ^ 53 * 2 ^ j := pow_add _ _ _
    have hj2 : (2 : ℚ) ^ 1 ≤ 2 ^ j := pow_le_pow_right₀ (by norm_num) (by omega)
    have hp : (0 : ℚ) < 2 ^ j := by positivity
    have hq : (0 : ℚ) ≤ 2 ^ (53 + j) - 1 := by rw [hj]; linarith
    have hbig : (2 : ℚ) ^ (53 + j) ≤ 2 ^ 1023 := pow_le_pow_right₀ (by norm_num) (by omega)
    push_cast
    rw [ofRat_fin (2 ^ (53 + j)) (by rwa [abs_of_nonneg (by positivity)]),
      ofRat_fin _ (by rw [abs_of_nonneg hq]; exact le_trans (by linarith) hbig),
      rnd_fixed (2 ^ (53 + j)) (by exact_mod_cast repr_two_zpow (53 + j : ℕ) (by omega))]
    rw [rnd_eq _ j (by omega)]
    · have e : ((2 : ℚ) ^ (53 + j) - 1) / 2 ^ (j : ℤ) = 2 ^ 53 - 1 / 2 ^ j := by
        rw [zpow_natCast, hj]; field_simp
      have hrne : rne (2 ^ 53 - 1 / 2 ^ j) = 2 ^ 53 := by
        by_cases h1 : j = 1
        · subst h1
          have := rne_half (2 ^ 53 - 1) (by norm_num)
          push_cast at this
          rw [show (2 : ℚ) ^ 53 - 1 / 2 ^ 1 = 9007199254740991 + 1 / 2 by norm_num, this]
          norm_num
        · refine rne_eq _ _ ?_
          have h4 : (2 : ℚ) ^ 2 ≤ 2 ^ j := pow_le_pow_right₀ (by norm_num) (by omega)
          have h5 : (1 : ℚ) / 2 ^ j ≤ 1 / 2 ^ 2 := one_div_le_one_div_of_le (by norm_num) h4
          push_cast
          rw [show (9007199254740992 : ℚ) - (2 ^ 53 - 1 / 2 ^ j) = 1 / 2 ^ j by ring, abs_of_pos (by positivity)]
          linarith
      rw [e, hrne, zpow_natCast, hj]
      push_cast
      rfl
    · rw [abs_of_nonneg hq, show (j : ℤ) + 52 = ((52 + j : ℕ) : ℤ) by push_cast; ring, zpow_natCast, hj, pow_add]
      linarith
    · rw [abs_of_nonneg hq, show (j : ℤ) + 53 = ((53 + j : ℕ) : ℤ) by push_cast; ring, zpow_natCast]
      linarith
  have := C134_pow lg k h'
  unfold log2 at this ⊢
  rw [hx]
  exact this

/-- **C134 (refuted: every number).** For zero and negative numbers nothing is defined. -/
theorem C134_undefined_refuted (lg : ℚ → ℚ) (a : ℤ) (h : a ≤ 0) (h' : -2 ^ 63 ≤ a) : log2 lg a = none := by
  have h1 : (a : ℚ) ≤ 0 := by exact_mod_cast h
  have h2 : (-2 ^ 63 : ℚ) ≤ a := by exact_mod_cast h'
  have hx : ofRat (a : ℚ) = .fin (rnd a) := by
    rw [ofRat_fin]
    rw [abs_of_nonpos h1]
    exact le_trans (show -(a : ℚ) ≤ 2 ^ 63 by linarith) (pow_le_pow_right₀ (by norm_num) (by norm_num))
  have h0 : rnd (a : ℚ) ≤ 0 := rnd_le _ _ ⟨0, 0, by norm_num, by norm_num, by norm_num⟩ h1
  simp only [log2, hx, if_pos h0]

/-- There are such approximations of the logarithm. -/
example : ∃ lg, LogOk lg := by
  have : ∀ y : ℚ, ∃ q : ℚ, 1 / 2 < y → y < 1 → |(q : ℝ) - Real.logb 2 y| ≤ |Real.logb 2 y| / 2 ^ 50 := by
    intro y
    by_cases h : 1 / 2 < y ∧ y < 1
    · have h0 : (0 : ℝ) < y := by exact_mod_cast lt_trans (by norm_num) h.1
      have h1 : Real.logb 2 y < 0 := Real.logb_neg (by norm_num) h0 (by exact_mod_cast h.2)
      obtain ⟨q, q1, q2⟩ := exists_rat_btwn (show Real.logb 2 y < Real.logb 2 y + |Real.logb 2 y| / 2 ^ 50 by
        have := abs_pos.2 h1.ne
        linarith [show 0 < |Real.logb 2 (y : ℝ)| / 2 ^ 50 by positivity])
      exact ⟨q, fun _ _ => by rw [abs_of_pos (by linarith)]; linarith⟩
    · exact ⟨0, fun a b => absurd ⟨a, b⟩ h⟩
  choose lg hlg using this
  exact ⟨lg, hlg⟩

example : log2 (fun _ => -1 / 2) 3 = some 1 := by
  refine log2_of _ 3 3 1 1 (by exact_mod_cast ofRat_small 3 (by norm_num)) (by norm_num) (by norm_num) (by norm_num) ?_ ?_ (by norm_num)
  · exact le_rnd _ _ (by exact_mod_cast repr_int 1 (by norm_num)) (by norm_num)
  · rw [show (-1 / 2 : ℚ) + ((1 + 1 : ℤ) : ℚ) = 3 / 2 by norm_num, rnd_fixed _ ⟨3, -1, by norm_num, by norm_num, by norm_num⟩]
    norm_num

end Verif.Math
