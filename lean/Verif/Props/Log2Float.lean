import Verif.Model.Log2Float
import Verif.Props.Log2

/-! # C186: `Log2` of a `float64` -/

namespace Verif.Math

open F64

/-! ## Rounding -/

theorem rnd_mono {q q' : ℚ} (h : q ≤ q') : rnd q ≤ rnd q' := by
  by_contra hc
  have hc := not_le.1 hc
  have h1 : q' < rnd q := by
    by_contra h1
    exact absurd (le_rnd q' (rnd q) (repr_rnd q) (not_lt.1 h1)) (not_le.2 hc)
  have h2 : rnd q' < q := by
    by_contra h2
    exact absurd (rnd_le q (rnd q') (repr_rnd q') (not_lt.1 h2)) (not_le.2 hc)
  have h3 := rnd_nearest q (rnd q') (repr_rnd q')
  have h4 := rnd_nearest q' (rnd q) (repr_rnd q)
  rw [abs_of_pos (by linarith), abs_of_neg (by linarith)] at h3
  rw [abs_of_neg (by linarith), abs_of_pos (by linarith)] at h4
  have : q = q' := by linarith
  rw [this] at hc
  exact absurd hc (lt_irrefl _)

/-! ## The parts of a number -/

/-- The bounds of the exponent. -/
theorem exp_bounds {x : ℚ} (hr : Repr64 x) (h0 : 0 < x) (h1 : x < 2 ^ 1024) : -1074 ≤ Int.log 2 x ∧ Int.log 2 x ≤ 1023 := by
  have hge : (2 : ℚ) ^ (-1074 : ℤ) ≤ x := by
    obtain ⟨m, e, -, he, rfl⟩ := hr
    have hpe := two_zpow_pos e
    have hm0 : 0 < m := by
      have : (0 : ℚ) < m := by
        by_contra hc
        exact absurd h0 (not_lt.2 (mul_nonpos_of_nonpos_of_nonneg (not_lt.1 hc) hpe.le))
      exact_mod_cast this
    have a1 : (2 : ℚ) ^ (-1074 : ℤ) ≤ 2 ^ e := zpow_le_zpow_right₀ (by norm_num) he
    have a2 : (1 : ℚ) ≤ m := by exact_mod_cast hm0
    nlinarith
  have a := (Int.zpow_le_iff_le_log (b := 2) (by norm_num) h0).1 (by exact_mod_cast hge)
  have b := (Int.lt_zpow_iff_log_lt (b := 2) (x := 1024) (by norm_num) h0).1 (by exact_mod_cast h1)
  omega

/-- The fraction lies between 1/2 and 1. -/
theorem frac_bounds {x : ℚ} (h0 : 0 < x) : 1 / 2 ≤ x / 2 ^ (Int.log 2 x + 1) ∧ x / 2 ^ (Int.log 2 x + 1) < 1 := by
  have h1 : (2 : ℚ) ^ Int.log 2 x ≤ x := by exact_mod_cast Int.zpow_log_le_self (b := 2) (by norm_num) h0
  have h2 : x < (2 : ℚ) ^ (Int.log 2 x + 1) := by exact_mod_cast Int.lt_zpow_succ_log_self (b := 2) (by norm_num) x
  have hp := two_zpow_pos (Int.log 2 x + 1)
  refine ⟨?_, (div_lt_one hp).2 h2⟩
  rw [le_div_iff₀ hp, zpow_add_one₀ (by norm_num)]
  linarith

/-- **C186 (powers of two).** The logarithm of a power of two, the least and the subnormal ones included, is its exponent, whatever `math.Log` does. -/
theorem C186_pow (lg : ℚ → ℚ) (e : ℤ) : log2Float lg (.fin (2 ^ e)) = .fin e := by
  have hp := two_zpow_pos e
  have hl : Int.log 2 ((2 : ℚ) ^ e) = e := by
    refine log_eq _ e le_rfl ?_
    rw [zpow_add_one₀ (by norm_num)]
    linarith
  have hne : (2 : ℚ) ^ e / 2 ^ (e + 1) = 1 / 2 := by
    rw [zpow_add_one₀ (by norm_num)]
    field_simp
  simp only [log2Float, if_neg (not_lt.2 hp.le), if_neg hp.ne', log2F, hl, if_pos hne, add_sub_cancel_right]

/-- **C186 (special cases).** -/
theorem C186_special (lg : ℚ → ℚ) : log2Float lg .nan = .nan ∧ log2Float lg (.inf true) = .nan ∧ log2Float lg (.inf false) = .inf false ∧ log2Float lg (.fin 0) = .inf true ∧
    ∀ x : ℚ, x < 0 → log2Float lg (.fin x) = .nan := by
  refine ⟨rfl, rfl, rfl, by simp [log2Float], fun x h => ?_⟩
  simp only [log2Float, if_pos h]

/-- The result for a number that is no power of two. -/
theorem log2Float_of (lg : ℚ → ℚ) {x : ℚ} (h0 : 0 < x) (hb : |lg (x / 2 ^ (Int.log 2 x + 1)) + ((Int.log 2 x + 1 : ℤ) : ℚ)| ≤ 2 ^ 53) (hne : x / 2 ^ (Int.log 2 x + 1) ≠ 1 / 2) :
    log2Float lg (.fin x) = .fin (rnd (lg (x / 2 ^ (Int.log 2 x + 1)) + ((Int.log 2 x + 1 : ℤ) : ℚ))) := by
  simp only [log2Float, if_neg (not_lt.2 h0.le), if_neg h0.ne', log2F, if_neg hne, add]
  rw [ofRat_fin]
  exact le_trans hb (pow_le_pow_right₀ (by norm_num) (by norm_num))

theorem pow_of_half {x : ℚ} (h : x / 2 ^ (Int.log 2 x + 1) = 1 / 2) : x = 2 ^ Int.log 2 x := by
  rw [div_eq_iff (two_zpow_pos _).ne', zpow_add_one₀ (by norm_num)] at h
  linarith

/-- What is needed of `math.Log` for the order: on the fractions it does not decrease and lies between -1 and 0. -/
def LogMono (lg : ℚ → ℚ) : Prop :=
  (∀ y, 1 / 2 < y → y < 1 → -1 ≤ lg y ∧ lg y ≤ 0) ∧ ∀ y y', 1 / 2 < y → y ≤ y' → y' < 1 → lg y ≤ lg y'

/-- Between the exponent and the next whole number. -/
theorem log2Float_between {lg : ℚ → ℚ} (hlg : LogMono lg) {x : ℚ} (hr : Repr64 x) (h0 : 0 < x) (h1 : x < 2 ^ 1024) :
    ∃ r : ℚ, log2Float lg (.fin x) = .fin r ∧ (Int.log 2 x : ℚ) ≤ r ∧ r ≤ Int.log 2 x + 1 := by
  obtain ⟨b1, b2⟩ := exp_bounds hr h0 h1
  obtain ⟨f1, f2⟩ := frac_bounds h0
  by_cases hne : x / 2 ^ (Int.log 2 x + 1) = 1 / 2
  · refine ⟨Int.log 2 x, ?_, le_rfl, by linarith⟩
    rw [pow_of_half hne, C186_pow, ← pow_of_half hne]
  · obtain ⟨g1, g2⟩ := hlg.1 _ (lt_of_le_of_ne f1 (Ne.symm hne)) f2
    have b1' : (-1074 : ℚ) ≤ Int.log 2 x := by exact_mod_cast b1
    have b2' : (Int.log 2 x : ℚ) ≤ 1023 := by exact_mod_cast b2
    have hc : ((Int.log 2 x + 1 : ℤ) : ℚ) = Int.log 2 x + 1 := by push_cast; ring
    refine ⟨_, log2Float_of lg h0 ?_ hne, ?_, ?_⟩
    · rw [hc, abs_le]; constructor <;> norm_num <;> linarith
    · refine le_rnd _ _ (repr_int _ ?_) (by rw [hc]; linarith)
      rw [abs_le]; constructor <;> norm_num <;> omega
    · rw [← hc]
      refine rnd_le _ _ (repr_int _ ?_) (by linarith)
      rw [abs_le]; constructor <;> norm_num <;> omega

/-- **C186 (order).** If `math.Log` keeps the order of the fractions, `Log2` keeps the order of all positive numbers. -/
theorem C186_mono {lg : ℚ → ℚ} (hlg : LogMono lg) {x x' : ℚ} (hr : Repr64 x) (hr' : Repr64 x') (h0 : 0 < x) (hx : x ≤ x') (h1 : x' < 2 ^ 1024) :
    ∃ r r' : ℚ, log2Float lg (.fin x) = .fin r ∧ log2Float lg (.fin x') = .fin r' ∧ r ≤ r' := by
  obtain ⟨r, e, a1, a2⟩ := log2Float_between hlg hr h0 (lt_of_le_of_lt hx h1)
  obtain ⟨r', e', a1', a2'⟩ := log2Float_between hlg hr' (lt_of_lt_of_le h0 hx) h1
  refine ⟨r, r', e, e', ?_⟩
  have hl : Int.log 2 x ≤ Int.log 2 x' := Int.log_mono_right h0 hx
  by_cases hlt : Int.log 2 x < Int.log 2 x'
  · have : (Int.log 2 x + 1 : ℚ) ≤ Int.log 2 x' := by exact_mod_cast hlt
    linarith
  · have heq : Int.log 2 x' = Int.log 2 x := by omega
    obtain ⟨f1, f2⟩ := frac_bounds h0
    obtain ⟨f1', f2'⟩ := frac_bounds (lt_of_lt_of_le h0 hx)
    by_cases hne : x / 2 ^ (Int.log 2 x + 1) = 1 / 2
    · have e2 := e
      rw [pow_of_half hne, C186_pow] at e2
      cases e2
      rw [← heq]
      exact a1'
    · have hff : x / 2 ^ (Int.log 2 x + 1) ≤ x' / 2 ^ (Int.log 2 x' + 1) := by
        rw [heq]; exact div_le_div_of_nonneg_right hx (two_zpow_pos _).le
      have hlt1 := lt_of_le_of_ne f1 (Ne.symm hne)
      have hne' : x' / 2 ^ (Int.log 2 x' + 1) ≠ 1 / 2 := ne_of_gt (lt_of_lt_of_le hlt1 hff)
      obtain ⟨b1, b2⟩ := exp_bounds hr h0 (lt_of_le_of_lt hx h1)
      have b1' : (-1074 : ℚ) ≤ Int.log 2 x := by exact_mod_cast b1
      have b2' : (Int.log 2 x : ℚ) ≤ 1023 := by exact_mod_cast b2
      have hc : ((Int.log 2 x + 1 : ℤ) : ℚ) = Int.log 2 x + 1 := by push_cast; ring
      obtain ⟨g1, g2⟩ := hlg.1 _ hlt1 f2
      obtain ⟨g1', g2'⟩ := hlg.1 _ (lt_of_lt_of_le hlt1 hff) f2'
      have hm := hlg.2 _ _ hlt1 hff f2'
      rw [log2Float_of lg h0 (by rw [hc, abs_le]; constructor <;> norm_num <;> linarith) hne] at e
      rw [log2Float_of lg (lt_of_lt_of_le h0 hx) (by rw [heq, hc] at *; rw [abs_le]; constructor <;> norm_num <;> linarith) hne'] at e'
      cases e
      cases e'
      refine rnd_mono ?_
      rw [heq] at *
      linarith

/-- The sign is right: numbers from 1 on have a logarithm from 0 on, and smaller ones one up to 0. -/
theorem C186_sign {lg : ℚ → ℚ} (hlg : LogMono lg) {x : ℚ} (hr : Repr64 x) (h0 : 0 < x) (h1 : x < 2 ^ 1024) :
    ∃ r : ℚ, log2Float lg (.fin x) = .fin r ∧ (1 ≤ x → 0 ≤ r) ∧ (x ≤ 1 → r ≤ 0) := by
  obtain ⟨r, e, a1, a2⟩ := log2Float_between hlg hr h0 h1
  have h2 := C186_pow lg 0
  have hone : Repr64 1 := by simpa using repr_two_zpow 0 (by norm_num)
  have hp : log2Float lg (.fin 1) = .fin 0 := by simpa using h2
  refine ⟨r, e, fun h => ?_, fun h => ?_⟩
  · obtain ⟨s, s', e1, e2, hs⟩ := C186_mono hlg hone hr one_pos h h1
    rw [hp] at e1; rw [e] at e2; cases e1; cases e2
    exact hs
  · obtain ⟨s, s', e1, e2, hs⟩ := C186_mono hlg hr hone h0 h (one_lt_pow₀ (by norm_num) (by norm_num))
    rw [hp] at e2; rw [e] at e1; cases e1; cases e2
    exact hs

/-- **C186 (accuracy).** With `math.Log` as in C134 the result differs from the logarithm by no more than 2^-49 and half a last place. -/
theorem C186_near {lg : ℚ → ℚ} (hlg : LogOk lg) {x : ℚ} (hr : Repr64 x) (h0 : 0 < x) (h1 : x < 2 ^ 1024) :
    ∃ r : ℚ, log2Float lg (.fin x) = .fin r ∧ |(r : ℝ) - Real.logb 2 x| ≤ 1 / 2 ^ 49 + |Real.logb 2 x| / 2 ^ 53 := by
  obtain ⟨b1, b2⟩ := exp_bounds hr h0 h1
  obtain ⟨f1, f2⟩ := frac_bounds h0
  have hx0 : (0 : ℝ) < x := by exact_mod_cast h0
  by_cases hne : x / 2 ^ (Int.log 2 x + 1) = 1 / 2
  · refine ⟨Int.log 2 x, ?_, ?_⟩
    · rw [pow_of_half hne, C186_pow, ← pow_of_half hne]
    · have hx : (x : ℝ) = (2 : ℝ) ^ Int.log 2 x := by
        have := congrArg (fun q : ℚ => (q : ℝ)) (pow_of_half hne)
        push_cast at this
        exact this
      have hl : Real.logb 2 x = Int.log 2 x := by
        conv_lhs => rw [hx]
        rw [← Real.rpow_intCast, Real.logb_rpow (by norm_num) (by norm_num)]
      rw [hl]
      have : (0 : ℝ) ≤ |((Int.log 2 x : ℤ) : ℝ)| := abs_nonneg _
      push_cast
      rw [sub_self, abs_zero]
      positivity
  · have hlt := lt_of_le_of_ne f1 (Ne.symm hne)
    have hy := hlg _ hlt f2
    obtain ⟨y, hy0⟩ : ∃ y, y = x / 2 ^ (Int.log 2 x + 1) := ⟨_, rfl⟩
    obtain ⟨k, hk⟩ : ∃ k, k = Int.log 2 x := ⟨_, rfl⟩
    have hq := log2Float_of lg h0 (x := x)
    rw [← hk] at hy0 hq b1 b2 hne hlt f2 hy
    rw [← hy0] at hq hne hlt f2 hy
    have hc : ((k + 1 : ℤ) : ℚ) = k + 1 := by push_cast; ring
    have hyr0 : (0 : ℝ) < y := by
      have : (0 : ℚ) < y := by linarith
      exact_mod_cast this
    have hyr1 : (y : ℝ) < 1 := by exact_mod_cast f2
    have hyr2 : (1 / 2 : ℝ) < y := by
      have : ((1 / 2 : ℚ) : ℝ) < (y : ℝ) := by exact_mod_cast hlt
      simpa using this
    have hL0 : Real.logb 2 y < 0 := Real.logb_neg (by norm_num) hyr0 hyr1
    have hL1 : -1 < Real.logb 2 y := by
      rw [Real.lt_logb_iff_rpow_lt (by norm_num) hyr0]
      norm_num
      linarith
    have hxy : Real.logb 2 x = Real.logb 2 y + (k + 1) := by
      have : (x : ℝ) = y * (2 : ℝ) ^ (k + 1) := by
        have h3 : x = y * 2 ^ (k + 1) := by
          rw [hy0, div_mul_cancel₀ _ (two_zpow_pos _).ne']
        have := congrArg (fun q : ℚ => (q : ℝ)) h3
        push_cast at this
        exact this
      rw [this, Real.logb_mul hyr0.ne' (by positivity), ← Real.rpow_intCast, Real.logb_rpow (by norm_num) (by norm_num)]
      push_cast
      ring
    obtain ⟨q, hq0⟩ : ∃ q, q = lg y + ((k + 1 : ℤ) : ℚ) := ⟨_, rfl⟩
    rw [← hq0] at hq
    have hqL : |(q : ℝ) - Real.logb 2 x| ≤ 1 / 2 ^ 50 := by
      rw [hxy, hq0]
      push_cast
      have e1 : (lg y : ℝ) + (k + 1) - (Real.logb 2 y + (k + 1)) = lg y - Real.logb 2 y := by ring
      rw [e1]
      refine le_trans hy ?_
      rw [abs_of_neg hL0]
      have : -Real.logb 2 y / 2 ^ 50 ≤ 1 / 2 ^ 50 := div_le_div_of_nonneg_right (by linarith) (by positivity)
      exact this
    have hlgb : |lg y| ≤ 2 := by
      have : |(lg y : ℝ)| ≤ 2 := by
        rw [abs_of_neg hL0] at hy
        rw [abs_le] at hy ⊢
        have h5 : -Real.logb 2 y / 2 ^ 50 ≤ 1 := by
          rw [div_le_one (by positivity)]
          have : (1 : ℝ) ≤ 2 ^ 50 := by norm_num
          linarith
        constructor <;> linarith
      exact_mod_cast this
    have b1' : (-1074 : ℚ) ≤ k := by exact_mod_cast b1
    have b2' : (k : ℚ) ≤ 1023 := by exact_mod_cast b2
    refine ⟨rnd q, hq ?_ hne, ?_⟩
    · rw [hq0, hc]
      rw [abs_le] at hlgb ⊢
      constructor <;> norm_num <;> linarith
    · have hrq : |(rnd q : ℝ) - q| ≤ |(q : ℝ)| / 2 ^ 53 + 1 / 2 ^ 60 := by
        have : |rnd q - q| ≤ |q| / 2 ^ 53 + 1 / 2 ^ 60 := by
          by_cases hs : (2 : ℚ) ^ (-1022 : ℤ) ≤ |q|
          · have := rnd_err q hs
            have : (0 : ℚ) ≤ 1 / 2 ^ 60 := by positivity
            linarith
          · have h6 := rnd_nearest q 0 (by simpa using repr_int 0 (by norm_num))
            rw [zero_sub, abs_neg] at h6
            have h7 : (2 : ℚ) ^ (-1022 : ℤ) ≤ 1 / 2 ^ 60 :=
              le_trans (zpow_le_zpow_right₀ (by norm_num) (show (-1022 : ℤ) ≤ -60 by norm_num)) (by norm_num)
            have : (0 : ℚ) ≤ |q| / 2 ^ 53 := by positivity
            linarith [not_le.1 hs]
        have h13 := (Rat.cast_le (K := ℝ)).2 this
        push_cast at h13
        exact h13
      have h8 : |(q : ℝ)| ≤ |Real.logb 2 x| + 1 / 2 ^ 50 := by
        have := abs_sub_abs_le_abs_sub (q : ℝ) (Real.logb 2 x)
        linarith
      have h9 : |(rnd q : ℝ) - Real.logb 2 x| ≤ |(rnd q : ℝ) - q| + |(q : ℝ) - Real.logb 2 x| := abs_sub_le _ _ _
      have h10 : |(q : ℝ)| / 2 ^ 53 ≤ (|Real.logb 2 x| + 1 / 2 ^ 50) / 2 ^ 53 := div_le_div_of_nonneg_right h8 (by positivity)
      have h11 : (|Real.logb 2 x| + 1 / 2 ^ 50) / 2 ^ 53 = |Real.logb 2 x| / 2 ^ 53 + 1 / 2 ^ 103 := by
        rw [add_div]; norm_num
      have h12 : (1 : ℝ) / 2 ^ 103 + 1 / 2 ^ 60 + 1 / 2 ^ 50 ≤ 1 / 2 ^ 49 := by norm_num
      linarith

/-- **C186 (refuted: right up to a few last places).** The number next to 1 has a logarithm that is wrong by more than three percent, whatever `math.Log` is, since its result for the fraction, near -1, is a `float64`. -/
theorem C186_relative_refuted {lg : ℚ → ℚ} (hlg : LogOk lg) (hr : Repr64 (lg ((1 + 1 / 2 ^ 52) / 2))) :
    ∃ r : ℚ, log2Float lg (.fin (1 + 1 / 2 ^ 52)) = .fin r ∧ 0 < Real.logb 2 (1 + 1 / 2 ^ 52) ∧ Real.logb 2 (1 + 1 / 2 ^ 52) / 30 ≤ |(r : ℝ) - Real.logb 2 (1 + 1 / 2 ^ 52)| := by
  have hlog : Int.log 2 (1 + 1 / 2 ^ 52 : ℚ) = 0 := log_eq _ 0 (by norm_num) (by norm_num)
  obtain ⟨y, hy⟩ : ∃ y : ℚ, y = (1 + 1 / 2 ^ 52) / 2 := ⟨_, rfl⟩
  have hok := hlg y (by rw [hy]; norm_num) (by rw [hy]; norm_num)
  have h2a := Real.log_two_gt_d9
  have h2b := Real.log_two_lt_d9
  obtain ⟨t, ht⟩ : ∃ t : ℝ, t = 1 / 2 ^ 52 := ⟨_, rfl⟩
  have ht0 : 0 < t := by rw [ht]; positivity
  have ht1 : t ≤ 1 / 10000 := by rw [ht]; norm_num
  have hup : Real.logb 2 (1 + t) ≤ 1.443 * t := by
    rw [Real.logb, div_le_iff₀ (by linarith)]
    have h3 := Real.log_le_sub_one_of_pos (show 0 < 1 + t by linarith)
    have h4 : 1.443 * t * 0.6931471803 ≤ 1.443 * t * Real.log 2 := mul_le_mul_of_nonneg_left h2a.le (by positivity)
    linarith
  have hlo : 1.442 * t ≤ Real.logb 2 (1 + t) := by
    rw [Real.logb, le_div_iff₀ (by linarith)]
    have h3 := Real.one_sub_inv_le_log_of_pos (show 0 < 1 + t by linarith)
    have h4 : 1.442 * t * Real.log 2 ≤ 1.442 * t * 0.6931471808 := mul_le_mul_of_nonneg_left h2b.le (by positivity)
    have h5 : (1 + t)⁻¹ ≤ 1 - 0.9999 * t := by
      rw [inv_le_iff_one_le_mul₀ (by linarith)]
      nlinarith
    linarith
  have hyL : Real.logb 2 y = Real.logb 2 (1 + t) - 1 := by
    have : (y : ℝ) = (1 + t) / 2 := by rw [hy, ht]; push_cast; ring
    rw [this, Real.logb_div (by positivity) (by norm_num), Real.logb_self_eq_one (by norm_num)]
  have hl1 : -2 < lg y ∧ lg y < -1 / 2 := by
    rw [hyL] at hok
    have h6 : |Real.logb 2 (1 + t) - 1| ≤ 1 := by rw [abs_le]; constructor <;> linarith
    have h7 : |Real.logb 2 (1 + t) - 1| / 2 ^ 50 ≤ 1 / 10 := by
      rw [div_le_iff₀ (by positivity)]
      norm_num
      linarith
    have h8 := abs_le.1 (le_trans hok h7)
    have a1 : (-2 : ℝ) < lg y := by linarith
    have a2 : (lg y : ℝ) < -1 / 2 := by linarith
    exact ⟨by exact_mod_cast a1, by
      have : (lg y : ℝ) < ((-1 / 2 : ℚ) : ℝ) := by push_cast; linarith
      exact_mod_cast this⟩
  obtain ⟨j, hj⟩ : ∃ j : ℤ, lg y + 1 = j * 2 ^ (-53 : ℤ) := by
    rw [← hy] at hr
    obtain ⟨m, e, hm, -, he⟩ := hr
    have he53 : -53 ≤ e := by
      by_contra hc
      have h9 : (2 : ℚ) ^ e ≤ 2 ^ (-54 : ℤ) := zpow_le_zpow_right₀ (by norm_num) (by omega)
      have h10 : |(m : ℚ)| ≤ 2 ^ 53 := by exact_mod_cast hm
      have h11 : |lg y| ≤ 1 / 2 := by
        rw [he, abs_mul, abs_of_pos (two_zpow_pos e)]
        calc |(m : ℚ)| * 2 ^ e ≤ 2 ^ 53 * 2 ^ (-54 : ℤ) := mul_le_mul h10 h9 (two_zpow_pos e).le (by positivity)
          _ = 1 / 2 := by norm_num
      have := (abs_le.1 h11).1
      linarith [hl1.2]
    obtain ⟨d, hd⟩ := Int.eq_ofNat_of_zero_le (show 0 ≤ e + 53 by omega)
    refine ⟨m * 2 ^ d + 2 ^ 53, ?_⟩
    rw [he, show e = (d : ℤ) + (-53) by omega, zpow_add₀ (by norm_num), zpow_natCast]
    push_cast
    norm_num
    ring
  have hq : lg ((1 + 1 / 2 ^ 52) / 2 ^ (Int.log 2 (1 + 1 / 2 ^ 52 : ℚ) + 1)) + ((Int.log 2 (1 + 1 / 2 ^ 52 : ℚ) + 1 : ℤ) : ℚ) = j * 2 ^ (-53 : ℤ) := by
    rw [hlog, ← hj, hy]
    norm_num
  have hjq : |(j : ℚ) * 2 ^ (-53 : ℤ)| ≤ 1 := by
    rw [← hj, abs_le]; constructor <;> linarith [hl1.1, hl1.2]
  have hjr : Repr64 ((j : ℚ) * 2 ^ (-53 : ℤ)) := by
    refine ⟨j, -53, ?_, by norm_num, rfl⟩
    rw [abs_mul, abs_of_pos (two_zpow_pos _)] at hjq
    have : |(j : ℚ)| ≤ 2 ^ 53 := by
      have h12 : (2 : ℚ) ^ (-53 : ℤ) = 1 / 2 ^ 53 := by norm_num
      rw [h12, mul_one_div, div_le_one (by positivity)] at hjq
      exact hjq
    exact_mod_cast this
  have hres := log2Float_of lg (x := 1 + 1 / 2 ^ 52) (by norm_num) (by rw [hq]; exact le_trans hjq (by norm_num)) (by rw [hlog]; norm_num)
  rw [hq, rnd_fixed _ hjr] at hres
  rw [show (1 : ℝ) + 1 / 2 ^ 52 = 1 + t by rw [ht]]
  refine ⟨_, hres, by linarith [mul_pos (show (0 : ℝ) < 1.442 by norm_num) ht0], ?_⟩
  have hcast : (((j : ℚ) * 2 ^ (-53 : ℤ) : ℚ) : ℝ) = j * (t / 2) := by
    rw [ht]; push_cast; norm_num
  rw [hcast]
  rcases le_or_gt j 2 with h13 | h13
  · have h14 : (j : ℝ) ≤ 2 := by exact_mod_cast h13
    have h15 : (j : ℝ) * (t / 2) ≤ 2 * (t / 2) := mul_le_mul_of_nonneg_right h14 (by positivity)
    rw [abs_of_neg (by linarith)]
    linarith
  · have h14 : (3 : ℝ) ≤ j := by exact_mod_cast h13
    have h15 : 3 * (t / 2) ≤ (j : ℝ) * (t / 2) := mul_le_mul_of_nonneg_right h14 (by positivity)
    rw [abs_of_pos (by linarith)]
    linarith

/-- A logarithm as `C186_relative_refuted` wants it. -/
example : ∃ lg : ℚ → ℚ, LogOk lg ∧ Repr64 (lg ((1 + 1 / 2 ^ 52) / 2)) := by
  classical
  have key : ∀ y : ℚ, 1 / 2 < y → y < 1 → ∃ q : ℚ, |(q : ℝ) - Real.logb 2 y| ≤ |Real.logb 2 y| / 2 ^ 52 := by
    intro y h1 h2
    have hy0 : (0 : ℝ) < y := by
      have : (0 : ℚ) < y := by linarith
      exact_mod_cast this
    have hL : Real.logb 2 y < 0 := Real.logb_neg (by norm_num) hy0 (by exact_mod_cast h2)
    obtain ⟨q, a1, a2⟩ := exists_rat_btwn (show Real.logb 2 y < Real.logb 2 y + |Real.logb 2 y| / 2 ^ 52 by
      have : 0 < |Real.logb 2 y| / 2 ^ 52 := div_pos (abs_pos.2 hL.ne) (by positivity)
      linarith)
    exact ⟨q, by rw [abs_of_pos (by linarith)]; linarith⟩
  choose! f hf using key
  obtain ⟨y0, hy0⟩ : ∃ y : ℚ, y = (1 + 1 / 2 ^ 52) / 2 := ⟨_, rfl⟩
  refine ⟨fun y => if y = y0 then rnd (f y) else f y, fun y h1 h2 => ?_, ?_⟩
  · have h3 := hf y h1 h2
    have h4 : |Real.logb 2 y| / 2 ^ 52 ≤ |Real.logb 2 y| / 2 ^ 50 := div_le_div_of_nonneg_left (abs_nonneg _) (by positivity) (by norm_num)
    dsimp only
    split
    · rename_i he
      subst he
      have hyr : (y : ℝ) = (1 + 1 / 2 ^ 52) / 2 := by rw [hy0]; push_cast; ring
      have hL : Real.logb 2 y ≤ -(1.44 * (1 / 4)) := logb_upper y (1 / 4) (by norm_num) (by rw [hyr]; positivity) (by rw [hyr]; norm_num)
      have habs : |Real.logb 2 y| = -Real.logb 2 y := abs_of_neg (by linarith)
      have h5 : |(f y : ℝ)| ≤ 2 * |Real.logb 2 y| := by
        have := abs_sub_abs_le_abs_sub (f y : ℝ) (Real.logb 2 y)
        have : |Real.logb 2 y| / 2 ^ 52 ≤ |Real.logb 2 y| := div_le_self (abs_nonneg _) (by norm_num)
        linarith
      have h6 : 1 / 4 ≤ |(f y : ℝ)| := by
        have := abs_sub_abs_le_abs_sub (Real.logb 2 y) (f y : ℝ)
        rw [abs_sub_comm] at this
        have : |Real.logb 2 y| / 2 ^ 52 ≤ |Real.logb 2 y| / 4 := div_le_div_of_nonneg_left (abs_nonneg _) (by norm_num) (by norm_num)
        linarith
      have h7 : |rnd (f y) - f y| ≤ |f y| / 2 ^ 53 := by
        refine rnd_err _ ?_
        have : (1 / 4 : ℚ) ≤ |f y| := by
          have : ((1 / 4 : ℚ) : ℝ) ≤ ((|f y| : ℚ) : ℝ) := by push_cast; linarith
          exact_mod_cast this
        exact le_trans (le_trans (zpow_le_zpow_right₀ (by norm_num) (show (-1022 : ℤ) ≤ -2 by norm_num)) (by norm_num)) this
      have h8 := (Rat.cast_le (K := ℝ)).2 h7
      push_cast at h8
      have h9 : |(rnd (f y) : ℝ) - Real.logb 2 y| ≤ |(rnd (f y) : ℝ) - f y| + |(f y : ℝ) - Real.logb 2 y| := abs_sub_le _ _ _
      have h10 : |(f y : ℝ)| / 2 ^ 53 ≤ |Real.logb 2 y| / 2 ^ 52 := by
        rw [div_le_div_iff₀ (by positivity) (by positivity)]
        nlinarith [abs_nonneg (Real.logb 2 y)]
      have h11 : |Real.logb 2 y| / 2 ^ 52 + |Real.logb 2 y| / 2 ^ 52 ≤ |Real.logb 2 y| / 2 ^ 50 := by
        have : |Real.logb 2 y| / 2 ^ 50 = 4 * (|Real.logb 2 y| / 2 ^ 52) := by ring
        have : 0 ≤ |Real.logb 2 y| / 2 ^ 52 := div_nonneg (abs_nonneg _) (by norm_num)
        linarith
      linarith
    · linarith
  · rw [← hy0]
    dsimp only
    rw [if_pos rfl]
    exact repr_rnd _

/-- A logarithm as `LogMono` wants it: the chord. -/
example : LogMono fun y => 2 * y - 2 :=
  ⟨fun y h1 h2 => ⟨by linarith, by linarith⟩, fun y y' _ h _ => by linarith⟩

end Verif.Math
