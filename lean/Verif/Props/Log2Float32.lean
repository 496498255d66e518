import Verif.Model.Log2Float32
import Verif.Props.Log2Float

/-! # C189: `Log2` of a `float32` -/

namespace Verif.Math

open F64

theorem lt_1024 {x : ℚ} (h : x < 2 ^ 128) : x < 2 ^ 1024 := lt_trans h (pow_lt_pow_right₀ (by norm_num) (by norm_num))

/-- **C189 (powers of two).** The logarithm of a power of two, the least and the subnormal ones included, is its exponent, whatever `math.Log` does. -/
theorem C189_pow (lg : ℚ → ℚ) (e : ℤ) (h1 : -149 ≤ e) (h2 : e ≤ 127) : log2Float32 lg (.fin (2 ^ e)) = .fin e := by
  have he : |e| ≤ 2 ^ 24 := by rw [abs_le]; constructor <;> norm_num <;> omega
  rw [log2Float32, C186_pow, to32_fin _ (by exact_mod_cast he), rnd32_fixed _ (repr32_int e he)]

/-- **C189 (special cases).** -/
theorem C189_special (lg : ℚ → ℚ) : log2Float32 lg .nan = .nan ∧ log2Float32 lg (.inf true) = .nan ∧ log2Float32 lg (.inf false) = .inf false ∧ log2Float32 lg (.fin 0) = .inf true ∧
    ∀ x : ℚ, x < 0 → log2Float32 lg (.fin x) = .nan := by
  obtain ⟨a, b, c, d, e⟩ := C186_special lg
  refine ⟨?_, ?_, ?_, ?_, fun x h => ?_⟩
  · rw [log2Float32, a]; rfl
  · rw [log2Float32, b]; rfl
  · rw [log2Float32, c]; rfl
  · rw [log2Float32, d]; rfl
  · rw [log2Float32, e x h]; rfl

/-- The logarithms of these numbers are small. -/
theorem log2Float_small {lg : ℚ → ℚ} (hlg : LogMono lg) {x r : ℚ} (hr : Repr32 x) (h0 : 0 < x) (h1 : x < 2 ^ 128) (e : log2Float lg (.fin x) = .fin r) : |r| ≤ 2 ^ 24 := by
  obtain ⟨s, e', a1, a2⟩ := log2Float_between hlg (repr64_of_32 hr) h0 (lt_1024 h1)
  obtain ⟨b1, b2⟩ := exp_bounds (repr64_of_32 hr) h0 (lt_1024 h1)
  rw [e] at e'
  cases e'
  have b1' : (-1074 : ℚ) ≤ Int.log 2 x := by exact_mod_cast b1
  have b2' : (Int.log 2 x : ℚ) ≤ 1023 := by exact_mod_cast b2
  rw [abs_le]
  constructor <;> norm_num <;> linarith

/-- **C189 (order).** If `math.Log` keeps the order of the fractions, `Log2` keeps the order of all positive numbers. -/
theorem C189_mono {lg : ℚ → ℚ} (hlg : LogMono lg) {x x' : ℚ} (hr : Repr32 x) (hr' : Repr32 x') (h0 : 0 < x) (hx : x ≤ x') (h1 : x' < 2 ^ 128) :
    ∃ r r' : ℚ, log2Float32 lg (.fin x) = .fin r ∧ log2Float32 lg (.fin x') = .fin r' ∧ r ≤ r' := by
  obtain ⟨r, r', e, e', h⟩ := C186_mono hlg (repr64_of_32 hr) (repr64_of_32 hr') h0 hx (lt_1024 h1)
  refine ⟨rnd32 r, rnd32 r', ?_, ?_, rnd32_mono h⟩
  · rw [log2Float32, e, to32_fin _ (log2Float_small hlg hr h0 (lt_of_le_of_lt hx h1) e)]
  · rw [log2Float32, e', to32_fin _ (log2Float_small hlg hr' (lt_of_lt_of_le h0 hx) h1 e')]

/-- **C189 (type).** A finite result is a number of a `float32`. -/
theorem C189_float32 (lg : ℚ → ℚ) (x : F64) {r : ℚ} (h : log2Float32 lg x = .fin r) : Repr32 r ∧ |r| < 2 ^ 128 := by
  unfold log2Float32 to32 at h
  split at h
  · split at h <;> cases h
    rename_i hb
    exact ⟨repr_rnd32 _, not_le.1 hb⟩
  · rename_i hn
    exact absurd h (hn r)

/-! ## Accuracy -/

/-- No number of a `float32` other than 1 is near 1. -/
theorem far_from_one {x : ℚ} (hr : Repr32 x) (h0 : 0 < x) (hne : x ≠ 1) : x ≤ 1 - 1 / 2 ^ 24 ∨ 1 + 1 / 2 ^ 23 ≤ x := by
  obtain ⟨m, e, hm, -, rfl⟩ := hr
  have hm' : |(m : ℚ)| ≤ 2 ^ 24 := by exact_mod_cast hm
  have hm1 := le_trans (le_abs_self _) hm'
  have hp := two_zpow_pos e
  rcases le_or_gt (-23) e with he | he
  · obtain ⟨d, hd⟩ := Int.eq_ofNat_of_zero_le (show 0 ≤ e + 23 by omega)
    have hx : (m : ℚ) * 2 ^ e = ((m * 2 ^ d : ℤ) : ℚ) / 2 ^ 23 := by
      rw [show e = (d : ℤ) + (-23) by omega, zpow_add₀ (by norm_num), zpow_natCast]
      push_cast
      norm_num
      ring
    rw [hx] at hne ⊢
    generalize m * 2 ^ d = j at *
    have hj : j ≠ 2 ^ 23 := by
      rintro rfl
      exact hne (by norm_num)
    rcases lt_or_gt_of_ne hj with h | h
    · left
      have : (j : ℚ) ≤ 2 ^ 23 - 1 := by exact_mod_cast Int.le_sub_one_of_lt h
      rw [div_le_iff₀ (by norm_num)]
      norm_num at this ⊢
      linarith
    · right
      have : (2 : ℚ) ^ 23 + 1 ≤ j := by exact_mod_cast h
      rw [le_div_iff₀ (by norm_num)]
      norm_num at this ⊢
      linarith
  · left
    rcases Int.lt_or_eq_of_le (show e ≤ -24 by omega) with h | h
    · have h2 : (2 : ℚ) ^ e ≤ 2 ^ (-25 : ℤ) := zpow_le_zpow_right₀ (by norm_num) (by omega)
      have h3 : (m : ℚ) * 2 ^ e ≤ 2 ^ 24 * 2 ^ (-25 : ℤ) := mul_le_mul hm1 h2 hp.le (by positivity)
      refine le_trans h3 (by norm_num)
    · subst h
      have hj : m ≠ 2 ^ 24 := by
        rintro rfl
        exact hne (by norm_num)
      have : m ≤ 2 ^ 24 - 1 := by
        have := le_trans (le_abs_self _) hm
        omega
      have : (m : ℚ) ≤ 2 ^ 24 - 1 := by exact_mod_cast this
      have e1 : (2 : ℚ) ^ (-24 : ℤ) = 1 / 2 ^ 24 := by norm_num
      rw [e1]
      norm_num at this ⊢
      linarith

/-- So its logarithm is not small either. -/
theorem logb_far {x : ℚ} (hr : Repr32 x) (h0 : 0 < x) (hne : x ≠ 1) : 1 / 2 ^ 24 ≤ |Real.logb 2 x| := by
  have hx0 : (0 : ℝ) < x := by exact_mod_cast h0
  rcases far_from_one hr h0 hne with h | h
  · have h' : (x : ℝ) ≤ 1 - 1 / 2 ^ 24 := by
      have := (Rat.cast_le (K := ℝ)).2 h
      push_cast at this
      exact this
    have h2 := logb_upper x (1 / 2 ^ 24) (by positivity) hx0 h'
    have h3 := neg_abs_le (Real.logb 2 x)
    have : (1 : ℝ) / 2 ^ 24 ≤ 1.44 * (1 / 2 ^ 24) := by norm_num
    linarith
  · have h' : 1 + 1 / 2 ^ 23 ≤ (x : ℝ) := by
      have := (Rat.cast_le (K := ℝ)).2 h
      push_cast at this
      exact this
    have h4 : ((x : ℝ))⁻¹ ≤ 1 - 1 / 2 ^ 24 := by
      rw [inv_le_iff_one_le_mul₀ hx0]
      have : (1 - 1 / 2 ^ 24 : ℝ) * (1 + 1 / 2 ^ 23) ≤ (1 - 1 / 2 ^ 24) * x := mul_le_mul_of_nonneg_left h' (by norm_num)
      refine le_trans ?_ this
      norm_num
    have h2 := logb_upper _ (1 / 2 ^ 24) (by positivity) (inv_pos.2 hx0) h4
    rw [Real.logb_inv] at h2
    have h3 := le_abs_self (Real.logb 2 x)
    have : (1 : ℝ) / 2 ^ 24 ≤ 1.44 * (1 / 2 ^ 24) := by norm_num
    linarith

/-- The size of the logarithms. -/
theorem logb_size {x : ℚ} (hr : Repr32 x) (h0 : 0 < x) (h1 : x < 2 ^ 128) : |Real.logb 2 x| ≤ 1100 := by
  obtain ⟨b1, -⟩ := exp_bounds (repr64_of_32 hr) h0 (lt_1024 h1)
  have hx0 : (0 : ℝ) < x := by exact_mod_cast h0
  have h2 : (2 : ℚ) ^ Int.log 2 x ≤ x := by exact_mod_cast Int.zpow_log_le_self (b := 2) (by norm_num) h0
  have h3 := (Rat.cast_le (K := ℝ)).2 h2
  push_cast at h3
  have h4 : (x : ℝ) < 2 ^ 128 := by
    have := (Rat.cast_lt (K := ℝ)).2 h1
    push_cast at this
    exact this
  have a1 : ((Int.log 2 x : ℤ) : ℝ) ≤ Real.logb 2 x := by
    rw [Real.le_logb_iff_rpow_le (by norm_num) hx0, Real.rpow_intCast]
    exact h3
  have a2 : Real.logb 2 x < (128 : ℕ) := by
    rw [Real.logb_lt_iff_lt_rpow (by norm_num) hx0, Real.rpow_natCast]
    exact h4
  have b1' : (-1074 : ℝ) ≤ ((Int.log 2 x : ℤ) : ℝ) := by exact_mod_cast b1
  rw [abs_le]
  push_cast at a2
  constructor <;> linarith

/-- **C189 (accuracy).** With `math.Log` as in C134 the result is right up to a part in 2^23 of the logarithm, next to 1 too: for a `float64` this is wrong (`C186_relative_refuted`). -/
theorem C189_accurate {lg : ℚ → ℚ} (hlg : LogOk lg) {x : ℚ} (hr : Repr32 x) (h0 : 0 < x) (h1 : x < 2 ^ 128) :
    ∃ r : ℚ, log2Float32 lg (.fin x) = .fin r ∧ |(r : ℝ) - Real.logb 2 x| ≤ |Real.logb 2 x| / 2 ^ 23 := by
  by_cases hne : x = 1
  · refine ⟨0, ?_, by simp [hne]⟩
    have := C189_pow lg 0 (by norm_num) (by norm_num)
    rw [hne]
    simpa using this
  obtain ⟨r, e, hL⟩ := C186_near hlg (repr64_of_32 hr) h0 (lt_1024 h1)
  have hfar := logb_far hr h0 hne
  have hsz := logb_size hr h0 h1
  generalize Real.logb 2 x = L at *
  have hsub := abs_sub_abs_le_abs_sub (r : ℝ) L
  have hsub' := abs_sub_abs_le_abs_sub L (r : ℝ)
  rw [abs_sub_comm L] at hsub'
  have hLr : |(r : ℝ) - L| ≤ |L| / 2 ^ 25 + |L| / 2 ^ 53 := by
    have : (1 : ℝ) / 2 ^ 49 ≤ |L| / 2 ^ 25 := by
      rw [div_le_div_iff₀ (by norm_num) (by norm_num)]
      rw [div_le_iff₀ (by norm_num)] at hfar
      norm_num at hfar ⊢
      linarith
    linarith
  have hrr : |(r : ℝ)| ≤ 2 ^ 24 := by
    norm_num at hLr ⊢
    linarith
  have hrq : |r| ≤ 2 ^ 24 := by
    have : ((|r| : ℚ) : ℝ) ≤ ((2 ^ 24 : ℚ) : ℝ) := by push_cast; exact hrr
    exact_mod_cast this
  have hlow : (1 : ℝ) / 2 ^ 25 ≤ |(r : ℝ)| := by
    norm_num at hLr hfar ⊢
    linarith
  have hlowq : (2 : ℚ) ^ (-126 : ℤ) ≤ |r| := by
    have h2 : (1 / 2 ^ 25 : ℚ) ≤ |r| := by
      have : ((1 / 2 ^ 25 : ℚ) : ℝ) ≤ ((|r| : ℚ) : ℝ) := by push_cast; exact hlow
      exact_mod_cast this
    exact le_trans (le_trans (zpow_le_zpow_right₀ (by norm_num) (show (-126 : ℤ) ≤ -25 by norm_num)) (by norm_num)) h2
  refine ⟨rnd32 r, by rw [log2Float32, e, to32_fin _ hrq], ?_⟩
  have h3 := (Rat.cast_le (K := ℝ)).2 (rnd32_err r hlowq)
  push_cast at h3
  have h4 : |(rnd32 r : ℝ) - L| ≤ |(rnd32 r : ℝ) - r| + |(r : ℝ) - L| := abs_sub_le _ _ _
  norm_num at hLr h3 ⊢
  linarith [abs_nonneg L]

/-- **C189 (sign).** So the result is zero for 1 only, positive above and negative below. -/
theorem C189_sign {lg : ℚ → ℚ} (hlg : LogOk lg) {x : ℚ} (hr : Repr32 x) (h0 : 0 < x) (h1 : x < 2 ^ 128) :
    ∃ r : ℚ, log2Float32 lg (.fin x) = .fin r ∧ (r = 0 ↔ x = 1) ∧ (0 < r ↔ 1 < x) ∧ (r < 0 ↔ x < 1) := by
  obtain ⟨r, e, h⟩ := C189_accurate hlg hr h0 h1
  have hx0 : (0 : ℝ) < x := by exact_mod_cast h0
  have key : (x < 1 → r < 0) ∧ (x = 1 → r = 0) ∧ (1 < x → 0 < r) := by
    refine ⟨fun hx => ?_, fun hx => ?_, fun hx => ?_⟩
    · have hL : Real.logb 2 x < 0 := Real.logb_neg (by norm_num) hx0 (by exact_mod_cast hx)
      rw [abs_of_neg hL] at h
      have := (abs_le.1 h).2
      norm_num at this
      have : (r : ℝ) < 0 := by linarith
      exact_mod_cast this
    · rw [hx] at h
      simp at h
      exact h
    · have hL : 0 < Real.logb 2 x := Real.logb_pos (by norm_num) (by exact_mod_cast hx)
      rw [abs_of_pos hL] at h
      have := (abs_le.1 h).1
      norm_num at this
      have : (0 : ℝ) < r := by linarith
      exact_mod_cast this
  obtain ⟨k1, k2, k3⟩ := key
  refine ⟨r, e, ⟨fun hr0 => ?_, k2⟩, ⟨fun hr0 => ?_, k3⟩, ⟨fun hr0 => ?_, k1⟩⟩
  · rcases lt_trichotomy x 1 with c | c | c
    · linarith [k1 c]
    · exact c
    · linarith [k3 c]
  · rcases lt_trichotomy x 1 with c | c | c
    · linarith [k1 c]
    · linarith [k2 c]
    · exact c
  · rcases lt_trichotomy x 1 with c | c | c
    · exact c
    · linarith [k2 c]
    · linarith [k3 c]

/-- The order, and the accuracy, of numbers next to 1: they meet the hypotheses. -/
example : Repr32 (1 + 1 / 2 ^ 23) ∧ Repr32 (1 - 1 / 2 ^ 24) :=
  ⟨⟨2 ^ 23 + 1, -23, by norm_num, by norm_num, by norm_num⟩, ⟨2 ^ 24 - 1, -24, by norm_num, by norm_num, by norm_num⟩⟩

end Verif.Math
