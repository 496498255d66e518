import Verif.Model.BloomSize
import Verif.Props.Bloom
import Mathlib.Analysis.SpecialFunctions.Pow.Real
import Mathlib.Analysis.Complex.ExponentialBounds

/-!
# C135: the sizes of a bloom filter
-/

namespace Verif.Bloom

/-! ## Specification -/

/-- The number of bits at which `capacity` elements, each with the best number of probes, give the wanted rate. -/
noncomputable def wantedBits (capacity : ℕ) (rate : ℝ) : ℝ := -(capacity * Real.log rate) / Real.log 2 ^ 2

/-- The usual estimate of the rate of false positives: `k` random probes in `m` bits after `n` elements. -/
noncomputable def estimate (n m k : ℕ) : ℝ := (1 - Real.exp (-(k * n / m))) ^ k

theorem log2_pos : 0 < Real.log 2 := Real.log_pos (by norm_num)

theorem idealBits_eq (n : ℕ) (p : ℝ) : idealBits n p = ⌈wantedBits n p⌉₊ := by
  unfold idealBits wantedBits
  congr 1
  ring

theorem wantedBits_pos {n : ℕ} {p : ℝ} (hn : 1 ≤ n) (h0 : 0 < p) (h1 : p < 1) : 0 < wantedBits n p := by
  have : (0 : ℝ) < n := by exact_mod_cast hn
  have hl := Real.log_neg h0 h1
  exact div_pos (by nlinarith) (pow_pos log2_pos 2)

/-- **C135 (size).** The filter has at least the bits it needs, less than 64 more, and a multiple of 64 of them; no operation panics. -/
theorem C135_bits (n : ℕ) (p : ℝ) (random : Nat → BitVec 64) (hn : 1 ≤ n) (h0 : 0 < p) (h1 : p < 1) (hb : wantedBits n p ≤ 2 ^ 63) (ops : List Op) :
    ∃ f f', newFor n p random = .ok f ∧ run f ops = .ok f' ∧ 64 ∣ (len f').toNat ∧ wantedBits n p ≤ (len f').toNat ∧
      ((len f').toNat : ℝ) < wantedBits n p + 64 ∧ f'.seeds.length = seedCnt n (len f').toNat ∧ ∀ h, ∃ r, contains f' h = .ok r := by
  have hw := wantedBits_pos hn h0 h1
  have hi : idealBits n p ≤ 2 ^ 63 := by
    rw [idealBits_eq]
    exact Nat.ceil_le.2 (by exact_mod_cast hb)
  have hi0 : 0 < idealBits n p := by
    rw [idealBits_eq]
    exact Nat.ceil_pos.2 hw
  have ht : (BitVec.ofNat 64 (idealBits n p)).toNat = idealBits n p := by
    rw [BitVec.toNat_ofNat, Nat.mod_eq_of_lt (by omega)]
  have hr := roundUp_toNat (b := BitVec.ofNat 64 (idealBits n p)) (by rw [ht]; omega)
  obtain ⟨f, f', e1, e2, e3, e4, e5⟩ := C49_total (b := BitVec.ofNat 64 (idealBits n p)) (by rw [ht]; exact hi0) (by rw [ht]; omega)
    (k := (seedCnt n (roundUp (BitVec.ofNat 64 (idealBits n p))).toNat : ℕ)) (by omega) random ops
  rw [hr] at e4
  rw [ht] at e3 e4
  refine ⟨f, f', e1, e2, ?_, ?_, ?_, ?_, e5⟩
  · rw [e3]; exact Dvd.intro_left _ rfl
  · have h2 : wantedBits n p ≤ idealBits n p := by rw [idealBits_eq]; exact Nat.le_ceil _
    have h3 : idealBits n p ≤ (len f').toNat := by rw [e3]; omega
    have h3' : (idealBits n p : ℝ) ≤ (len f').toNat := by exact_mod_cast h3
    linarith
  · have h2 : (idealBits n p : ℝ) < wantedBits n p + 1 := by rw [idealBits_eq]; exact Nat.ceil_lt_add_one hw.le
    have h3 : (len f').toNat ≤ idealBits n p + 63 := by rw [e3]; omega
    have h3' : ((len f').toNat : ℝ) ≤ idealBits n p + 63 := by exact_mod_cast h3
    linarith
  · rw [e4, e3]; simp

/-! ## The number of probes -/

/-- `m/n` times `log 2` against the logarithm of the rate. -/
theorem best_ge {n m : ℕ} {p : ℝ} (hn : 1 ≤ n) (hm : wantedBits n p ≤ m) : -Real.log p / Real.log 2 ≤ Real.log 2 * m / n := by
  have hn' : (0 : ℝ) < n := by exact_mod_cast hn
  have hl := log2_pos
  unfold wantedBits at hm
  rw [div_le_iff₀ (pow_pos hl 2)] at hm
  rw [div_le_div_iff₀ hl hn']
  nlinarith

/-- **C135 (probes).** With every bit set with probability one half, the probes miss with the wanted rate at most; there is at least one. -/
theorem C135_probes (n m : ℕ) (p : ℝ) (hn : 1 ≤ n) (h0 : 0 < p) (h1 : p < 1) (hm : wantedBits n p ≤ m) :
    1 ≤ seedCnt n m ∧ (1 / 2 : ℝ) ^ seedCnt n m ≤ p := by
  have hb := best_ge hn hm
  have hl := log2_pos
  have hp := Real.log_neg h0 h1
  have hk : Real.log 2 * m / n ≤ seedCnt n m := Nat.le_ceil _
  constructor
  · exact Nat.ceil_pos.2 (lt_of_lt_of_le (div_pos (by linarith) hl) hb)
  · rw [← Real.log_le_log_iff (by positivity) h0, Real.log_pow, Real.log_div (by norm_num) (by norm_num), Real.log_one]
    have := le_trans hb hk
    rw [div_le_iff₀ hl] at this
    linarith

theorem two_rpow (x : ℝ) : Real.exp (Real.log 2 * x) = 2 ^ x := (Real.rpow_def_of_pos (by norm_num) x).symm

/-- **C135 (rate, partial).** The estimated rate at capacity exceeds the wanted one at most by the factor `2^(1/log2(1/p))` (1.11 for one
percent), because the number of probes is rounded up. -/
theorem C135_rate_partial (n m : ℕ) (p : ℝ) (hn : 1 ≤ n) (h0 : 0 < p) (h1 : p < 1) (hm : wantedBits n p ≤ m) :
    estimate n m (seedCnt n m) ≤ p * 2 ^ (1 / (-Real.log p / Real.log 2)) := by
  have hb := best_ge hn hm
  have hl := log2_pos
  have hp := Real.log_neg h0 h1
  have hn' : (0 : ℝ) < n := by exact_mod_cast hn
  have hL : 0 < -Real.log p / Real.log 2 := div_pos (by linarith) hl
  have hk : Real.log 2 * m / n ≤ seedCnt n m := Nat.le_ceil _
  have hk' : (seedCnt n m : ℝ) < Real.log 2 * m / n + 1 := Nat.ceil_lt_add_one (by positivity)
  have hm0 : (0 : ℝ) < m := lt_of_lt_of_le (wantedBits_pos hn h0 h1) hm
  have hpe : p = 2 ^ (-(-Real.log p / Real.log 2)) := by
    rw [← two_rpow, mul_neg, mul_div_cancel₀ _ hl.ne', neg_neg, Real.exp_log h0]
  have hc : -((seedCnt n m : ℝ) * n / m) = Real.log 2 * -(seedCnt n m / (Real.log 2 * m / n)) := by
    field_simp
  unfold estimate
  rw [hc, two_rpow]
  generalize hkk : seedCnt n m = k at *
  generalize hc0 : Real.log 2 * m / n = c at *
  generalize -Real.log p / Real.log 2 = L at *
  have hc1 : 0 < c := lt_of_lt_of_le hL hb
  -- `k = c·(1+d)`
  obtain ⟨d, hd⟩ : ∃ d : ℝ, d = k / c - 1 := ⟨_, rfl⟩
  have hkc : (k : ℝ) / c = 1 + d := by linarith
  have hkd : (k : ℝ) = c * (1 + d) := by rw [← hkc]; field_simp
  have hd0 : 0 ≤ d := by
    rw [hd, sub_nonneg, le_div_iff₀ hc1]; linarith
  have hd1 : c * d ≤ 1 := by nlinarith
  -- tangent
  have h2 : (1 : ℝ) - 2 ^ (-(1 + d)) ≤ 2 ^ (-(1 - d)) := by
    have e1 : (2 : ℝ) ^ (-(1 + d)) = 1 / 2 * 2 ^ (-d) := by
      rw [show -(1 + d) = -1 + -d by ring, Real.rpow_add (by norm_num), Real.rpow_neg_one]; norm_num
    have e2 : (2 : ℝ) ^ (-(1 - d)) = 1 / 2 * 2 ^ d := by
      rw [show -(1 - d) = -1 + d by ring, Real.rpow_add (by norm_num), Real.rpow_neg_one]; norm_num
    have e3 : (2 : ℝ) ^ (-d) * 2 ^ d = 1 := by rw [← Real.rpow_add (by norm_num)]; simp
    have e4 : (0 : ℝ) < 2 ^ d := by positivity
    have e5 : (0 : ℝ) < 2 ^ (-d) := by positivity
    rw [e1, e2]
    nlinarith [sq_nonneg ((2 : ℝ) ^ d - 2 ^ (-d))]
  have h3 : (0 : ℝ) ≤ 1 - 2 ^ (-(1 + d)) := by
    rw [sub_nonneg]
    exact Real.rpow_le_one_of_one_le_of_nonpos (by norm_num) (by linarith)
  rw [hkc]
  calc (1 - 2 ^ (-(1 + d))) ^ k ≤ ((2 : ℝ) ^ (-(1 - d))) ^ k := pow_le_pow_left₀ h3 h2 k
    _ = 2 ^ (-(1 - d) * (k : ℝ)) := by rw [← Real.rpow_natCast, ← Real.rpow_mul (by norm_num)]
    _ ≤ 2 ^ (-L + 1 / L) := by
      refine Real.rpow_le_rpow_of_exponent_le (by norm_num) ?_
      rw [hkd]
      have h5 : c * d * d ≤ 1 / L := by
        have a1 : d ≤ 1 / L := by
          rw [le_div_iff₀ hL]
          nlinarith
        have : c * d * d ≤ 1 * d := mul_le_mul_of_nonneg_right hd1 hd0
        linarith
      nlinarith
    _ = p * 2 ^ (1 / L) := by rw [Real.rpow_add (by norm_num), ← hpe]

/-- **C135 (rate).** The estimated rate is at most twice the wanted one, if that is at most one half. -/
theorem C135_rate_twice (n m : ℕ) (p : ℝ) (hn : 1 ≤ n) (h0 : 0 < p) (h1 : p ≤ 1 / 2) (hm : wantedBits n p ≤ m) :
    estimate n m (seedCnt n m) ≤ 2 * p := by
  have h := C135_rate_partial n m p hn h0 (by linarith) hm
  have hl := log2_pos
  have hL : 1 ≤ -Real.log p / Real.log 2 := by
    rw [le_div_iff₀ hl, one_mul]
    have := Real.log_le_log h0 h1
    rw [Real.log_div (by norm_num) (by norm_num), Real.log_one] at this
    linarith
  have h2 : (2 : ℝ) ^ (1 / (-Real.log p / Real.log 2)) ≤ 2 ^ (1 : ℝ) := by
    refine Real.rpow_le_rpow_of_exponent_le (by norm_num) ?_
    rw [div_le_one (by linarith)]
    exact hL
  rw [Real.rpow_one] at h2
  nlinarith

/-- **C135 (refuted: the wanted rate).** For the rate `2^(-3/2)` (35.4 percent) and any capacity from 10000 the estimated rate is above it. -/
theorem C135_rate_refuted (n m : ℕ) (hn : 10000 ≤ n) (hm : wantedBits n (√(1 / 8)) ≤ m) (hm' : (m : ℝ) < wantedBits n (√(1 / 8)) + 64) :
    √(1 / 8) < estimate n m (seedCnt n m) := by
  have hn' : (10000 : ℝ) ≤ n := by exact_mod_cast hn
  have l1 := Real.log_two_gt_d9
  have l2 := Real.log_two_lt_d9
  have hlog : Real.log (√(1 / 8)) = -(3 / 2 * Real.log 2) := by
    rw [Real.log_sqrt (by norm_num), show (1 / 8 : ℝ) = (2 ^ 3)⁻¹ by norm_num, Real.log_inv, Real.log_pow]
    push_cast
    ring
  have hw : wantedBits n (√(1 / 8)) = 3 / 2 * n / Real.log 2 := by
    unfold wantedBits
    rw [hlog]
    field_simp
  rw [hw] at hm hm'
  have hl := log2_pos
  have b1 : 3 / 2 * (n : ℝ) ≤ Real.log 2 * m := by
    rw [div_le_iff₀ hl] at hm
    linarith
  have b2 : Real.log 2 * m < 3 / 2 * n + 45 := by
    have : Real.log 2 * (m : ℝ) < Real.log 2 * (3 / 2 * n / Real.log 2 + 64) := mul_lt_mul_of_pos_left hm' hl
    rw [mul_add, mul_div_cancel₀ _ hl.ne'] at this
    linarith
  have hm0 : (0 : ℝ) < m := by nlinarith
  have hk : seedCnt n m = 2 := by
    unfold seedCnt
    rw [Nat.ceil_eq_iff (by norm_num)]
    constructor
    · rw [lt_div_iff₀ (by linarith)]
      push_cast
      linarith
    · rw [div_le_iff₀ (by linarith)]
      push_cast
      linarith
  rw [hk]
  unfold estimate
  have hx : (0.92 : ℝ) ≤ ((2 : ℕ) : ℝ) * n / m := by
    rw [le_div_iff₀ hm0]
    push_cast
    have : 0.6931471803 * (m : ℝ) < 3 / 2 * n + 45 := by nlinarith
    linarith
  have he : Real.exp (-(((2 : ℕ) : ℝ) * n / m)) ≤ 0.405 := by
    refine le_trans (Real.exp_le_exp.2 (neg_le_neg hx)) ?_
    rw [Real.exp_neg, inv_le_comm₀ (Real.exp_pos _) (by norm_num)]
    have h1 : (1.25645 : ℝ) ≤ Real.exp 0.23 := le_trans (by norm_num) (Real.quadratic_le_exp_of_nonneg (show (0 : ℝ) ≤ 0.23 by norm_num))
    have h2 : Real.exp 0.92 = Real.exp 0.23 ^ 4 := by rw [← Real.exp_nat_mul]; norm_num
    rw [h2]
    exact le_trans (by norm_num) (pow_le_pow_left₀ (by norm_num) h1 4)
  have hs : √(1 / 8) < 0.354 := by
    rw [Real.sqrt_lt' (by norm_num)]; norm_num
  have h3 : (0.595 : ℝ) ^ 2 ≤ (1 - Real.exp (-(((2 : ℕ) : ℝ) * n / m))) ^ 2 := pow_le_pow_left₀ (by norm_num) (by linarith) 2
  exact lt_of_lt_of_le (lt_trans hs (by norm_num)) h3

/-- **C135 (rate one).** With the rate 1 the filter has no bits and no probes and contains everything. -/
theorem C135_one (n : ℕ) (random : Nat → BitVec 64) (h : BitVec 64) :
    ∃ f, newFor n 1 random = .ok f ∧ (len f).toNat = 0 ∧ f.seeds = [] ∧ contains f h = .ok true := by
  have h0 : idealBits n 1 = 0 := by simp [idealBits]
  have h1 : roundUp (BitVec.ofNat 64 0) = 0#64 := by decide
  refine ⟨⟨[], 0#64, []⟩, ?_, rfl, rfl, rfl⟩
  simp only [newFor, h0, h1, new]
  simp [seedCnt, uint64Bits]

/-- One percent, a thousand elements: 9600 bits, 7 probes. -/
example : 1 ≤ (1000 : ℕ) ∧ (0 : ℝ) < 1 / 100 ∧ (1 / 100 : ℝ) ≤ 1 / 2 ∧ wantedBits 1000 (1 / 100) ≤ 2 ^ 63 := by
  refine ⟨by norm_num, by norm_num, by norm_num, ?_⟩
  have l1 := Real.log_two_gt_d9
  unfold wantedBits
  rw [div_le_iff₀ (pow_pos log2_pos 2), Real.log_div (by norm_num) (by norm_num), Real.log_one]
  have h1 : Real.log 100 ≤ Real.log (2 ^ 7) := Real.log_le_log (by norm_num) (by norm_num)
  rw [Real.log_pow] at h1
  push_cast at h1 ⊢
  nlinarith

example : ∃ m : ℕ, wantedBits 10000 (√(1 / 8)) ≤ m ∧ (m : ℝ) < wantedBits 10000 (√(1 / 8)) + 64 := by
  have h : 0 < wantedBits 10000 (√(1 / 8)) := wantedBits_pos (by norm_num) (by positivity) (by
    rw [Real.sqrt_lt' (by norm_num)]; norm_num)
  exact ⟨⌈wantedBits 10000 (√(1 / 8))⌉₊, Nat.le_ceil _, lt_trans (Nat.ceil_lt_add_one h.le) (by linarith)⟩

end Verif.Bloom
