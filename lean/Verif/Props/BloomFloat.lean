import Verif.Proof.BloomFloat
import Verif.Props.BloomSize
import Mathlib.Analysis.Convex.SpecificFunctions.Basic

/-!
# C160: the sizes of a bloom filter in `float64`
-/

namespace Verif.Bloom

open F64

theorem toNat_ceil {b : ℕ} {q : ℚ} (h0 : 0 < q) (h1 : (q : ℝ) ≤ 2 ^ b - 1) :
    ∃ k : ℕ, toNat b (.fin (⌈q⌉ : ℤ)) = some k ∧ (q : ℝ) ≤ k ∧ (k : ℝ) < q + 1 := by
  have hc : 0 < ⌈q⌉ := Int.ceil_pos.2 h0
  have h1' : q ≤ ((2 ^ b - 1 : ℤ) : ℚ) := by
    have : (q : ℝ) ≤ (((2 ^ b - 1 : ℤ) : ℚ) : ℝ) := by push_cast; exact h1
    exact Rat.cast_le.1 this
  have hlt : ⌈q⌉ < 2 ^ b := by
    have := Int.ceil_le.2 h1'
    omega
  have e : ((⌈q⌉.toNat : ℕ) : ℤ) = ⌈q⌉ := Int.toNat_of_nonneg hc.le
  refine ⟨⌈q⌉.toNat, ?_, ?_, ?_⟩
  · change (if (0 : ℚ) ≤ (⌈q⌉ : ℤ) ∧ ((⌈q⌉ : ℤ) : ℚ) < 2 ^ b then some ⌊((⌈q⌉ : ℤ) : ℚ)⌋.toNat else none) = _
    rw [if_pos ⟨by exact_mod_cast hc.le, by exact_mod_cast hlt⟩, Int.floor_intCast]
  · have h2 : q ≤ ((⌈q⌉.toNat : ℕ) : ℚ) := by
      have : ((⌈q⌉.toNat : ℕ) : ℚ) = ((⌈q⌉ : ℤ) : ℚ) := by exact_mod_cast e
      rw [this]
      exact Int.le_ceil q
    exact_mod_cast h2
  · have h2 : ((⌈q⌉.toNat : ℕ) : ℚ) < q + 1 := by
      have : ((⌈q⌉.toNat : ℕ) : ℚ) = ((⌈q⌉ : ℤ) : ℚ) := by exact_mod_cast e
      rw [this]
      exact Int.ceil_lt_add_one q
    exact_mod_cast h2

theorem newFloat_eq {lg : ℚ → ℚ} {n : ℕ} {p : ℚ} {random : Nat → BitVec 64} {b k : ℕ} {B : BitVec 64} (hB : B = BitVec.ofNat 64 b)
    (h1 : floatBits lg n p = some b) (h2 : floatSeeds n (roundUp B).toNat = some k) :
    newFloat lg n p random = some (new B k random) := by
  subst hB
  unfold newFloat
  rw [h1]
  dsimp only
  rw [h2]

/-- What is `y` up to 21 parts in 2^53. -/
theorem off_bounds {i x y : ℝ} (hi : i ≤ 32) (h : Off i x y) (hy : 0 < y) : (1 - 1 / 2 ^ 48) * y ≤ x ∧ x ≤ (1 + 1 / 2 ^ 48) * y := by
  obtain ⟨d, h1, h2⟩ := h
  have h3 : |d| ≤ 1 / 2 ^ 48 := le_trans h2 (by
    rw [div_le_div_iff₀ (by positivity) (by positivity)]
    linarith)
  rw [abs_le] at h3
  rw [h1]
  constructor <;> nlinarith

/-- **C160 (sizes).** In `float64`, with a `math.Log` that is right to a part in 2^50: the filter has the bits it needs up to a part in 2^48, less
than 64 more, and a multiple of 64 of them; the number of probes is the best one up to a part in 2^48, rounded up. No operation panics. -/
theorem C160_sizes {lg : ℚ → ℚ} (hlg : LogAcc lg) {n : ℕ} (hn : 1 ≤ n) (hn' : n < 2 ^ 64) {p : ℚ} (hp : Repr64 p) (h0 : 0 < p) (h1 : p < 1)
    (hb : wantedBits n p ≤ 2 ^ 62) (random : Nat → BitVec 64) (ops : List Op) :
    ∃ f f', newFloat lg n p random = some (.ok f) ∧ run f ops = .ok f' ∧ 64 ∣ (len f').toNat ∧
      (1 - 1 / 2 ^ 48) * wantedBits n p ≤ (len f').toNat ∧ ((len f').toNat : ℝ) < (1 + 1 / 2 ^ 48) * wantedBits n p + 64 ∧
      (1 - 1 / 2 ^ 48) * (Real.log 2 * (len f').toNat / n) ≤ f'.seeds.length ∧
      (f'.seeds.length : ℝ) < (1 + 1 / 2 ^ 48) * (Real.log 2 * (len f').toNat / n) + 1 ∧ ∀ h, ∃ r, contains f' h = .ok r := by
  have h0' : (0 : ℝ) < p := by exact_mod_cast h0
  have h1' : (p : ℝ) < 1 := by exact_mod_cast h1
  have hW := wantedBits_pos hn h0' h1'
  obtain ⟨q, q1, q2⟩ := bits_near hlg hn hn' hp h0 h1
  have hWe : (n : ℝ) * (-Real.log p / (Real.log 2 * Real.log 2)) = wantedBits n p := by unfold wantedBits; ring
  rw [hWe] at q2
  obtain ⟨b1, b2⟩ := off_bounds (by norm_num) q2 hW
  have hq0 : (0 : ℝ) < q := lt_of_lt_of_le (by nlinarith) b1
  have hq0' : 0 < q := by exact_mod_cast hq0
  obtain ⟨b, e1, e2, e3⟩ := toNat_ceil (b := 64) hq0' (by nlinarith)
  rw [e1] at q1
  have hbl : (b : ℝ) < 2 ^ 63 := by nlinarith
  have hbl' : b < 2 ^ 63 := by exact_mod_cast hbl
  have hb0 : 0 < b := by
    have : (0 : ℝ) < b := by linarith
    exact_mod_cast this
  have ht : (BitVec.ofNat 64 b).toNat = b := by rw [BitVec.toNat_ofNat, Nat.mod_eq_of_lt (by omega)]
  have hr := roundUp_toNat (b := BitVec.ofNat 64 b) (by rw [ht]; omega)
  rw [ht] at hr
  obtain ⟨r, r1, r2⟩ := seeds_near hn hn' (m := (roundUp (BitVec.ofNat 64 b)).toNat) (by rw [hr]; omega) (by rw [hr]; omega)
  have nr : (1 : ℝ) ≤ n := by exact_mod_cast hn
  have hm1 : ((roundUp (BitVec.ofNat 64 b)).toNat : ℝ) ≤ 2 ^ 63 := by
    rw [hr]
    have : (b + 63) / 64 * 64 ≤ 2 ^ 63 := by omega
    exact_mod_cast this
  have hm0 : (1 : ℝ) ≤ (roundUp (BitVec.ofNat 64 b)).toNat := by
    rw [hr]
    have : 1 ≤ (b + 63) / 64 * 64 := by omega
    exact_mod_cast this
  have d1 := Real.log_two_gt_d9
  have d2 := Real.log_two_lt_d9
  have hyp : 0 < Real.log 2 * ((roundUp (BitVec.ofNat 64 b)).toNat : ℝ) / n := div_pos (by nlinarith) (by linarith)
  obtain ⟨s1, s2⟩ := off_bounds (by norm_num) r2 hyp
  have hr0 : (0 : ℝ) < r := lt_of_lt_of_le (by nlinarith) s1
  have hle : Real.log 2 * ((roundUp (BitVec.ofNat 64 b)).toNat : ℝ) / n ≤ 0.7 * 2 ^ 63 := by
    rw [div_le_iff₀ (by linarith)]
    nlinarith
  obtain ⟨k, k1, k2, k3⟩ := toNat_ceil (b := 63) (q := r) (by exact_mod_cast hr0) (by nlinarith)
  rw [k1] at r1
  have t1 : 0 < (BitVec.ofNat 64 b).toNat := by rw [ht]; exact hb0
  have t2 : (BitVec.ofNat 64 b).toNat ≤ 2 ^ 64 - 64 := by rw [ht]; omega
  have t3 : (0 : Int) ≤ (k : Int) := Int.natCast_nonneg k
  have t4 := C49_total t1 t2 t3 random ops
  obtain ⟨f, f', g1, g2, g3, g4, g5⟩ := t4
  rw [ht] at g3
  rw [← hr] at g3
  rw [Int.toNat_natCast] at g4
  refine ⟨f, f', ?_, g2, ?_, ?_, ?_, ?_, ?_, g5⟩
  · rw [newFloat_eq rfl q1 r1, g1]
  · rw [g3, hr]; exact Dvd.intro_left _ rfl
  · have : b ≤ (len f').toNat := by rw [g3, hr]; omega
    have : (b : ℝ) ≤ (len f').toNat := by exact_mod_cast this
    linarith
  · have : (len f').toNat ≤ b + 63 := by rw [g3, hr]; omega
    have : ((len f').toNat : ℝ) ≤ b + 63 := by exact_mod_cast this
    linarith
  · rw [g4, g3]; linarith
  · rw [g4, g3]; linarith

/-! ## What the sizes mean -/

theorem two_rpow_le {x : ℝ} (h0 : 0 ≤ x) (h1 : x ≤ 1) : (2 : ℝ) ^ x ≤ 1 + x := by
  have := _root_.rpow_one_add_le_one_add_mul_self (s := 1) (by norm_num) h0 h1
  rw [show (1 : ℝ) + 1 = 2 by norm_num, mul_one] at this
  exact this

/-- The rate as a power of two. -/
theorem rate_eq {p : ℝ} (h0 : 0 < p) : p = 2 ^ (-(-Real.log p / Real.log 2)) := by
  rw [← two_rpow, mul_neg, mul_div_cancel₀ _ log2_pos.ne', neg_neg, Real.exp_log h0]

/-- The best number of probes against the logarithm of the rate. -/
theorem near_best {n m : ℕ} {p : ℝ} (hn : 1 ≤ n) (hm : (1 - 1 / 2 ^ 48) * wantedBits n p ≤ m) :
    (1 - 1 / 2 ^ 48) * (-Real.log p / Real.log 2) ≤ Real.log 2 * m / n := by
  have hn' : (0 : ℝ) < n := by exact_mod_cast hn
  have hl := log2_pos
  have e : (1 - 1 / 2 ^ 48) * (-Real.log p / Real.log 2) = Real.log 2 * ((1 - 1 / 2 ^ 48) * wantedBits n p) / n := by
    unfold wantedBits
    field_simp
  rw [e]
  gcongr

/-- The rates that `float64` can express. -/
theorem rate_small {p : ℚ} (hp : Repr64 p) (h0 : 0 < p) (h1 : p < 1) : 0 < -Real.log p / Real.log 2 ∧ -Real.log p / Real.log 2 ≤ 1074 := by
  obtain ⟨a, b⟩ := rate_log hp h0 h1
  exact ⟨div_pos (lt_of_lt_of_le (by positivity) a) log2_pos, by rw [div_le_iff₀ log2_pos]; exact b⟩

/-- **C160 (probes).** With every bit set with probability one half, the probes miss with the wanted rate, up to a part in 2^36; there is at least one. -/
theorem C160_probes {n m k : ℕ} (hn : 1 ≤ n) {p : ℚ} (hp : Repr64 p) (h0 : 0 < p) (h1 : p < 1)
    (hm : (1 - 1 / 2 ^ 48) * wantedBits n p ≤ m) (hk : (1 - 1 / 2 ^ 48) * (Real.log 2 * m / n) ≤ k) :
    1 ≤ k ∧ (1 / 2 : ℝ) ^ k ≤ (1 + 1 / 2 ^ 36) * p := by
  have h0' : (0 : ℝ) < p := by exact_mod_cast h0
  obtain ⟨l1, l2⟩ := rate_small hp h0 h1
  have hb := near_best hn hm
  have hpe := rate_eq h0'
  generalize -Real.log (p : ℝ) / Real.log 2 = L at *
  generalize Real.log 2 * m / n = c at *
  have hkL : L - 1 / 2 ^ 36 ≤ k := by nlinarith
  constructor
  · have : (0 : ℝ) < k := by nlinarith
    exact_mod_cast this
  · have e : (1 / 2 : ℝ) ^ k = 2 ^ (-(k : ℝ)) := by
      rw [Real.rpow_neg (by norm_num), Real.rpow_natCast, one_div, inv_pow]
    rw [e, hpe]
    calc (2 : ℝ) ^ (-(k : ℝ)) ≤ 2 ^ (1 / 2 ^ 36 + -L) := Real.rpow_le_rpow_of_exponent_le (by norm_num) (by linarith)
      _ = 2 ^ ((1 : ℝ) / 2 ^ 36) * 2 ^ (-L) := Real.rpow_add (by norm_num) _ _
      _ ≤ (1 + 1 / 2 ^ 36) * 2 ^ (-L) := by
        gcongr
        exact two_rpow_le (by positivity) (by norm_num)

/-- The exponent of the estimated rate; `c` is the best number of probes, `c (1 + d)` the number taken. -/
theorem exponent_le {L c d : ℝ} (l3 : 1 ≤ L) (l2 : L ≤ 1074) (hb : (1 - 1 / 2 ^ 48) * L ≤ c) (hc1 : 0 < c)
    (hd0 : -(1 / 2 ^ 48) ≤ d) (hd1 : c * d ≤ 1 / 2 ^ 48 * c + 1) : c * d * d - c ≤ -L + 1 / L + 1 / 2 ^ 36 := by
  have hcL : 1 / c ≤ (1 + 1 / 2 ^ 47) * (1 / L) := by
    have : (1 : ℝ) / c ≤ 1 / ((1 - 1 / 2 ^ 48) * L) := one_div_le_one_div_of_le (by nlinarith) hb
    refine le_trans this ?_
    rw [mul_one_div, div_le_div_iff₀ (by nlinarith) (by linarith)]
    nlinarith
  have hL1 : 1 / L ≤ 1 := by rw [div_le_one (by linarith)]; exact l3
  have hL0 : 0 < 1 / L := by positivity
  rcases le_or_gt 0 d with h | h
  · have a1 : d ≤ 1 / 2 ^ 48 + 1 / c := by
      rw [← sub_nonneg]
      have : 1 / 2 ^ 48 + 1 / c - d = (1 / 2 ^ 48 * c + 1 - c * d) / c := by field_simp
      rw [this]
      exact div_nonneg (by linarith) hc1.le
    have a2 : c * d * d ≤ (1 / 2 ^ 48 * c + 1) * (1 / 2 ^ 48 + 1 / c) := mul_le_mul hd1 a1 h (by positivity)
    have a3 : (1 / 2 ^ 48 * c + 1) * (1 / 2 ^ 48 + 1 / c) = 1 / 2 ^ 96 * c + 2 / 2 ^ 48 + 1 / c := by field_simp; ring
    rw [a3] at a2
    linarith
  · have a1 : c * d * d ≤ c * (1 / 2 ^ 96) := by
      rw [mul_assoc]
      refine mul_le_mul_of_nonneg_left ?_ hc1.le
      nlinarith
    linarith

/-- **C160 (rate, partial).** For rates up to one half the estimated rate at capacity exceeds the wanted one at most by the factor `2^(1/log2(1/p))`,
because the number of probes is rounded up, and by a part in 2^36. -/
theorem C160_rate_partial {n m k : ℕ} (hn : 1 ≤ n) {p : ℚ} (hp : Repr64 p) (h0 : 0 < p) (h1 : p ≤ 1 / 2)
    (hm : (1 - 1 / 2 ^ 48) * wantedBits n p ≤ m) (hk : (1 - 1 / 2 ^ 48) * (Real.log 2 * m / n) ≤ k)
    (hk' : (k : ℝ) < (1 + 1 / 2 ^ 48) * (Real.log 2 * m / n) + 1) :
    estimate n m k ≤ (1 + 1 / 2 ^ 36) * (p * 2 ^ (1 / (-Real.log p / Real.log 2))) := by
  have h0' : (0 : ℝ) < p := by exact_mod_cast h0
  have h1' : (p : ℝ) ≤ 1 / 2 := by
    have : (p : ℝ) ≤ ((1 / 2 : ℚ) : ℝ) := Rat.cast_le.2 h1
    push_cast at this
    exact this
  obtain ⟨l1, l2⟩ := rate_small hp h0 (lt_of_le_of_lt h1 (by norm_num))
  have hl := log2_pos
  have l3 : 1 ≤ -Real.log p / Real.log 2 := by
    rw [le_div_iff₀ hl, one_mul]
    have := Real.log_le_log h0' h1'
    rw [Real.log_div (by norm_num) (by norm_num), Real.log_one] at this
    linarith
  have hb := near_best hn hm
  have hpe := rate_eq h0'
  have hn' : (0 : ℝ) < n := by exact_mod_cast hn
  have hm0 : (0 : ℝ) < m := by
    have := wantedBits_pos hn h0' (by linarith)
    nlinarith
  have hc : -((k : ℝ) * n / m) = Real.log 2 * -(k / (Real.log 2 * m / n)) := by field_simp
  unfold estimate
  rw [hc, two_rpow]
  generalize Real.log 2 * m / n = c at *
  have hpL : (p : ℝ) * 2 ^ (1 / (-Real.log (p : ℝ) / Real.log 2)) = 2 ^ (-(-Real.log (p : ℝ) / Real.log 2) + 1 / (-Real.log (p : ℝ) / Real.log 2)) := by
    rw [Real.rpow_add (by norm_num), ← hpe]
  rw [hpL]
  generalize -Real.log (p : ℝ) / Real.log 2 = L at *
  have hc1 : 0 < c := by nlinarith
  obtain ⟨d, hd⟩ : ∃ d : ℝ, d = k / c - 1 := ⟨_, rfl⟩
  have hkc : (k : ℝ) / c = 1 + d := by linarith
  have hkd : (k : ℝ) = c * (1 + d) := by rw [← hkc]; field_simp
  have hd0 : -(1 / 2 ^ 48) ≤ d := by
    rw [hd, le_sub_iff_add_le, le_div_iff₀ hc1]; linarith
  have hd1 : c * d ≤ 1 / 2 ^ 48 * c + 1 := by nlinarith
  have h2 : (1 : ℝ) - 2 ^ (-(1 + d)) ≤ 2 ^ (-(1 - d)) := by
    have e1 : (2 : ℝ) ^ (-(1 + d)) = 1 / 2 * 2 ^ (-d) := by
      rw [show -(1 + d) = -1 + -d by ring, Real.rpow_add (by norm_num), Real.rpow_neg_one]; norm_num
    have e2 : (2 : ℝ) ^ (-(1 - d)) = 1 / 2 * 2 ^ d := by
      rw [show -(1 - d) = -1 + d by ring, Real.rpow_add (by norm_num), Real.rpow_neg_one]; norm_num
    have e3 : (2 : ℝ) ^ (-d) * 2 ^ d = 1 := by rw [← Real.rpow_add (by norm_num)]; simp
    have e4 : (0 : ℝ) < 2 ^ d := by positivity
    have e5 : (0 : ℝ) < 2 ^ (-d) := by positivity
    rw [e1, e2]
    nlinarith [sq_nonneg ((2 : ℝ) ^ d - 2 ^ (-d))]
  have h3 : (0 : ℝ) ≤ 1 - 2 ^ (-(1 + d)) := by
    rw [sub_nonneg]
    exact Real.rpow_le_one_of_one_le_of_nonpos (by norm_num) (by linarith)
  have hexp := exponent_le l3 l2 hb hc1 hd0 hd1
  rw [hkc]
  calc (1 - 2 ^ (-(1 + d))) ^ k ≤ ((2 : ℝ) ^ (-(1 - d))) ^ k := pow_le_pow_left₀ h3 h2 k
    _ = 2 ^ (-(1 - d) * (k : ℝ)) := by rw [← Real.rpow_natCast, ← Real.rpow_mul (by norm_num)]
    _ ≤ 2 ^ (1 / 2 ^ 36 + (-L + 1 / L)) := by
      refine Real.rpow_le_rpow_of_exponent_le (by norm_num) ?_
      rw [hkd]
      nlinarith
    _ = 2 ^ ((1 : ℝ) / 2 ^ 36) * 2 ^ (-L + 1 / L) := Real.rpow_add (by norm_num) _ _
    _ ≤ (1 + 1 / 2 ^ 36) * 2 ^ (-L + 1 / L) := by
      gcongr
      exact two_rpow_le (by positivity) (by norm_num)

/-- **C160 (rate).** For rates up to one half the estimated rate is at most twice the wanted one, up to a part in 2^36. -/
theorem C160_rate_twice {n m k : ℕ} (hn : 1 ≤ n) {p : ℚ} (hp : Repr64 p) (h0 : 0 < p) (h1 : p ≤ 1 / 2)
    (hm : (1 - 1 / 2 ^ 48) * wantedBits n p ≤ m) (hk : (1 - 1 / 2 ^ 48) * (Real.log 2 * m / n) ≤ k)
    (hk' : (k : ℝ) < (1 + 1 / 2 ^ 48) * (Real.log 2 * m / n) + 1) : estimate n m k ≤ (1 + 1 / 2 ^ 36) * (2 * p) := by
  refine le_trans (C160_rate_partial hn hp h0 h1 hm hk hk') ?_
  have h0' : (0 : ℝ) < p := by exact_mod_cast h0
  have h1' : (p : ℝ) ≤ 1 / 2 := by
    have : (p : ℝ) ≤ ((1 / 2 : ℚ) : ℝ) := Rat.cast_le.2 h1
    push_cast at this
    exact this
  have l3 : 1 ≤ -Real.log p / Real.log 2 := by
    rw [le_div_iff₀ log2_pos, one_mul]
    have := Real.log_le_log h0' h1'
    rw [Real.log_div (by norm_num) (by norm_num), Real.log_one] at this
    linarith
  have h2 : (2 : ℝ) ^ (1 / (-Real.log (p : ℝ) / Real.log 2)) ≤ 2 ^ (1 : ℝ) := by
    refine Real.rpow_le_rpow_of_exponent_le (by norm_num) ?_
    rw [div_le_one (by linarith)]
    exact l3
  rw [Real.rpow_one] at h2
  have : (p : ℝ) * 2 ^ (1 / (-Real.log (p : ℝ) / Real.log 2)) ≤ 2 * p := by nlinarith
  gcongr

/-! ## One bit too few -/

/-- `float64` closest to `q`, computed. -/
theorem rnd_calc (q : ℚ) (e : ℤ) (n : ℤ) (he : -1074 ≤ e) (h1 : 2 ^ (e + 52) ≤ |q|) (h2 : |q| < 2 ^ (e + 53)) (h3 : |(n : ℚ) - q / 2 ^ e| < 1 / 2) :
    rnd q = n * 2 ^ e := by
  rw [rnd_eq q e he h1 h2, rne_eq _ n h3]

theorem ofRat_small (q : ℚ) (h : |q| ≤ 2 ^ 100) : ofRat q = .fin (rnd q) :=
  ofRat_fin q (le_trans h (pow_le_pow_right₀ (by norm_num) (by norm_num)))

theorem ln2_rnd : rnd ln2 = 6243314768165359 / 2 ^ 53 := by
  rw [rnd_calc ln2 (-53) 6243314768165359 (by norm_num) (by norm_num [ln2]) (by norm_num [ln2]) (by norm_num [ln2, abs_lt])]
  norm_num

theorem ln2sq_rnd : rnd (ln2 * ln2) = 8655072057804175 / 2 ^ 54 := by
  rw [rnd_calc _ (-54) 8655072057804175 (by norm_num) (by norm_num [ln2]) (by norm_num [ln2]) (by norm_num [ln2, abs_lt])]
  norm_num

/-- A `math.Log` that is right to a part in 2^50 and that is correctly rounded at one half. -/
theorem exists_log : ∃ lg : ℚ → ℚ, LogAcc lg ∧ lg (1 / 2) = -rnd ln2 := by
  have h : ∀ p : ℚ, ∃ q : ℚ, 0 < p → p < 1 → |(q : ℝ) - Real.log p| ≤ |Real.log p| / 2 ^ 50 := by
    intro p
    by_cases hp : 0 < p ∧ p < 1
    · have h0 : (0 : ℝ) < p := by exact_mod_cast hp.1
      have h1 : (p : ℝ) < 1 := by exact_mod_cast hp.2
      have hl := Real.log_neg h0 h1
      obtain ⟨q, a, b⟩ := exists_rat_btwn (show Real.log p < Real.log p + |Real.log p| / 2 ^ 50 by
        have := abs_pos.2 hl.ne
        linarith [div_pos this (show (0 : ℝ) < 2 ^ 50 by norm_num)])
      exact ⟨q, fun _ _ => by rw [abs_of_pos (by linarith)]; linarith⟩
    · exact ⟨0, fun a b => absurd ⟨a, b⟩ hp⟩
  choose g hg using h
  refine ⟨fun p => if p = 1 / 2 then -rnd ln2 else g p, ?_, if_pos rfl⟩
  intro p h0 h1
  by_cases hp : p = 1 / 2
  · change |((if p = 1 / 2 then -rnd ln2 else g p : ℚ) : ℝ) - _| ≤ _
    rw [if_pos hp, hp, ln2_rnd]
    have e : Real.log ((1 / 2 : ℚ) : ℝ) = -Real.log 2 := by
      push_cast
      rw [one_div, Real.log_inv]
    rw [e, abs_neg, abs_of_pos log2_pos]
    have := ln2_near
    rw [abs_le] at this ⊢
    have d1 := Real.log_two_gt_d9
    have e2 : (ln2 : ℝ) = 693147180559945309417232121458176568075500134360255254120680009 / 10 ^ 63 := by
      unfold ln2; push_cast; ring
    rw [e2] at this
    push_cast
    constructor <;> linarith [this.1, this.2]
  · change |((if p = 1 / 2 then -rnd ln2 else g p : ℚ) : ℝ) - _| ≤ _
    rw [if_neg hp]
    exact hg p h0 h1

/-- The sizes for 286746937 elements and one half. -/
theorem half_sizes {lg : ℚ → ℚ} (h : lg (1 / 2) = -rnd ln2) :
    floatBits lg 286746937 (1 / 2) = some 413688384 := by
  unfold floatBits
  have e1 : ofRat (ln2 * ln2) = .fin (8655072057804175 / 2 ^ 54) := by
    rw [ofRat_small _ (by norm_num [ln2]), ln2sq_rnd]
  have e2 : ofRat ((286746937 : ℕ) : ℚ) = .fin 286746937 := by
    rw [ofRat_small _ (by norm_num), rnd_calc _ (-24) 4810815299387392 (by norm_num) (by norm_num) (by norm_num) (by norm_num)]
    norm_num
  have e3 : div (.fin (rnd ln2)) (.fin (8655072057804175 / 2 ^ 54)) = .fin (6497320848556798 / 2 ^ 52) := by
    rw [ln2_rnd]
    change (if (8655072057804175 / 2 ^ 54 : ℚ) = 0 then _ else ofRat _) = _
    rw [if_neg (by norm_num), ofRat_small _ (by norm_num),
      rnd_calc _ (-52) 6497320848556798 (by norm_num) (by norm_num) (by norm_num) (by norm_num [abs_lt])]
    norm_num
  have e4 : mul (.fin 286746937) (.fin (6497320848556798 / 2 ^ 52)) = .fin 413688384 := by
    change ofRat _ = _
    rw [ofRat_small _ (by norm_num),
      rnd_calc _ (-24) 6940539375058944 (by norm_num) (by norm_num) (by norm_num) (by norm_num [abs_lt])]
    norm_num
  dsimp only
  rw [h, neg_neg, e1, e2, e3, e4]
  change (if (0 : ℚ) ≤ (⌈(413688384 : ℚ)⌉ : ℤ) ∧ ((⌈(413688384 : ℚ)⌉ : ℤ) : ℚ) < 2 ^ 64 then some ⌊((⌈(413688384 : ℚ)⌉ : ℤ) : ℚ)⌋.toNat else none) = _
  have e5 : ⌈(413688384 : ℚ)⌉ = 413688384 := by
    have := Int.ceil_intCast (R := ℚ) 413688384
    push_cast at this
    exact this
  rw [e5, if_pos (by norm_num)]
  have e6 : ⌊(((413688384 : ℤ) : ℚ))⌋ = 413688384 := Int.floor_intCast _
  rw [e6]
  rfl

/-- **C160 (bits, refuted).** The filter has at least the bits that are needed for the wanted rate: it can have fewer, as the rounding of the product can
reach a whole multiple of 64 from above. With a correctly rounded logarithm this happens for 286746937 elements and the rate one half. -/
theorem C160_bits_refuted : ∃ lg : ℚ → ℚ, LogAcc lg ∧ ∃ (n : ℕ) (p : ℚ), 1 ≤ n ∧ n < 2 ^ 64 ∧ Repr64 p ∧ 0 < p ∧ p < 1 ∧
    ∀ random : Nat → BitVec 64, ∃ f, newFloat lg n p random = some (.ok f) ∧ ((len f).toNat : ℝ) < wantedBits n p := by
  obtain ⟨lg, h1, h2⟩ := exists_log
  refine ⟨lg, h1, 286746937, 1 / 2, by norm_num, by norm_num, ⟨1, -1, by norm_num, by norm_num, by norm_num⟩, by norm_num, by norm_num, fun random => ?_⟩
  have hr : (roundUp (BitVec.ofNat 64 413688384)).toNat = 413688384 := by decide +kernel
  obtain ⟨r, r1, r2⟩ := seeds_near (n := 286746937) (by norm_num) (by norm_num) (m := 413688384) (by norm_num) (by norm_num)
  have hlog := log2_pos
  have d1 := Real.log_two_gt_d9
  have d2 := Real.log_two_lt_d9
  have hyp : 0 < Real.log 2 * ((413688384 : ℕ) : ℝ) / (286746937 : ℕ) := by positivity
  obtain ⟨s1, s2⟩ := off_bounds (by norm_num) r2 hyp
  have hr0 : (0 : ℝ) < r := lt_of_lt_of_le (by nlinarith) s1
  obtain ⟨k, k1, -, -⟩ := toNat_ceil (b := 63) (q := r) (by exact_mod_cast hr0) (by
    refine le_trans s2 ?_
    push_cast
    linarith)
  rw [k1] at r1
  obtain ⟨f, f', g1, g2, g3, -, -⟩ := C49_total (b := BitVec.ofNat 64 413688384) (k := k) (by decide +kernel) (by decide +kernel) (Int.natCast_nonneg k) random []
  refine ⟨f, by rw [newFloat_eq rfl (half_sizes h2) (by rw [hr]; exact r1), g1], ?_⟩
  have e : f' = f := by
    simp only [run] at g2
    exact (Except.ok.inj g2).symm
  rw [e] at g3
  have g4 : (len f).toNat = 413688384 := by rw [g3]; rfl
  rw [g4]
  have hw : wantedBits 286746937 ((1 / 2 : ℚ) : ℝ) = 286746937 / Real.log 2 := by
    unfold wantedBits
    push_cast
    rw [one_div, Real.log_inv]
    field_simp
  rw [hw, lt_div_iff₀ hlog]
  have := ln2_near
  rw [abs_le] at this
  have e2 : (ln2 : ℝ) = 693147180559945309417232121458176568075500134360255254120680009 / 10 ^ 63 := by
    unfold ln2; push_cast; ring
  rw [e2] at this
  push_cast
  linarith [this.1, this.2]

/-- The hypotheses are met for 1000 elements and the rate 1/128: the bits are between 10098 and 10163, with seven or eight probes. -/
example : ∃ lg : ℚ → ℚ, LogAcc lg ∧ ∀ random : Nat → BitVec 64, ∃ f, newFloat lg 1000 (1 / 128) random = some (.ok f) ∧
    10098 ≤ (len f).toNat ∧ (len f).toNat ≤ 10163 ∧ 7 ≤ f.seeds.length ∧ f.seeds.length ≤ 8 ∧
    estimate 1000 (len f).toNat f.seeds.length ≤ (1 + 1 / 2 ^ 36) * (2 * (1 / 128)) := by
  obtain ⟨lg, h1, -⟩ := exists_log
  have d1 := Real.log_two_gt_d9
  have d2 := Real.log_two_lt_d9
  have hl := log2_pos
  have hp : Repr64 (1 / 128) := ⟨1, -7, by norm_num, by norm_num, by norm_num⟩
  have hw : wantedBits 1000 ((1 / 128 : ℚ) : ℝ) = 7000 / Real.log 2 := by
    unfold wantedBits
    push_cast
    rw [one_div, Real.log_inv, show (128 : ℝ) = 2 ^ 7 by norm_num, Real.log_pow]
    push_cast
    field_simp
    norm_num
  have hw1 : wantedBits 1000 ((1 / 128 : ℚ) : ℝ) ≤ 10099 - 1 / 10 := by rw [hw, div_le_iff₀ hl]; linarith
  have hw2 : 10098 ≤ wantedBits 1000 ((1 / 128 : ℚ) : ℝ) := by rw [hw, le_div_iff₀ hl]; linarith
  refine ⟨lg, h1, fun random => ?_⟩
  obtain ⟨f, f', a, b, c, e1, e2, e3, e4, -⟩ := C160_sizes h1 (n := 1000) (by norm_num) (by norm_num) hp (by norm_num) (by norm_num)
    (le_trans hw1 (by norm_num)) random []
  have e : f' = f := by
    simp only [run] at b
    exact (Except.ok.inj b).symm
  subst e
  have hest := C160_rate_twice (by norm_num) hp (by norm_num) (by norm_num) e1 e3 e4
  push_cast at hest
  refine ⟨f', a, ?_⟩
  generalize (len f').toNat = m at *
  generalize f'.seeds.length = k at *
  have m1 : (10097 : ℝ) < m := by linarith
  have m2 : (m : ℝ) < 10164 := by linarith
  have m1' : 10097 < m := by exact_mod_cast m1
  have m2' : m < 10164 := by exact_mod_cast m2
  push_cast at e3 e4
  have k1 : (6 : ℝ) < k := by
    refine lt_of_lt_of_le ?_ e3
    nlinarith
  have k2 : (k : ℝ) < 9 := by
    refine lt_trans e4 ?_
    nlinarith
  have k1' : 6 < k := by exact_mod_cast k1
  have k2' : k < 9 := by exact_mod_cast k2
  exact ⟨by omega, by omega, by omega, by omega, hest⟩

end Verif.Bloom
