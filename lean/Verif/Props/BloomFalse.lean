import Verif.Props.BloomSize
import Mathlib.Data.Fintype.BigOperators
import Mathlib.Data.Fintype.Pi
import Mathlib.Data.Nat.Count
import Mathlib.Data.Int.CardIntervalMod
import Mathlib.Algebra.BigOperators.Fin
import Mathlib.Algebra.Order.BigOperators.Group.Finset

/-!
# C169: the true rate of false positives of a bloom filter

C135 and C160 are about the usual estimate, which supposes independent probes. Here the pairs of added hashes and of a question are counted.
-/

namespace Verif.Bloom

open BloomSpec

/-! ## Specification -/

/-- Is `h` a false positive after adding `A` to `f`: not added, but contained? -/
def FalsePositive (f : Filter) {n : ℕ} (A : Fin n → Fin (2 ^ 64)) (h : Fin (2 ^ 64)) : Prop :=
  (∀ i, A i ≠ h) ∧ ∃ f', run f (List.ofFn fun i => Op.add (BitVec.ofFin (A i))) = .ok f' ∧ contains f' (BitVec.ofFin h) = .ok true

open Classical in
/-- The probability of a false positive: `n` hashes are added and one is looked up, all equally likely and independent. -/
noncomputable def falseRate (f : Filter) (n : ℕ) : ℝ :=
  ((Finset.univ.filter fun p : (Fin n → Fin (2 ^ 64)) × Fin (2 ^ 64) => FalsePositive f p.1 p.2).card : ℝ) / ((2 : ℝ) ^ 64) ^ (n + 1)

/-! ## Counting -/

theorem card_hits {U R : Type} [Fintype U] [DecidableEq U] [DecidableEq R] (r : U → R) (c n : ℕ)
    (hc : ∀ u, (Finset.univ.filter fun v => r v = r u).card = c) :
    (Finset.univ.filter fun p : (Fin n → U) × U => (∀ i, p.1 i ≠ p.2) ∧ ∃ i, r (p.1 i) = r p.2).card =
      Fintype.card U * ((Fintype.card U - 1) ^ n - (Fintype.card U - c) ^ n) := by
  rw [Finset.card_filter, Fintype.sum_prod_type_right]
  have : ∀ h : U, (∑ A : Fin n → U, if (∀ i, A i ≠ h) ∧ ∃ i, r (A i) = r h then 1 else 0) =
      (Fintype.card U - 1) ^ n - (Fintype.card U - c) ^ n := by
    intro h
    rw [← Finset.card_filter]
    have e : (Finset.univ.filter fun A : Fin n → U => (∀ i, A i ≠ h) ∧ ∃ i, r (A i) = r h) =
        Fintype.piFinset (fun _ : Fin n => Finset.univ.filter fun v => v ≠ h) \
          Fintype.piFinset (fun _ : Fin n => Finset.univ.filter fun v => r v ≠ r h) := by
      ext A
      simp [Fintype.mem_piFinset]
    rw [e, Finset.card_sdiff_of_subset, Fintype.card_piFinset_const, Fintype.card_piFinset_const]
    · congr 2
      · rw [Finset.filter_ne', Finset.card_erase_of_mem (Finset.mem_univ _), Finset.card_univ]
      · have := Finset.card_filter_add_card_filter_not (s := (Finset.univ : Finset U)) (fun v => r v = r h)
        rw [hc h, Finset.card_univ] at this
        simp only [ne_eq]
        omega
    · intro A hA
      simp only [Fintype.mem_piFinset, Finset.mem_filter, Finset.mem_univ, true_and] at hA ⊢
      intro i hi
      exact hA i (by rw [hi])
  simp only [this, Finset.sum_const, Finset.card_univ, smul_eq_mul]

theorem card_fin_filter (N : ℕ) (p : ℕ → Prop) [DecidablePred p] : (Finset.univ.filter fun v : Fin N => p v.val).card = Nat.count p N := by
  rw [Nat.count_eq_card_filter_range, ← Finset.card_map Fin.valEmbedding]
  congr 1
  ext x
  simp only [Finset.mem_map, Finset.mem_filter, Finset.mem_univ, true_and, Fin.valEmbedding_apply, Finset.mem_range]
  constructor
  · rintro ⟨v, hv, rfl⟩
    exact ⟨v.isLt, hv⟩
  · rintro ⟨hx, hp⟩
    exact ⟨⟨x, hx⟩, hp, rfl⟩

theorem card_class (N q r : ℕ) (hr : 0 < r) (hN : N = q * r) (u : ℕ) : (Finset.univ.filter fun v : Fin N => v.val % r = u % r).card = q := by
  have e := card_fin_filter N (fun x => x ≡ u [MOD r])
  rw [Nat.count_modEq_card _ hr] at e
  refine e.trans ?_
  rw [hN, Nat.mul_mod_left, Nat.mul_div_cancel _ hr, if_neg (by omega), Nat.add_zero]

/-- The hashes with the same last `k` bits. -/
theorem card_residue (k : ℕ) (hk : k ≤ 64) (u : Fin (2 ^ 64)) :
    (Finset.univ.filter fun v : Fin (2 ^ 64) => v.val % 2 ^ k = u.val % 2 ^ k).card = 2 ^ (64 - k) :=
  card_class _ _ _ (by positivity) (by rw [← pow_add, Nat.sub_add_cancel hk]) u.val

theorem cast_hits (N c n : ℕ) (h1 : 1 ≤ N) (hc : c ≤ N) (hc0 : 1 ≤ c) :
    ((N * ((N - 1) ^ n - (N - c) ^ n) : ℕ) : ℝ) = N * ((N - 1) ^ n - (N - c) ^ n) := by
  have hle : (N - c) ^ n ≤ (N - 1) ^ n := Nat.pow_le_pow_left (by omega) n
  rw [Nat.cast_mul, Nat.cast_sub hle, Nat.cast_pow, Nat.cast_pow, Nat.cast_sub h1, Nat.cast_sub hc, Nat.cast_one]

/-- The questions of a value modulo `m`, after any xor. -/
theorem card_probe (m : ℕ) (hm : 0 < m) (s : BitVec 64) (i : ℕ) :
    (Finset.univ.filter fun v : Fin (2 ^ 64) => probe m (BitVec.ofFin v) s = i).card ≤ 2 ^ 64 / m + 1 := by
  have e1 : (Finset.univ.filter fun v : Fin (2 ^ 64) => probe m (BitVec.ofFin v) s = i).card ≤
      (Finset.univ.filter fun v : Fin (2 ^ 64) => v.val ≡ i [MOD m]).card := by
    refine Finset.card_le_card_of_injOn (fun v => (BitVec.ofFin v ^^^ s).toFin) ?_ ?_
    · intro v hv
      simp only [Finset.coe_filter, Finset.mem_univ, true_and, Set.mem_ofPred_eq] at hv ⊢
      subst hv
      show (BitVec.ofFin v ^^^ s).toNat % m = _ % m
      rw [probe, BitVec.toNat_xor, Nat.mod_mod]
    · intro v _ w _ h
      have h1 : BitVec.ofFin v ^^^ s = BitVec.ofFin w ^^^ s := by
        apply BitVec.eq_of_toNat_eq
        exact congrArg Fin.val h
      have h2 := congrArg (· ^^^ s) h1
      simp only [BitVec.xor_assoc, BitVec.xor_self, BitVec.xor_zero] at h2
      exact congrArg BitVec.toFin h2
  have e := card_fin_filter (2 ^ 64) (fun x => x ≡ i [MOD m])
  rw [Nat.count_modEq_card _ hm] at e
  rw [e] at e1
  refine le_trans e1 ?_
  split <;> omega

/-! ## What is contained -/

theorem addedFrom_adds (xs acc : List (BitVec 64)) : addedFrom acc (xs.map Op.add) = acc ++ xs := by
  induction xs generalizing acc with
  | nil => simp [addedFrom]
  | cons x xs ih => simp [addedFrom, hashOf, ih]

theorem added_ofFn {n : ℕ} (A : Fin n → Fin (2 ^ 64)) :
    added (List.ofFn fun i => Op.add (BitVec.ofFin (A i))) = List.ofFn fun i => BitVec.ofFin (A i) := by
  have := addedFrom_adds (List.ofFn fun i => BitVec.ofFin (A i)) []
  rw [List.map_ofFn] at this
  exact this

/-- A hash that agrees with an added one modulo a power-of-two bit count is contained. -/
theorem mayContain_residue {k : ℕ} {seeds added : List (BitVec 64)} {h a : BitVec 64} (ha : a ∈ added)
    (e : h.toNat % 2 ^ k = a.toNat % 2 ^ k) : mayContain (2 ^ k) seeds added h := by
  rw [C48_power_of_two e]
  exact fun s hs => ⟨a, ha, s, hs, rfl⟩

/-- **C169 (lower bound).** With a power-of-two number of bits the rate is at least that of a single probe, whatever the number of probes and
the seeds: the probes are not independent. -/
theorem C169_single_probe {k : ℕ} (h6 : 6 ≤ k) (h63 : k ≤ 63) (seeds : ℕ) (random : Nat → BitVec 64) (n : ℕ) {f : Filter}
    (e : new (BitVec.ofNat 64 (2 ^ k)) seeds random = .ok f) :
    (1 - 1 / 2 ^ 64 : ℝ) ^ n - (1 - 1 / 2 ^ k) ^ n ≤ falseRate f n := by
  classical
  have hp : (2 : ℕ) ^ k ≤ 2 ^ 63 := Nat.pow_le_pow_right (by norm_num) h63
  have hp6 : (2 : ℕ) ^ 6 ≤ 2 ^ k := Nat.pow_le_pow_right (by norm_num) h6
  have ht : (BitVec.ofNat 64 (2 ^ k)).toNat = 2 ^ k := by rw [BitVec.toNat_ofNat, Nat.mod_eq_of_lt (by omega)]
  have hd : (2 ^ k + 63) / 64 * 64 = 2 ^ k := by
    have : 2 ^ k = 2 ^ (k - 6) * 64 := by rw [show 64 = 2 ^ 6 by norm_num, ← pow_add]; congr 1; omega
    omega
  have hsub : (Finset.univ.filter fun p : (Fin n → Fin (2 ^ 64)) × Fin (2 ^ 64) =>
        (∀ i, p.1 i ≠ p.2) ∧ ∃ i, (p.1 i).val % 2 ^ k = p.2.val % 2 ^ k) ⊆
      Finset.univ.filter fun p : (Fin n → Fin (2 ^ 64)) × Fin (2 ^ 64) => FalsePositive f p.1 p.2 := by
    intro p hp'
    simp only [Finset.mem_filter, Finset.mem_univ, true_and] at hp' ⊢
    obtain ⟨hne, i, hi⟩ := hp'
    obtain ⟨f1, f', e1, e2, _, _, _⟩ := C49_total (b := BitVec.ofNat 64 (2 ^ k)) (by rw [ht]; positivity) (by rw [ht]; omega)
      (k := seeds) (by omega) random (List.ofFn fun i => Op.add (BitVec.ofFin (p.1 i)))
    cases e.symm.trans e1
    refine ⟨hne, f', e2, ?_⟩
    rw [C48_exact (b := BitVec.ofNat 64 (2 ^ k)) (by rw [ht]; positivity) (by rw [ht]; omega) (k := seeds) (by omega) random _ e e2, ht, hd, added_ofFn]
    exact mayContain_residue (a := BitVec.ofFin (p.1 i)) (List.mem_ofFn.2 ⟨i, rfl⟩) hi.symm
  have hcard := Finset.card_le_card hsub
  rw [card_hits (fun v : Fin (2 ^ 64) => v.val % 2 ^ k) (2 ^ (64 - k)) n (card_residue k (by omega)), Fintype.card_fin] at hcard
  have hc1 : (2 : ℕ) ^ (64 - k) ≤ 2 ^ 64 := Nat.pow_le_pow_right (by norm_num) (by omega)
  have hc0 : 1 ≤ (2 : ℕ) ^ (64 - k) := Nat.one_le_two_pow
  have hcast := cast_hits (2 ^ 64) (2 ^ (64 - k)) n (Nat.one_le_two_pow) hc1 hc0
  have hreal : ((2 ^ 64 * ((2 ^ 64 - 1) ^ n - (2 ^ 64 - 2 ^ (64 - k)) ^ n) : ℕ) : ℝ) ≤
      ((Finset.univ.filter fun p : (Fin n → Fin (2 ^ 64)) × Fin (2 ^ 64) => FalsePositive f p.1 p.2).card : ℝ) := Nat.cast_le.2 hcard
  rw [hcast] at hreal
  unfold falseRate
  rw [le_div_iff₀ (by positivity)]
  refine le_trans (le_of_eq ?_) (le_trans hreal (le_of_eq ?_))
  · have e1 : (1 - 1 / 2 ^ 64 : ℝ) * 2 ^ 64 = 2 ^ 64 - 1 := by norm_num
    have e2 : (1 - 1 / 2 ^ k : ℝ) * 2 ^ 64 = 2 ^ 64 - 2 ^ (64 - k) := by
      have : (2 : ℝ) ^ 64 = 2 ^ (64 - k) * 2 ^ k := by rw [← pow_add]; congr 1; omega
      rw [this]
      field_simp
    rw [Nat.cast_pow, Nat.cast_pow, Nat.cast_ofNat]
    generalize (2 : ℝ) ^ 64 = N at *
    rw [pow_succ, ← mul_assoc, sub_mul, ← mul_pow, ← mul_pow, e1, e2]
    ring
  · congr

/-- **C169 (upper bound, partial).** The rate is at most that of a single probe into a filter in which every probe of every element has set a
bit of its own. What is missing, the small rates, is refuted below. -/
theorem C169_upper_partial {b : BitVec 64} (h1 : 0 < b.toNat) (h2 : b.toNat ≤ 2 ^ 64 - 64) {seeds : ℕ} (hs : 0 < seeds)
    (random : Nat → BitVec 64) (n : ℕ) {f : Filter} (e : new b seeds random = .ok f) :
    falseRate f n ≤ seeds * n * (1 / (len f).toNat + 1 / 2 ^ 64) := by
  classical
  obtain ⟨f1, f2, e1, e2, hl, _, _⟩ := C49_total h1 h2 (k := seeds) (by omega) random []
  cases e.symm.trans e1
  cases e2
  rw [hl]
  generalize hm : (b.toNat + 63) / 64 * 64 = m at *
  have hm0 : 0 < m := by omega
  have hA : ∀ A : Fin n → Fin (2 ^ 64), (Finset.univ.filter fun h => FalsePositive f A h).card ≤ (n * seeds) * (2 ^ 64 / m + 1) := by
    intro A
    have hsub : (Finset.univ.filter fun h => FalsePositive f A h) ⊆
        ((Finset.univ : Finset (Fin n)) ×ˢ Finset.range seeds).biUnion fun x =>
          Finset.univ.filter fun v : Fin (2 ^ 64) => probe m (BitVec.ofFin v) (random 0) = probe m (BitVec.ofFin (A x.1)) (random x.2) := by
      intro h hh
      simp only [Finset.mem_filter, Finset.mem_univ, true_and, Finset.mem_biUnion, Finset.mem_product, Finset.mem_range] at hh ⊢
      obtain ⟨_, f', e2, e3⟩ := hh
      rw [C48_exact h1 h2 (by omega) random _ e e2, hm, added_ofFn] at e3
      obtain ⟨a, ha, s', hs', hp⟩ := e3 (random 0) (List.mem_map.2 ⟨0, List.mem_range.2 (by omega), rfl⟩)
      obtain ⟨i, rfl⟩ := List.mem_ofFn.1 ha
      obtain ⟨j, hj, rfl⟩ := List.mem_map.1 hs'
      exact ⟨(i, j), by simpa using hj, hp⟩
    refine le_trans (Finset.card_le_card hsub) ?_
    refine le_trans (Finset.card_biUnion_le_card_mul _ _ (2 ^ 64 / m + 1) fun x _ => card_probe m hm0 _ _) ?_
    rw [Finset.card_product, Finset.card_univ, Fintype.card_fin, Finset.card_range]
  have hcard : (Finset.univ.filter fun p : (Fin n → Fin (2 ^ 64)) × Fin (2 ^ 64) => FalsePositive f p.1 p.2).card ≤
      (2 ^ 64) ^ n * ((n * seeds) * (2 ^ 64 / m + 1)) := by
    rw [Finset.card_filter, Fintype.sum_prod_type]
    simp only [← Finset.card_filter]
    refine le_trans (Finset.sum_le_card_nsmul _ _ _ fun A _ => hA A) ?_
    rw [Finset.card_univ, Fintype.card_pi_const, Fintype.card_fin, smul_eq_mul]
  have hreal := (Nat.cast_le (α := ℝ)).2 hcard
  have hdiv : ((2 ^ 64 / m : ℕ) : ℝ) ≤ 2 ^ 64 / m := by
    refine le_trans Nat.cast_div_le (le_of_eq ?_)
    rw [Nat.cast_pow, Nat.cast_ofNat]
  rw [Nat.cast_mul, Nat.cast_mul, Nat.cast_mul, Nat.cast_pow, Nat.cast_pow, Nat.cast_ofNat, Nat.cast_add, Nat.cast_one] at hreal
  unfold falseRate
  rw [div_le_iff₀ (by positivity)]
  refine le_trans (le_of_eq ?_) (le_trans hreal ?_)
  · congr
  · have hN : (0 : ℝ) < 2 ^ 64 := by positivity
    generalize (2 : ℝ) ^ 64 = N at *
    have hm1 : (0 : ℝ) < m := by exact_mod_cast hm0
    have : N ^ n * (n * seeds * (((2 ^ 64 / m : ℕ) : ℝ) + 1)) ≤ N ^ n * (n * seeds * (N / m + 1)) := by
      gcongr
    refine le_trans this (le_of_eq ?_)
    rw [pow_succ]
    field_simp

/-! ## At capacity -/

/-- `New` depends on the wanted number of bits only by the multiple of 64 above it. -/
theorem new_congr {b b' : BitVec 64} (h : roundUp b = roundUp b') (k : Int) (random : Nat → BitVec 64) : new b k random = new b' k random := by
  unfold new
  rw [h]

/-- **C169 (refuted: the wanted rate).** For every rate `2^-j` and every power of two from 1024 there is a capacity at which `New` gives that
many bits; after so many uniform hashes the probability of a false positive is at least `3/(8j)`, for all seeds. (For one in a million, `j = 20`:
1.9 percent.) -/
theorem C169_rate_refuted (j k : ℕ) (hj : 1 ≤ j) (hj' : j ≤ 40) (hk : 10 ≤ k) (hk' : k ≤ 56) :
    ∃ n : ℕ, 1 ≤ n ∧ ∀ random, ∃ f, newFor n ((1 / 2) ^ j) random = .ok f ∧ (len f).toNat = 2 ^ k ∧ 3 / (8 * j) ≤ falseRate f n := by
  have l1 := Real.log_two_gt_d9
  have l2 := Real.log_two_lt_d9
  have hl := log2_pos
  have hjr : (1 : ℝ) ≤ j := by exact_mod_cast hj
  have hjr' : (j : ℝ) ≤ 40 := by exact_mod_cast hj'
  have hp : (2 : ℕ) ^ k ≤ 2 ^ 56 := Nat.pow_le_pow_right (by norm_num) hk'
  have hp10 : (2 : ℕ) ^ 10 ≤ 2 ^ k := Nat.pow_le_pow_right (by norm_num) hk
  have hM : (1024 : ℝ) ≤ 2 ^ k := by
    have := (Nat.cast_le (α := ℝ)).2 hp10
    push_cast at this
    linarith
  have hM' : (2 : ℝ) ^ k ≤ 2 ^ 56 := pow_le_pow_right₀ (by norm_num) hk'
  have hd : ∃ q, 2 ^ k = q * 64 := ⟨2 ^ (k - 6), by rw [show 64 = 2 ^ 6 by norm_num, ← pow_add]; congr 1; omega⟩
  obtain ⟨n, hn⟩ : ∃ n : ℕ, n = ⌊(2 : ℝ) ^ k * Real.log 2 / j⌋₊ := ⟨_, rfl⟩
  have n1 : (n : ℝ) ≤ 2 ^ k * Real.log 2 / j := by rw [hn]; exact Nat.floor_le (by positivity)
  have n2 : (2 : ℝ) ^ k * Real.log 2 / j < n + 1 := by rw [hn]; exact Nat.lt_floor_add_one _
  have j0 : (0 : ℝ) < j := by linarith
  have n1' : (n : ℝ) * j ≤ 2 ^ k * Real.log 2 := by rwa [le_div_iff₀ j0] at n1
  have n2' : (2 : ℝ) ^ k * Real.log 2 < (n + 1) * j := by rwa [div_lt_iff₀ j0] at n2
  have hw : wantedBits n ((1 / 2) ^ j) = n * j / Real.log 2 := by
    unfold wantedBits
    rw [Real.log_pow, Real.log_div (by norm_num) (by norm_num), Real.log_one]
    field_simp
    ring
  have w1 : wantedBits n ((1 / 2) ^ j) ≤ 2 ^ k := by
    rw [hw, div_le_iff₀ hl]
    exact n1'
  have w2 : (2 : ℝ) ^ k - 64 < wantedBits n ((1 / 2) ^ j) := by
    rw [hw, lt_div_iff₀ hl]
    nlinarith
  have b1 : idealBits n ((1 / 2) ^ j) ≤ 2 ^ k := by
    rw [idealBits_eq]
    exact Nat.ceil_le.2 (by push_cast; exact w1)
  have b2 : 2 ^ k < idealBits n ((1 / 2) ^ j) + 64 := by
    have : wantedBits n ((1 / 2) ^ j) ≤ idealBits n ((1 / 2) ^ j) := by rw [idealBits_eq]; exact Nat.le_ceil _
    have h3 : (2 : ℝ) ^ k < idealBits n ((1 / 2) ^ j) + 64 := by linarith
    exact_mod_cast h3
  have t1 : (BitVec.ofNat 64 (idealBits n ((1 / 2) ^ j))).toNat = idealBits n ((1 / 2) ^ j) := by
    rw [BitVec.toNat_ofNat, Nat.mod_eq_of_lt (by omega)]
  have t2 : (BitVec.ofNat 64 (2 ^ k)).toNat = 2 ^ k := by rw [BitVec.toNat_ofNat, Nat.mod_eq_of_lt (by omega)]
  have hr2 : (roundUp (BitVec.ofNat 64 (2 ^ k))).toNat = 2 ^ k := by
    rw [roundUp_toNat (by rw [t2]; omega), t2]
    omega
  have hr : roundUp (BitVec.ofNat 64 (idealBits n ((1 / 2) ^ j))) = roundUp (BitVec.ofNat 64 (2 ^ k)) := by
    apply BitVec.eq_of_toNat_eq
    rw [hr2, roundUp_toNat (by rw [t1]; omega), t1]
    omega
  -- the rate
  have xr : (0.63 : ℝ) / j ≤ n / 2 ^ k := by
    rw [div_le_div_iff₀ j0 (by positivity)]
    nlinarith
  have xr' : (n : ℝ) / 2 ^ k ≤ 0.6932 / j := by
    rw [div_le_div_iff₀ (by positivity) j0]
    nlinarith
  have hy1 : (1 : ℝ) / j ≤ 1 := by rw [div_le_one j0]; exact hjr
  have hy0 : (0 : ℝ) < 1 / j := by positivity
  have hx0 : (0 : ℝ) < n / 2 ^ k := lt_of_lt_of_le (by positivity) xr
  have hbern : 1 - (n : ℝ) / 2 ^ 64 ≤ (1 - 1 / 2 ^ 64) ^ n := by
    have := one_add_mul_le_pow (a := (-(1 / 2 ^ 64) : ℝ)) (by norm_num) n
    rw [← sub_eq_add_neg] at this
    refine le_trans (le_of_eq ?_) this
    ring
  have hexp : (1 - 1 / 2 ^ k : ℝ) ^ n ≤ 1 / (1 + n / 2 ^ k) := by
    have h3 : (1 - 1 / 2 ^ k : ℝ) ≤ Real.exp (-(1 / 2 ^ k)) := Real.one_sub_le_exp_neg _
    have h4 : (0 : ℝ) ≤ 1 - 1 / 2 ^ k := by
      rw [sub_nonneg, div_le_one (by positivity)]
      linarith
    refine le_trans (pow_le_pow_left₀ h4 h3 n) ?_
    rw [← Real.exp_nat_mul, mul_neg, Real.exp_neg, inv_eq_one_div]
    refine one_div_le_one_div_of_le (by linarith) ?_
    have := Real.add_one_le_exp ((n : ℝ) * (1 / 2 ^ k))
    rw [mul_one_div] at this ⊢
    linarith
  have hsmall : (n : ℝ) / 2 ^ 64 ≤ 0.003 / j := by
    have : (n : ℝ) / 2 ^ 64 ≤ n / 2 ^ k / 256 := by
      rw [div_div]
      refine div_le_div_of_nonneg_left (by positivity) (by positivity) ?_
      calc (2 : ℝ) ^ k * 256 ≤ 2 ^ 56 * 256 := by linarith
        _ = 2 ^ 64 := by norm_num
    have e2 : (0.6932 : ℝ) / j / 256 ≤ 0.003 / j := by
      rw [div_div, div_le_div_iff₀ (by positivity) j0]
      nlinarith
    linarith
  have hrate : (3 : ℝ) / (8 * j) ≤ (1 - 1 / 2 ^ 64) ^ n - (1 - 1 / 2 ^ k) ^ n := by
    have e0 : (3 : ℝ) / (8 * j) = 0.375 * (1 / j) := by field_simp; norm_num
    have e1 : (0.63 : ℝ) / j = 0.63 * (1 / j) := by ring
    have e2 : (0.003 : ℝ) / j = 0.003 * (1 / j) := by ring
    rw [e1] at xr
    rw [e2] at hsmall
    rw [e0]
    generalize (1 : ℝ) / j = y at *
    generalize (n : ℝ) / 2 ^ k = x at *
    have e3 : 1 / (1 + x) ≤ 1 - 0.385 * y := by
      rw [div_le_iff₀ (by linarith)]
      nlinarith
    linarith
  refine ⟨n, ?_, fun random => ?_⟩
  · by_contra h
    have : n = 0 := by omega
    rw [this] at hx0
    simp at hx0
  · obtain ⟨f, e1, c, _, _⟩ := new_rep (b := BitVec.ofNat 64 (2 ^ k)) (by rw [t2]; positivity) (by rw [t2]; omega)
      (k := (seedCnt n (2 ^ k) : ℕ)) (by omega) random
    refine ⟨f, ?_, ?_, le_trans hrate (C169_single_probe (by omega) (by omega) _ random n e1)⟩
    · unfold newFor
      dsimp only
      rw [hr, hr2, ← e1]
      exact new_congr hr _ _
    · rw [len, c, hr2]

/-- One in a million, 2^20 bits. -/
example : ∃ n : ℕ, 1 ≤ n ∧ ∀ random, ∃ f, newFor n ((1 / 2) ^ 20) random = .ok f ∧ (len f).toNat = 2 ^ 20 ∧ 0.018 ≤ falseRate f n := by
  obtain ⟨n, hn, h⟩ := C169_rate_refuted 20 20 (by norm_num) (by norm_num) (by norm_num) (by norm_num)
  refine ⟨n, hn, fun random => ?_⟩
  obtain ⟨f, e, e', hr⟩ := h random
  exact ⟨f, e, e', le_trans (by norm_num) hr⟩

end Verif.Bloom
