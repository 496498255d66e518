import Verif.Proof.Math
import Mathlib.Algebra.Order.Ring.Int
import Mathlib.Tactic.Linarith

/-!
# Properties C01–C06: `common/math`
-/

namespace Verif.Math

/-- C01: `IsPowOf2(n)` holds exactly for the powers of two, at every width. -/
theorem C01_isPowOf2_iff {w : Nat} (n : BitVec w) :
    isPowOf2 n = true ↔ ∃ k, n.toNat = 2 ^ k := by
  unfold isPowOf2
  rcases Nat.eq_zero_or_pos w with rfl | hw
  · have : n.toNat = 0 := by have := n.isLt; omega
    have h0 : n = 0 := by apply BitVec.eq_of_toNat_eq; simpa using this
    subst h0
    simp
    intro k hk
    have := Nat.pow_pos (n := k) (by omega : 0 < 2)
    omega
  · by_cases hn : n = 0
    · subst hn
      simp
      intro k hk
      have := Nat.pow_pos (n := k) (by omega : 0 < 2)
      omega
    · have hn' : n.toNat ≠ 0 := by
        intro h; exact hn (BitVec.eq_of_toNat_eq (by simpa using h))
      rw [← nat_and_pred_eq_zero_iff _ hn']
      have e : (n - 1).toNat = n.toNat - 1 := by
        have h2 : (1 : BitVec w).toNat = 1 := by
          exact toNat_one_of_pos (by omega)
        rw [BitVec.toNat_sub_of_le, h2]
        rw [BitVec.le_def, h2]; omega
      simp only [bne_iff_ne, ne_eq, hn, not_false_eq_true, Bool.and_eq_true, beq_iff_eq, true_and]
      constructor
      · intro h
        have := congrArg BitVec.toNat h
        rw [BitVec.toNat_and, e] at this
        simpa using this
      · intro h
        apply BitVec.eq_of_toNat_eq
        rw [BitVec.toNat_and, e]
        simpa using h

/-- C02: within range, `RoundUpPowOf2(n)` is the least power of two that is at least `n`. -/
theorem C02_roundUp_least {w : Nat} (hw : w ≤ 64) (n : BitVec w)
    (h1 : 1 ≤ n.toNat) (h2 : n.toNat ≤ 2 ^ (w - 1)) :
    (∃ k, (roundUpPowOf2 n).toNat = 2 ^ k) ∧ n.toNat ≤ (roundUpPowOf2 n).toNat ∧
      ∀ k, n.toNat ≤ 2 ^ k → (roundUpPowOf2 n).toNat ≤ 2 ^ k := by
  have hw0 : 0 < w := by
    rcases Nat.eq_zero_or_pos w with rfl | h
    · have := n.isLt; omega
    · exact h
  have e1 : (1#w).toNat = 1 := by
    exact toNat_one_of_pos (by omega)
  have e : (n - 1).toNat = n.toNat - 1 := by
    rw [BitVec.toNat_sub_of_le]
    · simp only [BitVec.ofNat_eq_ofNat, e1]
    · rw [BitVec.le_def]; simp only [BitVec.ofNat_eq_ofNat, e1]; omega
  have hb : bitLen (n.toNat - 1) ≤ w - 1 := bitLen_le_of_lt (by omega)
  have hv : (roundUpPowOf2 n).toNat = 2 ^ bitLen (n.toNat - 1) := by
    unfold roundUpPowOf2
    rw [findLastBitSet_eq hw, e, BitVec.toNat_shiftLeft, e1, Nat.one_shiftLeft]
    exact Nat.mod_eq_of_lt (Nat.pow_lt_pow_right (by omega) (by omega))
  refine ⟨⟨_, hv⟩, ?_, ?_⟩
  · rw [hv]; have := lt_two_pow_bitLen (n.toNat - 1); omega
  · intro k hk
    rw [hv]
    exact Nat.pow_le_pow_right (by omega) (bitLen_le_of_lt (by omega))

/-- C02, out of range: for `n = 0`, and for `n` above the largest representable power of two, the result is 0. -/
theorem C02_roundUp_unrepresentable {w : Nat} (hw : w ≤ 64) (n : BitVec w)
    (h : n.toNat = 0 ∨ 2 ^ (w - 1) < n.toNat) : roundUpPowOf2 n = 0 := by
  rcases Nat.eq_zero_or_pos w with rfl | hw0
  · exact Subsingleton.elim _ _
  have e1 : (1#w).toNat = 1 := by
    exact toNat_one_of_pos (by omega)
  have hp : 2 ^ w = 2 * 2 ^ (w - 1) := by
    obtain ⟨k, rfl⟩ := Nat.exists_eq_succ_of_ne_zero (by omega : w ≠ 0)
    simp [pow_succ]; ring
  have hlow : 2 ^ (w - 1) ≤ (n - 1).toNat := by
    have hlt := n.isLt
    have hpos : 0 < 2 ^ (w - 1) := Nat.pow_pos (by omega)
    rw [BitVec.toNat_sub]
    simp only [BitVec.ofNat_eq_ofNat, e1]
    rcases h with h | h
    · rw [h, Nat.mod_eq_of_lt (by omega)]; omega
    · have : 2 ^ w - 1 + n.toNat = (n.toNat - 1) + 2 ^ w := by omega
      rw [this, Nat.add_mod_right, Nat.mod_eq_of_lt (by omega)]; omega
  have hb := lt_bitLen_of_le hlow
  apply BitVec.eq_of_toNat_eq
  unfold roundUpPowOf2
  rw [findLastBitSet_eq hw, BitVec.toNat_shiftLeft, e1, Nat.one_shiftLeft]
  have : 2 ^ bitLen (n - 1).toNat = 2 ^ w * 2 ^ (bitLen (n - 1).toNat - w) := by
    rw [← pow_add]; congr 1; omega
  rw [this]; simp

/-- C03: for `n ≥ 1`, `RoundDownPowOf2(n)` is a power of two, at most `n`, and its double exceeds `n`. -/
theorem C03_roundDown_greatest {w : Nat} (hw : w ≤ 64) (n : BitVec w) (h1 : 1 ≤ n.toNat) :
    ∃ r, roundDownPowOf2 n = .ok r ∧ (∃ k, r.toNat = 2 ^ k) ∧ r.toNat ≤ n.toNat ∧ n.toNat < 2 * r.toNat := by
  have hw0 : 0 < w := by
    rcases Nat.eq_zero_or_pos w with rfl | h
    · have := n.isLt; omega
    · exact h
  have e1 : (1#w).toNat = 1 := by
    exact toNat_one_of_pos (by omega)
  have hne : bitLen n.toNat ≠ 0 := bitLen_ne_zero (by omega)
  have hle : bitLen n.toNat ≤ w := bitLen_le_of_lt n.isLt
  have hs : ((bitLen n.toNat : Int) - 1).toNat = bitLen n.toNat - 1 := by omega
  have hv : (1#w <<< (bitLen n.toNat - 1)).toNat = 2 ^ (bitLen n.toNat - 1) := by
    rw [BitVec.toNat_shiftLeft, e1, Nat.one_shiftLeft]
    exact Nat.mod_eq_of_lt (Nat.pow_lt_pow_right (by omega) (by omega))
  refine ⟨1#w <<< (bitLen n.toNat - 1), ?_, ⟨_, hv⟩, ?_, ?_⟩
  · unfold roundDownPowOf2
    rw [findLastBitSet_eq hw]
    simp only [hs]
    rw [if_neg (by omega)]
  · rw [hv]; exact two_pow_bitLen_le _ (by omega)
  · rw [hv]
    have := lt_two_pow_bitLen n.toNat
    obtain ⟨k, hk⟩ := Nat.exists_eq_succ_of_ne_zero hne
    rw [hk] at this ⊢
    simp [pow_succ] at this ⊢; omega

/-- C03: `RoundDownPowOf2(0)` panics with a negative shift. -/
theorem C03_roundDown_zero {w : Nat} : roundDownPowOf2 (0 : BitVec w) = .error .negShift := by
  simp [roundDownPowOf2, findLastBitSet, bitLen_zero]

/-- C04: `FindLastBitSet(x)` is the bit length of `x`. -/
theorem C04_findLastBitSet {w : Nat} (hw : w ≤ 64) (x : BitVec w) :
    x.toNat < 2 ^ findLastBitSet x ∧ (findLastBitSet x = 0 ∨ 2 ^ (findLastBitSet x - 1) ≤ x.toNat) := by
  rw [findLastBitSet_eq hw]
  refine ⟨lt_two_pow_bitLen _, ?_⟩
  by_cases hx : x.toNat = 0
  · left; rw [hx, bitLen_zero]
  · right; exact two_pow_bitLen_le _ hx

/-- C04, the documented values: `FindLastBitSet(0) = 0` and `FindLastBitSet(1) = 1`, at every width. -/
theorem C04_documented_values {w : Nat} (hw : w ≤ 64) (h : 0 < w) :
    findLastBitSet (0#w) = 0 ∧ findLastBitSet (1#w) = 1 ∧
      (∀ k, k < w → findLastBitSet (1#w <<< k) = k + 1) := by
  have e1 : (1#w).toNat = 1 := by
    exact toNat_one_of_pos (by omega)
  have key : ∀ k, k < w → findLastBitSet (1#w <<< k) = k + 1 := by
    intro k hk
    rw [findLastBitSet_eq hw]
    have hv : (1#w <<< k).toNat = 2 ^ k := by
      rw [BitVec.toNat_shiftLeft, e1, Nat.one_shiftLeft]
      exact Nat.mod_eq_of_lt (Nat.pow_lt_pow_right (by omega) (by omega))
    rw [hv]
    have h1 := lt_bitLen_of_le (x := 2 ^ k) (k := k) le_rfl
    have h2 := bitLen_le_of_lt (x := 2 ^ k) (k := k + 1) (Nat.pow_lt_pow_right (by omega) (by omega))
    omega
  refine ⟨by rw [findLastBitSet_eq hw]; simp [bitLen_zero], ?_, key⟩
  have := key 0 h
  simpa using this

/-- C05: for `n, m ≥ 1` whose sum does not overflow, `Split(n,m) = (per,last)`: cutting `n` into pieces of size `per`
with a last piece of size `last` (`1 ≤ last ≤ per`) uses all of `n` and at most `m` pieces, and no smaller
piece size would do. -/
theorem C05_split_covers (n m : BitVec 64) (hn : 1 ≤ n.toNat) (hm : 1 ≤ m.toNat)
    (hov : n.toNat + m.toNat < 2 ^ 64) :
    ∃ per last parts : Nat, split n m = .ok (BitVec.ofNat 64 per, BitVec.ofNat 64 last) ∧
      per < 2 ^ 64 ∧ 1 ≤ last ∧ last ≤ per ∧ 1 ≤ parts ∧ parts ≤ m.toNat ∧
      n.toNat = (parts - 1) * per + last ∧ (∀ q, n.toNat ≤ m.toNat * q → per ≤ q) := by
  obtain ⟨P, hP⟩ : ∃ P, P = (n.toNat + m.toNat - 1) / m.toNat := ⟨_, rfl⟩
  have hs := split_eq n m P hP hn hm hov
  obtain ⟨hP1, hPN, hle, hmin⟩ := split_arith _ _ _ hP hn hm
  have hdm := Nat.div_add_mod n.toNat P
  have hml2 := Nat.mod_lt n.toNat (by omega : P > 0)
  have h5 : 1 ≤ n.toNat / P := (Nat.one_le_div_iff (by omega)).2 hPN
  by_cases hr : n.toNat % P = 0
  · rw [if_pos hr] at hs
    refine ⟨P, P, n.toNat / P, hs, by omega, hP1, le_rfl, h5, ?_, ?_, hmin⟩
    · apply Nat.div_le_of_le_mul; exact hle
    · obtain ⟨c, hc⟩ : ∃ c, n.toNat / P = c + 1 := ⟨n.toNat / P - 1, by omega⟩
      rw [hc] at hdm ⊢
      simp only [Nat.add_sub_cancel]
      nlinarith
  · rw [if_neg hr] at hs
    refine ⟨P, n.toNat % P, n.toNat / P + 1, hs, by omega, by omega, by omega, by omega, ?_, ?_, hmin⟩
    · by_contra hcon
      have h8 : m.toNat ≤ n.toNat / P := by omega
      have h9 : P * m.toNat ≤ P * (n.toNat / P) := Nat.mul_le_mul_left _ h8
      omega
    · simp only [Nat.add_sub_cancel]
      rw [Nat.mul_comm]; omega

/-- C05: with no overflow, `Split` panics exactly when `n = 0` or `m = 0` (always a division by zero). -/
theorem C05_split_panics_iff (n m : BitVec 64) (hov : n.toNat + m.toNat < 2 ^ 64) :
    split n m = .error .divZero ↔ n.toNat = 0 ∨ m.toNat = 0 := by
  constructor
  · intro h
    by_contra hc
    obtain ⟨per, last, parts, h1, _⟩ := C05_split_covers n m (by omega) (by omega) hov
    rw [h1] at h; cases h
  · intro h
    by_cases hm : m = 0
    · simp [split, hm]
    · have hm' : m.toNat ≠ 0 := fun h => hm (BitVec.eq_of_toNat_eq (by simpa using h))
      have hn : n = 0 := BitVec.eq_of_toNat_eq (by simp; omega)
      subst hn
      have : (0 + m - 1) / m = 0 := by
        apply BitVec.eq_of_toNat_eq
        rw [BitVec.toNat_udiv, BitVec.toNat_sub_of_le]
        · simp
          right; omega
        · rw [BitVec.le_def]; simp; omega
      simp only [split, hm, if_false, this, if_true]

/-- C05, the doc comment's stronger reading ("split into m parts") is false: 5 in 4 parts gives
(2,1), i.e. three pieces. -/
theorem C05_exactly_m_parts_refuted :
    ¬ ∀ n m : BitVec 64, 1 ≤ n.toNat → 1 ≤ m.toNat → n.toNat + m.toNat < 2 ^ 64 →
      ∃ per last : BitVec 64, split n m = .ok (per, last) ∧
        n.toNat = (m.toNat - 1) * per.toNat + last.toNat := by
  intro h
  obtain ⟨per, last, h1, h2⟩ := h 5#64 4#64 (by decide) (by decide) (by decide)
  have : split 5#64 4#64 = .ok (2#64, 1#64) := by decide
  rw [this] at h1
  cases h1
  simp at h2

/-- the hypotheses of `C05_split_covers` are met, e.g. by splitting 10 in 3: pieces of 4, last 2 -/
example : split 10#64 3#64 = .ok (4#64, 2#64) := by decide

/-- C06: `Max` returns one of its arguments and bounds both. -/
theorem C06_max {T : Type u} [LinearOrder T] (a b : T) :
    (max a b = a ∨ max a b = b) ∧ a ≤ max a b ∧ b ≤ max a b := by
  unfold max
  split
  · rename_i h; exact ⟨.inl rfl, le_rfl, le_of_lt h⟩
  · rename_i h; exact ⟨.inr rfl, le_of_not_gt h, le_rfl⟩

/-- C06: `Min` returns one of its arguments and bounds both. -/
theorem C06_min {T : Type u} [LinearOrder T] (a b : T) :
    (min a b = a ∨ min a b = b) ∧ min a b ≤ a ∧ min a b ≤ b := by
  unfold min
  split
  · rename_i h; exact ⟨.inl rfl, le_rfl, le_of_lt h⟩
  · rename_i h; exact ⟨.inr rfl, le_of_not_gt h, le_rfl⟩

/-- C06: `Abs` is the absolute value, except on the most negative value. -/
theorem C06_abs {w : Nat} (a : BitVec w) (h : a ≠ BitVec.intMin w) :
    (abs a).toInt = |a.toInt| := by
  unfold abs
  split
  · rename_i hs
    rw [BitVec.toInt_neg_of_ne_intMin h]
    have : a.toInt < 0 := by simpa [BitVec.slt] using hs
    rw [abs_of_neg this]
  · rename_i hs
    have : 0 ≤ a.toInt := by simpa [BitVec.slt] using hs
    rw [abs_of_nonneg this]

/-- C06: `Abs` of the most negative value is that (negative) value itself. -/
theorem C06_abs_intMin {w : Nat} : abs (BitVec.intMin w) = BitVec.intMin w := by
  unfold abs
  split
  · exact BitVec.neg_intMin
  · rfl

example : (abs (-5#8)).toInt = 5 ∧ -5#8 ≠ BitVec.intMin 8 := by decide

end Verif.Math
