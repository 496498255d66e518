import Verif.Model.Math
import Mathlib.Tactic.Ring
import Mathlib.Data.Nat.Bitwise
import Mathlib.Tactic.Linarith

namespace Verif.Math

theorem lt_two_pow_bitLen (x : Nat) : x < 2 ^ bitLen x := by
  induction x using Nat.strongRecOn with
  | ind x ih =>
    rw [bitLen]
    split
    · omega
    · have := ih (x / 2) (by omega)
      rw [pow_succ]; omega

theorem two_pow_bitLen_le (x : Nat) (hx : x ≠ 0) : 2 ^ (bitLen x - 1) ≤ x := by
  induction x using Nat.strongRecOn with
  | ind x ih =>
    rw [bitLen]
    simp only [hx, dite_false, Nat.add_sub_cancel]
    by_cases h : x / 2 = 0
    · have : x = 1 := by omega
      subst this
      simp [bitLen]
    · have h1 := ih (x / 2) (by omega) h
      have h2 : bitLen (x/2) ≠ 0 := by rw [bitLen]; simp [h]
      obtain ⟨k, hk⟩ := Nat.exists_eq_succ_of_ne_zero h2
      rw [hk] at h1 ⊢
      simp only [Nat.succ_eq_add_one, Nat.add_sub_cancel] at h1 ⊢
      rw [pow_succ]; omega

theorem toNat_one_of_pos {w : Nat} (hw : 0 < w) : (1#w).toNat = 1 := by
  rw [BitVec.toNat_ofNat]
  exact Nat.mod_eq_of_lt (Nat.one_lt_two_pow (by omega))

theorem bitLen_zero : bitLen 0 = 0 := by rw [bitLen]; simp

theorem bitLen_ne_zero {x : Nat} (hx : x ≠ 0) : bitLen x ≠ 0 := by rw [bitLen]; simp [hx]

theorem bitLen_le_of_lt {x k : Nat} (h : x < 2 ^ k) : bitLen x ≤ k := by
  by_cases hx : x = 0
  · subst hx; simp [bitLen_zero]
  · have h1 := two_pow_bitLen_le x hx
    have h2 := bitLen_ne_zero hx
    have h3 : 2 ^ (bitLen x - 1) < 2 ^ k := by omega
    have := (Nat.pow_lt_pow_iff_right (by omega : 1 < 2)).1 h3
    omega

theorem lt_bitLen_of_le {x k : Nat} (h : 2 ^ k ≤ x) : k < bitLen x := by
  have h1 := lt_two_pow_bitLen x
  exact (Nat.pow_lt_pow_iff_right (by omega : 1 < 2)).1 (by omega : 2 ^ k < 2 ^ bitLen x)

theorem findLastBitSet_eq {w : Nat} (hw : w ≤ 64) (x : BitVec w) : findLastBitSet x = bitLen x.toNat := by
  unfold findLastBitSet
  rw [BitVec.toNat_setWidth]
  congr 1
  apply Nat.mod_eq_of_lt
  exact lt_of_lt_of_le x.isLt (Nat.pow_le_pow_right (by omega) hw)

/-- clearing the lowest set bit: `n &&& (n-1) = 0` only for powers of two -/
theorem nat_and_pred_eq_zero_iff (n : Nat) (hn : n ≠ 0) : n &&& (n - 1) = 0 ↔ ∃ k, n = 2 ^ k := by
  constructor
  · induction n using Nat.strongRecOn with
    | ind n ih =>
      intro h
      rcases Nat.even_or_odd' n with ⟨m, hm | hm⟩
      · have hm0 : m ≠ 0 := by omega
        have hh : m &&& (m - 1) = 0 := by
          apply Nat.eq_of_testBit_eq
          intro i
          have h1 := congrArg (fun z => Nat.testBit z (i+1)) h
          simp only [Nat.testBit_and, Nat.zero_testBit] at h1 ⊢
          rw [Nat.testBit_succ, Nat.testBit_succ] at h1
          have e1 : n / 2 = m := by omega
          have e2 : (n - 1) / 2 = m - 1 := by omega
          rw [e1, e2] at h1
          exact h1
        obtain ⟨k, hk⟩ := ih m (by omega) hm0 hh
        exact ⟨k+1, by rw [pow_succ]; omega⟩
      · by_cases hm0 : m = 0
        · exact ⟨0, by simp; omega⟩
        · exfalso
          have h2 : m = 0 := by
            apply Nat.eq_of_testBit_eq
            intro i
            have h1 := congrArg (fun z => Nat.testBit z (i+1)) h
            simp only [Nat.testBit_and, Nat.zero_testBit] at h1 ⊢
            rw [Nat.testBit_succ, Nat.testBit_succ] at h1
            have e1 : n / 2 = m := by omega
            have e2 : (n - 1) / 2 = m := by omega
            rw [e1, e2] at h1
            simpa using h1
          exact hm0 h2
  · rintro ⟨k, rfl⟩
    rw [Nat.and_two_pow_sub_one_eq_mod]
    simp

/-- the arithmetic behind `Split` -/
theorem split_arith (N M P : Nat) (hP : P = (N + M - 1) / M) (hn : 1 ≤ N) (hm : 1 ≤ M) :
    1 ≤ P ∧ P ≤ N ∧ N ≤ P * M ∧ ∀ q, N ≤ M * q → P ≤ q := by
  have hP1 : 1 ≤ P := by rw [hP]; exact (Nat.one_le_div_iff (by omega)).2 (by omega)
  refine ⟨hP1, ?_, ?_, ?_⟩
  · rw [hP]; apply Nat.div_le_of_le_mul
    obtain ⟨a, rfl⟩ : ∃ a, N = a + 1 := ⟨N-1, by omega⟩
    obtain ⟨b, rfl⟩ : ∃ b, M = b + 1 := ⟨M-1, by omega⟩
    have e : a + 1 + (b + 1) - 1 = a + b + 1 := by omega
    rw [e]
    nlinarith [Nat.zero_le (a * b)]
  · have h3 := Nat.div_add_mod (N + M - 1) M
    have h4 := Nat.mod_lt (N + M - 1) (by omega : M > 0)
    rw [← hP] at h3
    rw [Nat.mul_comm]; omega
  · intro q hq
    rw [hP, ← Nat.lt_succ_iff, Nat.div_lt_iff_lt_mul (by omega)]
    have : (q + 1) * M = M * q + M := by ring
    rw [Nat.succ_eq_add_one, this]; omega

theorem split_eq (n m : BitVec 64) (P : Nat) (hP : P = (n.toNat + m.toNat - 1) / m.toNat)
    (hn : 1 ≤ n.toNat) (hm : 1 ≤ m.toNat) (hov : n.toNat + m.toNat < 2 ^ 64) :
    split n m = .ok (BitVec.ofNat 64 P, BitVec.ofNat 64 (if n.toNat % P = 0 then P else n.toNat % P)) := by
  have hper : ((n + m - 1) / m).toNat = P := by
    rw [BitVec.toNat_udiv, BitVec.toNat_sub, BitVec.toNat_add, hP]
    have : (1 : BitVec 64).toNat = 1 := rfl
    rw [this, Nat.mod_eq_of_lt hov]
    have h3 : 2 ^ 64 - 1 + (n.toNat + m.toNat) = (n.toNat + m.toNat - 1) + 2 ^ 64 := by omega
    rw [h3, Nat.add_mod_right, Nat.mod_eq_of_lt (by omega)]
  obtain ⟨hP1, hPN, -, -⟩ := split_arith _ _ _ hP hn hm
  have hnl := n.isLt
  have hm0 : m ≠ 0 := by
    intro h; rw [h] at hm; simp at hm
  generalize hq : (n + m - 1) / m = per at hper
  have hp0 : per ≠ 0 := by
    intro h; rw [h] at hper; simp at hper; omega
  have hpe : per = BitVec.ofNat 64 P := by
    apply BitVec.eq_of_toNat_eq
    rw [hper, BitVec.toNat_ofNat, Nat.mod_eq_of_lt (by omega)]
  have hl : n % per = BitVec.ofNat 64 (n.toNat % P) := by
    apply BitVec.eq_of_toNat_eq
    have := Nat.mod_lt n.toNat (by omega : P > 0)
    rw [BitVec.toNat_umod, hper, BitVec.toNat_ofNat, Nat.mod_eq_of_lt (a := n.toNat % P) (by omega)]
  have hz : n % per = 0 ↔ n.toNat % P = 0 := by
    rw [← hper, ← BitVec.toNat_umod]
    constructor
    · intro h; rw [h]; rfl
    · intro h; exact BitVec.eq_of_toNat_eq (by rw [h]; rfl)
  simp only [split, hm0, if_false, hq, hp0]
  by_cases hr : n.toNat % P = 0
  · rw [if_pos (hz.2 hr), if_pos hr, hpe]
  · rw [if_neg (fun h => hr (hz.1 h)), if_neg hr, hl, hpe]

end Verif.Math
