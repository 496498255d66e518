import Verif.Props.MathFloat

/-!
# C139: the bits of a `float64` stand for exactly the numbers of Verif.Go.Float64
-/

namespace Verif.MathFloat

/-- **C139 (the numbers).** The bits that stand for a number stand for one with at most 53 places, none below 2^-1074, and below 2^1024. -/
theorem C139_numbers (a : BitVec 64) (q : ℚ) (h : val a = .fin q) : Repr64 q ∧ |q| < 2 ^ 1024 := by
  have hm : magnitude a < 2 ^ 63 := Nat.mod_lt _ (by norm_num)
  have hf : fraction a < 2 ^ 52 := Nat.mod_lt _ (by norm_num)
  have he : exponent a < 2048 := by unfold exponent; omega
  unfold val at h
  split at h
  · split at h <;> cases h
  rename_i hne
  injection h with h
  have key : ∃ m e : ℤ, 0 ≤ m ∧ m < 2 ^ 53 ∧ -1074 ≤ e ∧ e ≤ 971 ∧ size a = m * 2 ^ e := by
    unfold size
    split
    · exact ⟨fraction a, -1074, by omega, by omega, by omega, by omega, by push_cast; rfl⟩
    · exact ⟨2 ^ 52 + fraction a, (exponent a : ℤ) - 1075, by omega, by omega, by omega, by omega, by push_cast; rfl⟩
  obtain ⟨m, e, m0, m1, e0, e1, hs⟩ := key
  have habs : |q| = m * 2 ^ e := by
    rw [← hs, ← h]
    cases negative a <;> simp [abs_of_nonneg (size_nonneg a)]
  constructor
  · cases hn : negative a with
    | true => exact ⟨-m, e, by rw [abs_neg, abs_of_nonneg m0]; omega, e0, by rw [← h, hn, hs]; push_cast; simp⟩
    | false => exact ⟨m, e, by rw [abs_of_nonneg m0]; omega, e0, by rw [← h, hn, hs]; simp⟩
  · rw [habs]
    have h1 : (2 : ℚ) ^ e ≤ 2 ^ (971 : ℤ) := zpow_le_zpow_right₀ (by norm_num) e1
    have h2 : (m : ℚ) < 2 ^ 53 := by exact_mod_cast m1
    have h3 : (0 : ℚ) < 2 ^ e := two_zpow_pos e
    calc (m : ℚ) * 2 ^ e < 2 ^ 53 * 2 ^ e := by exact mul_lt_mul_of_pos_right h2 h3
      _ ≤ 2 ^ 53 * 2 ^ (971 : ℤ) := by exact mul_le_mul_of_nonneg_left h1 (by norm_num)
      _ = 2 ^ 1024 := by exact_mod_cast (show (2 ^ 53 * 2 ^ 971 : ℕ) = 2 ^ 1024 by decide +kernel)

/-- The value of bits put together from their fields. -/
theorem val_fields (s : Bool) (n : ℕ) (h : n < 2047 * 2 ^ 52) :
    val (BitVec.ofNat 64 ((if s then 2 ^ 63 else 0) + n)) =
      .fin ((if s then -1 else 1 : ℚ) *
        (if n / 2 ^ 52 = 0 then ((n % 2 ^ 52 : ℕ) : ℚ) * 2 ^ (-1074 : ℤ) else (2 ^ 52 + ((n % 2 ^ 52 : ℕ) : ℚ)) * 2 ^ (((n / 2 ^ 52 : ℕ) : ℤ) - 1075))) := by
  have ht : (BitVec.ofNat 64 ((if s then 2 ^ 63 else 0) + n)).toNat = (if s then 2 ^ 63 else 0) + n := by
    rw [BitVec.toNat_ofNat, Nat.mod_eq_of_lt]
    cases s <;> simp <;> omega
  have hm : magnitude (BitVec.ofNat 64 ((if s then 2 ^ 63 else 0) + n)) = n := by
    unfold magnitude
    rw [ht]
    cases s <;> simp <;> omega
  have hn : negative (BitVec.ofNat 64 ((if s then 2 ^ 63 else 0) + n)) = s := by
    unfold negative
    rw [ht]
    cases s <;> simp <;> omega
  unfold val size exponent fraction
  rw [hm, hn, if_neg (by omega)]
  generalize (if n / 2 ^ 52 = 0 then _ else _ : ℚ) = z
  cases s <;> simp

/-- **C139 (all numbers).** Every number with at most 53 places, none below 2^-1074, that is below 2^1024 has its bits. -/
theorem C139_all_numbers (q : ℚ) (h : Repr64 q) (hq : |q| < 2 ^ 1024) : ∃ a, val a = .fin q := by
  by_cases h0 : q = 0
  · exact ⟨0#64, by rw [h0]; exact val_zero⟩
  have hp := two_zpow_pos (lastPlace q)
  obtain ⟨k, hk⟩ : ∃ k : ℤ, q = k * 2 ^ lastPlace q := ⟨_, (rnd_fixed q h).symm⟩
  have habs : |q| = |k| * 2 ^ lastPlace q := by
    conv_lhs => rw [hk]
    rw [abs_mul, abs_of_pos hp]
    push_cast
    rfl
  have hlt : |k| < 2 ^ 53 := by
    have h1 := lt_lastPlace q
    rw [habs, zpow_add₀ (by norm_num), mul_comm] at h1
    have h2 := lt_of_mul_lt_mul_left h1 (le_of_lt hp)
    exact_mod_cast h2
  have hge : -1074 < lastPlace q → 2 ^ 52 ≤ |k| := by
    intro hl
    have h1 := lastPlace_le q h0 hl
    rw [habs, zpow_add₀ (by norm_num), mul_comm ((|k| : ℤ) : ℚ)] at h1
    have h2 := le_of_mul_le_mul_left h1 hp
    exact_mod_cast h2
  have hl : lastPlace q ≤ 971 := by
    by_contra hc
    have h1 := lastPlace_le q h0 (by omega)
    have h2 : (2 : ℚ) ^ (1024 : ℤ) ≤ 2 ^ (lastPlace q + 52) := zpow_le_zpow_right₀ (by norm_num) (by omega)
    have h3 : (2 : ℚ) ^ (1024 : ℤ) = 2 ^ 1024 := by exact_mod_cast rfl
    exact absurd (lt_of_le_of_lt h1 hq) (not_lt.mpr (h3 ▸ h2))
  have hlo := lastPlace_ge q
  generalize lastPlace q = l at *
  obtain ⟨j, hj⟩ : ∃ j : ℕ, |k| = j := ⟨|k|.toNat, (Int.toNat_of_nonneg (abs_nonneg k)).symm⟩
  obtain ⟨i, hi⟩ : ∃ i : ℕ, l = i - 1074 := ⟨(l + 1074).toNat, by omega⟩
  have hkj : (k : ℚ) = (if decide (k < 0) then -1 else 1) * (j : ℚ) := by
    have : ((|k| : ℤ) : ℚ) = j := by exact_mod_cast hj
    rw [← this]
    by_cases hneg : k < 0
    · rw [abs_of_neg hneg]; simp [hneg]
    · rw [abs_of_nonneg (not_lt.mp hneg)]; simp [hneg]
  refine ⟨BitVec.ofNat 64 ((if decide (k < 0) then 2 ^ 63 else 0) + (i * 2 ^ 52 + j)), ?_⟩
  rw [val_fields _ _ (by omega), hk, hkj, mul_assoc]
  congr 2
  by_cases hs : j < 2 ^ 52
  · have : i = 0 := by
      by_contra hc
      have := hge (by omega)
      omega
    subst this
    rw [if_pos (by omega), show (0 * 2 ^ 52 + j) % 2 ^ 52 = j by omega, hi]
    norm_num
  · have e1 : (i * 2 ^ 52 + j) / 2 ^ 52 = i + 1 := by omega
    have e2 : 2 ^ 52 + (i * 2 ^ 52 + j) % 2 ^ 52 = j := by omega
    have e3 : (2 : ℚ) ^ 52 + ((i * 2 ^ 52 + j) % 2 ^ 52 : ℕ) = j := by exact_mod_cast e2
    rw [if_neg (by omega), e1, e3, hi]
    congr 2
    push_cast
    ring

/-- Non-vacuity: one third rounded is such a number, and has bits. -/
example : ∃ a, val a = .fin (rnd (1 / 3)) :=
  C139_all_numbers _ (repr_rnd _) (by
    have h := rnd_le (1 / 3) 1 (by exact_mod_cast repr_int 1 (by norm_num)) (by norm_num)
    have h' := le_rnd (1 / 3) 0 (by exact_mod_cast repr_int 0 (by norm_num)) (by norm_num)
    rw [abs_of_nonneg h']
    exact lt_of_le_of_lt h (by exact_mod_cast (show (1 : ℕ) < 2 ^ 1024 by decide +kernel)))

end Verif.MathFloat
