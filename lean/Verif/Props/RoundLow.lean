import Verif.Props.Round

/-! # C133: `Round` to very large units -/

namespace Verif.Misc

open F64

theorem ofRat_between {q : ℚ} {a b : ℤ} (ha : -1074 ≤ a) (hb : -1074 ≤ b) (hb' : b ≤ 1000) (h1 : (2 : ℚ) ^ a ≤ q) (h2 : q ≤ 2 ^ b) :
    ∃ r, ofRat q = .fin r ∧ (2 : ℚ) ^ a ≤ r ∧ r ≤ 2 ^ b := by
  have h0 := two_zpow_pos a
  refine ⟨rnd q, ofRat_fin q ?_, le_rnd _ _ (repr_two_zpow a ha) h1, rnd_le _ _ (repr_two_zpow b hb) h2⟩
  rw [abs_of_pos (lt_of_lt_of_le h0 h1)]
  refine le_trans h2 ?_
  rw [← zpow_natCast]
  exact zpow_le_zpow_right₀ (by norm_num) (by norm_num; omega)

theorem quotient_between {x y : ℚ} {a b c d : ℤ} (h1 : (2 : ℚ) ^ a ≤ x) (h2 : x ≤ 2 ^ b) (h3 : (2 : ℚ) ^ c ≤ y) (h4 : y ≤ 2 ^ d) :
    (2 : ℚ) ^ (a - d) ≤ x / y ∧ x / y ≤ 2 ^ (b - c) := by
  have hy : 0 < y := lt_of_lt_of_le (two_zpow_pos c) h3
  rw [zpow_sub₀ (by norm_num), zpow_sub₀ (by norm_num)]
  exact ⟨div_le_div₀ (le_trans (two_zpow_pos a).le h1) h1 hy h4, div_le_div₀ (two_zpow_pos b).le h2 (two_zpow_pos c) h3⟩

/-- `math.Pow10` is positive and at most 2^-1025 there. -/
theorem pow10_low (n : ℤ) (h : -323 ≤ n) (h' : n ≤ -309) : ∃ p, pow10 n = .fin p ∧ 0 < p ∧ p ≤ 2 ^ (-1025 : ℤ) := by
  have key : ∀ (i : ℤ) (j : ℤ) (a b c d : ℤ), -n / 32 * 32 = i → -n % 32 = j → -1074 ≤ a → a ≤ b → b ≤ 0 → 0 ≤ c → c ≤ d → d ≤ 1000 → -1074 ≤ a - d → b - c ≤ -1025 →
      (2 : ℚ) ^ a ≤ 10 ^ (-i) → (10 : ℚ) ^ (-i) ≤ 2 ^ b → (2 : ℚ) ^ c ≤ 10 ^ j → (10 : ℚ) ^ j ≤ 2 ^ d → ∃ p, pow10 n = .fin p ∧ 0 < p ∧ p ≤ 2 ^ (-1025 : ℤ) := by
    intro i j a b c d hi hj ha hab hb hc hcd hd had hbc h1 h2 h3 h4
    obtain ⟨x, ex, x1, x2⟩ := ofRat_between ha (by omega) (by omega) h1 h2
    obtain ⟨y, ey, y1, y2⟩ := ofRat_between (by omega) (by omega) hd h3 h4
    obtain ⟨q1, q2⟩ := quotient_between x1 x2 y1 y2
    have hy : 0 < y := lt_of_lt_of_le (two_zpow_pos c) y1
    obtain ⟨p, ep, p1, p2⟩ := ofRat_between (b := b - c) had (by omega) (by omega) q1 q2
    refine ⟨p, ?_, lt_of_lt_of_le (two_zpow_pos _) p1, le_trans p2 (zpow_le_zpow_right₀ (by norm_num) hbc)⟩
    rw [pow10, if_neg (by omega), if_pos (by omega), hi, hj, ex, ey, div, if_neg hy.ne', ep]
  have hd : -n / 32 = 9 ∨ -n / 32 = 10 := by omega
  rcases hd with hd | hd
  · have hm : -n % 32 = -n - 288 := by omega
    refine key 288 (-n - 288) (-957) (-956) 69 103 (by omega) hm (by norm_num) (by norm_num) (by norm_num) (by norm_num) (by norm_num) (by norm_num) (by norm_num) (by norm_num) ?_ ?_ ?_ ?_
    · rw [zpow_neg, zpow_neg, inv_le_inv₀ (zpow_pos (by norm_num) _) (zpow_pos (by norm_num) _)]
      norm_num
      exact_mod_cast (show (10 ^ 288 : ℕ) ≤ 2 ^ 957 by decide +kernel)
    · rw [zpow_neg, zpow_neg, inv_le_inv₀ (zpow_pos (by norm_num) _) (zpow_pos (by norm_num) _)]
      norm_num
      exact_mod_cast (show (2 ^ 956 : ℕ) ≤ 10 ^ 288 by decide +kernel)
    · refine le_trans ?_ (zpow_le_zpow_right₀ (by norm_num) (show (21 : ℤ) ≤ -n - 288 by omega))
      norm_num
    · refine le_trans (zpow_le_zpow_right₀ (by norm_num) (show -n - 288 ≤ (31 : ℤ) by omega)) ?_
      norm_num
  · have hm : -n % 32 = -n - 320 := by omega
    refine key 320 (-n - 320) (-1064) (-1063) 0 10 (by omega) hm (by norm_num) (by norm_num) (by norm_num) (by norm_num) (by norm_num) (by norm_num) (by norm_num) (by norm_num) ?_ ?_ ?_ ?_
    · rw [zpow_neg, zpow_neg, inv_le_inv₀ (zpow_pos (by norm_num) _) (zpow_pos (by norm_num) _)]
      norm_num
      exact_mod_cast (show (10 ^ 320 : ℕ) ≤ 2 ^ 1064 by decide +kernel)
    · rw [zpow_neg, zpow_neg, inv_le_inv₀ (zpow_pos (by norm_num) _) (zpow_pos (by norm_num) _)]
      norm_num
      exact_mod_cast (show (2 ^ 1063 : ℕ) ≤ 10 ^ 320 by decide +kernel)
    · refine le_trans ?_ (zpow_le_zpow_right₀ (by norm_num) (show (0 : ℤ) ≤ -n - 320 by omega))
      norm_num
    · refine le_trans (zpow_le_zpow_right₀ (by norm_num) (show -n - 320 ≤ (3 : ℤ) by omega)) ?_
      norm_num

/-- From -308 to 308 `math.Pow10` is positive and finite, and the half unit is finite. -/
theorem pow10_wide (n : ℤ) (h : -308 ≤ n) (h' : n ≤ 308) : ∃ p, pow10 n = .fin p ∧ 0 < p ∧ (2 : ℚ) ^ (-1024 : ℤ) ≤ p := by
  rcases le_or_gt n (-291) with h1 | h1
  · have hd : -n / 32 * 32 = 288 := by omega
    have hm : -n % 32 = -n - 288 := by omega
    have a1 : (2 : ℚ) ^ (-957 : ℤ) ≤ 10 ^ (-288 : ℤ) := by
      rw [zpow_neg, zpow_neg, inv_le_inv₀ (zpow_pos (by norm_num) _) (zpow_pos (by norm_num) _)]
      norm_num
      exact_mod_cast (show (10 ^ 288 : ℕ) ≤ 2 ^ 957 by decide +kernel)
    have a2 : (10 : ℚ) ^ (-288 : ℤ) ≤ 2 ^ (0 : ℤ) := by
      rw [zpow_zero]
      exact zpow_le_one_of_nonpos₀ (by norm_num) (by norm_num)
    have b1 : (2 : ℚ) ^ (0 : ℤ) ≤ 10 ^ (-n - 288) := by
      rw [zpow_zero]
      exact one_le_zpow₀ (by norm_num) (by omega)
    have b2 : (10 : ℚ) ^ (-n - 288) ≤ 2 ^ (67 : ℤ) := by
      refine le_trans (zpow_le_zpow_right₀ (by norm_num) (show -n - 288 ≤ (20 : ℤ) by omega)) ?_
      norm_num
    obtain ⟨x, ex, x1, x2⟩ := ofRat_between (by norm_num) (by norm_num) (by norm_num) a1 a2
    obtain ⟨y, ey, y1, y2⟩ := ofRat_between (by norm_num) (by norm_num) (by norm_num) b1 b2
    obtain ⟨q1, q2⟩ := quotient_between x1 x2 y1 y2
    have hy : 0 < y := lt_of_lt_of_le (two_zpow_pos _) y1
    obtain ⟨p, ep, p1, p2⟩ := ofRat_between (by norm_num) (by norm_num) (by norm_num) q1 q2
    refine ⟨p, ?_, lt_of_lt_of_le (two_zpow_pos _) p1, le_trans (zpow_le_zpow_right₀ (by norm_num) (by norm_num)) p1⟩
    rw [pow10, if_neg (by omega), if_pos (by omega), hd, hm, ex, ey, div, if_neg hy.ne', ep]
  rcases le_or_gt n 290 with h2 | h2
  · obtain ⟨p, e, hlow, -, -, -⟩ := factor 0 n (by omega) h2 le_rfl (by rw [zero_mul]; positivity)
    exact ⟨p, e, lt_of_lt_of_le (two_zpow_pos _) hlow, le_trans (zpow_le_zpow_right₀ (by norm_num) (by norm_num)) hlow⟩
  · have hd : n / 32 * 32 = 288 := by omega
    have hm : n % 32 = n - 288 := by omega
    obtain ⟨x, hx⟩ : ∃ x, x = rnd (10 ^ (288 : ℤ)) := ⟨_, rfl⟩
    obtain ⟨y, hy⟩ : ∃ y, y = rnd (10 ^ (n - 288)) := ⟨_, rfl⟩
    have hone : Repr64 1 := by simpa using repr_two_zpow 0 (by norm_num)
    have t288 : (10 : ℚ) ^ (288 : ℤ) ≤ ((7 : ℤ) : ℚ) * 2 ^ (954 : ℤ) := by
      norm_num
      exact_mod_cast (show (10 ^ 288 : ℕ) ≤ 7 * 2 ^ 954 by decide +kernel)
    have t20 : (10 : ℚ) ^ (n - 288) ≤ ((5 ^ 20 : ℤ) : ℚ) * 2 ^ (20 : ℤ) := by
      refine le_trans (zpow_le_zpow_right₀ (by norm_num) (show n - 288 ≤ (20 : ℤ) by omega)) ?_
      norm_num
    have x1 : 1 ≤ x := by rw [hx]; exact le_rnd _ _ hone (one_le_zpow₀ (by norm_num) (by norm_num))
    have x2 : x ≤ ((7 : ℤ) : ℚ) * 2 ^ (954 : ℤ) := by rw [hx]; exact rnd_le _ _ ⟨7, 954, by norm_num, by norm_num, rfl⟩ t288
    have y1 : 1 ≤ y := by rw [hy]; exact le_rnd _ _ hone (one_le_zpow₀ (by norm_num) (by omega))
    have y2 : y ≤ ((5 ^ 20 : ℤ) : ℚ) * 2 ^ (20 : ℤ) := by rw [hy]; exact rnd_le _ _ ⟨5 ^ 20, 20, by norm_num, by norm_num, rfl⟩ t20
    have ex : ofRat (10 ^ (288 : ℤ)) = .fin x := by
      rw [hx, ofRat_fin]
      rw [abs_of_pos (zpow_pos (by norm_num) _)]
      norm_num
      exact_mod_cast (show (10 ^ 288 : ℕ) ≤ 2 ^ 1023 by decide +kernel)
    have ey : ofRat (10 ^ (n - 288)) = .fin y := by
      rw [hy, ofRat_fin]
      rw [abs_of_pos (zpow_pos (by norm_num) _)]
      refine le_trans (zpow_le_zpow_right₀ (by norm_num) (show n - 288 ≤ (20 : ℤ) by omega)) ?_
      norm_num
      exact_mod_cast (show (10 ^ 20 : ℕ) ≤ 2 ^ 1023 by decide +kernel)
    have hxy1 : 1 ≤ x * y := one_le_mul_of_one_le_of_one_le x1 y1
    have hxy2 : x * y ≤ ((3 : ℤ) : ℚ) * 2 ^ (1022 : ℤ) := by
      refine le_trans (mul_le_mul x2 y2 (le_trans zero_le_one y1) (le_trans (le_trans zero_le_one x1) x2)) ?_
      norm_num
      exact_mod_cast (show (7 * 2 ^ 954 * 100000000000000000000 : ℕ) ≤ 3 * 2 ^ 1022 by decide +kernel)
    have r1 : 1 ≤ rnd (x * y) := le_rnd _ _ hone hxy1
    have r2 : rnd (x * y) ≤ ((3 : ℤ) : ℚ) * 2 ^ (1022 : ℤ) := rnd_le _ _ ⟨3, 1022, by norm_num, by norm_num, rfl⟩ hxy2
    have hlt : rnd (x * y) < 2 ^ 1024 := by
      refine lt_of_le_of_lt r2 ?_
      have e1 : (2 : ℚ) ^ 1024 = 4 * 2 ^ (1022 : ℤ) := by
        rw [show (1022 : ℤ) = ((1022 : ℕ) : ℤ) by norm_num, zpow_natCast, show (1024 : ℕ) = 2 + 1022 by norm_num, pow_add]
        norm_num
      rw [e1]
      exact mul_lt_mul_of_pos_right (by norm_num) (two_zpow_pos 1022)
    refine ⟨rnd (x * y), ?_, by linarith, ?_⟩
    · rw [pow10, if_pos (by omega), hd, hm, ex, ey, mul, ofRat, if_neg]
      rw [abs_of_pos (by linarith)]
      exact not_le.2 hlt
    · exact le_trans (zpow_le_one_of_nonpos₀ (by norm_num) (by norm_num)) r1

/-- **C133 (refuted: large units).** For `n` from -323 to -309 the half unit overflows: every number, zero too, is rounded to infinity, and minus infinity to NaN. Below -323 and above 308 the result is NaN (`C133_range_refuted`). -/
theorem C133_low_refuted (n : ℤ) (h : -323 ≤ n) (h' : n ≤ -309) : (∀ f : ℚ, roundF (.fin f) n = .inf false) ∧ roundF (.inf true) n = .nan := by
  obtain ⟨p, e, hp, hp'⟩ := pow10_low n h h'
  have hhalf : div (.fin (1 / 2)) (.fin p) = .inf false := by
    have hq : (2 : ℚ) ^ (1024 : ℤ) ≤ 1 / 2 / p := by
      rw [le_div_iff₀ hp]
      have := mul_le_mul_of_nonneg_left hp' (two_zpow_pos 1024).le
      refine le_trans this ?_
      rw [← zpow_add₀ (by norm_num)]
      norm_num
    have hr := le_rnd _ _ (repr_two_zpow 1024 (by norm_num)) hq
    have hq0 : ¬ 1 / 2 / p < 0 := not_lt.2 (le_trans (two_zpow_pos _).le hq)
    rw [div, if_neg hp.ne', ofRat, if_pos (le_trans (by exact_mod_cast hr) (le_abs_self _)), decide_eq_false hq0]
  have hd : decide (p < 0) = false := decide_eq_false (not_lt.2 hp.le)
  constructor
  · intro f
    rw [roundF, e, hhalf]
    simp [add, mul, trunc, div, hp.ne', hd]
  · rw [roundF, e, hhalf]
    simp [add, mul, trunc, div]

/-- Zero, rounded to units of 10^310, is infinity. -/
example : roundF (.fin 0) (-310) = .inf false := (C133_low_refuted (-310) (by norm_num) (by norm_num)).1 0

end Verif.Misc
