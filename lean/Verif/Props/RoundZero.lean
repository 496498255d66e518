import Verif.Props.RoundWhole

/-!
# Property C133 again: `Round(f, 0)` of every `float64`
-/

namespace Verif.Misc

open F64

theorem repr_zero : Repr64 0 := ⟨0, 0, by norm_num, by norm_num, by norm_num⟩

theorem repr_half : Repr64 (1 / 2) := ⟨1, -1, by norm_num, by norm_num, by norm_num⟩

/-- A representable number is a multiple of its last place. -/
theorem repr_place (f : ℚ) (hr : Repr64 f) : ∃ m : ℤ, f = m * 2 ^ lastPlace f := ⟨_, (rnd_fixed f hr).symm⟩

theorem ofRat_repr (s : ℚ) (hs : Repr64 s) (hb : |s| ≤ 2 ^ 1023) : ofRat s = .fin s := by
  rw [ofRat_fin _ hb, rnd_fixed _ hs]

theorem small_bound {x : ℚ} (h : |x| ≤ 2 ^ 53) : |x| ≤ 2 ^ 1023 := le_trans h (pow_le_pow_right₀ (by norm_num) (by norm_num))

/-- Below -1/2 the sum is exact. -/
theorem repr_add_half_neg (f : ℚ) (hr : Repr64 f) (h1 : -2 ^ 52 ≤ f) (h2 : f ≤ -1 / 2) : Repr64 (f + 1 / 2) := by
  obtain ⟨m, e, hm, he, rfl⟩ := hr
  have hp := two_zpow_pos e
  by_cases h : -1 ≤ e
  · obtain ⟨j, rfl⟩ : ∃ j : ℕ, e = j - 1 := ⟨(e + 1).toNat, by omega⟩
    have hj : (2 : ℚ) ^ ((j : ℤ) - 1) = 2 ^ j * (1 / 2) := by
      rw [zpow_sub₀ (by norm_num), zpow_natCast, zpow_one]; ring
    rw [hj] at h1 h2
    refine ⟨m * 2 ^ j + 1, -1, ?_, by norm_num, ?_⟩
    · have a : (-2 ^ 53 : ℚ) ≤ m * 2 ^ j := by linarith
      have b : (m * 2 ^ j : ℚ) ≤ -1 := by linarith
      have a' : (-2 ^ 53 : ℤ) ≤ m * 2 ^ j := by exact_mod_cast a
      have b' : (m * 2 ^ j : ℤ) ≤ -1 := by exact_mod_cast b
      rw [abs_le]; constructor <;> omega
    · rw [hj]; push_cast; rw [zpow_neg_one]; ring
  · obtain ⟨j, rfl⟩ : ∃ j : ℕ, e = -1 - j := ⟨(-1 - e).toNat, by omega⟩
    have hj : (2 : ℚ) ^ (j : ℕ) * 2 ^ (-1 - (j : ℤ)) = 1 / 2 := by
      rw [← zpow_natCast, ← zpow_add₀ (by norm_num)]
      norm_num
    refine ⟨m + 2 ^ j, -1 - j, ?_, he, ?_⟩
    · have a : ((m : ℚ) + 2 ^ j) * 2 ^ (-1 - (j : ℤ)) ≤ 0 := by rw [add_mul, hj]; linarith
      have b : (m : ℚ) + 2 ^ j ≤ 0 := by
        by_contra hc
        exact absurd (mul_pos (not_le.1 hc) hp) (not_lt.2 a)
      have b' : m + 2 ^ j ≤ 0 := by exact_mod_cast b
      have c : (0 : ℤ) < 2 ^ j := by positivity
      have := abs_le.1 hm
      rw [abs_le]; constructor <;> omega
    · push_cast; rw [add_mul, hj]

/-- From a whole number (but not 0) to the middle behind it the sum is exact. -/
theorem repr_add_half_pos (f : ℚ) (hr : Repr64 f) (k : ℤ) (hk : 1 ≤ k) (h1 : (k : ℚ) ≤ f) (h2 : f < k + 1 / 2) (h3 : f < 2 ^ 52) : Repr64 (f + 1 / 2) := by
  have hk' : (1 : ℚ) ≤ k := by exact_mod_cast hk
  have hf : 0 < f := by linarith
  have ha : |f| = f := abs_of_pos hf
  have hlo := Int.zpow_log_le_self (b := 2) (r := f) (by norm_num) hf
  have hhi := Int.lt_zpow_succ_log_self (b := 2) (by norm_num) f
  push_cast at hlo hhi
  have h0 : 0 ≤ Int.log 2 f := by
    have := (Int.zpow_le_iff_le_log (b := 2) (x := 0) (r := f) (by norm_num) hf).1 (by simp; linarith)
    exact this
  have h51 : Int.log 2 f < 52 := (Int.lt_zpow_iff_log_lt (b := 2) (by norm_num) hf).1 (by exact_mod_cast h3)
  have hL : lastPlace f = Int.log 2 f - 52 := by
    unfold lastPlace; rw [ha]; omega
  obtain ⟨m, hm⟩ := repr_place f hr
  rw [hL] at hm
  obtain ⟨j, hj⟩ : ∃ j : ℕ, Int.log 2 f = j := ⟨(Int.log 2 f).toNat, by omega⟩
  rw [hj] at hlo hhi h0 h51 hL hm
  obtain ⟨i, hi⟩ : ∃ i : ℕ, (j : ℤ) - 52 = -1 - i := ⟨51 - j, by omega⟩
  rw [hi] at hm
  have hhalf : (2 : ℚ) ^ (i : ℕ) * 2 ^ (-1 - (i : ℤ)) = 1 / 2 := by
    rw [← zpow_natCast, ← zpow_add₀ (by norm_num)]
    norm_num
  have hp := two_zpow_pos (-1 - (i : ℤ))
  have hkj : (k : ℚ) + 1 ≤ 2 ^ (j + 1) := by
    have : (k : ℚ) < 2 ^ (j + 1) := lt_of_le_of_lt h1 (by exact_mod_cast hhi)
    have : k < 2 ^ (j + 1) := by exact_mod_cast this
    exact_mod_cast (show k + 1 ≤ 2 ^ (j + 1) by omega)
  refine ⟨m + 2 ^ i, -1 - i, ?_, by omega, ?_⟩
  · have e : ((m : ℚ) + 2 ^ i) * 2 ^ (-1 - (i : ℤ)) = f + 1 / 2 := by rw [add_mul, hhalf, ← hm]
    have a : 0 < (m : ℚ) + 2 ^ i := by
      by_contra hc
      have := mul_nonpos_of_nonpos_of_nonneg (not_lt.1 hc) hp.le
      rw [e] at this
      linarith
    have b : ((m : ℚ) + 2 ^ i) * 2 ^ (-1 - (i : ℤ)) ≤ 2 ^ 53 * 2 ^ (-1 - (i : ℤ)) := by
      rw [e, ← zpow_natCast, ← zpow_add₀ (by norm_num), show ((53 : ℕ) : ℤ) + (-1 - i) = ((j + 1 : ℕ) : ℤ) by push_cast; omega, zpow_natCast]
      linarith
    have b' := le_of_mul_le_mul_right b hp
    have a' : 0 < m + 2 ^ i := by exact_mod_cast a
    have b'' : m + 2 ^ i ≤ 2 ^ 53 := by exact_mod_cast b'
    rw [abs_of_pos a']
    exact b''
  · push_cast; rw [add_mul, hhalf, ← hm]

/-- Next to 1/2 there is one number, and its sum is rounded up. -/
theorem below_half (f : ℚ) (hr : Repr64 f) (h1 : 1 / 2 - 1 / 2 ^ 53 < f) (h2 : f < 1 / 2) : f = 1 / 2 - 1 / 2 ^ 54 := by
  have e := (rnd_fixed f hr).symm
  have hf : 0 < f := lt_trans (by norm_num) h1
  rw [rnd_eq f (-54) (by norm_num) (by rw [abs_of_pos hf]; norm_num at h1 ⊢; linarith) (by rw [abs_of_pos hf]; norm_num at h2 ⊢; linarith)] at e
  generalize rne (f / 2 ^ (-54 : ℤ)) = m at e
  have h54 : (2 : ℚ) ^ (-54 : ℤ) = 1 / 2 ^ 54 := by norm_num
  rw [h54] at e
  have a : (2 ^ 53 - 2 : ℚ) < m := by
    have : (2 ^ 53 - 2 : ℚ) * (1 / 2 ^ 54) < m * (1 / 2 ^ 54) := by rw [← e]; norm_num at h1 ⊢; linarith
    exact lt_of_mul_lt_mul_right this (by norm_num)
  have b : (m : ℚ) < 2 ^ 53 := by
    have : (m : ℚ) * (1 / 2 ^ 54) < 2 ^ 53 * (1 / 2 ^ 54) := by rw [← e]; norm_num at h2 ⊢; linarith
    exact lt_of_mul_lt_mul_right this (by norm_num)
  have a' : 2 ^ 53 - 2 < m := by exact_mod_cast a
  have b' : m < 2 ^ 53 := by exact_mod_cast b
  have : m = 2 ^ 53 - 1 := by omega
  rw [e, this]
  norm_num

/-- **C133** What `Round(f, 0)` makes of every `float64` from -2^52 to 2^52: the next whole number from f + 1/2 on up to -1/2 (this is one more than the nearest), zero from there to 0, the nearest whole number for the others, except for the
one number next to 1/2. -/
theorem C133_zero_exact (f : ℚ) (hr : Repr64 f) (h1 : -2 ^ 52 ≤ f) (h2 : f < 2 ^ 52) :
    roundF (.fin f) 0 = .fin ((if f = 1 / 2 - 1 / 2 ^ 54 then 1 else if f ≤ -1 / 2 then ⌈f + 1 / 2⌉ else if f < 0 then 0 else ⌊f + 1 / 2⌋ : ℤ) : ℚ) := by
  have hab : |f + 1 / 2| ≤ 2 ^ 1023 := small_bound (by rw [abs_le]; constructor <;> linarith [show (2 : ℚ) ^ 53 = 2 * 2 ^ 52 by norm_num, show (1 : ℚ) ≤ 2 ^ 52 by norm_num])
  have ho := ofRat_fin _ hab
  split
  · rename_i h
    rw [h, Int.cast_one]
    exact C133_half_refuted.2.1
  rename_i hne
  split
  · rename_i h
    have hR := repr_add_half_neg f hr h1 h
    rw [rnd_fixed _ hR] at ho
    refine roundF_zero' f _ _ ho ho ?_ ?_
    · split
      · rfl
      · rename_i hc
        have : f + 1 / 2 = 0 := by linarith
        rw [this]; rfl
    · have a : ⌈f + 1 / 2⌉ ≤ 0 := Int.ceil_le.2 (by push_cast; linarith)
      have b : -2 ^ 52 ≤ ⌈f + 1 / 2⌉ := by
        have := Int.le_ceil (f + 1 / 2)
        have : ((-2 ^ 52 : ℤ) : ℚ) ≤ ⌈f + 1 / 2⌉ := by push_cast; linarith
        exact_mod_cast this
      rw [abs_le]; constructor <;> omega
  rename_i hn
  rw [not_le] at hn
  -- from here on the sum is not negative
  have hs0 : 0 ≤ rnd (f + 1 / 2) := le_rnd _ 0 repr_zero (by linarith)
  have hsb : |rnd (f + 1 / 2)| ≤ 2 ^ 1023 := by
    rw [abs_of_nonneg hs0]
    have h53 : Repr64 ((2 ^ 53 : ℤ) : ℚ) := repr_int _ (by norm_num)
    have := rnd_le (f + 1 / 2) _ h53 (by push_cast; linarith [show (2 : ℚ) ^ 53 = 2 * 2 ^ 52 by norm_num, show (1 : ℚ) ≤ 2 ^ 52 by norm_num])
    rw [← abs_of_nonneg hs0] at this ⊢
    exact small_bound (by exact_mod_cast this)
  have hos := ofRat_repr _ (repr_rnd _) hsb
  split
  · rename_i h
    have hle := rnd_le (f + 1 / 2) (1 / 2) repr_half (by linarith)
    exact roundF_zero' f _ 0 ho hos (by rw [if_neg (not_lt.2 hs0), Int.floor_eq_iff]; push_cast; constructor <;> linarith) (by norm_num)
  rename_i h0
  rw [not_lt] at h0
  obtain ⟨k, hk⟩ : ∃ k, ⌊f + 1 / 2⌋ = k := ⟨_, rfl⟩
  rw [hk]
  rw [Int.floor_eq_iff] at hk
  have hk0 : 0 ≤ k := by
    have : (-1 : ℚ) < k := by linarith [hk.2]
    have : (-1 : ℤ) < k := by exact_mod_cast this
    omega
  have hk52 : k ≤ 2 ^ 52 := by
    have : (k : ℚ) < 2 ^ 52 + 1 := by linarith [hk.1]
    have : k < 2 ^ 52 + 1 := by exact_mod_cast this
    omega
  have hkb : |k| ≤ 2 ^ 53 := by rw [abs_le]; constructor <;> omega
  refine roundF_zero' f _ k ho hos ?_ hkb
  rw [if_neg (not_lt.2 hs0), Int.floor_eq_iff]
  refine ⟨le_rnd _ _ (repr_int k hkb) hk.1, ?_⟩
  by_cases hkf : 1 ≤ k ∧ (k : ℚ) ≤ f
  · rw [rnd_fixed _ (repr_add_half_pos f hr k hkf.1 hkf.2 (by linarith [hk.2]) h2)]
    exact hk.2
  · rcases (show k = 0 ∨ 1 ≤ k by omega) with rfl | hk1
    · have hc : Repr64 (1 - 1 / 2 ^ 53) := ⟨2 ^ 53 - 1, -53, by norm_num, by norm_num, by norm_num⟩
      have hf : f ≤ 1 / 2 - 1 / 2 ^ 53 := by
        by_contra hc
        exact hne (below_half f hr (not_le.1 hc) (by have := hk.2; push_cast at this; linarith))
      have := rnd_le (f + 1 / 2) _ hc (by linarith)
      push_cast
      refine lt_of_le_of_lt this (by norm_num)
    · have hfk : f < k := by
        by_contra hc
        exact hkf ⟨hk1, not_lt.1 hc⟩
      have near := rnd_nearest (f + 1 / 2) k (repr_int k hkb)
      rw [abs_of_nonpos (show (k : ℚ) - (f + 1 / 2) ≤ 0 by linarith [hk.1])] at near
      have := (abs_le.1 near).2
      linarith

/-- **C133** Exactly these numbers between -2^52 and 2^52 are rounded to a nearest whole number: those from -1/2 on, except for the one next to 1/2, and the middles below. -/
theorem C133_right_exactly (f : ℚ) (hr : Repr64 f) (h1 : -2 ^ 52 ≤ f) (h2 : f < 2 ^ 52) :
    (∃ k : ℤ, roundF (.fin f) 0 = .fin k ∧ |(k : ℚ) - f| ≤ 1 / 2) ↔ f ≠ 1 / 2 - 1 / 2 ^ 54 ∧ (-1 / 2 ≤ f ∨ ∃ k : ℤ, f = k - 1 / 2) := by
  rw [C133_zero_exact f hr h1 h2]
  have inj : ∀ (a : ℤ) (P : Prop), (|(a : ℚ) - f| ≤ 1 / 2 ↔ P) → ((∃ k : ℤ, F64.fin (a : ℚ) = .fin k ∧ |(k : ℚ) - f| ≤ 1 / 2) ↔ P) := by
    intro a P h
    rw [← h]
    constructor
    · rintro ⟨k, hk, h'⟩
      injection hk with hk
      rwa [hk]
    · exact fun h' => ⟨a, rfl, h'⟩
  apply inj
  split
  · rename_i h
    refine iff_of_false (fun hc => ?_) (fun hc => hc.1 h)
    rw [h, abs_le] at hc
    norm_num at hc
  rename_i hne
  split
  · rename_i h
    have a := Int.le_ceil (f + 1 / 2)
    constructor
    · intro hc
      refine ⟨hne, .inr ⟨⌈f + 1 / 2⌉, ?_⟩⟩
      have := (abs_le.1 hc).2
      linarith
    · rintro ⟨-, hc | ⟨k, hk⟩⟩
      · have : f + 1 / 2 = 0 := by linarith
        rw [this, Int.ceil_zero, abs_le]
        constructor <;> push_cast <;> linarith
      · rw [hk, show (k : ℚ) - 1 / 2 + 1 / 2 = k by ring, Int.ceil_intCast, abs_le]
        constructor <;> linarith
  rename_i hn
  rw [not_le] at hn
  split
  · rename_i h
    refine iff_of_true ?_ ⟨hne, .inl hn.le⟩
    rw [abs_le]
    constructor <;> push_cast <;> linarith
  · refine iff_of_true ?_ ⟨hne, .inl hn.le⟩
    have a := Int.floor_le (f + 1 / 2)
    have b := Int.lt_floor_add_one (f + 1 / 2)
    rw [abs_le]
    constructor <;> linarith

/-- From 2^52 on every number is whole, from 2^53 on every number is even. -/
theorem repr_large (f : ℚ) (hr : Repr64 f) (j : ℕ) (h : (2 : ℚ) ^ (52 + j) ≤ |f|) : ∃ m : ℤ, f = m * 2 ^ j := by
  have h0 : 0 < |f| := lt_of_lt_of_le (by positivity) h
  have a : (52 + j : ℤ) ≤ Int.log 2 |f| := (Int.zpow_le_iff_le_log (b := 2) (by norm_num) h0).1 (by exact_mod_cast h)
  have hL : lastPlace f = Int.log 2 |f| - 52 := by unfold lastPlace; omega
  obtain ⟨m, hm⟩ := repr_place f hr
  obtain ⟨i, hi⟩ : ∃ i : ℕ, lastPlace f = ((i + j : ℕ) : ℤ) := ⟨(lastPlace f - j).toNat, by push_cast; omega⟩
  rw [hi, zpow_natCast, pow_add] at hm
  refine ⟨m * 2 ^ i, ?_⟩
  rw [hm]
  push_cast
  ring

/-- **C133** All numbers from 2^53 on are kept. -/
theorem C133_large_exact (f : ℚ) (hr : Repr64 f) (h : 2 ^ 53 ≤ |f|) (hb : |f| < 2 ^ 1024) : roundF (.fin f) 0 = .fin f := by
  have h1 : pow10 0 = .fin 1 := by
    have := pow10_exact 0 (by norm_num) (by norm_num)
    rwa [zpow_zero] at this
  have hff : ofRat f = .fin f := by
    unfold ofRat
    rw [rnd_fixed f hr, if_neg (not_le.2 hb)]
  have key : rnd (f + 1 / 2) = f := by
    obtain ⟨m, hm⟩ := repr_large f hr 1 (by exact_mod_cast h)
    have lo := le_rnd (f + 1 / 2) f hr (by linarith)
    have near := rnd_nearest (f + 1 / 2) f hr
    have e : |f - (f + 1 / 2)| = 1 / 2 := by rw [show f - (f + 1 / 2) = -(1 / 2) by ring, abs_neg, abs_of_pos (by norm_num)]
    rw [e] at near
    have hi : rnd (f + 1 / 2) ≤ f + 1 := by have := (abs_le.1 near).2; linarith
    by_cases hlow : f = -2 ^ 53
    · rw [hlow]
      have b1 : |(-2 ^ 53 + 1 / 2 : ℚ)| = 2 ^ 53 - 1 / 2 := by rw [abs_of_neg (by norm_num)]; ring
      rw [rnd_eq _ 0 (by norm_num) (by rw [b1]; norm_num) (by rw [b1]; norm_num), zpow_zero, div_one, mul_one]
      rw [show (-2 ^ 53 + 1 / 2 : ℚ) = ((-2 ^ 53 : ℤ) : ℚ) + 1 / 2 by norm_num, rne_half_even _ (by norm_num)]
      norm_num
    · have hr' : (2 : ℚ) ^ (52 + 1) ≤ |rnd (f + 1 / 2)| := by
        rcases le_abs'.1 h with hneg | hpos
        · have hm' : f ≤ -2 ^ 53 - 2 := by
            rw [hm] at hneg hlow ⊢
            have : m * 2 ≤ -2 ^ 53 := by exact_mod_cast (show (m : ℚ) * 2 ≤ -2 ^ 53 by linarith)
            have hne : m * 2 ≠ -2 ^ 53 := fun hc => hlow (by have : (m : ℚ) * 2 = -2 ^ 53 := by exact_mod_cast hc
                                                             linarith)
            have : m * 2 ≤ -2 ^ 53 - 2 := by omega
            have : (m : ℚ) * 2 ≤ -2 ^ 53 - 2 := by exact_mod_cast this
            linarith
          rw [abs_of_neg (by linarith [show (0 : ℚ) < 2 ^ 53 by norm_num])]
          linarith [show (2 : ℚ) ^ (52 + 1) = 2 ^ 53 by norm_num]
        · exact le_trans (by norm_num at hpos ⊢; linarith) (le_abs_self _)
      obtain ⟨m', hm''⟩ := repr_large _ (repr_rnd (f + 1 / 2)) 1 hr'
      rw [hm''] at lo hi ⊢
      rw [hm] at lo hi ⊢
      have a : m ≤ m' := by
        have : (m : ℚ) ≤ m' := by linarith
        exact_mod_cast this
      have b : m' < m + 1 := by
        have : (m' : ℚ) < m + 1 := by linarith
        exact_mod_cast this
      rw [show m' = m by omega]
  have ho : ofRat (f + 1 / 2) = .fin f := by
    unfold ofRat
    rw [key, if_neg (not_le.2 hb)]
  obtain ⟨m, hm⟩ := repr_large f hr 0 (le_trans (by norm_num) h)
  rw [pow_zero, mul_one] at hm
  have ht : (((if f < 0 then ⌈f⌉ else ⌊f⌋ : ℤ)) : ℚ) = f := by
    rw [hm]
    split <;> simp
  simp only [roundF, h1, div, one_ne_zero, if_false, div_one, ofRat_half, add, ho, mul, mul_one, hff, trunc, ht]

/-- -1.4 is nearest to -1, but becomes 0; 2.6 becomes 3; so does 2.5. -/
example : roundF (.fin (-11 / 8)) 0 = .fin 0 ∧ roundF (.fin (21 / 8)) 0 = .fin 3 ∧ roundF (.fin (5 / 2)) 0 = .fin 3 := by
  refine ⟨?_, ?_, ?_⟩
  · rw [C133_zero_exact _ ⟨-11, -3, by norm_num, by norm_num, by norm_num⟩ (by norm_num) (by norm_num), if_neg (by norm_num), if_pos (by norm_num),
      show ⌈(-11 / 8 + 1 / 2 : ℚ)⌉ = 0 by rw [Int.ceil_eq_iff]; norm_num, Int.cast_zero]
  · rw [C133_zero_exact _ ⟨21, -3, by norm_num, by norm_num, by norm_num⟩ (by norm_num) (by norm_num), if_neg (by norm_num), if_neg (by norm_num), if_neg (by norm_num),
      show ⌊(21 / 8 + 1 / 2 : ℚ)⌋ = 3 by rw [Int.floor_eq_iff]; norm_num]
    norm_num
  · rw [C133_zero_exact _ ⟨5, -1, by norm_num, by norm_num, by norm_num⟩ (by norm_num) (by norm_num), if_neg (by norm_num), if_neg (by norm_num), if_neg (by norm_num),
      show ⌊(5 / 2 + 1 / 2 : ℚ)⌋ = 3 by rw [Int.floor_eq_iff]; norm_num]
    norm_num

end Verif.Misc
