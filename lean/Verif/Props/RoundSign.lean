import Verif.Model.RoundSign
import Verif.Props.RoundMono

/-! # C190: the sign of zero in `Round` -/

namespace Verif.Misc

/-- **C190 (value).** But for the sign of zero this is the model of C133. -/
theorem C190_value (f : S64) (n : ℤ) : (roundS f n).val = roundF f.val n := rfl

namespace S64

/-- A number whose sign bit fits its value. -/
def Ok (x : S64) : Prop := x.val ≠ .nan ∧ sign x.val x.neg = x.neg

theorem sign_ofRat (q : ℚ) : sign (F64.ofRat q) (decide (q < 0)) = decide (q < 0) := by
  unfold F64.ofRat
  split
  · rfl
  · unfold sign
    dsimp only
    split
    · rfl
    · rename_i h
      by_cases hq : q < 0
      · have := lt_of_le_of_ne (rnd_le q 0 repr_zero hq.le) h
        rw [decide_eq_true hq, decide_eq_true this]
      · have := le_rnd q 0 repr_zero (not_lt.1 hq)
        rw [decide_eq_false hq, decide_eq_false (not_lt.2 this)]

theorem ofRat_ne_nan (q : ℚ) : F64.ofRat q ≠ .nan := by
  unfold F64.ofRat
  split <;> exact fun h => by cases h

/-- A scaled value. -/
theorem ok_ofRat {x : S64} {q c : ℚ} (hc : 0 < c) (hx : x.Ok) (hv : x.val = .fin q) : sign (F64.ofRat (q * c)) x.neg = x.neg := by
  have h := hx.2
  rw [hv] at h
  unfold sign at h
  dsimp only at h
  split at h
  · rename_i h0
    subst h0
    rw [zero_mul, F64.ofRat_fin 0 (by rw [abs_zero]; positivity), rnd_zero]
    simp [sign]
  · have e : decide (q < 0) = decide (q * c < 0) := by
      rw [decide_eq_decide]
      constructor
      · intro h; exact mul_neg_of_neg_of_pos h hc
      · intro h
        by_contra h'
        exact absurd h (not_lt.2 (mul_nonneg (not_lt.1 h') hc.le))
    rw [← h, e]
    exact sign_ofRat _

theorem sign_idem (v : F64) (z : Bool) (h : v ≠ .nan) : sign v (sign v z) = sign v z := by
  cases v with
  | nan => exact absurd rfl h
  | inf s => rfl
  | fin q =>
    unfold sign
    dsimp only
    split <;> rfl

theorem mul_keeps {x : S64} {p : ℚ} (hp : 0 < p) (hx : x.Ok) : (x.mul ⟨false, .fin p⟩).neg = x.neg ∧ (x.mul ⟨false, .fin p⟩).Ok := by
  have key : (x.mul ⟨false, .fin p⟩).neg = x.neg ∧ (x.mul ⟨false, .fin p⟩).val ≠ .nan := by
    obtain ⟨s, v⟩ := x
    cases v with
    | nan => exact absurd rfl hx.1
    | inf t =>
      have := hx.2
      simp only [sign] at this
      subst this
      have hd : decide (p < 0) = false := decide_eq_false (not_lt.2 hp.le)
      simp [mul, F64.mul, hp.ne', hd, sign]
    | fin q =>
      have := ok_ofRat hp hx rfl
      refine ⟨?_, ?_⟩
      · simp only [mul, F64.mul, Bool.bne_false]
        exact this
      · exact ofRat_ne_nan _
  refine ⟨key.1, key.2, ?_⟩
  exact sign_idem _ _ key.2

theorem div_keeps {x : S64} {p : ℚ} (hp : 0 < p) (hx : x.Ok) : (x.div ⟨false, .fin p⟩).neg = x.neg ∧ (x.div ⟨false, .fin p⟩).Ok := by
  have key : (x.div ⟨false, .fin p⟩).neg = x.neg ∧ (x.div ⟨false, .fin p⟩).val ≠ .nan := by
    obtain ⟨s, v⟩ := x
    cases v with
    | nan => exact absurd rfl hx.1
    | inf t =>
      have := hx.2
      simp only [sign] at this
      subst this
      have hd : decide (p < 0) = false := decide_eq_false (not_lt.2 hp.le)
      simp [div, F64.div, hd, sign]
    | fin q =>
      have := ok_ofRat (inv_pos.2 hp) hx rfl
      refine ⟨?_, ?_⟩
      · simp only [div, F64.div, Bool.bne_false, if_neg hp.ne', div_eq_mul_inv]
        exact this
      · simp only [div, F64.div, if_neg hp.ne']
        exact ofRat_ne_nan _
  refine ⟨key.1, key.2, ?_⟩
  exact sign_idem _ _ key.2

theorem trunc_keeps {x : S64} (hx : x.Ok) : x.trunc.neg = x.neg ∧ x.trunc.Ok := by
  have key : x.trunc.neg = x.neg ∧ x.trunc.val ≠ .nan := by
    obtain ⟨s, v⟩ := x
    cases v with
    | nan => exact absurd rfl hx.1
    | inf t =>
      have := hx.2
      simp only [sign] at this
      subst this
      simp [trunc, F64.trunc, sign]
    | fin q =>
      refine ⟨?_, (fun h => by cases h)⟩
      have h := hx.2
      simp only [sign] at h
      simp only [trunc, F64.trunc, sign]
      obtain ⟨t, ht⟩ : ∃ t : ℤ, t = if q < 0 then ⌈q⌉ else ⌊q⌋ := ⟨_, rfl⟩
      rw [← ht]
      by_cases h0 : (t : ℚ) = 0
      · rw [if_pos h0]
      · rw [if_neg h0]
        have h1 : t ≠ 0 := fun hc => h0 (by rw [hc]; norm_num)
        have hq : q ≠ 0 := by
          rintro rfl
          simp at ht
          exact h1 ht
        rw [if_neg hq] at h
        rw [← h, decide_eq_decide]
        by_cases hn : q < 0
        · rw [if_pos hn] at ht
          have : ⌈q⌉ ≤ 0 := Int.ceil_le.2 (by exact_mod_cast hn.le)
          have : t < 0 := by omega
          exact ⟨fun _ => hn, fun _ => by exact_mod_cast this⟩
        · rw [if_neg hn] at ht
          have : 0 ≤ ⌊q⌋ := Int.floor_nonneg.2 (not_lt.1 hn)
          refine ⟨fun hc => ?_, fun hc => absurd hc hn⟩
          have : t < 0 := by exact_mod_cast hc
          omega
  refine ⟨key.1, key.2, ?_⟩
  exact sign_idem _ _ key.2

end S64

/-- The sum of two numbers with 53 places is zero or at least the least number in size. -/
theorem sum_small {f h : ℚ} (hf : Repr64 f) (hh : Repr64 h) (hn : f + h < 0) : rnd (f + h) < 0 := by
  obtain ⟨m, e, -, he, rfl⟩ := hf
  obtain ⟨m', e', -, he', rfl⟩ := hh
  obtain ⟨d, hd⟩ := Int.eq_ofNat_of_zero_le (show 0 ≤ e + 1074 by omega)
  obtain ⟨d', hd'⟩ := Int.eq_ofNat_of_zero_le (show 0 ≤ e' + 1074 by omega)
  have hp := two_zpow_pos (-1074)
  have hs : (m : ℚ) * 2 ^ e + m' * 2 ^ e' = ((m * 2 ^ d + m' * 2 ^ d' : ℤ) : ℚ) * 2 ^ (-1074 : ℤ) := by
    rw [show e = (d : ℤ) + (-1074) by omega, show e' = (d' : ℤ) + (-1074) by omega, zpow_add₀ (by norm_num), zpow_add₀ (by norm_num), zpow_natCast, zpow_natCast]
    push_cast
    ring
  rw [hs] at hn ⊢
  generalize m * 2 ^ d + m' * 2 ^ d' = j at *
  have hj : j ≤ -1 := by
    have : (j : ℚ) < 0 := by
      by_contra hc
      exact absurd hn (not_lt.2 (mul_nonneg (not_lt.1 hc) hp.le))
    have : j < 0 := by exact_mod_cast this
    omega
  have h1 : (j : ℚ) ≤ -1 := by exact_mod_cast hj
  have h2 : (j : ℚ) * 2 ^ (-1074 : ℤ) ≤ ((-1 : ℤ) : ℚ) * 2 ^ (-1074 : ℤ) := mul_le_mul_of_nonneg_right (by push_cast; exact h1) hp.le
  refine lt_of_le_of_lt (rnd_le _ _ ⟨-1, -1074, by norm_num, by norm_num, rfl⟩ h2) ?_
  push_cast
  linarith

/-- The sum with a positive number is negative if it is less than zero, and a zero is positive. -/
theorem add_sign {s : Bool} {f h : ℚ} (hf : Repr64 f) (hh : Repr64 h) :
    (S64.add ⟨s, .fin f⟩ ⟨false, .fin h⟩).neg = decide (f < -h) ∧ (S64.add ⟨s, .fin f⟩ ⟨false, .fin h⟩).Ok := by
  have hne : (S64.add ⟨s, .fin f⟩ ⟨false, .fin h⟩).val ≠ .nan := S64.ofRat_ne_nan _
  refine ⟨?_, hne, S64.sign_idem _ _ hne⟩
  have e : decide (f < -h) = decide (f + h < 0) := by
    rw [decide_eq_decide]
    constructor <;> intro _ <;> linarith
  rw [e]
  simp only [S64.add, F64.add, Bool.and_false]
  by_cases hn : f + h < 0
  · rw [← S64.sign_ofRat (f + h), decide_eq_true hn]
    have hr := sum_small hf hh hn
    unfold F64.ofRat
    split
    · rfl
    · simp only [S64.sign, if_neg hr.ne]
  · have := S64.sign_ofRat (f + h)
    rw [decide_eq_false hn] at this ⊢
    exact this

/-- **C190 (sign).** The result has the sign bit exactly if the number lies below `-0.5/10^n` as computed, the sign of a zero given to it notwithstanding. -/
theorem C190_sign (s : Bool) (f : ℚ) (hf : Repr64 f) (n : ℤ) (h : -290 ≤ n) (h' : n ≤ 290) :
    ∃ c : ℚ, F64.div (.fin (1 / 2)) (F64.pow10 n) = .fin c ∧ |c - 1 / 2 / 10 ^ n| ≤ 1 / 2 / 10 ^ n / 2 ^ 49 ∧ ((roundS ⟨s, .fin f⟩ n).neg = true ↔ f < -c) := by
  obtain ⟨p, e, hlow, hhigh, -, hcl⟩ := factor 0 n h h' le_rfl (by rw [zero_mul]; positivity)
  have hpos : 0 < p := lt_of_lt_of_le (zpow_pos (by norm_num) _) hlow
  have h10 : (0 : ℚ) < 10 ^ n := zpow_pos (by norm_num) n
  have s1 : (2 : ℚ) ^ (-1000 : ℤ) * 2 ^ 1000 = 1 := by
    rw [← zpow_natCast, ← zpow_add₀ (by norm_num)]; norm_num
  have hq1 : |(1 / 2 : ℚ) / p| ≤ 2 ^ 1023 := by
    rw [abs_of_pos (by positivity), div_le_iff₀ hpos]
    have h1 : (2 : ℚ) ^ (-1000 : ℤ) * 2 ^ 1023 ≤ p * 2 ^ 1023 := mul_le_mul_of_nonneg_right hlow (by positivity)
    have h2 : (1 : ℚ) / 2 ≤ 2 ^ (-1000 : ℤ) * 2 ^ 1023 := by
      rw [← zpow_natCast, ← zpow_add₀ (by norm_num)]
      norm_num
    rw [mul_comm]
    exact le_trans h2 h1
  have hq2 : (2 : ℚ) ^ (-1022 : ℤ) ≤ |(1 / 2 : ℚ) / p| := by
    rw [abs_of_pos (by positivity), le_div_iff₀ hpos]
    have h1 : (2 : ℚ) ^ (-1022 : ℤ) * p ≤ 2 ^ (-1022 : ℤ) * 2 ^ 1000 := mul_le_mul_of_nonneg_left hhigh (two_zpow_pos _).le
    refine le_trans h1 ?_
    rw [← zpow_natCast, ← zpow_add₀ (by norm_num)]
    norm_num
  have hdiv : F64.div (.fin (1 / 2)) (.fin p) = .fin (rnd (1 / 2 / p)) := by
    rw [F64.div, if_neg hpos.ne', F64.ofRat_fin _ hq1]
  have hc0 : 0 ≤ rnd (1 / 2 / p) := le_rnd _ 0 repr_zero (by positivity)
  have hhalf : S64.div ⟨false, .fin (1 / 2)⟩ (S64.pow10 n) = ⟨false, .fin (rnd (1 / 2 / p))⟩ := by
    simp only [S64.div, S64.pow10, e, hdiv, S64.sign, bne_self_eq_false, decide_eq_false (not_lt.2 hc0), ite_self]
  refine ⟨rnd (1 / 2 / p), by rw [e, hdiv], ?_, ?_⟩
  · have h3 := rnd_err _ hq2
    rw [abs_of_pos (show (0 : ℚ) < 1 / 2 / p by positivity)] at h3
    have h4 := near_quotient (1 / 2) p (10 ^ n) (rnd (1 / 2 / p)) (by norm_num) h10 hpos hcl h3
    refine le_trans h4 ?_
    exact div_le_div_of_nonneg_left (by positivity) (by norm_num) (by norm_num)
  · obtain ⟨a1, a2⟩ := add_sign (s := s) hf (repr_rnd (1 / 2 / p))
    obtain ⟨b1, b2⟩ := S64.mul_keeps hpos a2
    obtain ⟨c1, c2⟩ := S64.trunc_keeps b2
    obtain ⟨d1, -⟩ := S64.div_keeps hpos c2
    have : (roundS ⟨s, .fin f⟩ n).neg = decide (f < -rnd (1 / 2 / p)) := by
      rw [roundS, hhalf, S64.pow10, e, d1, c1, b1, a1]
    rw [this, decide_eq_true_iff]

/-- **C190 (minus zero).** With no decimals the result is -0, which is printed with its sign, exactly for the numbers between -1.5 and -0.5, both excluded. -/
theorem C190_minus_zero (s : Bool) (f : ℚ) (hf : Repr64 f) : roundS ⟨s, .fin f⟩ 0 = ⟨true, .fin 0⟩ ↔ -3 / 2 < f ∧ f < -1 / 2 := by
  obtain ⟨c, hc, -, hs⟩ := C190_sign s f hf 0 (by norm_num) (by norm_num)
  have h1 : F64.pow10 0 = .fin 1 := by
    have := pow10_exact 0 (by norm_num) (by norm_num)
    rwa [zpow_zero] at this
  have hc2 : c = 1 / 2 := by
    rw [h1, F64.div, if_neg (by norm_num), div_one, ofRat_half] at hc
    cases hc
    rfl
  rw [hc2] at hs
  constructor
  · intro h
    have hneg : (roundS ⟨s, .fin f⟩ 0).neg = true := by rw [h]
    have h2 := hs.1 hneg
    refine ⟨?_, by linarith⟩
    by_contra h3
    have hval : roundF (.fin f) 0 = .fin 0 := by
      rw [← C190_value ⟨s, .fin f⟩ 0, h]
    have ho := C188_order 0 (by norm_num) (by norm_num) (show Upto (.fin f) (.fin (-3 / 2)) from not_lt.1 h3)
    rw [hval, C133_zero_exact _ ⟨-3, -1, by norm_num, by norm_num, by norm_num⟩ (by norm_num) (by norm_num), if_neg (by norm_num), if_pos (by norm_num),
      show ⌈(-3 / 2 + 1 / 2 : ℚ)⌉ = -1 by rw [Int.ceil_eq_iff]; norm_num] at ho
    have : (0 : ℚ) ≤ ((-1 : ℤ) : ℚ) := ho
    norm_num at this
  · rintro ⟨h2, h3⟩
    have hneg := hs.2 (by linarith)
    have hval : roundF (.fin f) 0 = .fin 0 := by
      rw [C133_zero_exact f hf (by norm_num; linarith) (by norm_num; linarith), if_neg (fun hc => by rw [hc] at h3; norm_num at h3), if_pos h3.le,
        show ⌈f + 1 / 2⌉ = 0 by rw [Int.ceil_eq_iff]; constructor <;> push_cast <;> linarith, Int.cast_zero]
    have hv := C190_value ⟨s, .fin f⟩ 0
    rw [hval] at hv
    generalize roundS ⟨s, .fin f⟩ 0 = r at *
    obtain ⟨a, b⟩ := r
    dsimp only at hneg hv
    rw [hneg, hv]

/-- **C190 (plus).** A number from zero on, a zero of either sign included, gives a result without the sign. -/
theorem C190_plus (s : Bool) (f : ℚ) (hf : Repr64 f) (h0 : 0 ≤ f) (n : ℤ) (h : -290 ≤ n) (h' : n ≤ 290) : (roundS ⟨s, .fin f⟩ n).neg = false := by
  obtain ⟨c, -, hc, hs⟩ := C190_sign s f hf n h h'
  have h10 : (0 : ℚ) < 1 / 2 / 10 ^ n := div_pos (by norm_num) (zpow_pos (by norm_num) n)
  have hc0 : 0 < c := by
    have := (abs_le.1 hc).1
    have h2 : (1 / 2 / 10 ^ n : ℚ) / 2 ^ 49 ≤ 1 / 2 / 10 ^ n / 2 := div_le_div_of_nonneg_left h10.le (by norm_num) (by norm_num)
    linarith
  rw [Bool.eq_false_iff]
  intro hn
  have := hs.1 hn
  linarith

/-- **C190 (minus one unit).** For every `n`: numbers around minus one unit of the last decimal, from -1.25 to -0.75 of them, become -0, although the number next to them is minus one unit. -/
theorem C190_unit (s : Bool) (f : ℚ) (hf : Repr64 f) (n : ℤ) (h : -290 ≤ n) (h' : n ≤ 290) (h1 : -5 / 4 ≤ f * 10 ^ n) (h2 : f * 10 ^ n ≤ -3 / 4) :
    roundS ⟨s, .fin f⟩ n = ⟨true, .fin 0⟩ := by
  obtain ⟨c, hc, hcc, hs⟩ := C190_sign s f hf n h h'
  obtain ⟨p, e, hlow, hhigh, -, hcl⟩ := factor 0 n h h' le_rfl (by rw [zero_mul]; positivity)
  have hpos : 0 < p := lt_of_lt_of_le (zpow_pos (by norm_num) _) hlow
  have h10 : (0 : ℚ) < 10 ^ n := zpow_pos (by norm_num) n
  have hbig := (ten_bounds n h h').2
  obtain ⟨P, hP⟩ : ∃ P : ℚ, P = 10 ^ n := ⟨_, rfl⟩
  rw [← hP] at h1 h2 hcc hcl h10 hbig
  -- everything times `P`
  have hcP : |c * P - 1 / 2| ≤ 1 / 2 / 2 ^ 49 := by
    have e1 : c * P - 1 / 2 = (c - 1 / 2 / P) * P := by field_simp
    rw [e1, abs_mul, abs_of_pos h10]
    have := mul_le_mul_of_nonneg_right hcc h10.le
    have e2 : 1 / 2 / P / 2 ^ 49 * P = 1 / 2 / 2 ^ 49 := by field_simp
    linarith
  obtain ⟨c1, c2⟩ := abs_le.1 hcP
  norm_num at c1 c2
  have q1 : -77 / 100 ≤ (f + c) * P := by linarith
  have q2 : (f + c) * P ≤ -23 / 100 := by linarith
  have hneg : f + c < 0 := by
    by_contra hn
    have := mul_nonneg (not_lt.1 hn) h10.le
    linarith
  have hlt : f < -c := by linarith
  have hsm : (2 : ℚ) ^ (-1022 : ℤ) ≤ |f + c| := by
    rw [abs_of_neg hneg]
    have hh : (2 : ℚ) ^ (-1022 : ℤ) * P ≤ 23 / 100 := by
      have : (2 : ℚ) ^ (-1022 : ℤ) * P ≤ 2 ^ (-1022 : ℤ) * 2 ^ 980 := mul_le_mul_of_nonneg_left hbig (two_zpow_pos _).le
      refine le_trans this ?_
      rw [← zpow_natCast, ← zpow_add₀ (by norm_num)]
      norm_num
    by_contra hn
    have := mul_lt_mul_of_pos_right (not_le.1 hn) h10
    linarith
  have ha := rnd_err _ hsm
  obtain ⟨a, hadef⟩ : ∃ a, a = rnd (f + c) := ⟨_, rfl⟩
  rw [← hadef, abs_of_neg hneg] at ha
  have haP : |a * P - (f + c) * P| ≤ 1 / 100 := by
    have e1 : a * P - (f + c) * P = (a - (f + c)) * P := by ring
    rw [e1, abs_mul, abs_of_pos h10]
    have := mul_le_mul_of_nonneg_right ha h10.le
    have e2 : -(f + c) / 2 ^ 53 * P = -((f + c) * P) / 2 ^ 53 := by ring
    rw [e2] at this
    refine le_trans this ?_
    rw [div_le_iff₀ (by norm_num)]
    norm_num
    linarith
  obtain ⟨a1, a2⟩ := abs_le.1 haP
  have r1 : -78 / 100 ≤ a * P := by linarith
  have r2 : a * P ≤ -22 / 100 := by linarith
  have ha0 : a < 0 := by
    by_contra hn
    have := mul_nonneg (not_lt.1 hn) h10.le
    linarith
  have hap : |a * p - a * P| ≤ 1 / 100 := by
    have e1 : a * p - a * P = a * (p - P) := by ring
    rw [e1, abs_mul, abs_of_neg ha0]
    have := mul_le_mul_of_nonneg_left hcl (show 0 ≤ -a by linarith)
    have e2 : -a * (P / 2 ^ 51) = -(a * P) / 2 ^ 51 := by ring
    rw [e2] at this
    refine le_trans this ?_
    rw [div_le_iff₀ (by norm_num)]
    norm_num
    linarith
  obtain ⟨b1, b2⟩ := abs_le.1 hap
  have t1 : -7 / 8 ≤ rnd (a * p) := le_rnd _ _ ⟨-7, -3, by norm_num, by norm_num, by norm_num⟩ (by linarith)
  have t2 : rnd (a * p) ≤ -1 / 8 := rnd_le _ _ ⟨-1, -3, by norm_num, by norm_num, by norm_num⟩ (by linarith)
  have hone : (1 : ℚ) ≤ 2 ^ 1023 := one_le_pow₀ (by norm_num)
  have hfc : |f + c| ≤ 2 ^ 1023 := by
    rw [abs_of_neg hneg]
    have hplow := (ten_bounds n h h').1
    rw [← hP] at hplow
    have : -(f + c) * (2 : ℚ) ^ (-980 : ℤ) ≤ 1 := by
      have := mul_le_mul_of_nonneg_left hplow (show 0 ≤ -(f + c) by linarith)
      linarith
    have e1 : (2 : ℚ) ^ (-980 : ℤ) * 2 ^ 980 = 1 := by
      rw [← zpow_natCast, ← zpow_add₀ (by norm_num)]; norm_num
    have e2 : (2 : ℚ) ^ 980 ≤ 2 ^ 1023 := pow_le_pow_right₀ (by norm_num) (by norm_num)
    refine le_trans ?_ e2
    have h3 : (0 : ℚ) < 2 ^ 980 := by positivity
    calc -(f + c) = -(f + c) * (2 : ℚ) ^ (-980 : ℤ) * 2 ^ 980 := by rw [mul_assoc, e1, mul_one]
      _ ≤ 1 * 2 ^ 980 := mul_le_mul_of_nonneg_right this h3.le
      _ = 2 ^ 980 := one_mul _
  have hval : roundF (.fin f) n = .fin 0 := by
    have hce : ⌈rnd (a * p)⌉ = 0 := by rw [Int.ceil_eq_iff]; constructor <;> push_cast <;> linarith
    rw [e] at hc
    rw [roundF, e, hc, F64.add, F64.ofRat_fin _ hfc, ← hadef, F64.mul, F64.ofRat_fin _ (le_trans (abs_le.2 ⟨by linarith, by linarith⟩) hone), F64.trunc,
      if_pos (by linarith), hce, Int.cast_zero, F64.div, if_neg hpos.ne', zero_div, F64.ofRat_fin _ (by rw [abs_zero]; positivity), rnd_zero]
  have hv := C190_value ⟨s, .fin f⟩ n
  rw [hval] at hv
  have hneg' := hs.2 hlt
  generalize roundS ⟨s, .fin f⟩ n = r at *
  obtain ⟨x, y⟩ := r
  dsimp only at hneg' hv
  rw [hneg', hv]

/-- -1 becomes -0; -0 becomes 0. -/
example : roundS ⟨true, .fin (-1)⟩ 0 = ⟨true, .fin 0⟩ ∧ (roundS ⟨true, .fin 0⟩ 0).neg = false :=
  ⟨(C190_minus_zero true (-1) ⟨-1, 0, by norm_num, by norm_num, by norm_num⟩).2 ⟨by norm_num, by norm_num⟩, C190_plus true 0 repr_zero le_rfl 0 (by norm_num) (by norm_num)⟩

/-- With two decimals -0.01, or rather -5/512, becomes -0. -/
example : roundS ⟨true, .fin (-5 / 512)⟩ 2 = ⟨true, .fin 0⟩ :=
  C190_unit true _ ⟨-5, -9, by norm_num, by norm_num, by norm_num⟩ 2 (by norm_num) (by norm_num) (by norm_num) (by norm_num)

end Verif.Misc
