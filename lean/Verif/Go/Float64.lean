import Mathlib.Data.Int.Log
import Mathlib.Data.Rat.Floor
import Mathlib.Tactic.Linarith
import Mathlib.Tactic.NormNum
import Mathlib.Tactic.Positivity
import Mathlib.Tactic.FieldSimp
import Mathlib.Tactic.Ring

/-!
# `float64`

A finite number is the rational number it stands for; the two zeros are one. An operation gives the representable number next to the
exact result, of two the even one; from 2^1024 on the result is infinite.
-/

namespace Verif

/-- The nearest whole number, of two the even one. -/
def rne (x : ℚ) : ℤ :=
  if x - ⌊x⌋ < 1 / 2 then ⌊x⌋ else if 1 / 2 < x - ⌊x⌋ then ⌊x⌋ + 1 else if ⌊x⌋ % 2 = 0 then ⌊x⌋ else ⌊x⌋ + 1

/-- The exponent of the last place of the numbers of the size of `q`: 53 places, but none below 2^-1074. -/
def lastPlace (q : ℚ) : ℤ := max (Int.log 2 |q| - 52) (-1074)

/-- The number next to `q` that has 53 places. -/
def rnd (q : ℚ) : ℚ := rne (q / 2 ^ lastPlace q) * 2 ^ lastPlace q

/-- `float64` -/
inductive F64
  | nan
  | inf (neg : Bool)
  | fin (q : ℚ)

namespace F64

def ofRat (q : ℚ) : F64 := if 2 ^ 1024 ≤ |rnd q| then .inf (decide (q < 0)) else .fin (rnd q)

def add : F64 → F64 → F64
  | .nan, _ => .nan
  | _, .nan => .nan
  | .inf a, .inf b => if a = b then .inf a else .nan
  | .inf a, .fin _ => .inf a
  | .fin _, .inf b => .inf b
  | .fin a, .fin b => ofRat (a + b)

def mul : F64 → F64 → F64
  | .nan, _ => .nan
  | _, .nan => .nan
  | .inf a, .inf b => .inf (a != b)
  | .inf a, .fin b => if b = 0 then .nan else .inf (a != decide (b < 0))
  | .fin a, .inf b => if a = 0 then .nan else .inf (decide (a < 0) != b)
  | .fin a, .fin b => ofRat (a * b)

def div : F64 → F64 → F64
  | .nan, _ => .nan
  | _, .nan => .nan
  | .inf _, .inf _ => .nan
  | .inf a, .fin b => .inf (a != decide (b < 0))
  | .fin _, .inf _ => .fin 0
  | .fin a, .fin b => if b = 0 then if a = 0 then .nan else .inf (decide (a < 0)) else ofRat (a / b)

/-- `math.Trunc` -/
def trunc : F64 → F64
  | .fin q => .fin (if q < 0 then ⌈q⌉ else ⌊q⌋ : ℤ)
  | x => x

/-- `math.Pow10`, with its tables of the powers up to 31 and of every 32nd power. -/
def pow10 (n : ℤ) : F64 :=
  if 0 ≤ n ∧ n ≤ 308 then mul (ofRat (10 ^ (n / 32 * 32))) (ofRat (10 ^ (n % 32)))
  else if -323 ≤ n ∧ n ≤ 0 then div (ofRat (10 ^ (-(-n / 32 * 32)))) (ofRat (10 ^ (-n % 32)))
  else if 0 < n then .inf false
  else .fin 0

end F64

/-! ## Numbers with 53 places -/

/-- `q` has at most 53 places, none below 2^-1074. -/
def Repr64 (q : ℚ) : Prop := ∃ m e : ℤ, |m| ≤ 2 ^ 53 ∧ -1074 ≤ e ∧ q = m * 2 ^ e

theorem rne_err (x : ℚ) : |(rne x : ℚ) - x| ≤ 1 / 2 := by
  have h1 := Int.floor_le x
  have h2 := Int.lt_floor_add_one x
  unfold rne
  split
  · rw [abs_le]; constructor <;> linarith
  · split
    · push_cast; rw [abs_le]; constructor <;> linarith
    · split
      · rw [abs_le]; constructor <;> linarith
      · push_cast; rw [abs_le]; constructor <;> linarith

theorem rne_nearest (x : ℚ) (n : ℤ) : |(rne x : ℚ) - x| ≤ |(n : ℚ) - x| := by
  have h := rne_err x
  by_cases hn : n = rne x
  · rw [hn]
  · have h1 : (1 : ℚ) ≤ |(n : ℚ) - rne x| := by
      have : (1 : ℤ) ≤ |n - rne x| := Int.one_le_abs (sub_ne_zero.2 hn)
      exact_mod_cast this
    have h2 : |(n : ℚ) - rne x| ≤ |(n : ℚ) - x| + |(rne x : ℚ) - x| := by
      have := abs_sub_le (n : ℚ) x (rne x)
      rwa [abs_sub_comm x (rne x : ℚ)] at this
    linarith

/-- Of two nearest whole numbers the even one is taken. -/
theorem rne_even (x : ℚ) (h : |(rne x : ℚ) - x| = 1 / 2) : rne x % 2 = 0 := by
  have h1 := Int.floor_le x
  have h2 := Int.lt_floor_add_one x
  unfold rne at h ⊢
  split at h
  · rename_i h3
    rw [abs_eq (by norm_num)] at h
    rcases h with h | h <;> linarith
  · rename_i h3
    rw [if_neg h3]
    split at h
    · rename_i h4
      push_cast at h
      rw [abs_eq (by norm_num)] at h
      rcases h with h | h <;> linarith
    · rename_i h4
      rw [if_neg h4]
      split
      · assumption
      · omega

theorem lastPlace_ge (q : ℚ) : -1074 ≤ lastPlace q := le_max_right _ _

theorem lt_lastPlace (q : ℚ) : |q| < 2 ^ (lastPlace q + 53) := by
  have h := Int.lt_zpow_succ_log_self (b := 2) (by norm_num) |q|
  refine lt_of_lt_of_le h ?_
  push_cast
  refine zpow_le_zpow_right₀ (by norm_num) ?_
  have : Int.log 2 |q| - 52 ≤ lastPlace q := le_max_left _ _
  omega

theorem lastPlace_le (q : ℚ) (h0 : q ≠ 0) (h : -1074 < lastPlace q) : (2 : ℚ) ^ (lastPlace q + 52) ≤ |q| := by
  have h1 : lastPlace q = Int.log 2 |q| - 52 := by
    unfold lastPlace at h ⊢
    omega
  rw [h1, show Int.log 2 |q| - 52 + 52 = Int.log 2 |q| by ring]
  have := Int.zpow_log_le_self (b := 2) (by norm_num) (abs_pos.2 h0)
  exact_mod_cast this

theorem rnd_zero : rnd 0 = 0 := by
  have : rne 0 = 0 := by simp [rne]
  simp [rnd, this]

theorem two_zpow_pos (e : ℤ) : (0 : ℚ) < 2 ^ e := zpow_pos (by norm_num) e

theorem zpow_step (e : ℤ) (k : ℕ) : (2 : ℚ) ^ (e + k) = 2 ^ k * 2 ^ e := by
  rw [zpow_add₀ (by norm_num), zpow_natCast, mul_comm]

/-- The error is at most half a unit of the last place. -/
theorem rnd_err_place (q : ℚ) : |rnd q - q| ≤ 2 ^ lastPlace q / 2 := by
  have hp := two_zpow_pos (lastPlace q)
  have h := rne_err (q / 2 ^ lastPlace q)
  have e : rnd q - q = (rne (q / 2 ^ lastPlace q) - q / 2 ^ lastPlace q) * 2 ^ lastPlace q := by
    unfold rnd
    field_simp
  rw [e, abs_mul, abs_of_pos hp]
  nlinarith

theorem repr_rnd (q : ℚ) : Repr64 (rnd q) := by
  refine ⟨rne (q / 2 ^ lastPlace q), lastPlace q, ?_, lastPlace_ge q, rfl⟩
  have hp := two_zpow_pos (lastPlace q)
  have h1 : |q / 2 ^ lastPlace q| < 2 ^ 53 := by
    rw [abs_div, abs_of_pos hp, div_lt_iff₀ hp]
    have := lt_lastPlace q
    rwa [show lastPlace q + 53 = lastPlace q + (53 : ℕ) by norm_num, zpow_step] at this
  have h2 := rne_err (q / 2 ^ lastPlace q)
  have h3 := abs_sub_abs_le_abs_sub (rne (q / 2 ^ lastPlace q) : ℚ) (q / 2 ^ lastPlace q)
  have h4 : |(rne (q / 2 ^ lastPlace q) : ℚ)| < 2 ^ 53 + 1 := by linarith
  have h5 : |rne (q / 2 ^ lastPlace q)| < 2 ^ 53 + 1 := by exact_mod_cast h4
  omega

/-- No number with 53 places is nearer. -/
theorem rnd_nearest (q y : ℚ) (h : Repr64 y) : |rnd q - q| ≤ |y - q| := by
  by_cases h0 : q = 0
  · rw [h0, rnd_zero]; simp
  have hp := two_zpow_pos (lastPlace q)
  -- multiples of the last place
  have key : ∀ n : ℤ, |rnd q - q| ≤ |(n : ℚ) * 2 ^ lastPlace q - q| := by
    intro n
    have h := rne_nearest (q / 2 ^ lastPlace q) n
    have e1 : rnd q - q = (rne (q / 2 ^ lastPlace q) - q / 2 ^ lastPlace q) * 2 ^ lastPlace q := by
      unfold rnd
      field_simp
    have e2 : (n : ℚ) * 2 ^ lastPlace q - q = (n - q / 2 ^ lastPlace q) * 2 ^ lastPlace q := by field_simp
    rw [e1, e2, abs_mul, abs_mul, abs_of_pos hp]
    exact mul_le_mul_of_nonneg_right h hp.le
  obtain ⟨m, e, hm, he, rfl⟩ := h
  by_cases hle : lastPlace q ≤ e
  · have := key (m * 2 ^ (e - lastPlace q).toNat)
    have e1 : ((m * 2 ^ (e - lastPlace q).toNat : ℤ) : ℚ) * 2 ^ lastPlace q = m * 2 ^ e := by
      push_cast
      rw [mul_assoc, ← zpow_step, show lastPlace q + ((e - lastPlace q).toNat : ℤ) = e by omega]
    rwa [e1] at this
  · have h1 : (2 : ℚ) ^ (lastPlace q + 52) ≤ |q| := lastPlace_le q h0 (by omega)
    have h2 : |(m : ℚ) * 2 ^ e| ≤ 2 ^ (lastPlace q + 52) := by
      rw [abs_mul, abs_of_pos (two_zpow_pos e)]
      have hm' : |(m : ℚ)| ≤ 2 ^ 53 := by exact_mod_cast hm
      calc |(m : ℚ)| * 2 ^ e ≤ 2 ^ 53 * 2 ^ e := mul_le_mul_of_nonneg_right hm' (two_zpow_pos e).le
        _ = 2 ^ (e + (53 : ℕ)) := (zpow_step e 53).symm
        _ ≤ 2 ^ (lastPlace q + 52) := zpow_le_zpow_right₀ (by norm_num) (by push_cast; omega)
    have h3 : (2 : ℚ) ^ (lastPlace q + 52) = ((2 ^ 52 : ℤ) : ℚ) * 2 ^ lastPlace q := by
      rw [show lastPlace q + 52 = lastPlace q + (52 : ℕ) by norm_num, zpow_step]; norm_num
    rcases lt_or_gt_of_ne h0 with hq | hq
    · have h4 := key (-2 ^ 52)
      push_cast at h3 h4
      rw [neg_mul, ← h3] at h4
      rw [abs_of_neg hq] at h1
      rw [abs_le] at h2
      have h5 : |-(2 : ℚ) ^ (lastPlace q + 52) - q| = -(2 : ℚ) ^ (lastPlace q + 52) - q := abs_of_nonneg (by linarith)
      have h6 := le_abs_self ((m : ℚ) * 2 ^ e - q)
      linarith [h2.1]
    · have h4 := key (2 ^ 52)
      rw [← h3] at h4
      rw [abs_of_pos hq] at h1
      rw [abs_le] at h2
      have h5 : |(2 : ℚ) ^ (lastPlace q + 52) - q| = -((2 : ℚ) ^ (lastPlace q + 52) - q) := abs_of_nonpos (by linarith)
      have h6 := neg_abs_le ((m : ℚ) * 2 ^ e - q)
      linarith [h2.2]

theorem rnd_fixed (y : ℚ) (h : Repr64 y) : rnd y = y := by
  have := rnd_nearest y y h
  rw [sub_self, abs_zero] at this
  exact sub_eq_zero.1 (abs_eq_zero.1 (le_antisymm this (abs_nonneg _)))

theorem rnd_le (q c : ℚ) (h : Repr64 c) (hq : q ≤ c) : rnd q ≤ c := by
  by_contra hc
  have h1 := rnd_nearest q c h
  rw [abs_of_pos (by linarith), abs_of_nonneg (by linarith)] at h1
  linarith

theorem le_rnd (q c : ℚ) (h : Repr64 c) (hq : c ≤ q) : c ≤ rnd q := by
  by_contra hc
  have h1 := rnd_nearest q c h
  rw [abs_of_neg (by linarith), abs_of_nonpos (by linarith)] at h1
  linarith

/-- The relative error is at most 2^-53, above the smallest numbers. -/
theorem rnd_err (q : ℚ) (h : (2 : ℚ) ^ (-1022 : ℤ) ≤ |q|) : |rnd q - q| ≤ |q| / 2 ^ 53 := by
  have h0 : q ≠ 0 := by
    rintro rfl
    rw [abs_zero] at h
    exact absurd (two_zpow_pos (-1022)) (not_lt.2 h)
  have h1 := rnd_err_place q
  have h2 : (2 : ℚ) ^ (lastPlace q + (52 : ℕ)) ≤ |q| := by
    by_cases hl : -1074 < lastPlace q
    · exact_mod_cast lastPlace_le q h0 hl
    · have := lastPlace_ge q
      rwa [show lastPlace q = -1074 by omega]
  rw [zpow_step] at h2
  rw [le_div_iff₀ (by norm_num)]
  have : (2 : ℚ) ^ 53 = 2 * 2 ^ 52 := by norm_num
  rw [this]
  nlinarith

theorem rnd_mul (q : ℚ) (h : (2 : ℚ) ^ (-1022 : ℤ) ≤ |q|) : ∃ d, rnd q = q * (1 + d) ∧ |d| ≤ 1 / 2 ^ 53 := by
  have h0 : q ≠ 0 := by
    rintro rfl
    rw [abs_zero] at h
    exact absurd (two_zpow_pos (-1022)) (not_lt.2 h)
  refine ⟨(rnd q - q) / q, by field_simp; ring, ?_⟩
  rw [abs_div, div_le_iff₀ (abs_pos.2 h0)]
  have := rnd_err q h
  linarith

theorem repr_int (n : ℤ) (h : |n| ≤ 2 ^ 53) : Repr64 n := ⟨n, 0, h, by norm_num, by simp⟩

theorem repr_two_zpow (e : ℤ) (h : -1074 ≤ e) : Repr64 (2 ^ e) := ⟨1, e, by norm_num, h, by simp⟩

/-- How to round a given number. -/
theorem rnd_eq (q : ℚ) (e : ℤ) (he : -1074 ≤ e) (h1 : 2 ^ (e + 52) ≤ |q|) (h2 : |q| < 2 ^ (e + 53)) : rnd q = rne (q / 2 ^ e) * 2 ^ e := by
  have h0 : 0 < |q| := lt_of_lt_of_le (two_zpow_pos _) h1
  have a : e + 52 ≤ Int.log 2 |q| := (Int.zpow_le_iff_le_log (b := 2) (by norm_num) h0).1 (by exact_mod_cast h1)
  have b : Int.log 2 |q| < e + 53 := (Int.lt_zpow_iff_log_lt (b := 2) (by norm_num) h0).1 (by exact_mod_cast h2)
  have : lastPlace q = e := by unfold lastPlace; omega
  rw [rnd, this]

theorem rne_eq (x : ℚ) (n : ℤ) (h : |(n : ℚ) - x| < 1 / 2) : rne x = n := by
  by_contra hc
  have h1 : (1 : ℤ) ≤ |n - rne x| := Int.one_le_abs (sub_ne_zero.2 (Ne.symm hc))
  have h1' : (1 : ℚ) ≤ |(n : ℚ) - rne x| := by exact_mod_cast h1
  have h2 := abs_sub_le (n : ℚ) x (rne x)
  rw [abs_sub_comm x] at h2
  have := rne_err x
  linarith

/-- In the middle: the even one. -/
theorem rne_half (n : ℤ) (h : n % 2 = 1) : rne (n + 1 / 2) = n + 1 := by
  have hf : ⌊(n : ℚ) + 1 / 2⌋ = n := by
    rw [Int.floor_eq_iff]; constructor <;> linarith
  unfold rne
  rw [hf, if_neg (by linarith), if_neg (by linarith), if_neg (by omega)]

/-- No overflow below 2^1023. -/
theorem F64.ofRat_fin (q : ℚ) (h : |q| ≤ 2 ^ 1023) : F64.ofRat q = .fin (rnd q) := by
  have h1 : Repr64 (2 ^ 1023) := by exact_mod_cast repr_two_zpow 1023 (by norm_num)
  have h2 : Repr64 (-2 ^ 1023) := by
    obtain ⟨m, e, a, b, c⟩ := h1
    exact ⟨-m, e, by rwa [abs_neg], b, by rw [c]; push_cast; ring⟩
  rw [abs_le] at h
  have h3 : |rnd q| ≤ 2 ^ 1023 := abs_le.2 ⟨le_rnd q _ h2 h.1, rnd_le q _ h1 h.2⟩
  have h4 : (2 : ℚ) ^ 1023 < 2 ^ 1024 := pow_lt_pow_right₀ (by norm_num) (by norm_num)
  unfold F64.ofRat
  rw [if_neg (not_le.2 (lt_of_le_of_lt h3 h4))]

end Verif
