import Verif.Model.FileSize
import Verif.Props.Strconv
import Verif.Props.Math
import Verif.Go.Float64

/-!
# C119: `FileSize`
-/

namespace Verif.FileSize

open Utf8 Spec.Decimal

/-- What is needed of `math.Log`: the power chosen is the right one, except perhaps for numbers within a hundred-thousandth of a power. -/
def LogOk (lg : Nat → Int) : Prop :=
  ∀ x : Nat, 10 ≤ x → x ≤ 2 ^ 64 → 0 ≤ lg x ∧ 99999 * 1024 ^ (lg x).toNat ≤ 100000 * x ∧ 100000 * x ≤ 100001 * 1024 ^ ((lg x).toNat + 1)

theorem roundEven_spec (n d : Nat) (hd : 0 < d) : 2 * n ≤ 2 * (roundEven n d * d) + d ∧ 2 * (roundEven n d * d) ≤ 2 * n + d := by
  have h := Nat.div_add_mod n d
  have h2 := Nat.mod_lt n hd
  have h3 : n / d * d = d * (n / d) := Nat.mul_comm _ _
  have h4 : (n / d + 1) * d = d * (n / d) + d := by rw [Nat.add_mul, h3, Nat.one_mul]
  unfold roundEven
  split
  · rw [h3]; omega
  · split
    · rw [h4]; omega
    · split
      · rw [h3]; omega
      · rw [h4]; omega

theorem roundEven_le (n d k : Nat) (hd : 0 < d) (h : n ≤ k * d) : roundEven n d ≤ k := by
  have h1 := (roundEven_spec n d hd).2
  by_contra hc
  have h2 : (k + 1) * d ≤ roundEven n d * d := Nat.mul_le_mul_right d (by omega)
  have h3 : (k + 1) * d = k * d + d := by rw [Nat.add_mul, Nat.one_mul]
  omega

/-- `float64(s)` is `s` up to 53 bits. -/
theorem toFloat_spec (s : Nat) (h : s < 2 ^ 64) :
    2 ^ 53 * s ≤ 2 ^ 53 * toFloat s + s ∧ 2 ^ 53 * toFloat s ≤ 2 ^ 53 * s + s ∧ toFloat s ≤ 2 ^ 64 := by
  unfold toFloat
  split
  · omega
  · rename_i hs
    have h1 := Math.two_pow_bitLen_le (x := s) (by omega)
    have h2 := Math.lt_two_pow_bitLen s
    have hb : 53 < Math.bitLen s := by
      by_contra hc
      have : 2 ^ Math.bitLen s ≤ 2 ^ 53 := Nat.pow_le_pow_right (by omega) (by omega)
      omega
    have hb64 : Math.bitLen s ≤ 64 := Math.bitLen_le_of_lt h
    obtain ⟨k, hk⟩ : ∃ k, Math.bitLen s = 54 + k := ⟨Math.bitLen s - 54, by omega⟩
    rw [hk] at h1 h2 ⊢
    have e1 : 54 + k - 53 = k + 1 := by omega
    have e2 : 54 + k - 1 = 53 + k := by omega
    rw [e1]
    rw [e2] at h1
    have hd : 0 < 2 ^ (k + 1) := Nat.two_pow_pos _
    have h3 := roundEven_spec s (2 ^ (k + 1)) hd
    have h4 : roundEven s (2 ^ (k + 1)) ≤ 2 ^ 53 := by
      apply roundEven_le _ _ _ hd
      rw [← Nat.pow_add]
      have : 53 + (k + 1) = 54 + k := by omega
      rw [this]
      omega
    have h5 : roundEven s (2 ^ (k + 1)) * 2 ^ (k + 1) ≤ 2 ^ 53 * 2 ^ (k + 1) := Nat.mul_le_mul_right _ h4
    have h6 : 2 ^ 53 * 2 ^ (k + 1) ≤ 2 ^ 64 := by
      rw [← Nat.pow_add]
      exact Nat.pow_le_pow_right (by omega) (by omega)
    have h7 : 2 ^ (k + 1) = 2 * 2 ^ k := by rw [Nat.pow_succ, Nat.mul_comm]
    have h8 : 2 ^ (53 + k) = 2 ^ 53 * 2 ^ k := Nat.pow_add _ _ _
    rw [h8] at h1
    generalize roundEven s (2 ^ (k + 1)) * 2 ^ (k + 1) = y at *
    generalize 2 ^ k = z at *
    omega

theorem toFloat_ge (s : Nat) (h : s < 2 ^ 64) (h10 : 10 ≤ s) : 10 ≤ toFloat s := by
  by_cases hs : s < 2 ^ 53
  · unfold toFloat
    rw [if_pos hs]
    exact h10
  · have := toFloat_spec s h
    omega

theorem exponent_le (lg : Nat → Int) (hlg : LogOk lg) (x : Nat) (h1 : 10 ≤ x) (h2 : x ≤ 2 ^ 64) : (lg x).toNat ≤ 6 := by
  obtain ⟨-, h, -⟩ := hlg x h1 h2
  by_contra hc
  have : 1024 ^ 7 ≤ 1024 ^ (lg x).toNat := Nat.pow_le_pow_right (by omega) (by omega)
  omega

theorem formatInt_nat (n : Nat) (h : n ≤ 2 ^ 63) : Digits (Strconv.formatInt n) ∧ value (Strconv.formatInt n) = n := by
  unfold Strconv.formatInt
  rw [if_neg (by omega)]
  exact Strconv.digits_spec n h

/-- **C119 (small sizes).** Below ten bytes the number is written as it is. -/
theorem C119_small (lg : Nat → Int) (s : BitVec 64) (h : s.toNat < 10) :
    ∃ a, fileSize lg s = .ok (a ++ lit " B") ∧ Digits a ∧ value a = s.toNat := by
  refine ⟨Strconv.formatInt s.toNat, ?_, formatInt_nat _ (by omega)⟩
  unfold fileSize humanateBytes
  rw [if_pos h]

/-- `t` is the text of the whole number nearest to `n / d`. -/
def Nearest (t : Bytes) (n d : Nat) : Prop := Digits t ∧ 2 * n ≤ 2 * (value t * d) + d ∧ 2 * (value t * d) ≤ 2 * n + d

/-- `t` is the text, with one digit after the point, of the number of tenths nearest to `n / d`. -/
def NearestTenth (t : Bytes) (n d : Nat) : Prop :=
  ∃ a b, t = a ++ [46, b] ∧ Digits a ∧ 48 ≤ b ∧ b ≤ 57 ∧ Nearest (a ++ [b]) (10 * n) d

theorem value_snoc (a : Bytes) (b : Nat) : value (a ++ [b]) = value a * 10 + (b - 48) := by
  unfold value
  rw [List.foldl_append]
  rfl

/-- The units, each 1024 times the one before: `B`, `KB`, `MB`, `GB`, `TB`, `PB`, `EB`. -/
def units : List Bytes := [[66], [75, 66], [77, 66], [71, 66], [84, 66], [80, 66], [69, 66]]

theorem sizes_units : sizes = units := by decide +kernel

/-- **C119 (partial: units up to the accuracy of the logarithm, and nothing about the size of the number).** There is no panic; the result is a
number, a space and a unit `1024^e`, with `s` at least one unit and at most 1024 of them (up to a hundred-thousandth); the number is the size in that unit, rounded
to one place after the point if it is below ten and to whole units if not. -/
theorem C119_text_partial (lg : Nat → Int) (hlg : LogOk lg) (s : BitVec 64) (h : 10 ≤ s.toNat) :
    ∃ (x e : Nat) (t : Bytes) (he : e < units.length), fileSize lg s = .ok (t ++ 32 :: units[e]) ∧
      2 ^ 53 * s.toNat ≤ 2 ^ 53 * x + s.toNat ∧ 2 ^ 53 * x ≤ 2 ^ 53 * s.toNat + s.toNat ∧
      99999 * 1024 ^ e ≤ 100000 * x ∧ 100000 * x ≤ 100001 * 1024 ^ (e + 1) ∧
      if x < 10 * 1024 ^ e then NearestTenth t x (1024 ^ e) else Nearest t x (1024 ^ e) := by
  obtain ⟨f1, f2, f3⟩ := toFloat_spec s.toNat s.isLt
  have f4 := toFloat_ge s.toNat s.isLt h
  obtain ⟨g1, g2, g3⟩ := hlg _ f4 f3
  have g4 := exponent_le lg hlg _ f4 f3
  unfold fileSize humanateBytes
  rw [if_neg (by omega), sizes_units]
  dsimp only
  rw [if_pos g1]
  generalize (lg (toFloat s.toNat)).toNat = e at g2 g3 g4 ⊢
  generalize toFloat s.toNat = x at f1 f2 f3 f4 g2 g3 ⊢
  have he : e < units.length := by
    have : units.length = 7 := rfl
    omega
  rw [List.getElem?_eq_getElem he]
  have hd : 0 < 1024 ^ e := Nat.pow_pos (by omega)
  by_cases hx : x < 10 * 1024 ^ e
  · rw [if_pos hx]
    refine ⟨x, e, _, he, rfl, f1, f2, g2, g3, ?_⟩
    rw [if_pos hx]
    have hs := roundEven_spec (10 * x) (1024 ^ e) hd
    have hle := roundEven_le (10 * x) (1024 ^ e) 100 hd (by omega)
    unfold fixed1
    generalize roundEven (10 * x) (1024 ^ e) = r at hs hle ⊢
    have hb : Strconv.formatInt (r % 10 : Nat) = [48 + r % 10] := by
      unfold Strconv.formatInt
      rw [if_neg (by omega)]
      have : ((r % 10 : Nat) : Int).natAbs = r % 10 := by omega
      rw [this, Strconv.digitsFuel, if_pos (by omega)]
    obtain ⟨d1, d2⟩ := formatInt_nat (r / 10) (by omega)
    rw [hb]
    refine ⟨_, 48 + r % 10, rfl, d1, by omega, by omega, ⟨by simp, ?_⟩, ?_⟩
    · intro d hd'
      rcases List.mem_append.1 hd' with hd' | hd'
      · exact d1.2 d hd'
      · simp at hd'
        omega
    · rw [value_snoc, d2]
      have : r / 10 * 10 + (48 + r % 10 - 48) = r := by omega
      rw [this]
      exact hs
  · rw [if_neg hx]
    refine ⟨x, e, _, he, rfl, f1, f2, g2, g3, ?_⟩
    rw [if_neg hx]
    have hs := roundEven_spec x (1024 ^ e) hd
    have hle := roundEven_le x (1024 ^ e) 1025 hd (by rw [Nat.pow_succ] at g3; omega)
    obtain ⟨d1, d2⟩ := formatInt_nat (roundEven x (1024 ^ e)) (by omega)
    unfold Nearest fixed0
    rw [d2]
    exact ⟨d1, hs⟩

/-- **C119 (does not hold: below 1024 units).** With the right logarithm, one byte less than a megabyte is written as 1024 kilobytes. -/
theorem C119_carry_refuted (lg : Nat → Int) (h : lg 1048575 = 1) : fileSize lg 1048575#64 = .ok (lit "1024 KB") := by
  unfold fileSize humanateBytes
  have h1 : (1048575#64).toNat = 1048575 := by decide
  rw [h1, if_neg (by omega)]
  have h2 : toFloat 1048575 = 1048575 := by unfold toFloat; rw [if_pos (by omega)]
  dsimp only
  rw [h2, h]
  decide +kernel

/-- **C119 (does not hold: negative numbers).** A size of -1 is written as 16 exabytes. -/
theorem C119_negative_refuted (lg : Nat → Int) (hlg : LogOk lg) : fileSize lg (-1#64) = .ok (lit "16 EB") := by
  unfold fileSize humanateBytes
  have h1 : (-1#64).toNat = 2 ^ 64 - 1 := by decide
  have h2 : toFloat (2 ^ 64 - 1) = 2 ^ 64 := by
    have : Math.bitLen (2 ^ 64 - 1) = 64 := by decide +kernel
    unfold toFloat
    rw [if_neg (by omega), this]
    decide +kernel
  have h3 : lg (2 ^ 64) = 6 := by
    obtain ⟨a, b, c⟩ := hlg (2 ^ 64) (by omega) (by omega)
    have := exponent_le lg hlg (2 ^ 64) (by omega) (by omega)
    have h6 : ¬ (lg (2 ^ 64)).toNat ≤ 5 := by
      intro h
      have : 1024 ^ ((lg (2 ^ 64)).toNat + 1) ≤ 1024 ^ 6 := Nat.pow_le_pow_right (by omega) (by omega)
      omega
    omega
  rw [h1, if_neg (by omega)]
  dsimp only
  rw [h2, h3]
  decide +kernel

/-- A logarithm as needed. -/
def exactLg (x : Nat) : Int := ((Math.bitLen x - 1) / 10 : Nat)

theorem exactLg_ok : LogOk exactLg := by
  intro x h1 _
  have h3 := Math.two_pow_bitLen_le (x := x) (by omega)
  have h4 := Math.lt_two_pow_bitLen x
  have e : (exactLg x).toNat = (Math.bitLen x - 1) / 10 := by unfold exactLg; omega
  refine ⟨by unfold exactLg; omega, ?_, ?_⟩
  · have : 1024 ^ ((Math.bitLen x - 1) / 10) ≤ 2 ^ (Math.bitLen x - 1) := by
      have h : (1024 : Nat) = 2 ^ 10 := by norm_num
      rw [h, ← Nat.pow_mul]
      exact Nat.pow_le_pow_right (by omega) (by omega)
    rw [e]
    omega
  · have : 2 ^ Math.bitLen x ≤ 1024 ^ ((Math.bitLen x - 1) / 10 + 1) := by
      have h : (1024 : Nat) = 2 ^ 10 := by norm_num
      rw [h, ← Nat.pow_mul]
      exact Nat.pow_le_pow_right (by omega) (by omega)
    rw [e]
    omega

example : fileSize exactLg 1536#64 = .ok (lit "1.5 KB") ∧ fileSize exactLg 20480#64 = .ok (lit "20 KB") ∧
    fileSize exactLg 7#64 = .ok (lit "7 B") := by
  decide +kernel

/-! ## Against the model of `float64` -/

/-- **C119 (rounding).** The quotients are rounded to the nearest, of two to the even one. -/
theorem C119_round (n d : Nat) (hd : 0 < d) : (roundEven n d : ℤ) = rne ((n : ℚ) / d) := by
  have hd' : (0 : ℚ) < d := by exact_mod_cast hd
  have hfl : ⌊(n : ℚ) / d⌋ = ((n / d : ℕ) : ℤ) := by
    rw [Rat.floor_natCast_div_natCast]
    exact (Int.natCast_div n d).symm
  have hfr : (n : ℚ) / d - ((n / d : ℕ) : ℤ) = (n % d : ℕ) / d := by
    have h : (n : ℚ) = d * (n / d : ℕ) + (n % d : ℕ) := by exact_mod_cast (Nat.div_add_mod n d).symm
    rw [eq_div_iff hd'.ne', sub_mul, div_mul_cancel₀ _ hd'.ne', Int.cast_natCast]
    linarith
  have h1 : (n : ℚ) / d - ((n / d : ℕ) : ℤ) < 1 / 2 ↔ 2 * (n % d) < d := by
    rw [hfr, div_lt_iff₀ hd', ← Nat.cast_lt (α := ℚ)]
    push_cast
    constructor <;> intro h <;> linarith
  have h2 : 1 / 2 < (n : ℚ) / d - ((n / d : ℕ) : ℤ) ↔ d < 2 * (n % d) := by
    rw [hfr, lt_div_iff₀ hd', ← Nat.cast_lt (α := ℚ)]
    push_cast
    constructor <;> intro h <;> linarith
  unfold roundEven rne
  rw [hfl]
  simp only [h1, h2]
  split
  · rfl
  · split
    · push_cast; rfl
    · have : (((n / d : ℕ) : ℤ) % 2 = 0) ↔ n / d % 2 = 0 := by omega
      simp only [this]
      split
      · rfl
      · push_cast; rfl

/-- **C119 (conversion).** The size is converted as in the model of `float64`. -/
theorem C119_float (s : Nat) : (toFloat s : ℚ) = rnd s := by
  unfold toFloat
  split
  · rename_i h
    have := rnd_fixed (s : ℤ) (repr_int s (by rw [abs_of_nonneg (by omega)]; omega))
    exact_mod_cast this.symm
  · rename_i hs
    have h1 := Math.two_pow_bitLen_le (x := s) (by omega)
    have h2 := Math.lt_two_pow_bitLen s
    have hb : 53 < Math.bitLen s := by
      by_contra hc
      have : 2 ^ Math.bitLen s ≤ 2 ^ 53 := Nat.pow_le_pow_right (by omega) (by omega)
      omega
    obtain ⟨k, hk⟩ : ∃ k, Math.bitLen s = 53 + k := ⟨Math.bitLen s - 53, by omega⟩
    rw [hk] at h1 h2 ⊢
    rw [show 53 + k - 53 = k by omega]
    rw [show 53 + k - 1 = k + 52 by omega] at h1
    have ha : |(s : ℚ)| = s := abs_of_nonneg (by positivity)
    rw [rnd_eq (s : ℚ) k (by omega)
      (by rw [ha, show (k : ℤ) + 52 = ((k + 52 : ℕ) : ℤ) by norm_num, zpow_natCast]; exact_mod_cast h1)
      (by rw [ha, show (k : ℤ) + 53 = ((53 + k : ℕ) : ℤ) by push_cast; ring, zpow_natCast]; exact_mod_cast h2)]
    have := C119_round s (2 ^ k) (Nat.two_pow_pos k)
    rw [zpow_natCast]
    push_cast at this ⊢
    rw [← this]
    push_cast
    rfl

end Verif.FileSize
