import Verif.Model.Bloom
import Verif.Go.Float64

/-!
# Model of the sizes in `New` (common/filter/bloom/bloom.go) in `float64`

Every operation is rounded. `math.Log` is the parameter `lg`. Products of constants are computed exactly by the compiler and rounded once.
-/

namespace Verif.Bloom

open F64

/-- `math.Ln2` (math/const.go of the standard library). -/
def ln2 : ℚ := 693147180559945309417232121458176568075500134360255254120680009 / 10 ^ 63

/-- `math.Ceil` -/
def ceil : F64 → F64
  | .fin q => .fin (⌈q⌉ : ℤ)
  | x => x

/-- The conversion to a whole number that must be below `2 ^ b` and not negative; `none`: not defined by the language, or (for `int`) negative. -/
def toNat (b : ℕ) : F64 → Option ℕ
  | .fin q => if 0 ≤ q ∧ q < 2 ^ b then some ⌊q⌋.toNat else none
  | _ => none

/-- `bitCnt`, bloom.go:24-25. -/
def floatBits (lg : ℚ → ℚ) (capacity : ℕ) (rate : ℚ) : Option ℕ :=
  let factor := div (.fin (-lg rate)) (ofRat (ln2 * ln2))
  toNat 64 (ceil (mul (ofRat capacity) factor))

/-- `seedCnt`, bloom.go:29. -/
def floatSeeds (capacity bitCnt : ℕ) : Option ℕ :=
  toNat 63 (ceil (div (mul (ofRat ln2) (ofRat bitCnt)) (ofRat capacity)))

/-- `New`, bloom.go:22-40, for a finite positive rate. -/
def newFloat (lg : ℚ → ℚ) (capacity : ℕ) (rate : ℚ) (random : Nat → BitVec 64) : Option (Go Filter) :=
  match floatBits lg capacity rate with
  | none => none
  | some b =>
    let bitCnt := BitVec.ofNat 64 b
    match floatSeeds capacity (roundUp bitCnt).toNat with
    | none => none
    | some k => some (new bitCnt k random)

end Verif.Bloom
