import Verif.Model.Round

/-!
# Model of `Round` (help/utils/math.go) with the sign of zero

`F64` has one zero. Here a number also carries its sign bit. The rules are those of IEEE 754, which Go's operators follow: a product or quotient has the sign of both operands' signs together, a sum that is zero is -0 only
if both operands are, and `math.Trunc` (math/floor.go) keeps the sign: -0.5 becomes -0.
-/

namespace Verif.Misc

/-- A `float64` with its sign bit. -/
structure S64 where
  neg : Bool
  val : F64

namespace S64

/-- The sign bit of the value `v`, where `z` is that of a zero (NaN has none that can be told). -/
def sign (v : F64) (z : Bool) : Bool :=
  match v with
  | .nan => false
  | .inf s => s
  | .fin q => if q = 0 then z else decide (q < 0)

def add (x y : S64) : S64 := ⟨sign (x.val.add y.val) (x.neg && y.neg), x.val.add y.val⟩

def mul (x y : S64) : S64 := ⟨sign (x.val.mul y.val) (x.neg != y.neg), x.val.mul y.val⟩

def div (x y : S64) : S64 := ⟨sign (x.val.div y.val) (x.neg != y.neg), x.val.div y.val⟩

/-- `math.Trunc` -/
def trunc (x : S64) : S64 := ⟨sign x.val.trunc x.neg, x.val.trunc⟩

/-- `math.Pow10`: never negative. -/
def pow10 (n : ℤ) : S64 := ⟨false, F64.pow10 n⟩

end S64

/-- `Round`, help/utils/math.go:6-9, with the sign of zero. -/
def roundS (f : S64) (n : ℤ) : S64 :=
  (((f.add (S64.div ⟨false, .fin (1 / 2)⟩ (S64.pow10 n))).mul (S64.pow10 n)).trunc).div (S64.pow10 n)

end Verif.Misc
