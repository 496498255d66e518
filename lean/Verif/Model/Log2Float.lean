import Verif.Model.Log2

/-!
# Model of `Log2` (common/math/math.go) for `float64`

For a `float64` the conversions in common/math/math.go:48 change nothing. The special cases are those of math/log10.go:25-37, math/frexp.go and math/log.go: `Frexp` gives zero, infinities and NaN back as they are, with
the exponent 0, and a negative number with a negative fraction; `Log` of them is what the cases say. The two zeros are one, and both have the logarithm -Inf.
-/

namespace Verif.Math

open F64

/-- `Log2`, common/math/math.go:47-49, of a `float64`; the parameter `lg` is that of `log2F`. -/
def log2Float (lg : ℚ → ℚ) : F64 → F64
  | .nan => .nan
  | .inf true => .nan
  | .inf false => .inf false
  | .fin x => if x < 0 then .nan else if x = 0 then .inf true else log2F lg x

end Verif.Math
