import Verif.Model.Log2Float
import Verif.Go.Float32

/-!
# Model of `Log2` (common/math/math.go) for `float32`

The conversion to `float64` in common/math/math.go:48 changes nothing, since every `float32` is a `float64`; the conversion back to `T` rounds.
-/

namespace Verif.Math

/-- `Log2`, common/math/math.go:47-49, of a `float32`; the parameter `lg` is that of `log2F`. -/
def log2Float32 (lg : ℚ → ℚ) (x : F64) : F64 := (log2Float lg x).to32

end Verif.Math
