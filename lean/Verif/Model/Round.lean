import Verif.Go.Float64

/-!
# Model of `Round` (help/utils/math.go) on `float64`
-/

namespace Verif.Misc

open F64

/-- `Round`, help/utils/math.go:6-9. -/
def roundF (f : F64) (n : ℤ) : F64 :=
  div (trunc (mul (add f (div (.fin (1 / 2)) (pow10 n))) (pow10 n))) (pow10 n)

end Verif.Misc
