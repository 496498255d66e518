import Verif.Go.Float64

/-!
# Model of `Log2` (common/math/math.go) for whole numbers

`math.Log2` (math/log10.go:25-37 of the standard library) takes the number apart with `Frexp` and adds the logarithm of the fraction, the
parameter `lg`: `lg y` is `Log(y) * (1/Ln2)` for `1/2 < y < 1`.
-/

namespace Verif.Math

open F64

/-- `math.Log2` of a positive number. -/
def log2F (lg : ℚ → ℚ) (x : ℚ) : F64 :=
  let exp := Int.log 2 x + 1
  let frac := x / 2 ^ exp
  if frac = 1 / 2 then .fin (exp - 1 : ℤ) else add (.fin (lg frac)) (.fin exp)

/-- `Log2`, common/math/math.go:47-49, of a whole number. `none`: the conversion of an infinity or of NaN to a whole number is not defined
by the language. -/
def log2 (lg : ℚ → ℚ) (a : ℤ) : Option ℤ :=
  match ofRat a with
  | .fin x =>
    if x ≤ 0 then none
    else
      match trunc (log2F lg x) with
      | .fin y => some ⌊y⌋
      | _ => none
  | _ => none

end Verif.Math
