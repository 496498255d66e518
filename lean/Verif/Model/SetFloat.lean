import Verif.Model.Set
import Verif.Model.MathFloat

/-!
# `Set[float64]` (common/container/set/set.go)
-/

namespace Verif.GoSet

/-- `a == b` of two `float64`, given as their bits: the zeros are equal, NaN is not equal to anything. -/
def feq (a b : BitVec 64) : Bool :=
  match MathFloat.val a, MathFloat.val b with
  | .fin q, .fin r => decide (q = r)
  | .inf n, .inf m => n == m
  | _, _ => false

/-- A history of calls on a new `Set[float64]`. -/
def runFloat (ops : List (Op (BitVec 64))) : List (BitVec 64) := run feq ops

end Verif.GoSet
