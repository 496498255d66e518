import Verif.Go.Prelude
import Mathlib.Order.Defs.LinearOrder

/-!
# Model of `common/math/math.go`

Unsigned Go types are `BitVec w` (`w` = 8, 16, 32, 64); `uint` is taken to be 64 bits wide (64-bit platforms).
`Log2` (math.go:47-49) goes through floating point and is modelled in Model/Log2.
-/

namespace Verif.Math

/-- `math/bits.Len64` (standard library, used at math.go:72): the number of bits needed to represent `x`. -/
def bitLen (x : Nat) : Nat := if h : x = 0 then 0 else bitLen (x / 2) + 1
termination_by x

/-- `Split`, common/math/math.go:12-19. `uint` arithmetic wraps modulo 2^64; division and remainder by zero panic. -/
def split (n m : BitVec 64) : Go (BitVec 64 × BitVec 64) :=
  if m = 0 then .error .divZero else
  let per := (n + m - 1) / m
  if per = 0 then .error .divZero else
  let last := n % per
  if last = 0 then .ok (per, per) else .ok (per, last)

/-- `Max`, common/math/math.go:22-27. Over a linear order (Go's ordered types other than floating point, for which see
Model/MathFloat). -/
def max {T : Type u} [LinearOrder T] (a b : T) : T := if a > b then a else b

/-- `Min`, common/math/math.go:30-35 (same domain as `max`). -/
def min {T : Type u} [LinearOrder T] (a b : T) : T := if a < b then a else b

/-- `Abs` on a signed `w`-bit type, common/math/math.go:38-43 (two's complement negation wraps). -/
def abs {w : Nat} (a : BitVec w) : BitVec w := if a.slt 0 then -a else a

/-- `IsPowOf2`, common/math/math.go:54-56. -/
def isPowOf2 {w : Nat} (n : BitVec w) : Bool := n != 0 && ((n &&& (n - 1)) == 0)

/-- `FindLastBitSet`, common/math/math.go:71-73: `bits.Len64(uint64(x))`. -/
def findLastBitSet {w : Nat} (x : BitVec w) : Nat := bitLen (x.setWidth 64).toNat

/-- `RoundUpPowOf2`, common/math/math.go:59-61. `1 << s` has type `T`; a shift by `w` or more gives 0. -/
def roundUpPowOf2 {w : Nat} (n : BitVec w) : BitVec w := 1#w <<< findLastBitSet (n - 1)

/-- `RoundDownPowOf2`, common/math/math.go:64-66. A negative shift count panics. -/
def roundDownPowOf2 {w : Nat} (n : BitVec w) : Go (BitVec w) :=
  let s : Int := (findLastBitSet n : Int) - 1
  if s < 0 then .error .negShift else .ok (1#w <<< s.toNat)

end Verif.Math
