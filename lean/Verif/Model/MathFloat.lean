import Verif.Go.Float64

/-!
# `Max`, `Min` and `Abs` on `float64` (common/math/math.go)

A `float64` is its 64 bits: a sign, 11 bits of exponent, 52 bits of fraction (IEEE 754).
-/

namespace Verif.MathFloat

/-- The bits below the sign. -/
def magnitude (a : BitVec 64) : Nat := a.toNat % 2 ^ 63

/-- The sign bit. -/
def negative (a : BitVec 64) : Bool := decide (2 ^ 63 ≤ a.toNat)

/-- The exponent field. -/
def exponent (a : BitVec 64) : Nat := magnitude a / 2 ^ 52

/-- The fraction field. -/
def fraction (a : BitVec 64) : Nat := magnitude a % 2 ^ 52

/-- The number without its sign: subnormal for exponent 0. -/
def size (a : BitVec 64) : ℚ :=
  if exponent a = 0 then fraction a * 2 ^ (-1074 : ℤ) else (2 ^ 52 + fraction a) * 2 ^ ((exponent a : ℤ) - 1075)

/-- What the bits stand for. -/
def val (a : BitVec 64) : F64 :=
  if exponent a = 2047 then if fraction a = 0 then .inf (negative a) else .nan
  else .fin (if negative a then -size a else size a)

/-- `a < b` -/
def lt (a b : BitVec 64) : Bool :=
  match val a, val b with
  | .nan, _ => false
  | _, .nan => false
  | .inf n, .inf m => n && !m
  | .inf n, .fin _ => n
  | .fin _, .inf m => !m
  | .fin q, .fin r => decide (q < r)

/-- `-a`: the sign bit is flipped (it is the top bit, so adding it modulo 2⁶⁴ flips it and changes no other). -/
def neg (a : BitVec 64) : BitVec 64 := a + 0x8000000000000000#64

/-- `Max`, common/math/math.go:22-27. -/
def max (a b : BitVec 64) : BitVec 64 := if lt b a then a else b

/-- `Min`, common/math/math.go:30-35. -/
def min (a b : BitVec 64) : BitVec 64 := if lt a b then a else b

/-- `Abs`, common/math/math.go:38-43; the constant 0 is `+0`. -/
def abs (a : BitVec 64) : BitVec 64 := if lt a 0#64 then neg a else a

end Verif.MathFloat
