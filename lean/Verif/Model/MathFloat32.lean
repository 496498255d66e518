import Verif.Go.Float32

/-!
# `Max`, `Min` and `Abs` on `float32` (common/math/math.go)

A `float32` is its 32 bits: a sign, 8 bits of exponent, 23 bits of fraction (IEEE 754).
-/

namespace Verif.MathFloat32

/-- The bits below the sign. -/
def magnitude (a : BitVec 32) : Nat := a.toNat % 2 ^ 31

/-- The sign bit. -/
def negative (a : BitVec 32) : Bool := decide (2 ^ 31 ≤ a.toNat)

/-- The exponent field. -/
def exponent (a : BitVec 32) : Nat := magnitude a / 2 ^ 23

/-- The fraction field. -/
def fraction (a : BitVec 32) : Nat := magnitude a % 2 ^ 23

/-- The number without its sign: subnormal for exponent 0. -/
def size (a : BitVec 32) : ℚ :=
  if exponent a = 0 then fraction a * 2 ^ (-149 : ℤ) else (2 ^ 23 + fraction a) * 2 ^ ((exponent a : ℤ) - 150)

/-- What the bits stand for. -/
def val (a : BitVec 32) : F64 :=
  if exponent a = 255 then if fraction a = 0 then .inf (negative a) else .nan
  else .fin (if negative a then -size a else size a)

/-- `a < b` -/
def lt (a b : BitVec 32) : Bool :=
  match val a, val b with
  | .nan, _ => false
  | _, .nan => false
  | .inf n, .inf m => n && !m
  | .inf n, .fin _ => n
  | .fin _, .inf m => !m
  | .fin q, .fin r => decide (q < r)

/-- `-a`: the sign bit is flipped (it is the top bit, so adding it modulo 2³² flips it and changes no other). -/
def neg (a : BitVec 32) : BitVec 32 := a + 0x80000000#32

/-- `Max`, common/math/math.go:22-27. -/
def max (a b : BitVec 32) : BitVec 32 := if lt b a then a else b

/-- `Min`, common/math/math.go:30-35. -/
def min (a b : BitVec 32) : BitVec 32 := if lt a b then a else b

/-- `Abs`, common/math/math.go:38-43; the constant 0 is `+0`. -/
def abs (a : BitVec 32) : BitVec 32 := if lt a 0#32 then neg a else a

end Verif.MathFloat32
