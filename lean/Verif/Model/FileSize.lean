import Verif.Model.Strconv
import Verif.Go.Prelude
import Verif.Model.Math

/-!
# Model of `FileSize` (help/utils/files.go)

Floating point numbers are the natural or rational numbers they stand for. `math.Log` is not modelled: a parameter `lg` gives
`math.Floor(logn(x, 1024))` for a `float64` `x`. `math.Pow(1024, e)` and the division by it are exact.
-/

namespace Verif.FileSize

open Utf8

/-- `n / d` to the nearest whole number, and to the even one of two. -/
def roundEven (n d : Nat) : Nat :=
  if 2 * (n % d) < d then n / d else if d < 2 * (n % d) then n / d + 1 else if n / d % 2 = 0 then n / d else n / d + 1

/-- `float64(s)` for a `uint64`: 53 bits are kept. -/
def toFloat (s : Nat) : Nat :=
  if s < 2 ^ 53 then s else roundEven s (2 ^ (Math.bitLen s - 53)) * 2 ^ (Math.bitLen s - 53)

/-- `fmt.Sprintf("%.0f", n / d)` -/
def fixed0 (n d : Nat) : Bytes := Strconv.formatInt (roundEven n d)

/-- `fmt.Sprintf("%.1f", n / d)` -/
def fixed1 (n d : Nat) : Bytes :=
  Strconv.formatInt (roundEven (10 * n) d / 10 : Nat) ++ 46 :: Strconv.formatInt (roundEven (10 * n) d % 10 : Nat)

/-- `humanateBytes`, help/utils/files.go:295-308, with base 1024. An index out of range is a panic. -/
def humanateBytes (lg : Nat → Int) (s : Nat) (sizes : List Bytes) : Go Bytes :=
  if s < 10 then .ok (Strconv.formatInt s ++ lit " B")
  else
    let x := toFloat s
    let e := lg x
    if 0 ≤ e then
      match sizes[e.toNat]? with
      | none => .error .index
      | some suffix =>
        .ok ((if x < 10 * 1024 ^ e.toNat then fixed1 x (1024 ^ e.toNat) else fixed0 x (1024 ^ e.toNat)) ++ 32 :: suffix)
    else .error .index

/-- The units. -/
def sizes : List Bytes := [lit "B", lit "KB", lit "MB", lit "GB", lit "TB", lit "PB", lit "EB"]

/-- `FileSize`, help/utils/files.go:286-289: the conversion to `uint64` wraps. -/
def fileSize (lg : Nat → Int) (s : BitVec 64) : Go Bytes := humanateBytes lg s.toNat sizes

end Verif.FileSize
