import Verif.Go.Utf8
import Verif.Go.Int64

/-!
# Model of `help/utils/ints.go` and the conversions of `help/utils/strings.go`

`strconv` of the standard library on a 64-bit machine, base 10.
-/

namespace Verif.Strconv

/-- The decimal digits of `n`, at most `fuel` of them; 20 suffice for 64 bits. -/
def digitsFuel : Nat → Nat → Bytes
  | 0, _ => []
  | fuel + 1, n => if n < 10 then [48 + n] else digitsFuel fuel (n / 10) ++ [48 + n % 10]

/-- `strconv.FormatInt(i, 10)`, `strconv.Itoa`: digits of the absolute value, as an unsigned number. -/
def formatInt (i : Int) : Bytes := if i < 0 then 45 :: digitsFuel 20 i.natAbs else digitsFuel 20 i.natAbs

/-- The errors. -/
inductive NumErr
  | syntaxErr
  | rangeErr
deriving DecidableEq

/-- The loop of `strconv.ParseUint(s, 10, 64)`: a range error ends it at once. -/
def parseUintLoop : Bytes → Nat → Nat × Option NumErr
  | [], n => (n, none)
  | c :: s, n =>
    if ¬ (48 ≤ c ∧ c ≤ 57) then (0, some .syntaxErr)
    else if n ≥ (2 ^ 64 - 1) / 10 + 1 then (2 ^ 64 - 1, some .rangeErr)
    else
      let n := n * 10
      let n1 := n + (c - 48)
      if n1 ≥ 2 ^ 64 then (2 ^ 64 - 1, some .rangeErr) else parseUintLoop s n1

/-- `strconv.ParseUint(s, 10, 64)` -/
def parseUint (s : Bytes) : Nat × Option NumErr := if s = [] then (0, some .syntaxErr) else parseUintLoop s 0

/-- `strconv.ParseInt(s, 10, 64)` -/
def parseInt (s : Bytes) : Int × Option NumErr :=
  if s = [] then (0, some .syntaxErr)
  else
    let neg := s.head? = some 45
    let s := if s.head? = some 43 ∨ neg then s.drop 1 else s
    let r := parseUint s
    if r.2 = some .syntaxErr then (0, r.2)
    else if ¬ neg ∧ r.1 ≥ 2 ^ 63 then (2 ^ 63 - 1, some .rangeErr)
    else if neg ∧ r.1 > 2 ^ 63 then (- 2 ^ 63, some .rangeErr)
    else (if neg then - (r.1 : Int) else r.1, none)

/-- The loop of the fast path of `strconv.Atoi`. -/
def atoiLoop : Bytes → Nat → Option Nat
  | [], n => some n
  | c :: s, n => if 48 ≤ c ∧ c ≤ 57 then atoiLoop s (n * 10 + (c - 48)) else none

/-- `strconv.Atoi` -/
def atoi (s : Bytes) : Int × Option NumErr :=
  if 0 < s.length ∧ s.length < 19 then
    let neg := s.head? = some 45
    let signed := s.head? = some 43 ∨ neg
    let t := if signed then s.drop 1 else s
    if signed ∧ t.length < 1 then (0, some .syntaxErr)
    else
      match atoiLoop t 0 with
      | none => (0, some .syntaxErr)
      | some n => (if neg then - (n : Int) else n, none)
  else parseInt s

/-- `IntToString`, ints.go:11-14. -/
def intToString (e : Int) : Bytes := formatInt e

/-- `Int64ToString`, ints.go:22-24. -/
def int64ToString (e : Int) : Bytes := formatInt e

/-- `StringToInt`, strings.go:15-18: the error is dropped. -/
def stringToInt (s : Bytes) : Int := (atoi s).1

/-- `StringToInt64`, strings.go:39-42: the error is dropped. -/
def stringToInt64 (s : Bytes) : Int := (parseInt s).1

end Verif.Strconv
