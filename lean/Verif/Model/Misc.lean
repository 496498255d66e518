import Verif.Go.Prelude
import Verif.Go.Int64
import Verif.Go.Utf8
import Mathlib.Data.Rat.Floor
import Mathlib.Algebra.Order.Field.Rat

/-!
# Random strings, rounding, option switches (help/utils/rand.go, math.go, maps.go)
-/

namespace Verif.Misc

open Utf8

/-- The table of `RandStr`, help/utils/rand.go:17: how many characters, and the first one. -/
def kinds : List (Nat × Nat) := [(10, 48), (26, 97), (26, 65)]

/-- A random source: `rnd k n` is what call number `k` of `rand.Intn` answers if its argument is `n`. -/
abbrev Rnd := Nat → Nat → Nat

/-- `rand.Intn(n)` answers a number below `n`. -/
def Rnd.Ok (rnd : Rnd) : Prop := ∀ k n, 0 < n → rnd k n < n

/-- The loop of `RandStr`, help/utils/rand.go:22-29: `i` characters have been written, `calls` numbers drawn, `left` characters are to
come. -/
def randLoop (rnd : Rnd) (isAll : Bool) : (left : Nat) → (i calls ikind : Nat) → Bytes → Go Bytes
  | 0, _, _, _, result => pure result
  | left + 1, i, calls, ikind, result => do
    let ikind := if isAll then rnd calls 3 else ikind
    let calls := if isAll then calls + 1 else calls
    let row ← Go.idx kinds ikind
    let result ← Go.set result i ((row.2 + rnd calls row.1) % 256)
    randLoop rnd isAll left (i + 1) (calls + 1) ikind result

/-- `RandStr`, help/utils/rand.go:15-31. (The source is seeded with the clock; here it is any source.) -/
def randStr (rnd : Rnd) (size kind : Int) : Go Bytes :=
  if size < 0 then .error .makeLen
  else
    let isAll := decide (kind > 2) || decide (kind < 0)
    randLoop rnd isAll size.toNat 0 0 kind.toNat (List.replicate size.toNat 0)

/-- `math.Trunc`. -/
def trunc (x : Rat) : Int := if x < 0 then ⌈x⌉ else ⌊x⌋

/-- `Round`, help/utils/math.go:6-9, on rational numbers: without the rounding errors, infinities and NaN of `float64`. -/
def round (f : Rat) (n : Int) : Rat :=
  let p : Rat := (10 : Rat) ^ n
  trunc ((f + (1 / 2) / p) * p) / p

/-- A Go map; `none` is `nil`. -/
abbrev Options := Option (Bytes → Option Bool)

/-- `GetSwitchFromOptions`, help/utils/maps.go:127-135. -/
def getSwitch (o : Options) (key : Bytes) : Bool :=
  match o with
  | none => true
  | some m =>
    match m key with
    | none => true
    | some flag => flag

/-- `SetSwitchFromOptions`, help/utils/maps.go:137-142: the map of the caller afterwards. A map made here for `nil` is only seen inside. -/
def setSwitch (o : Options) (key : Bytes) (value : Bool) : Options :=
  match o with
  | none => none
  | some m => some (fun k => if k = key then some value else m k)

end Verif.Misc
