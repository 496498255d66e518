import Verif.Model.Misc

/-!
# Model of `RandStr` with its source (help/utils/rand.go)

`math/rand` of Go 1.18 (rng.go, rand.go), which `RandStr` seeds with the clock at each call: an additive lagged Fibonacci generator filled by
a linear congruential one. The table `rngCooked` of 607 constants is a parameter, so the theorems hold for every table. One goroutine:
nobody else draws from the global source between the lines of `RandStr`.
-/

namespace Verif.Rand

open Misc

/-- `rngLen`, `rngTap`, `int32max`, math/rand/rng.go. -/
def rngLen : Nat := 607
def rngTap : Nat := 273
def int32max : Int := 2147483647

/-- `seedrand`, math/rand/rng.go: `x` is positive, `/` and `%` are those of Go, and nothing overflows (`C170_lcg`). -/
def seedrand (x : Int) : Int :=
  let hi := x.tdiv 44488
  let lo := x.tmod 44488
  let x := 48271 * lo - 3399 * hi
  if x < 0 then x + int32max else x

/-- `rngSource`, math/rand/rng.go. -/
structure Source where
  tap : Nat
  feed : Nat
  vec : List (BitVec 64)
deriving DecidableEq, Repr

/-- `seedrand` `n` times. -/
def warm : Nat → Int → Int
  | 0, x => x
  | n + 1, x => warm n (seedrand x)

/-- The loop of `Seed` from `i = 0`: `left` entries are to come. -/
def fill (cooked : Nat → BitVec 64) : (left i : Nat) → Int → List (BitVec 64)
  | 0, _, _ => []
  | left + 1, i, x =>
    let x1 := seedrand x
    let x2 := seedrand x1
    let x3 := seedrand x2
    (BitVec.ofInt 64 x1 <<< 40 ^^^ BitVec.ofInt 64 x2 <<< 20 ^^^ BitVec.ofInt 64 x3 ^^^ cooked i) :: fill cooked left (i + 1) x3

/-- The number the loop of `Seed` starts with. -/
def normSeed (seed : Int) : Int :=
  let seed := seed.tmod int32max
  let seed := if seed < 0 then seed + int32max else seed
  if seed = 0 then 89482311 else seed

/-- `Seed`, math/rand/rng.go. -/
def seedSource (cooked : Nat → BitVec 64) (seed : Int) : Source :=
  ⟨0, rngLen - rngTap, fill cooked rngLen 0 (warm 20 (normSeed seed))⟩

/-- `Uint64`, math/rand/rng.go. -/
def uint64 (s : Source) : Source × BitVec 64 :=
  let tap := if s.tap = 0 then rngLen - 1 else s.tap - 1
  let feed := if s.feed = 0 then rngLen - 1 else s.feed - 1
  let x := s.vec.getD feed 0 + s.vec.getD tap 0
  (⟨tap, feed, s.vec.set feed x⟩, x)

/-- `Int31`, math/rand/rand.go: the upper 31 of the lower 63 bits. -/
def int31 (s : Source) : Source × Nat :=
  let (s, x) := uint64 s
  (s, x.toNat % 2 ^ 63 / 2 ^ 32)

/-- The loop of `Int31n`, math/rand/rand.go. -/
def int31nLoop (max n : Nat) : (fuel : Nat) → Source → Go (Source × Nat)
  | 0, _ => .error .diverge
  | fuel + 1, s =>
    let (s, v) := int31 s
    if v > max then int31nLoop max n fuel s else .ok (s, v % n)

/-- `Intn` for `0 < n < 2^31`, math/rand/rand.go, that is `Int31n`. `RandStr` calls it with 3, 10 and 26. -/
def intn (fuel : Nat) (s : Source) (n : Nat) : Go (Source × Nat) :=
  if n &&& (n - 1) = 0 then
    let (s, v) := int31 s
    .ok (s, v &&& (n - 1))
  else int31nLoop (2 ^ 31 - 1 - 2 ^ 31 % n) n fuel s

/-- The kind of the next character, help/utils/rand.go:23-25. -/
def pick (fuel : Nat) (isAll : Bool) (s : Source) (ikind : Nat) : Go (Source × Nat) := if isAll then intn fuel s 3 else .ok (s, ikind)

/-- The loop of `RandStr`, help/utils/rand.go:22-29. -/
def loop (fuel : Nat) (isAll : Bool) : (left : Nat) → (i ikind : Nat) → Bytes → Source → Go Bytes
  | 0, _, _, result, _ => pure result
  | left + 1, i, ikind, result, s => do
    let (s, ikind) ← pick fuel isAll s ikind
    let row ← Go.idx kinds ikind
    let (s, v) ← intn fuel s row.1
    let result ← Go.set result i ((row.2 + v) % 256)
    loop fuel isAll left (i + 1) ikind result s

/-- `RandStr`, help/utils/rand.go:15-31, at the time `now`, in nanoseconds. -/
def randStr (cooked : Nat → BitVec 64) (fuel : Nat) (now size kind : Int) : Go Bytes :=
  if size < 0 then .error .makeLen
  else
    let isAll := decide (kind > 2) || decide (kind < 0)
    loop fuel isAll size.toNat 0 kind.toNat (List.replicate size.toNat 0) (seedSource cooked now)

end Verif.Rand
