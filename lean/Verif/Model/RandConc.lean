import Verif.Model.Rand

/-!
# `RandStr` called by several goroutines (help/utils/rand.go)

All calls seed and draw from the one source of math/rand, whose methods `Seed` and `Int63` take a mutex (`lockedSource`, math/rand/rand.go of Go 1.18). One action is one such method, so that other calls may seed
and draw between any two numbers of a call, also within `Intn`, which draws again if the number is too large. Other code of the program may use the source, too.
-/

namespace Verif.RandConc

open Misc Rand

inductive Pc
  /-- before `rand.Seed` -/
  | seeding
  /-- at the head of the loop, or, for any kind of characters, drawing the kind -/
  | head
  /-- drawing the character -/
  | char
  | returned
deriving DecidableEq

/-- A call of `RandStr(size, kind)`, help/utils/rand.go:15-31. -/
structure Call where
  size : Nat
  kind : Int
  ikind : Nat
  i : Nat
  result : Bytes
  pc : Pc
deriving DecidableEq

structure State where
  src : Source
  calls : List Call

inductive Act
  | call (size kind : Int)
  /-- `rand.Seed` in call `k`, with the time it has read -/
  | seed (k : Nat) (now : Int)
  | step (k : Nat)
  /-- other code seeds the source -/
  | otherSeed (x : Int)
  /-- other code draws a number -/
  | otherDraw

/-- help/utils/rand.go:19. -/
def isAll (kind : Int) : Bool := decide (kind > 2) || decide (kind < 0)

/-- What `Intn(n)`, `0 < n < 2^31`, makes of a number it has drawn: `none` if it draws again (math/rand/rand.go, `Int31n`). -/
def accept (n v : Nat) : Option Nat :=
  if n &&& (n - 1) = 0 then some (v &&& (n - 1))
  else if v > 2 ^ 31 - 1 - 2 ^ 31 % n then none
  else some (v % n)

/-- The next step of a call, help/utils/rand.go:22-30; `none` if it has returned or panics. -/
def callStep (src : Source) (c : Call) : Option (Source × Call) :=
  match c.pc with
  | .seeding => none
  | .head =>
    if c.i < c.size then
      if isAll c.kind then
        match accept 3 (int31 src).2 with
        | some v => some ((int31 src).1, { c with ikind := v, pc := .char })
        | none => some ((int31 src).1, c)
      else some (src, { c with pc := .char })
    else some (src, { c with pc := .returned })
  | .char =>
    match kinds[c.ikind]? with
    | none => none
    | some row =>
      match accept row.1 (int31 src).2 with
      | some v =>
        if c.i < c.result.length then some ((int31 src).1, { c with i := c.i + 1, result := c.result.set c.i ((row.2 + v) % 256), pc := .head })
        else none
      | none => some ((int31 src).1, c)
  | .returned => none

/-- The effect; `none` if this cannot happen now. -/
def exec (cooked : Nat → BitVec 64) (s : State) : Act → Option State
  /- help/utils/rand.go:17-19; `make` panics for a negative size -/
  | .call size kind => if size < 0 then none else some { s with calls := s.calls ++ [⟨size.toNat, kind, kind.toNat, 0, List.replicate size.toNat 0, .seeding⟩] }
  /- help/utils/rand.go:21 -/
  | .seed k now =>
    match s.calls[k]? with
    | none => none
    | some c => if c.pc = .seeding then some ⟨seedSource cooked now, s.calls.set k { c with pc := .head }⟩ else none
  | .step k =>
    match s.calls[k]? with
    | none => none
    | some c =>
      match callStep s.src c with
      | none => none
      | some (src, c) => some ⟨src, s.calls.set k c⟩
  | .otherSeed x => some { s with src := seedSource cooked x }
  | .otherDraw => some { s with src := (uint64 s.src).1 }

def execs (cooked : Nat → BitVec 64) : List Act → State → Option State
  | [], s => some s
  | a :: as, s => (exec cooked s a).bind (execs cooked as)

/-- The source of a program that starts is seeded with 1 (Go 1.18). -/
def init (cooked : Nat → BitVec 64) : State := ⟨seedSource cooked 1, []⟩

def Reach (cooked : Nat → BitVec 64) (s : State) : Prop := ∃ as, execs cooked as (init cooked) = some s

end Verif.RandConc
