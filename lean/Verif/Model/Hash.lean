import Verif.Go.Prelude

/-!
# Model of `common/hash/hash.go`

`hash/maphash` is used through its documentation: a `maphash.Hash` holds a seed and the bytes written since the last
`Reset`; `Sum64` is a function of the two (`F` below, unknown) and does not change the state; `Write` never fails.
-/

namespace Verif.Hash

/-- A `maphash.Hash`. -/
structure MapHash (Seed : Type) where
  seed : Seed
  written : List (BitVec 8)

/-- `type Hash struct`, hash.go:5-7; `none` is the nil pointer of `Hash{}`. -/
structure Hash (Seed : Type) where
  h : Option (MapHash Seed)

/-- `New`, hash.go:9-13; the seed is random. -/
def new {Seed : Type} (seed : Seed) : Hash Seed := ⟨some ⟨seed, []⟩⟩

/-- `(*maphash.Hash).Reset`. -/
def reset {Seed : Type} (h : MapHash Seed) : MapHash Seed := { h with written := [] }

/-- `(*maphash.Hash).Write`. -/
def write {Seed : Type} (h : MapHash Seed) (b : List (BitVec 8)) : MapHash Seed × Bool :=
  ({ h with written := h.written ++ b }, true)

/-- `Sum64`, hash.go:15-22. -/
def sum64 {Seed : Type} (F : Seed → List (BitVec 8) → BitVec 64) (h : Hash Seed) (b : List (BitVec 8)) :
    Go (Hash Seed × BitVec 64) :=
  match h.h with
  | none => .error .nilDeref
  | some m =>
    let m := reset m
    let (m, ok) := write m b
    if ok = false then .ok (⟨some m⟩, 0#64) else .ok (⟨some m⟩, F m.seed m.written)

/-- `Sum64String`, hash.go:24-26. -/
def sum64String {Seed : Type} (F : Seed → List (BitVec 8) → BitVec 64) (h : Hash Seed) (s : List (BitVec 8)) :
    Go (Hash Seed × BitVec 64) := sum64 F h s

/-- A call: the byte form (`false`) or the string form (`true`) and its argument. -/
abbrev Call := Bool × List (BitVec 8)

def call {Seed : Type} (F : Seed → List (BitVec 8) → BitVec 64) (h : Hash Seed) (c : Call) : Go (Hash Seed × BitVec 64) :=
  if c.1 then sum64String F h c.2 else sum64 F h c.2

/-- A history of calls and their results. -/
def run {Seed : Type} (F : Seed → List (BitVec 8) → BitVec 64) (h : Hash Seed) : List Call → Go (Hash Seed × List (BitVec 64))
  | [] => .ok (h, [])
  | c :: cs => do
    let (h', r) ← call F h c
    let (h'', rs) ← run F h' cs
    .ok (h'', r :: rs)

end Verif.Hash
