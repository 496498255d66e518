import Verif.Model.Meap

/-!
# `Meap` with keys that are not equal to themselves (common/container/meap/maep.go)

A Go map takes NaN as a key: each assignment adds an entry, which no look-up and no `delete` finds. `rfx k` says whether `k == k`. The field `m`
consists of the entries that can be found and the number of those that cannot. Keys that are equal to themselves are as in Model/Meap.
-/

namespace Verif.MeapNan

variable {K V : Type} [DecidableEq K] (rfx : K → Bool) (lt : K × V → K × V → Bool)

/-- The map `m` -/
structure Index (K : Type) where
  found : K → Option Nat
  /-- The number of entries that nothing finds. -/
  lost : Nat

/-- `m[k]` with the second result. -/
def Index.get (m : Index K) (k : K) : Option Nat := if rfx k then m.found k else none

/-- `m[k] = i` -/
def Index.put (m : Index K) (k : K) (i : Nat) : Index K :=
  if rfx k then { m with found := Meap.upd m.found k i } else { m with lost := m.lost + 1 }

/-- `delete(m, k)` -/
def Index.del (m : Index K) (k : K) : Index K := if rfx k then { m with found := Meap.del m.found k } else m

/-- `Meap[K, V]`, maep.go:15-19. -/
structure State (K V : Type) where
  h : List (K × V)
  m : Index K

/-- `less`, maep.go:141-143. -/
def less (s : State K V) (i j : Nat) : Go Bool := Heap.less lt s.h i j

/-- `swap`, maep.go:147-151. -/
def swap (s : State K V) (i j : Nat) : Go (State K V) := do
  let h ← Heap.swap s.h i j
  let a ← Go.idx h i
  let m := s.m.put rfx a.1 i
  let b ← Go.idx h j
  let m := m.put rfx b.1 j
  pure ⟨h, m⟩

/-- `less` and `swap` as used by `up` and `down`. -/
def ops : Heap.Ops (State K V) := ⟨less lt, swap rfx⟩

/-- `New`, maep.go:21-26. -/
def new (K V : Type) : State K V := ⟨[], ⟨fun _ => none, 0⟩⟩

/-- `push`, maep.go:154-160. -/
def pushRaw (s : State K V) (k : K) (v : V) : State K V := ⟨s.h ++ [(k, v)], s.m.put rfx k s.h.length⟩

/-- `pop`, maep.go:163-168. -/
def popRaw (s : State K V) : Go (State K V × (K × V)) := do
  let elem ← Go.idx s.h (s.h.length - 1)
  pure (⟨s.h.take (s.h.length - 1), s.m.del rfx elem.1⟩, elem)

/-- `Pop`, maep.go:29-34. -/
def pop (s : State K V) : Go (State K V × (K × V)) := do
  let n := s.h.length - 1
  let s ← swap rfx s 0 n
  let (s, _) ← Heap.down (ops rfx lt) s 0 n
  popRaw rfx s

/-- `Peek`, maep.go:37-39. -/
def peek (s : State K V) : Go (K × V) := Go.idx s.h 0

/-- `Get`, maep.go:42-49; the pair (zero value, false) is `none`. -/
def get (s : State K V) (k : K) : Go (Option V) :=
  match s.m.get rfx k with
  | none => .ok none
  | some i => do
    let e ← Go.idx s.h i
    pure (some e.2)

/-- `Contains`, maep.go:95-98. -/
def contains (s : State K V) (k : K) : Bool := (s.m.get rfx k).isSome

/-- `Push`, maep.go:52-65. -/
def push (s : State K V) (k : K) (v : V) : Go (State K V) :=
  match s.m.get rfx k with
  | some i => do
    let e ← Go.idx s.h i
    let s := { s with h := s.h.set i (e.1, v) }
    Heap.fixAt (ops rfx lt) s s.h.length i
  | none =>
    let s := pushRaw rfx s k v
    Heap.up (ops rfx lt) s (s.h.length - 1)

/-- `Remove`, maep.go:78-92. -/
def remove (s : State K V) (k : K) : Go (State K V) :=
  match s.m.get rfx k with
  | none => .ok s
  | some i => do
    let s ← Heap.removeAt (ops rfx lt) s s.h.length i
    let (s, _) ← popRaw rfx s
    pure s

/-- One client operation (see `MapHeapOp`); `Len`, maep.go:68-70. -/
def step (s : State K V) : MapHeapOp K V → Go (State K V × MapHeapOut K V)
  | .push k v => do let s ← push rfx lt s k v; pure (s, .unit)
  | .pop => do let (s, e) ← pop rfx lt s; pure (s, .entry e)
  | .peek => do let e ← peek s; pure (s, .entry e)
  | .remove k => do let s ← remove rfx lt s k; pure (s, .unit)
  | .get k => do let v ← get rfx s k; pure (s, .val v)
  | .contains k => .ok (s, .flag (contains rfx s k))
  | .len => .ok (s, .num s.h.length)

/-- A history of client operations. -/
def run (s : State K V) : List (MapHeapOp K V) → Go (State K V × List (MapHeapOut K V))
  | [] => .ok (s, [])
  | op :: ops => do
    let (s, out) ← step rfx lt s op
    let (s, outs) ← run s ops
    pure (s, out :: outs)

end Verif.MeapNan
