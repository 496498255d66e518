import Verif.Model.Heap
import Verif.Spec.Handles

/-!
# Model of `common/container/meap/maep.go`

The Go map `m` is a function to `Option`; key equality is Lean equality (so key types whose `==` is not reflexive, i.e. those containing
float NaNs, are in Model/MeapNan).
-/

namespace Verif.Meap

variable {K V : Type} [DecidableEq K] (lt : K × V → K × V → Bool)

/-- Map assignment `m[k] = v`. -/
def upd (m : K → Option Nat) (k : K) (v : Nat) : K → Option Nat := fun k' => if k' = k then some v else m k'

/-- `delete(m, k)`. -/
def del (m : K → Option Nat) (k : K) : K → Option Nat := fun k' => if k' = k then none else m k'

/-- `Meap[K, V]`, maep.go:15-19. -/
structure State (K V : Type) where
  h : List (K × V)
  m : K → Option Nat

/-- `less`, maep.go:141-143. -/
def less (s : State K V) (i j : Nat) : Go Bool := Heap.less lt s.h i j

/-- `swap`, maep.go:147-151. -/
def swap (s : State K V) (i j : Nat) : Go (State K V) := do
  let h ← Heap.swap s.h i j
  let a ← Go.idx h i
  let m := upd s.m a.1 i
  let b ← Go.idx h j
  let m := upd m b.1 j
  pure ⟨h, m⟩

/-- `less` and `swap` as used by `up` and `down`. -/
def ops : Heap.Ops (State K V) := ⟨less lt, swap⟩

/-- `New`, maep.go:21-26. -/
def new (K V : Type) : State K V := ⟨[], fun _ => none⟩

/-- `push`, maep.go:154-160. -/
def pushRaw (s : State K V) (k : K) (v : V) : State K V := ⟨s.h ++ [(k, v)], upd s.m k s.h.length⟩

/-- `pop`, maep.go:163-168. -/
def popRaw (s : State K V) : Go (State K V × (K × V)) := do
  let elem ← Go.idx s.h (s.h.length - 1)
  pure (⟨s.h.take (s.h.length - 1), del s.m elem.1⟩, elem)

/-- `Pop`, maep.go:29-34. -/
def pop (s : State K V) : Go (State K V × (K × V)) := do
  let n := s.h.length - 1
  let s ← swap s 0 n
  let (s, _) ← Heap.down (ops lt) s 0 n
  popRaw s

/-- `Peek`, maep.go:37-39. -/
def peek (s : State K V) : Go (K × V) := Go.idx s.h 0

/-- `Get`, maep.go:42-49; the pair (zero value, false) is `none`. -/
def get (s : State K V) (k : K) : Go (Option V) :=
  match s.m k with
  | none => .ok none
  | some i => do
    let e ← Go.idx s.h i
    pure (some e.2)

/-- `Contains`, maep.go:95-98. -/
def contains (s : State K V) (k : K) : Bool := (s.m k).isSome

/-- `Push`, maep.go:52-65. -/
def push (s : State K V) (k : K) (v : V) : Go (State K V) :=
  match s.m k with
  | some i => do
    let e ← Go.idx s.h i
    let s := { s with h := s.h.set i (e.1, v) }
    Heap.fixAt (ops lt) s s.h.length i
  | none =>
    let s := pushRaw s k v
    Heap.up (ops lt) s (s.h.length - 1)

/-- `Remove`, maep.go:78-92. -/
def remove (s : State K V) (k : K) : Go (State K V) :=
  match s.m k with
  | none => .ok s
  | some i => do
    let s ← Heap.removeAt (ops lt) s s.h.length i
    let (s, _) ← popRaw s
    pure s

/-- `Len`, maep.go:68-70. -/
def len (s : State K V) : Nat := s.h.length

/-- `Empty`, maep.go:73-75. -/
def empty (s : State K V) : Bool := len s == 0

/-- One client operation (see `MapHeapOp`). -/
def step (s : State K V) : MapHeapOp K V → Go (State K V × MapHeapOut K V)
  | .push k v => do let s ← push lt s k v; pure (s, .unit)
  | .pop => do let (s, e) ← pop lt s; pure (s, .entry e)
  | .peek => do let e ← peek s; pure (s, .entry e)
  | .remove k => do let s ← remove lt s k; pure (s, .unit)
  | .get k => do let v ← get s k; pure (s, .val v)
  | .contains k => .ok (s, .flag (contains s k))
  | .len => .ok (s, .num (len s))

/-- A history of client operations. -/
def run (s : State K V) : List (MapHeapOp K V) → Go (State K V × List (MapHeapOut K V))
  | [] => .ok (s, [])
  | op :: ops => do
    let (s, out) ← step lt s op
    let (s, outs) ← run s ops
    pure (s, out :: outs)

end Verif.Meap
