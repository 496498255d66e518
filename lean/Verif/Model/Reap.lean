import Verif.Model.Heap
import Verif.Spec.Handles

/-!
# Model of `common/container/reap/reap.go`

Entries are heap-allocated and shared between the client and the container. They are modelled by a store: a list of entries in allocation
order, a pointer being a position in it. `h` holds pointers.
-/

namespace Verif.Reap

/-- `Entry[T]`, reap.go:3-6. -/
structure Entry (T : Type) where
  value : T
  index : Int
deriving DecidableEq

/-- The store of all entries ever allocated by `Push`, and the field `h` of `Reap[T]` (reap.go:17-20). -/
structure State (T : Type) where
  ents : List (Entry T)
  h : List Nat
deriving DecidableEq

variable {T : Type} (lt : T → T → Bool)

/-- Dereference of an entry pointer; a dangling pointer (impossible in Go) is reported as a nil dereference. -/
def deref (s : State T) (p : Nat) : Go (Entry T) :=
  match s.ents[p]? with
  | some e => .ok e
  | none => .error .nilDeref

/-- `Entry.Value`, reap.go:9-11. -/
def value (s : State T) (p : Nat) : Go T := do
  let e ← deref s p
  pure e.value

/-- Assignment `p.index = i`. -/
def setIndex (s : State T) (p : Nat) (i : Int) : Go (State T) := do
  let e ← deref s p
  pure { s with ents := s.ents.set p { e with index := i } }

/-- Assignment `p.value = v`. -/
def setVal (s : State T) (p : Nat) (v : T) : Go (State T) := do
  let e ← deref s p
  pure { s with ents := s.ents.set p { e with value := v } }

/-- `less`, reap.go:130-132. -/
def less (s : State T) (i j : Nat) : Go Bool := do
  let p ← Go.idx s.h i
  let q ← Go.idx s.h j
  let a ← value s p
  let b ← value s q
  pure (lt a b)

/-- `swap`, reap.go:135-139. -/
def swap (s : State T) (i j : Nat) : Go (State T) := do
  let h ← Heap.swap s.h i j
  let s := { s with h := h }
  let p ← Go.idx s.h i
  let s ← setIndex s p i
  let q ← Go.idx s.h j
  setIndex s q j

/-- `less` and `swap` as used by `up` and `down`. -/
def ops : Heap.Ops (State T) := ⟨less lt, swap⟩

/-- `New`, reap.go:22-26. -/
def new (T : Type) : State T := ⟨[], []⟩

/-- `push`, reap.go:142-149. -/
def pushRaw (s : State T) (v : T) : State T × Nat :=
  (⟨s.ents ++ [⟨v, s.h.length⟩], s.h ++ [s.ents.length]⟩, s.ents.length)

/-- `pop`, reap.go:152-158. -/
def popRaw (s : State T) : Go (State T × T) := do
  let elem ← Go.idx s.h (s.h.length - 1)
  let s := { s with h := s.h.take (s.h.length - 1) }
  let s ← setIndex s elem (-1)
  let v ← value s elem
  pure (s, v)

/-- `Push`, reap.go:42-46. -/
def push (s : State T) (v : T) : Go (State T × Nat) := do
  let (s, e) := pushRaw s v
  let s ← Heap.up (ops lt) s (s.h.length - 1)
  pure (s, e)

/-- `Pop`, reap.go:29-34. -/
def pop (s : State T) : Go (State T × T) := do
  let n := s.h.length - 1
  let s ← swap s 0 n
  let (s, _) ← Heap.down (ops lt) s 0 n
  popRaw s

/-- `Peek`, reap.go:37-39. -/
def peek (s : State T) : Go T := do
  let p ← Go.idx s.h 0
  value s p

/-- `Remove`, reap.go:49-65. (An index other than -1 is non-negative: it is only ever set to positions and -1.) -/
def remove (s : State T) (e : Nat) : Go (State T × Bool) := do
  let ent ← deref s e
  if ent.index = -1 then pure (s, false) else
  let s ← Heap.removeAt (ops lt) s s.h.length ent.index.toNat
  let (s, _) ← popRaw s
  pure (s, true)

/-- `SetValue`, reap.go:68-77. -/
def setValue (s : State T) (e : Nat) (v : T) : Go (State T × Bool) := do
  let ent ← deref s e
  if ent.index = -1 then pure (s, false) else
  let s ← setVal s e v
  let ent ← deref s e
  let s ← Heap.fixAt (ops lt) s s.h.length ent.index.toNat
  pure (s, true)

/-- `Len`, reap.go:80-82. -/
def len (s : State T) : Nat := s.h.length

/-- `Empty`, reap.go:85-87. -/
def empty (s : State T) : Bool := len s == 0

/-- One client operation (see `HandleOp`); handles are numbered in the order `Push` returned them. -/
def step (s : State T) : HandleOp T → Go (State T × HandleOut T)
  | .push v => do let (s, e) ← push lt s v; pure (s, .handle e)
  | .pop => do let (s, v) ← pop lt s; pure (s, .val v)
  | .peek => do let v ← peek s; pure (s, .val v)
  | .remove e => do let (s, b) ← remove lt s e; pure (s, .flag b)
  | .setValue e v => do let (s, b) ← setValue lt s e v; pure (s, .flag b)

/-- A history of client operations. -/
def run (s : State T) : List (HandleOp T) → Go (State T × List (HandleOut T))
  | [] => .ok (s, [])
  | op :: ops => do
    let (s, out) ← step lt s op
    let (s, outs) ← run s ops
    pure (s, out :: outs)

end Verif.Reap
