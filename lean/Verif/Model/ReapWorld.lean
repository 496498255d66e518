import Verif.Model.Reap

/-!
# Several `Reap`s in one program (common/container/reap/reap.go)

`*Entry[T]` does not know its heap, so an entry that one heap returned can be given to another one. Here are any number of heaps over one memory of
entries, and a client that remembers the entries each heap has returned.
-/

namespace Verif.ReapWorld

open Reap (Entry)

/-- The memory of the entries, and for each heap (numbered by the client) the field `h` and the entries its `Push` has returned. -/
structure World (T : Type) where
  ents : List (Entry T)
  h : Nat → List Nat
  given : Nat → List Nat

/-- An entry as the client knows it: the `no`-th one that `heap` returned. -/
structure Ref where
  heap : Nat
  no : Nat
deriving DecidableEq

/-- A call of a method of a heap. -/
inductive Op (T : Type)
  | push (v : T)
  | pop
  | peek
  | remove (e : Ref)
  | setValue (e : Ref) (v : T)

variable {T : Type} (lt : T → T → Bool)

/-- One heap, as Model/Reap sees it. -/
def World.at (w : World T) (i : Nat) : Reap.State T := ⟨w.ents, w.h i⟩

/-- A method of heap `i` has changed the memory and its own slice. -/
def World.put (w : World T) (i : Nat) (s : Reap.State T) : World T :=
  { w with ents := s.ents, h := fun j => if j = i then s.h else w.h j }

/-- The pointer the client has; an entry that was never returned (impossible in Go) is reported as a nil dereference, as in Model/Reap. -/
def World.ptr (w : World T) (e : Ref) : Go Nat :=
  match (w.given e.heap)[e.no]? with
  | some p => .ok p
  | none => .error .nilDeref

/-- A call of a method of heap `i`: `Push`, `Pop`, `Peek`, `Remove`, `SetValue`, reap.go:29-77. A returned entry is reported as its number. -/
def step (w : World T) (i : Nat) : Op T → Go (World T × HandleOut T)
  | .push v => do
    let (s, p) ← Reap.push lt (w.at i) v
    let w' := w.put i s
    pure ({ w' with given := fun j => if j = i then w.given i ++ [p] else w.given j }, .handle (w.given i).length)
  | .pop => do let (s, v) ← Reap.pop lt (w.at i); pure (w.put i s, .val v)
  | .peek => do let v ← Reap.peek (w.at i); pure (w, .val v)
  | .remove e => do
    let p ← w.ptr e
    let (s, b) ← Reap.remove lt (w.at i) p
    pure (w.put i s, .flag b)
  | .setValue e v => do
    let p ← w.ptr e
    let (s, b) ← Reap.setValue lt (w.at i) p v
    pure (w.put i s, .flag b)

/-- A program: calls of methods of several heaps. -/
def run (w : World T) : List (Nat × Op T) → Go (World T × List (Nat × HandleOut T))
  | [] => .ok (w, [])
  | (i, op) :: ops => do
    let (w, out) ← step lt w i op
    let (w, outs) ← run w ops
    pure (w, (i, out) :: outs)

/-- `New` for every heap, reap.go:22-26. -/
def start (T : Type) : World T := ⟨[], fun _ => [], fun _ => []⟩

end Verif.ReapWorld
