import Verif.Model.Reap
import Verif.Model.Meap

/-!
# Model of the arrays behind `Reap` and `Meap`

`common/container/reap/reap.go` and `common/container/meap/maep.go` again, together with the cells of the array behind the slice `h`: `tail` lists them from position `len(h)` on; a cell
that was never used holds the zero value (`none`). Assignments `h.h[i] = ...` reach positions below `len(h)` only, so `swap`, `up`, `down` and `fix` are those of Model/Reap and
Model/Meap; what changes the cells behind is `append` and the reslicing in `pop`. The parameter `room n` is the number of spare cells that `append` adds when it
moves `n + 1` elements.
-/

namespace Verif.Reap

/-- `Reap[T]` (reap.go:17-20) with the cells behind `h`. -/
structure Mem (T : Type) where
  s : State T
  tail : List (Option Nat)
deriving DecidableEq

variable {T : Type} (lt : T → T → Bool) (room : Nat → Nat)

/-- `New`, reap.go:22-26: there is no array. -/
def newM (T : Type) : Mem T := ⟨new T, []⟩

/-- `push`, reap.go:142-149: `append` uses the first cell behind the slice, or moves everything. -/
def pushRawM (m : Mem T) (v : T) : Mem T × Nat :=
  let (s, e) := pushRaw m.s v
  (⟨s, match m.tail with
    | [] => List.replicate (room m.s.h.length) none
    | _ :: t => t⟩, e)

/-- `pop`, reap.go:152-158: the cell keeps the pointer. -/
def popRawM (m : Mem T) : Go (Mem T × T) := do
  let elem ← Go.idx m.s.h (m.s.h.length - 1)
  let (s, v) ← popRaw m.s
  pure (⟨s, some elem :: m.tail⟩, v)

/-- `Push`, reap.go:42-46. -/
def pushM (m : Mem T) (v : T) : Go (Mem T × Nat) := do
  let (m, e) := pushRawM room m v
  let s ← Heap.up (ops lt) m.s (m.s.h.length - 1)
  pure (⟨s, m.tail⟩, e)

/-- `Pop`, reap.go:29-34. -/
def popM (m : Mem T) : Go (Mem T × T) := do
  let n := m.s.h.length - 1
  let s ← swap m.s 0 n
  let (s, _) ← Heap.down (ops lt) s 0 n
  popRawM ⟨s, m.tail⟩

/-- `Remove`, reap.go:49-65. -/
def removeM (m : Mem T) (e : Nat) : Go (Mem T × Bool) := do
  let ent ← deref m.s e
  if ent.index = -1 then pure (m, false) else
  let s ← Heap.removeAt (ops lt) m.s m.s.h.length ent.index.toNat
  let (m, _) ← popRawM ⟨s, m.tail⟩
  pure (m, true)

/-- One client operation. -/
def stepM (m : Mem T) : HandleOp T → Go (Mem T × HandleOut T)
  | .push v => do let (m, e) ← pushM lt room m v; pure (m, .handle e)
  | .pop => do let (m, v) ← popM lt m; pure (m, .val v)
  | .peek => do let v ← peek m.s; pure (m, .val v)
  | .remove e => do let (m, b) ← removeM lt m e; pure (m, .flag b)
  | .setValue e v => do let (s, b) ← setValue lt m.s e v; pure (⟨s, m.tail⟩, .flag b)

/-- A history of client operations. -/
def runM (m : Mem T) : List (HandleOp T) → Go (Mem T × List (HandleOut T))
  | [] => .ok (m, [])
  | op :: ops => do
    let (m, out) ← stepM lt room m op
    let (m, outs) ← runM m ops
    pure (m, out :: outs)

end Verif.Reap

namespace Verif.Meap

/-- `Meap[K, V]` (maep.go:15-19) with the cells behind `h`. -/
structure Mem (K V : Type) where
  s : State K V
  tail : List (Option (K × V))

variable {K V : Type} [DecidableEq K] (lt : K × V → K × V → Bool) (room : Nat → Nat)

/-- `New`, maep.go:21-26. -/
def newM (K V : Type) : Mem K V := ⟨new K V, []⟩

/-- `push`, maep.go:154-160. -/
def pushRawM (m : Mem K V) (k : K) (v : V) : Mem K V :=
  ⟨pushRaw m.s k v, match m.tail with
    | [] => List.replicate (room m.s.h.length) none
    | _ :: t => t⟩

/-- `pop`, maep.go:163-168: the cell keeps the entry. -/
def popRawM (m : Mem K V) : Go (Mem K V × (K × V)) := do
  let elem ← Go.idx m.s.h (m.s.h.length - 1)
  let (s, e) ← popRaw m.s
  pure (⟨s, some elem :: m.tail⟩, e)

/-- `Pop`, maep.go:29-34. -/
def popM (m : Mem K V) : Go (Mem K V × (K × V)) := do
  let n := m.s.h.length - 1
  let s ← swap m.s 0 n
  let (s, _) ← Heap.down (ops lt) s 0 n
  popRawM ⟨s, m.tail⟩

/-- `Push`, maep.go:52-65: a key that is there already gets its value in place. -/
def pushM (m : Mem K V) (k : K) (v : V) : Go (Mem K V) :=
  match m.s.m k with
  | some i => do
    let e ← Go.idx m.s.h i
    let s := { m.s with h := m.s.h.set i (e.1, v) }
    let s ← Heap.fixAt (ops lt) s s.h.length i
    pure ⟨s, m.tail⟩
  | none => do
    let m := pushRawM room m k v
    let s ← Heap.up (ops lt) m.s (m.s.h.length - 1)
    pure ⟨s, m.tail⟩

/-- `Remove`, maep.go:78-92. -/
def removeM (m : Mem K V) (k : K) : Go (Mem K V) :=
  match m.s.m k with
  | none => .ok m
  | some i => do
    let s ← Heap.removeAt (ops lt) m.s m.s.h.length i
    let (m, _) ← popRawM ⟨s, m.tail⟩
    pure m

/-- One client operation. -/
def stepM (m : Mem K V) : MapHeapOp K V → Go (Mem K V × MapHeapOut K V)
  | .push k v => do let m ← pushM lt room m k v; pure (m, .unit)
  | .pop => do let (m, e) ← popM lt m; pure (m, .entry e)
  | .peek => do let e ← peek m.s; pure (m, .entry e)
  | .remove k => do let m ← removeM lt m k; pure (m, .unit)
  | .get k => do let v ← get m.s k; pure (m, .val v)
  | .contains k => .ok (m, .flag (contains m.s k))
  | .len => .ok (m, .num (len m.s))

/-- A history of client operations. -/
def runM (m : Mem K V) : List (MapHeapOp K V) → Go (Mem K V × List (MapHeapOut K V))
  | [] => .ok (m, [])
  | op :: ops => do
    let (m, out) ← stepM lt room m op
    let (m, outs) ← runM m ops
    pure (m, out :: outs)

end Verif.Meap
