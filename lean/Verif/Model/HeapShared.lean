import Verif.Model.Heap

/-!
# The slice behind `Heap` (common/container/heap/heap.go)

`New` does not copy its argument: the heap works on the caller's array, up to the `append` that finds it full and moves the heap to a new one.
Model/Heap sees only the elements of the heap; here are the cells of the arrays. `room n` are the cells behind the new element when `append` moves
a slice of `n` elements; how many there are is not laid down by the language.
-/

namespace Verif.HeapShared

/-- `Heap[T]`, heap.go:5-8, and the array of the caller. -/
structure State (T : Type) where
  /-- The cells from the start of `h.h` up to its capacity. -/
  arr : List T
  /-- `len(h.h)` -/
  n : Nat
  /-- The array given to `New`, if the heap has left it. -/
  left : Option (List T)
deriving DecidableEq

variable {T : Type} (lt : T → T → Bool)

/-- The elements of `h.h`. -/
def view (s : State T) : List T := s.arr.take s.n

/-- The array of the caller. -/
def caller (s : State T) : List T := s.left.getD s.arr

/-- `less`, heap.go:114-116. -/
def less (s : State T) (i j : Nat) : Go Bool := Heap.less lt (view s) i j

/-- `swap`, heap.go:118-120. -/
def swap (s : State T) (i j : Nat) : Go (State T) := do
  let h ← Heap.swap (view s) i j
  pure { s with arr := h ++ s.arr.drop s.n }

/-- `less` and `swap`. -/
def ops : Heap.Ops (State T) := ⟨less lt, swap⟩

/-- The loop of `init`, heap.go:78-80. -/
def initLoop (n : Nat) : Nat → State T → Go (State T)
  | 0, s => .ok s
  | i + 1, s => do
    let (s, _) ← Heap.down (ops lt) s i n
    initLoop n i s

/-- `New` of the first `n` cells of an array, heap.go:10-17. -/
def new (arr : List T) (n : Nat) : Go (State T) := initLoop lt n (n / 2) ⟨arr, n, none⟩

/-- `push`, heap.go:122-124. -/
def pushRaw (room : Nat → List T) (s : State T) (x : T) : State T :=
  if s.n < s.arr.length then { s with arr := s.arr.set s.n x, n := s.n + 1 }
  else ⟨view s ++ x :: room s.n, s.n + 1, some (caller s)⟩

/-- `Push`, heap.go:33-36. -/
def push (room : Nat → List T) (s : State T) (x : T) : Go (State T) :=
  let s := pushRaw room s x
  Heap.up (ops lt) s (s.n - 1)

/-- `pop`, heap.go:126-130: the cell keeps the element. -/
def popRaw (s : State T) : Go (T × State T) := do
  let elem ← Go.idx (view s) (s.n - 1)
  pure (elem, { s with n := s.n - 1 })

/-- `Pop`, heap.go:20-25. -/
def pop (s : State T) : Go (T × State T) := do
  let n := s.n - 1
  let s ← swap s 0 n
  let (s, _) ← Heap.down (ops lt) s 0 n
  popRaw s

/-- `Peek`, heap.go:28-30. -/
def peek (s : State T) : Go T := Go.idx (view s) 0

/-- `Remove`, heap.go:50-59. -/
def remove (s : State T) (i : Nat) : Go (T × State T) := do
  let s ← Heap.removeAt (ops lt) s s.n i
  popRaw s

/-- `Fix`, heap.go:65-69. -/
def fix (s : State T) (i : Nat) : Go (State T) := Heap.fixAt (ops lt) s s.n i

/-- The caller assigns to a cell of its array. -/
def write (s : State T) (i : Nat) (y : T) : Go (State T) :=
  match s.left with
  | none => do let a ← Go.set s.arr i y; pure { s with arr := a }
  | some a => do let a ← Go.set a i y; pure { s with left := some a }

/-- One operation of the client; `update i y`: it assigns to its array and calls `Fix`. -/
def step (room : Nat → List T) (s : State T) : HeapOp T → Go (State T × Option T)
  | .push x => do let s ← push lt room s x; pure (s, none)
  | .pop => do let (x, s) ← pop lt s; pure (s, some x)
  | .peek => do let x ← peek s; pure (s, some x)
  | .remove i => do let (x, s) ← remove lt s i; pure (s, some x)
  | .update i y => do
      let s ← write s i y
      let s ← fix lt s i
      pure (s, none)

/-- A history. -/
def run (room : Nat → List T) (s : State T) : List (HeapOp T) → Go (State T × List (Option T))
  | [] => .ok (s, [])
  | op :: ops => do
    let (s, out) ← step lt room s op
    let (s, outs) ← run room s ops
    pure (s, out :: outs)

end Verif.HeapShared
