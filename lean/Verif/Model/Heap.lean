import Verif.Go.Prelude
import Verif.Spec.Order

/-!
# Models of `common/container/heap/heap.go`, `heapn.go` and `common/container/pqueue/pqueue.go`

The Go heaps `Heap`, `Reap` and `Meap` have textually identical `up`/`down` methods that reach the data only through
`less` and `swap`. They are modelled once, over a record of these two operations, and instantiated three times.

Simplification: indices are `Nat`; the guard `j1 < 0` ("after int overflow", heap.go:98) is unreachable for
slices shorter than 2^62 and is omitted.
-/

namespace Verif.Heap

/-- The two primitive operations through which `up` and `down` access a heap. -/
structure Ops (S : Type) where
  less : S → Nat → Nat → Go Bool
  swap : S → Nat → Nat → Go S

variable {S : Type} (o : Ops S)

/-- The loop of `up`: heap.go:83-92, reap.go:99-108, maep.go:110-119. -/
def upLoop : Nat → S → Nat → Go S
  | 0, _, _ => .error .diverge
  | fuel + 1, h, j =>
    let i := (j - 1) / 2
    if i = j then .ok h else do
    if !(← o.less h j i) then pure h else
    let h ← o.swap h i j
    upLoop fuel h i

/-- `up`: heap.go:83-92, reap.go:99-108, maep.go:110-119. -/
def up (h : S) (j : Nat) : Go S := upLoop o (j + 1) h j

/-- The loop of `down`; returns the final `i`: heap.go:96-110, reap.go:112-126, maep.go:123-137. -/
def downLoop (n : Nat) : Nat → S → Nat → Go (S × Nat)
  | 0, _, _ => .error .diverge
  | fuel + 1, h, i =>
    let j1 := 2 * i + 1
    if j1 ≥ n then .ok (h, i) else do
    let j2 := j1 + 1
    let right ← if j2 < n then o.less h j2 j1 else pure false
    let j := if right then j2 else j1
    if !(← o.less h j i) then pure (h, i) else
    let h ← o.swap h i j
    downLoop n fuel h j

/-- `down`: heap.go:94-112, reap.go:110-128, maep.go:121-139. -/
def down (h : S) (i0 n : Nat) : Go (S × Bool) := do
  let (h, i) ← downLoop o n (n + 1) h i0
  pure (h, decide (i > i0))

/-- `Fix`/`fix` on an in-range or too large index, given the length: heap.go:65-69, reap.go:93-97, maep.go:104-108. -/
def fixAt (h : S) (len i : Nat) : Go S := do
  let (h, moved) ← down o h i len
  if !moved then up o h i else pure h

/-- The part of `Remove` before `pop`, given the length: heap.go:50-57, reap.go:55-62, maep.go:84-90. -/
def removeAt (h : S) (len i : Nat) : Go S := do
  let n := len - 1
  if n ≠ i then
    let h ← o.swap h i n
    let (h, moved) ← down o h i n
    if !moved then up o h i else pure h
  else pure h

/-! ## `Heap[T]`: the slice itself -/

variable {T : Type} (lt : T → T → Bool)

/-- `less`, heap.go:114-116. -/
def less (h : List T) (i j : Nat) : Go Bool := do
  let a ← Go.idx h i
  let b ← Go.idx h j
  pure (lt a b)

/-- `swap`, heap.go:118-120. -/
def swap (h : List T) (i j : Nat) : Go (List T) := do
  let a ← Go.idx h i
  let b ← Go.idx h j
  pure ((h.set i b).set j a)

/-- `less` and `swap` of `Heap[T]`. -/
def listOps : Ops (List T) := ⟨less lt, swap⟩

/-- `push`, heap.go:122-124 (a fresh or owned backing array; the slice given to `New`: Model/HeapShared). -/
def pushRaw (h : List T) (x : T) : List T := h ++ [x]

/-- `pop`, heap.go:126-130: returns the last element and the shortened slice. -/
def popRaw (h : List T) : Go (T × List T) := do
  let elem ← Go.idx h (h.length - 1)
  pure (elem, h.take (h.length - 1))

/-- The heapify loop `for i := n/2 - 1; i >= 0; i--`, heap.go:78-80; the argument is `i + 1`. -/
def initLoop (n : Nat) : Nat → List T → Go (List T)
  | 0, h => .ok h
  | i + 1, h => do
    let (h, _) ← down (listOps lt) h i n
    initLoop n i h

/-- `New`, heap.go:10-17 with `init`, heap.go:75-81. -/
def new (h : List T) : Go (List T) := initLoop lt h.length (h.length / 2) h

/-- `Push`, heap.go:33-36. -/
def push (h : List T) (x : T) : Go (List T) :=
  up (listOps lt) (pushRaw h x) ((pushRaw h x).length - 1)

/-- `Pop`, heap.go:20-25. On an empty heap `n = -1` and `swap(0, -1)` panics, as `idx` does here. -/
def pop (h : List T) : Go (T × List T) := do
  let n := h.length - 1
  let h ← swap h 0 n
  let (h, _) ← down (listOps lt) h 0 n
  popRaw h

/-- `Peek`, heap.go:28-30. -/
def peek (h : List T) : Go T := Go.idx h 0

/-- `Len`, heap.go:39-41. -/
def len (h : List T) : Nat := h.length

/-- `Empty`, heap.go:44-46. -/
def empty (h : List T) : Bool := len h == 0

/-- `Remove`, heap.go:50-59, for a Go `int` index. A negative index panics in `swap` (or, with an empty heap and index -1,
in `pop`). -/
def remove (h : List T) (i : Int) : Go (T × List T) :=
  if i < 0 then .error .index else do
  let h ← removeAt (listOps lt) h h.length i.toNat
  popRaw h

/-- `Fix`, heap.go:65-69, for a Go `int` index. For `i = -1`, `down` breaks at once (`j1 < 0`) and `up` computes the parent
`(-1-1)/2 = -1`, so nothing happens; for `i < -1` the parent differs from `i` and `less` panics. -/
def fix (h : List T) (i : Int) : Go (List T) :=
  if i = -1 then .ok h else
  if i < 0 then .error .index else
  fixAt (listOps lt) h h.length i.toNat

/-- One client operation (see `HeapOp`): Push, Pop, Peek, Remove, or a change of element `i` followed by `Fix(i)`. -/
def step (h : List T) : HeapOp T → Go (List T × Option T)
  | .push x => do let h ← push lt h x; pure (h, none)
  | .pop => do let (x, h) ← pop lt h; pure (h, some x)
  | .peek => do let x ← peek h; pure (h, some x)
  | .remove i => do let (x, h) ← remove lt h i; pure (h, some x)
  | .update i y => do
      let h ← Go.set h i y
      let h ← fix lt h i
      pure (h, none)

/-- A history of client operations, with their outputs; a panic ends it. -/
def run (h : List T) : List (HeapOp T) → Go (List T × List (Option T))
  | [] => .ok (h, [])
  | op :: ops => do
    let (h, out) ← step lt h op
    let (h, outs) ← run h ops
    pure (h, out :: outs)

/-! ## `HeapN[T]`, heapn.go

Simplification: `h.n*i + 1` (heapn.go:86) does not overflow, that is arity times length stays below 2^63. (With an arity above 2^62 the
product can wrap around to a small positive index, which the guard `k < 0` does not notice.) -/

/-- The inner loop `for j1 := k + 1; j1 < k+4 && j1 < n; j1++`, heapn.go:91-95; `w` is the number of
remaining iterations allowed by `j1 < k+4`. -/
def scan (n : Nat) : Nat → List T → Nat → Nat → Go Nat
  | 0, _, _, j => .ok j
  | w + 1, h, j1, j =>
    if j1 < n then do
      let b ← less lt h j1 j
      scan n w h (j1 + 1) (if b then j1 else j)
    else .ok j

/-- The loop of a `d`-ary `down` that inspects `w` candidates starting at the first child; heapn.go:85-101 is `w = 4`
(the literal in `j1 < k+4`). -/
def downLoopN (d w n : Nat) : Nat → List T → Nat → Go (List T × Nat)
  | 0, _, _ => .error .diverge
  | fuel + 1, h, i =>
    let k := d * i + 1
    if k ≥ n then .ok (h, i) else do
    let j ← scan lt n (w - 1) h (k + 1) k
    if !(← less lt h j i) then pure (h, i) else
    let h ← swap h i j
    downLoopN d w n fuel h j

/-- `HeapN.down`, heapn.go:83-103. -/
def downN (d : Nat) (h : List T) (i0 n : Nat) : Go (List T × Bool) := do
  let (h, i) ← downLoopN lt d 4 n (n + 1) h i0
  pure (h, decide (i > i0))

/-- The loop of `HeapN.up`, heapn.go:73-80. -/
def upLoopN (d : Nat) : Nat → List T → Nat → Go (List T)
  | 0, _, _ => .error .diverge
  | fuel + 1, h, j =>
    let i := (j - 1) / d
    if i = j then .ok h else do
    if !(← less lt h j i) then pure h else
    let h ← swap h i j
    upLoopN d fuel h i

/-- `HeapN.up`, heapn.go:72-81. -/
def upN (d : Nat) (h : List T) (j : Nat) : Go (List T) := upLoopN lt d (j + 1) h j

/-- `NewN`, heapn.go:10-18: an empty heap, or the explicit panic for arity below 2. -/
def newN (T : Type) (n : Int) : Go (List T) :=
  if n < 2 then .error (.explicit "n must be greater than 2") else .ok []

/-- `HeapN.Push`, heapn.go:34-37. -/
def pushN (d : Nat) (h : List T) (x : T) : Go (List T) :=
  upN lt d (pushRaw h x) ((pushRaw h x).length - 1)

/-- `HeapN.Pop`, heapn.go:21-26. -/
def popN (d : Nat) (h : List T) : Go (T × List T) := do
  let n := h.length - 1
  let h ← swap h 0 n
  let (h, _) ← downN lt d h 0 n
  popRaw h

/-- `HeapN.Peek`, heapn.go:29-31. -/
def peekN (h : List T) : Go T := Go.idx h 0

/-- `HeapN.Remove`, heapn.go:51-60 (negative index: as for `remove`). -/
def removeN (d : Nat) (h : List T) (i : Int) : Go (T × List T) :=
  if i < 0 then .error .index else do
  let i := i.toNat
  let n := h.length - 1
  let h ← if n ≠ i then do
      let h ← swap h i n
      let (h, moved) ← downN lt d h i n
      if !moved then upN lt d h i else pure h
    else pure h
  popRaw h

/-- `HeapN.Fix`, heapn.go:66-70, for a non-negative index. -/
def fixN (d : Nat) (h : List T) (i : Nat) : Go (List T) := do
  let (h, moved) ← downN lt d h i h.length
  if !moved then upN lt d h i else pure h

/-- One client operation on a `HeapN` of arity `d`. -/
def stepN (d : Nat) (h : List T) : HeapOp T → Go (List T × Option T)
  | .push x => do let h ← pushN lt d h x; pure (h, none)
  | .pop => do let (x, h) ← popN lt d h; pure (h, some x)
  | .peek => do let x ← peekN h; pure (h, some x)
  | .remove i => do let (x, h) ← removeN lt d h i; pure (h, some x)
  | .update i y => do
      let h ← Go.set h i y
      let h ← fixN lt d h i
      pure (h, none)

/-- A history of client operations on a `HeapN`. -/
def runN (d : Nat) (h : List T) : List (HeapOp T) → Go (List T × List (Option T))
  | [] => .ok (h, [])
  | op :: ops => do
    let (h, out) ← stepN lt d h op
    let (h, outs) ← runN d h ops
    pure (h, out :: outs)

/-! ## `PriorityQueue[T]`, pqueue.go: a wrapper around `Heap[T]` -/

namespace PQueue

/-- pqueue.go:10-14 -/
def new (h : List T) : Go (List T) := Heap.new lt h
/-- pqueue.go:17-19 -/
def push (h : List T) (x : T) : Go (List T) := Heap.push lt h x
/-- pqueue.go:22-24 -/
def pop (h : List T) : Go (T × List T) := Heap.pop lt h
/-- pqueue.go:27-29 -/
def peek (h : List T) : Go T := Heap.peek h
/-- pqueue.go:32-34 -/
def len (h : List T) : Nat := Heap.len h
/-- pqueue.go:37-39 -/
def empty (h : List T) : Bool := len h == 0

end PQueue

end Verif.Heap
