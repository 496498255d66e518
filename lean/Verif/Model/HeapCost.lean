import Verif.Model.Heap
import Verif.Model.Reap
import Verif.Model.Meap

/-!
# The heaps of Model/Heap, counting calls of `less` and `swap`

The same loops with two counters; `Props/HeapCost` has the proof that without the counters they are the functions of Model/Heap.
-/

namespace Verif.Heap

/-- How often `less` and `swap` were called. -/
structure Cost where
  cmp : Nat
  swp : Nat
deriving DecidableEq, Repr

def Cost.add (a b : Cost) : Cost := ⟨a.cmp + b.cmp, a.swp + b.swp⟩

variable {S : Type} (o : Ops S)

/-- The loop of `up`: heap.go:83-92, reap.go:99-108, maep.go:110-119. -/
def upLoopC : Nat → S → Nat → Go (S × Cost)
  | 0, _, _ => .error .diverge
  | fuel + 1, h, j =>
    let i := (j - 1) / 2
    if i = j then .ok (h, ⟨0, 0⟩) else do
    if !(← o.less h j i) then pure (h, ⟨1, 0⟩) else
    let h ← o.swap h i j
    let (h, c) ← upLoopC fuel h i
    pure (h, c.add ⟨1, 1⟩)

/-- `up`: heap.go:83-92, reap.go:99-108, maep.go:110-119. -/
def upC (h : S) (j : Nat) : Go (S × Cost) := upLoopC o (j + 1) h j

/-- The loop of `down`: heap.go:96-110, reap.go:112-126, maep.go:123-137. -/
def downLoopC (n : Nat) : Nat → S → Nat → Go ((S × Nat) × Cost)
  | 0, _, _ => .error .diverge
  | fuel + 1, h, i =>
    let j1 := 2 * i + 1
    if j1 ≥ n then .ok ((h, i), ⟨0, 0⟩) else do
    let j2 := j1 + 1
    let right ← if j2 < n then o.less h j2 j1 else pure false
    let k := if j2 < n then 1 else 0
    let j := if right then j2 else j1
    if !(← o.less h j i) then pure ((h, i), ⟨k + 1, 0⟩) else
    let h ← o.swap h i j
    let (r, c) ← downLoopC n fuel h j
    pure (r, c.add ⟨k + 1, 1⟩)

/-- `down`: heap.go:94-112, reap.go:110-128, maep.go:121-139. -/
def downC (h : S) (i0 n : Nat) : Go ((S × Bool) × Cost) := do
  let ((h, i), c) ← downLoopC o n (n + 1) h i0
  pure ((h, decide (i > i0)), c)

/-- `Fix`/`fix`: heap.go:65-69, reap.go:93-97, maep.go:104-108. -/
def fixAtC (h : S) (len i : Nat) : Go (S × Cost) := do
  let ((h, moved), c) ← downC o h i len
  if !moved then do
    let (h, c') ← upC o h i
    pure (h, c.add c')
  else pure (h, c)

/-- The part of `Remove` before `pop`: heap.go:50-57, reap.go:55-62, maep.go:84-90. -/
def removeAtC (h : S) (len i : Nat) : Go (S × Cost) := do
  let n := len - 1
  if n ≠ i then
    let h ← o.swap h i n
    let ((h, moved), c) ← downC o h i n
    if !moved then do
      let (h, c') ← upC o h i
      pure (h, (c.add c').add ⟨0, 1⟩)
    else pure (h, c.add ⟨0, 1⟩)
  else pure (h, ⟨0, 0⟩)

variable {T : Type} (lt : T → T → Bool)

/-- The heapify loop, heap.go:78-80. -/
def initLoopC (n : Nat) : Nat → List T → Go (List T × Cost)
  | 0, h => .ok (h, ⟨0, 0⟩)
  | i + 1, h => do
    let ((h, _), c) ← downC (listOps lt) h i n
    let (h, c') ← initLoopC n i h
    pure (h, c.add c')

/-- `New`, heap.go:10-17 with `init`, heap.go:75-81. -/
def newC (h : List T) : Go (List T × Cost) := initLoopC lt h.length (h.length / 2) h

/-- `Push`, heap.go:33-36. -/
def pushC (h : List T) (x : T) : Go (List T × Cost) := upC (listOps lt) (pushRaw h x) ((pushRaw h x).length - 1)

/-- `Pop`, heap.go:20-25. -/
def popC (h : List T) : Go ((T × List T) × Cost) := do
  let n := h.length - 1
  let h ← swap h 0 n
  let ((h, _), c) ← downC (listOps lt) h 0 n
  let r ← popRaw h
  pure (r, c.add ⟨0, 1⟩)

/-- `Remove`, heap.go:50-59. -/
def removeC (h : List T) (i : Int) : Go ((T × List T) × Cost) :=
  if i < 0 then .error .index else do
  let (h, c) ← removeAtC (listOps lt) h h.length i.toNat
  let r ← popRaw h
  pure (r, c)

/-- `Fix`, heap.go:65-69. -/
def fixC (h : List T) (i : Int) : Go (List T × Cost) :=
  if i = -1 then .ok (h, ⟨0, 0⟩) else
  if i < 0 then .error .index else
  fixAtC (listOps lt) h h.length i.toNat

/-! ## `HeapN` -/

/-- The inner loop of `down`, heapn.go:91-95. -/
def scanC (n : Nat) : Nat → List T → Nat → Nat → Go (Nat × Cost)
  | 0, _, _, j => .ok (j, ⟨0, 0⟩)
  | w + 1, h, j1, j =>
    if j1 < n then do
      let b ← less lt h j1 j
      let (j, c) ← scanC n w h (j1 + 1) (if b then j1 else j)
      pure (j, c.add ⟨1, 0⟩)
    else .ok (j, ⟨0, 0⟩)

/-- The loop of `HeapN.down`, heapn.go:85-101. -/
def downLoopNC (d n : Nat) : Nat → List T → Nat → Go ((List T × Nat) × Cost)
  | 0, _, _ => .error .diverge
  | fuel + 1, h, i =>
    let k := d * i + 1
    if k ≥ n then .ok ((h, i), ⟨0, 0⟩) else do
    let (j, c) ← scanC lt n 3 h (k + 1) k
    if !(← less lt h j i) then pure ((h, i), c.add ⟨1, 0⟩) else
    let h ← swap h i j
    let (r, c') ← downLoopNC d n fuel h j
    pure (r, (c.add c').add ⟨1, 1⟩)

/-- `HeapN.down`, heapn.go:83-103. -/
def downNC (d : Nat) (h : List T) (i0 n : Nat) : Go ((List T × Bool) × Cost) := do
  let ((h, i), c) ← downLoopNC lt d n (n + 1) h i0
  pure ((h, decide (i > i0)), c)

/-- The loop of `HeapN.up`, heapn.go:73-80. -/
def upLoopNC (d : Nat) : Nat → List T → Nat → Go (List T × Cost)
  | 0, _, _ => .error .diverge
  | fuel + 1, h, j =>
    let i := (j - 1) / d
    if i = j then .ok (h, ⟨0, 0⟩) else do
    if !(← less lt h j i) then pure (h, ⟨1, 0⟩) else
    let h ← swap h i j
    let (h, c) ← upLoopNC d fuel h i
    pure (h, c.add ⟨1, 1⟩)

/-- `HeapN.up`, heapn.go:72-81. -/
def upNC (d : Nat) (h : List T) (j : Nat) : Go (List T × Cost) := upLoopNC lt d (j + 1) h j

/-- `HeapN.Push`, heapn.go:34-37. -/
def pushNC (d : Nat) (h : List T) (x : T) : Go (List T × Cost) := upNC lt d (pushRaw h x) ((pushRaw h x).length - 1)

/-- `HeapN.Pop`, heapn.go:21-26. -/
def popNC (d : Nat) (h : List T) : Go ((T × List T) × Cost) := do
  let n := h.length - 1
  let h ← swap h 0 n
  let ((h, _), c) ← downNC lt d h 0 n
  let r ← popRaw h
  pure (r, c.add ⟨0, 1⟩)

/-- The common end of `HeapN.Fix` and `HeapN.Remove`: `down`, and `up` if nothing moved; heapn.go:55-57, 67-69. -/
def settleNC (d : Nat) (h : List T) (i n : Nat) : Go (List T × Cost) := do
  let ((h, moved), c) ← downNC lt d h i n
  if !moved then do
    let (h, c') ← upNC lt d h i
    pure (h, c.add c')
  else pure (h, c)

/-- `HeapN.Remove`, heapn.go:51-60. -/
def removeNC (d : Nat) (h : List T) (i : Int) : Go ((T × List T) × Cost) :=
  if i < 0 then .error .index else
  if h.length - 1 ≠ i.toNat then do
    let g ← swap h i.toNat (h.length - 1)
    let (g, c) ← settleNC lt d g i.toNat (h.length - 1)
    let r ← popRaw g
    pure (r, c.add ⟨0, 1⟩)
  else do
    let r ← popRaw h
    pure (r, ⟨0, 0⟩)

/-- `HeapN.Fix`, heapn.go:66-70. -/
def fixNC (d : Nat) (h : List T) (i : Nat) : Go (List T × Cost) := settleNC lt d h i h.length

end Verif.Heap
