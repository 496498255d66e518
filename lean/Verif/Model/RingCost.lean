import Verif.Model.Ring

/-!
# The unbounded ring of Model/Ring, counting the elements that `Grow` moves

`Props/RingCost` has the proof that without the counter these are the functions of Model/Ring.
-/

namespace Verif.Ring.Unbounded

variable {T : Type}

/-- `Grow`, unbounded.go:133-156, with what the two `copy`s report. -/
def growC (zero : T) (r : Buf T) (minSize : BitVec 64) : Go (Buf T × Nat) := do
  let size : BitVec 64 := if r.size * 2 > minSize then r.size * 2 else minSize
  if size > maxInt64 then .error (.explicit "size is too large") else
  let size := if size < 2 then 2 else size
  if r.size = 0 then pure ({ r with data := List.replicate size.toNat zero, size := size }, 0) else
  let data := List.replicate size.toNat zero
  let o ← modIx r r.out
  let n := len r
  let dst ← sliceTo data n.toNat
  let src ← sliceFrom r.data o.toNat
  let (dst, c1) ← copyAt dst 0 src
  let (dst, c2) ← copyAt dst c1 r.data
  pure ({ r with out := 0, inn := n, size := size, data := dst ++ data.drop n.toNat }, c1 + c2)

/-- `Push`, unbounded.go:51-58. -/
def pushC (zero : T) (r : Buf T) (e : T) : Go (Buf T × Nat) :=
  if full r then do
    let (r, c) ← growC zero r (cap r + 1)
    let r ← store1 modIx r e
    pure (r, c)
  else do
    let r ← store1 modIx r e
    pure (r, 0)

/-- `MPush`, unbounded.go:61-73. -/
def mpushC (zero : T) (r : Buf T) (elems : List T) : Go (Buf T × Nat) :=
  if BitVec.ofNat 64 elems.length = 0 then pure (r, 0) else
  if BitVec.ofNat 64 elems.length > avail r then do
    let (r, c) ← growC zero r (cap r + BitVec.ofNat 64 elems.length)
    let r ← storeN modIx r elems
    pure (r, c)
  else do
    let r ← storeN modIx r elems
    pure (r, 0)

/-- One call on an unbounded ring. -/
def stepC (zero : T) (r : Buf T) : Op T → Go ((Buf T × Obs T) × Nat)
  | .push e => do let (r, c) ← pushC zero r e; pure ((r, .unit), c)
  | .mpush es => do let (r, c) ← mpushC zero r es; pure ((r, .unit), c)
  | .grow n => do let (r, c) ← growC zero r n; pure ((r, .unit), c)
  | op => do let p ← stepCommon zero modIx r op; pure (p, 0)

/-- After a history: the ring, the elements moved in all, and the greatest length on the way. -/
def runC (zero : T) (r : Buf T) : List (Op T) → Buf T × Nat × Nat
  | [] => (r, 0, (len r).toNat)
  | op :: ops =>
    match stepC zero r op with
    | .error _ =>
      ((runC zero r ops).1, (runC zero r ops).2.1, max (len r).toNat (runC zero r ops).2.2)
    | .ok ((r1, _), c) =>
      ((runC zero r1 ops).1, c + (runC zero r1 ops).2.1, max (len r).toNat (runC zero r1 ops).2.2)

end Verif.Ring.Unbounded
