import Verif.Go.Prelude
import Verif.Model.Math
import Mathlib.Data.Nat.Basic

/-!
# Model of the three ring buffers

`common/container/ringbuffer/fix/fix.go`, `.../round/roud.go` and `.../unbounded/unbounded.go`.

The three files repeat the same method bodies; they differ in how a counter is turned into a slice index (`% size` or
`& mask`), in the constructor, and in what happens when the ring is full.  The shared bodies are modelled once, with
the index computation as a parameter; each package's methods are then given below with their own line references.

Counters are `uint64` (`BitVec 64`, wrapping).  `zero` is Go's zero value of the element type.  `make` is assumed to
succeed for every length up to `MaxInt64` (memory is not modelled).
-/

namespace Verif.Ring

/-- `type Ring[T any] struct`: fix.go:14-19, roud.go:10-16 (with `mask`), unbounded.go:14-19.  `mask` is unused (0) in
the fix and unbounded packages. -/
structure Buf (T : Type) where
  inn : BitVec 64
  out : BitVec 64
  size : BitVec 64
  mask : BitVec 64
  data : List T
deriving DecidableEq

variable {T : Type}

/-- `x % r.size`; the remainder by zero panics. -/
def modIx (r : Buf T) (x : BitVec 64) : Go (BitVec 64) :=
  if r.size = 0 then .error .divZero else .ok (x % r.size)

/-- `x & r.mask`. -/
def maskIx (r : Buf T) (x : BitVec 64) : Go (BitVec 64) := .ok (x &&& r.mask)

/-- `MaxSize = math.MaxInt64`, fix.go:10, unbounded.go:10. -/
def maxInt64 : BitVec 64 := BitVec.ofNat 64 (2 ^ 63 - 1)

/-- `MaxSize = 1 << 62`, roud.go:6. -/
def maxRound : BitVec 64 := BitVec.ofNat 64 (2 ^ 62)

/-- `Cap`, fix.go:118-120, roud.go:112-114, unbounded.go:108-110. -/
def cap (r : Buf T) : BitVec 64 := r.size

/-- `Len`, fix.go:123-125, roud.go:117-119, unbounded.go:113-115. -/
def len (r : Buf T) : BitVec 64 := r.inn - r.out

/-- `Avail`, fix.go:128-130, roud.go:122-124, unbounded.go:118-120. -/
def avail (r : Buf T) : BitVec 64 := cap r - len r

/-- `Empty`, fix.go:133-135, roud.go:127-129, unbounded.go:123-125. -/
def empty (r : Buf T) : Bool := r.inn == r.out

/-- `Full`, fix.go:138-140, roud.go:132-134, unbounded.go:128-130. -/
def full (r : Buf T) : Bool := avail r == 0

/-- The slice expression `l[i:]`. -/
def sliceFrom (l : List T) (i : Nat) : Go (List T) :=
  if i ≤ l.length then .ok (l.drop i) else .error .slice

/-- The slice expression `l[:i]`, for a slice whose capacity equals its length. -/
def sliceTo (l : List T) (i : Nat) : Go (List T) :=
  if i ≤ l.length then .ok (l.take i) else .error .slice

/-- The builtin `copy(dst[off:], src)`: the new contents of `dst` and the number of elements copied.  Slicing `dst` past
its end panics.  Source and destination never overlap in the callers. -/
def copyAt (dst : List T) (off : Nat) (src : List T) : Go (List T × Nat) :=
  if off ≤ dst.length then
    let n := min (dst.length - off) src.length
    .ok (dst.take off ++ src.take n ++ dst.drop (off + n), n)
  else .error .slice

/-- Body of `Pop`: fix.go:41-48, roud.go:35-42, unbounded.go:33-40. -/
def popG (ix : Buf T → BitVec 64 → Go (BitVec 64)) (r : Buf T) : Go (Buf T × T) := do
  if empty r then .error (.explicit "ring emtpy") else
  let o ← ix r r.out
  let r := { r with out := r.out + 1 }
  let v ← Go.idx r.data o.toNat
  pure (r, v)

/-- Body of `Peek`: fix.go:51-56, roud.go:45-50, unbounded.go:43-48 (all three use `% size`). -/
def peekG (ix : Buf T → BitVec 64 → Go (BitVec 64)) (r : Buf T) : Go T := do
  if empty r then .error (.explicit "ring emtpy") else
  let o ← ix r r.out
  Go.idx r.data o.toNat

/-- The last three lines of `Push`: fix.go:63-65, roud.go:57-59, unbounded.go:55-57. -/
def store1 (ix : Buf T → BitVec 64 → Go (BitVec 64)) (r : Buf T) (e : T) : Go (Buf T) := do
  let i ← ix r r.inn
  let r := { r with inn := r.inn + 1 }
  let d ← Go.set r.data i.toNat e
  pure { r with data := d }

/-- Body of `Push` on a bounded ring: fix.go:59-66, roud.go:53-60. -/
def pushG (ix : Buf T → BitVec 64 → Go (BitVec 64)) (r : Buf T) (e : T) : Go (Buf T) :=
  if full r then .error (.explicit "ring full") else store1 ix r e

/-- The last four lines of `MPush`: fix.go:79-82, roud.go:73-76, unbounded.go:69-72. -/
def storeN (ix : Buf T → BitVec 64 → Go (BitVec 64)) (r : Buf T) (elems : List T) : Go (Buf T) := do
  let i ← ix r r.inn
  let (d, copied) ← copyAt r.data i.toNat elems
  let rest ← sliceFrom elems copied
  let (d, _) ← copyAt d 0 rest
  pure { r with data := d, inn := r.inn + BitVec.ofNat 64 elems.length }

/-- Body of `MPush` on a bounded ring: fix.go:69-83, roud.go:63-77. -/
def mpushG (ix : Buf T → BitVec 64 → Go (BitVec 64)) (r : Buf T) (elems : List T) : Go (Buf T) := do
  let size := BitVec.ofNat 64 elems.length
  let elems ← if size > avail r then sliceTo elems (avail r).toNat else .ok elems
  let size := if size > avail r then avail r else size
  if size = 0 then pure r else storeN ix r elems

/-- Body of `MPop`: fix.go:86-99, roud.go:80-93, unbounded.go:76-89.  The nil slice returned for size 0 is `[]`. -/
def mpopG (zero : T) (ix : Buf T → BitVec 64 → Go (BitVec 64)) (r : Buf T) (size : BitVec 64) :
    Go (Buf T × List T) := do
  let size := if size > len r then len r else size
  if size = 0 then pure (r, []) else
  let o ← ix r r.out
  let elems := List.replicate size.toNat zero
  let src ← sliceFrom r.data o.toNat
  let (elems, copied) ← copyAt elems 0 src
  let (elems, _) ← copyAt elems copied r.data
  pure ({ r with out := r.out + size }, elems)

/-- Body of `MPopCopy`: fix.go:102-108, roud.go:96-102, unbounded.go:92-98.  `dst` is the caller's slice; the result
carries its contents after the call.  (`dst[:k]` shares `dst`'s memory: what is written to it is seen in `dst`.) -/
def mpopCopyG (ix : Buf T → BitVec 64 → Go (BitVec 64)) (r : Buf T) (dst : List T) : Go (Buf T × List T) := do
  let o ← ix r r.out
  let k := (Math.min (BitVec.ofNat 64 dst.length).toNat (len r).toNat)
  let short ← sliceTo dst k
  let src ← sliceFrom r.data o.toNat
  let (short, c1) ← copyAt short 0 src
  let (short, c2) ← copyAt short c1 r.data
  pure ({ r with out := r.out + BitVec.ofNat 64 (c1 + c2) }, short ++ dst.drop k)

/-- `Reset`: fix.go:111-115, roud.go:105-109, unbounded.go:101-105. -/
def reset (zero : T) (r : Buf T) : Buf T :=
  { r with inn := 0, out := 0, data := List.replicate r.size.toNat zero }

/-! ## Client operations -/

/-- One call on a ring, by a client. -/
inductive Op (T : Type) where
  | push (e : T)
  | pop
  | peek
  | mpush (es : List T)
  | mpop (n : BitVec 64)
  | mpopCopy (dst : List T)
  | reset
  | len
  | avail
  | empty
  | full
  | cap
  | grow (n : BitVec 64)

/-- What the client sees of one call. -/
inductive Obs (T : Type) where
  | unit
  | val (v : T)
  | vals (vs : List T)
  | num (n : Nat)
  | flag (b : Bool)
  | panic (p : Panic)
deriving DecidableEq

/-- Turns the result of a call into the next state and what the client sees.  A panicking method has not changed the
ring (every panic precedes the first assignment), so a client that recovers goes on with the old ring. -/
def observe (r : Buf T) : Go (Buf T × Obs T) → Buf T × Obs T
  | .ok x => x
  | .error p => (r, .panic p)

/-- A history of calls and what the client sees. -/
def runWith (step : Buf T → Op T → Go (Buf T × Obs T)) (r : Buf T) : List (Op T) → Buf T × List (Obs T)
  | [] => (r, [])
  | op :: ops =>
    let (r', o) := observe r (step r op)
    let (r'', os) := runWith step r' ops
    (r'', o :: os)

/-- Calls whose body is the same in all three packages. -/
def stepCommon (zero : T) (ix : Buf T → BitVec 64 → Go (BitVec 64)) (r : Buf T) : Op T → Go (Buf T × Obs T)
  | .pop => do let (r, v) ← popG ix r; pure (r, .val v)
  | .peek => do let v ← peekG modIx r; pure (r, .val v)
  | .mpop n => do let (r, vs) ← mpopG zero ix r n; pure (r, .vals vs)
  | .mpopCopy dst => do let (r, d) ← mpopCopyG ix r dst; pure (r, .vals d)
  | .reset => .ok (reset zero r, .unit)
  | .len => .ok (r, .num (len r).toNat)
  | .avail => .ok (r, .num (avail r).toNat)
  | .empty => .ok (r, .flag (empty r))
  | .full => .ok (r, .flag (full r))
  | .cap => .ok (r, .num (cap r).toNat)
  | _ => .ok (r, .unit)

/-! ## Package `fix` -/

namespace Fix

/-- `New`, fix.go:26-38. -/
def new (zero : T) (size : BitVec 64) : Go (Buf T) :=
  if size = 0 then .error (.explicit "size must be greater than 0") else
  if size > maxInt64 then .error (.explicit "size is too large") else
  .ok ⟨0, 0, size, 0, List.replicate size.toNat zero⟩

/-- One call on a fix ring (`Grow` does not exist there: no effect). -/
def step (zero : T) (r : Buf T) : Op T → Go (Buf T × Obs T)
  | .push e => do let r ← pushG modIx r e; pure (r, .unit)
  | .mpush es => do let r ← mpushG modIx r es; pure (r, .unit)
  | op => stepCommon zero modIx r op

end Fix

/-! ## Package `round` -/

namespace Round

/-- `New`, roud.go:18-32. -/
def new (zero : T) (size : BitVec 64) : Go (Buf T) :=
  if size = 0 then .error (.explicit "size must be greater than 0") else
  let size := Math.roundUpPowOf2 size
  if size > maxRound then .error (.explicit "size is too large") else
  .ok ⟨0, 0, size, size - 1, List.replicate size.toNat zero⟩

/-- One call on a round ring (`Grow` does not exist there: no effect). -/
def step (zero : T) (r : Buf T) : Op T → Go (Buf T × Obs T)
  | .push e => do let r ← pushG maskIx r e; pure (r, .unit)
  | .mpush es => do let r ← mpushG maskIx r es; pure (r, .unit)
  | op => stepCommon zero maskIx r op

end Round

/-! ## Package `unbounded` -/

namespace Unbounded

/-- `New`, unbounded.go:21-30. -/
def new (zero : T) (initSize : BitVec 64) : Go (Buf T) :=
  if initSize > maxInt64 then .error (.explicit "size is too large") else
  .ok ⟨0, 0, initSize, 0, List.replicate initSize.toNat zero⟩

/-- `Grow`, unbounded.go:133-156. -/
def grow (zero : T) (r : Buf T) (minSize : BitVec 64) : Go (Buf T) := do
  let size : BitVec 64 := if r.size * 2 > minSize then r.size * 2 else minSize
  if size > maxInt64 then .error (.explicit "size is too large") else
  let size := if size < 2 then 2 else size
  if r.size = 0 then pure { r with data := List.replicate size.toNat zero, size := size } else
  let data := List.replicate size.toNat zero
  let o ← modIx r r.out
  let n := len r
  let dst ← sliceTo data n.toNat
  let src ← sliceFrom r.data o.toNat
  let (dst, copied) ← copyAt dst 0 src
  let (dst, _) ← copyAt dst copied r.data
  pure { r with out := 0, inn := n, size := size, data := dst ++ data.drop n.toNat }

/-- `Push`, unbounded.go:51-58. -/
def push (zero : T) (r : Buf T) (e : T) : Go (Buf T) := do
  let r ← if full r then grow zero r (cap r + 1) else .ok r
  store1 modIx r e

/-- `MPush`, unbounded.go:61-73. -/
def mpush (zero : T) (r : Buf T) (elems : List T) : Go (Buf T) := do
  let size := BitVec.ofNat 64 elems.length
  if size = 0 then pure r else
  let r ← if size > avail r then grow zero r (cap r + size) else .ok r
  storeN modIx r elems

/-- One call on an unbounded ring. -/
def step (zero : T) (r : Buf T) : Op T → Go (Buf T × Obs T)
  | .push e => do let r ← push zero r e; pure (r, .unit)
  | .mpush es => do let r ← mpush zero r es; pure (r, .unit)
  | .grow n => do let r ← grow zero r n; pure (r, .unit)
  | op => stepCommon zero modIx r op

end Unbounded
end Verif.Ring
