import Verif.Model.Heap
import Verif.Model.Mutex

/-!
# Model of `common/timer/delayqueue/delayqueue.go`

Any number of goroutines call `Push`, `Take`, `Pop`, `Peek` and `Empty`.  Every access to a shared field, every lock and
unlock, every channel operation is an atomic step; the steps of the goroutines interleave arbitrarily.  The heap is the
model of `Heap[T]` (`Verif.Model.Heap`).  An `*entry` carries an `id` that stands for the pointer.

Simplifications: time is an unbounded integer and does not run backwards; a goroutine that creates a timer does so in the
step that reads the clock, and the timer's channel is ready from its deadline on (`time.NewTimer` may be late, never early).
`Channel` is not part of this machine: it calls `Take` in a loop.
-/

namespace Verif.DelayQueue

open Mutex (put)

variable {V : Type}

/-- `type entry struct`, delayqueue/delayqueue.go:13-16; `id` is the pointer. -/
structure Entry (V : Type) where
  id : Nat
  value : V
  exp : Int
deriving DecidableEq, Repr

/-- The comparison given to the heap, delayqueue/delayqueue.go:32-34. -/
def before (a b : Entry V) : Bool := decide (a.exp < b.exp)

/-- The body of `Pop` between lock and unlock, delayqueue/delayqueue.go:174-187: the queue afterwards and the entry, if any. -/
def popBody (h : List (Entry V)) (now : Int) : Go (List (Entry V) × Option (Entry V)) :=
  if Heap.empty h then .ok (h, none)
  else do
    let e ← Heap.peek h
    if now < e.exp then .ok (h, none)
    else do
      let (_, h') ← Heap.pop before h
      .ok (h', some e)

/-- The body of `Peek` between lock and unlock, delayqueue/delayqueue.go:157-161. -/
def peekBody (h : List (Entry V)) : Go (Option V) :=
  if Heap.empty h then .ok none
  else do
    let e ← Heap.peek h
    .ok (some e.value)

/-- The body of `Empty` between lock and unlock, delayqueue/delayqueue.go:199. -/
def emptyBody (h : List (Entry V)) : Bool := Heap.empty h

/-- Where a goroutine is. -/
inductive Pc (V : Type)
  | idle
  /-- `Push`: waiting for the mutex, delayqueue/delayqueue.go:48. -/
  | pushWait (v : V) (delay : Int)
  /-- `Push`: before line 51. -/
  | pushLocked (v : V) (delay : Int)
  /-- `Push`: after `q.h.Push(entry)`, before line 60. -/
  | pushAdded (e : Entry V)
  /-- `Push`: the entry is at the head, before line 62. -/
  | pushHead
  /-- `Push`: sending, line 63. -/
  | pushSend
  /-- `Push`: before the deferred unlock. -/
  | pushUnlock
  /-- `Take`: waiting for the mutex, delayqueue/delayqueue.go:80. -/
  | takeWait
  /-- `Take`: before line 82. -/
  | takeLocked
  /-- `Take`: after `entry := q.h.Peek()`, before line 84. -/
  | takePeeked (e : Entry V)
  /-- `Take`: the entry is due, before line 86. -/
  | takeDue (e : Entry V) (now : Int)
  /-- `Take`: before line 87. -/
  | takeHave
  /-- `Take`: before line 95, with the deadline of the timer. -/
  | takeArm (deadline : Option Int)
  /-- `Take`: before line 96. -/
  | takeArmed (deadline : Option Int)
  /-- `Take`: in the `select`, delayqueue/delayqueue.go:99 or 113. -/
  | select (deadline : Option Int)
  /-- `Take`: the timer has fired, before line 103. -/
  | fired
  /-- `Take`: line 104. -/
  | drain
  /-- `Pop`, `Peek` or `Empty` (`pop` tells which): waiting for the mutex. -/
  | opWait (pop : Bool)
  | opLocked (pop : Bool)
  | opUnlock
deriving DecidableEq

/-- A delivery (not part of the program): the entry, the clock reading that let it go, and whether by `Take`. -/
structure Delivery (V : Type) where
  entry : Entry V
  now : Int
  byTake : Bool

structure State (V : Type) where
  heap : List (Entry V)
  holder : Option Nat
  sleeping : Bool
  clock : Int
  /-- the next pointer -/
  next : Nat
  pc : Nat → Pc V
  /-- all entries ever put in the heap (not part of the program) -/
  pushed : List (Entry V)
  delivered : List (Delivery V)

/-- `New`, delayqueue/delayqueue.go:30-37. -/
def init (t0 : Int) : State V := ⟨[], none, false, t0, 0, fun _ => .idle, [], []⟩

/-- The goroutine is executing `Take`. -/
def inTake : Pc V → Prop
  | .takeWait | .takeLocked | .takePeeked _ | .takeDue _ _ | .takeHave | .takeArm _ | .takeArmed _ | .select _ | .fired
  | .drain => True
  | _ => False

/-- What the callers do: several goroutines in `Take` at a time; contexts that get cancelled. -/
structure Client where
  several : Prop
  cancel : Prop

inductive Step (k : Client) : State V → State V → Prop
  | tick (s d) : 0 ≤ d → Step k s { s with clock := s.clock + d }
  /- `Push` -/
  | callPush (s i v delay) : s.pc i = .idle → Step k s { s with pc := put s.pc i (.pushWait v delay) }
  | pushLock (s i v delay) : s.pc i = .pushWait v delay → s.holder = none →
      Step k s { s with holder := some i, pc := put s.pc i (.pushLocked v delay) }
  /-- delayqueue/delayqueue.go:51-56 -/
  | pushAdd (s i v delay h') : s.pc i = .pushLocked v delay →
      Heap.push before s.heap ⟨s.next, v, s.clock + delay⟩ = .ok h' →
      Step k s { s with heap := h', next := s.next + 1, pushed := s.pushed ++ [⟨s.next, v, s.clock + delay⟩],
                        pc := put s.pc i (.pushAdded ⟨s.next, v, s.clock + delay⟩) }
  /-- delayqueue/delayqueue.go:60 -/
  | pushIsHead (s i e x) : s.pc i = .pushAdded e → Heap.peek s.heap = .ok x → x.id = e.id →
      Step k s { s with pc := put s.pc i .pushHead }
  | pushNotHead (s i e x) : s.pc i = .pushAdded e → Heap.peek s.heap = .ok x → x.id ≠ e.id →
      Step k s { s with pc := put s.pc i .pushUnlock }
  /-- delayqueue/delayqueue.go:62 -/
  | pushCas (s i) : s.pc i = .pushHead → s.sleeping = true →
      Step k s { s with sleeping := false, pc := put s.pc i .pushSend }
  | pushCasFail (s i) : s.pc i = .pushHead → s.sleeping = false → Step k s { s with pc := put s.pc i .pushUnlock }
  /-- delayqueue/delayqueue.go:63 meets the receive in line 100 or 114 -/
  | wake (s i j dl) : s.pc i = .pushSend → s.pc j = .select dl →
      Step k s { s with pc := put (put s.pc i .pushUnlock) j .takeWait }
  /-- delayqueue/delayqueue.go:63 meets the receive in line 104 -/
  | wakeDrain (s i j) : s.pc i = .pushSend → s.pc j = .drain →
      Step k s { s with pc := put (put s.pc i .pushUnlock) j .takeWait }
  | pushUnlock (s i) : s.pc i = .pushUnlock → Step k s { s with holder := none, pc := put s.pc i .idle }
  /- `Take` -/
  | callTake (s i) : s.pc i = .idle → (k.several ∨ ∀ j, ¬ inTake (s.pc j)) → Step k s { s with pc := put s.pc i .takeWait }
  | takeLock (s i) : s.pc i = .takeWait → s.holder = none →
      Step k s { s with holder := some i, pc := put s.pc i .takeLocked }
  /-- delayqueue/delayqueue.go:82 -/
  | takeEmpty (s i) : s.pc i = .takeLocked → Heap.empty s.heap = true → Step k s { s with pc := put s.pc i (.takeArm none) }
  /-- delayqueue/delayqueue.go:83 -/
  | takePeek (s i e) : s.pc i = .takeLocked → Heap.empty s.heap = false → Heap.peek s.heap = .ok e →
      Step k s { s with pc := put s.pc i (.takePeeked e) }
  /-- delayqueue/delayqueue.go:84-85 -/
  | takeIsDue (s i e) : s.pc i = .takePeeked e → s.clock > e.exp → Step k s { s with pc := put s.pc i (.takeDue e s.clock) }
  /-- delayqueue/delayqueue.go:84-85, 92: the timer runs `entry.expiration.Sub(now)` from now. -/
  | takeNotDue (s i e) : s.pc i = .takePeeked e → ¬ s.clock > e.exp →
      Step k s { s with pc := put s.pc i (.takeArm (some (s.clock + (e.exp - s.clock)))) }
  /-- delayqueue/delayqueue.go:86 -/
  | takePop (s i e now x h') : s.pc i = .takeDue e now → Heap.pop before s.heap = .ok (x, h') →
      Step k s { s with heap := h', pc := put s.pc i .takeHave, delivered := s.delivered ++ [⟨e, now, true⟩] }
  /-- delayqueue/delayqueue.go:87-88 -/
  | takeReturn (s i) : s.pc i = .takeHave → Step k s { s with holder := none, pc := put s.pc i .idle }
  /-- delayqueue/delayqueue.go:95 -/
  | takeStore (s i dl) : s.pc i = .takeArm dl → Step k s { s with sleeping := true, pc := put s.pc i (.takeArmed dl) }
  /-- delayqueue/delayqueue.go:96 -/
  | takeUnlock (s i dl) : s.pc i = .takeArmed dl → Step k s { s with holder := none, pc := put s.pc i (.select dl) }
  /-- delayqueue/delayqueue.go:102 -/
  | timer (s i d) : s.pc i = .select (some d) → d ≤ s.clock → Step k s { s with pc := put s.pc i .fired }
  /-- delayqueue/delayqueue.go:103 -/
  | swapWon (s i) : s.pc i = .fired → s.sleeping = true → Step k s { s with sleeping := false, pc := put s.pc i .takeWait }
  | swapLost (s i) : s.pc i = .fired → s.sleeping = false → Step k s { s with pc := put s.pc i .drain }
  /-- delayqueue/delayqueue.go:106-109, 115-117 -/
  | cancel (s i dl) : k.cancel → s.pc i = .select dl → Step k s { s with pc := put s.pc i .idle }
  /- `Pop`, `Peek`, `Empty` -/
  | callOp (s i b) : s.pc i = .idle → Step k s { s with pc := put s.pc i (.opWait b) }
  | opLock (s i b) : s.pc i = .opWait b → s.holder = none →
      Step k s { s with holder := some i, pc := put s.pc i (.opLocked b) }
  | opPop (s i h' e) : s.pc i = .opLocked true → popBody s.heap s.clock = .ok (h', some e) →
      Step k s { s with heap := h', pc := put s.pc i .opUnlock, delivered := s.delivered ++ [⟨e, s.clock, false⟩] }
  | opPopNone (s i h') : s.pc i = .opLocked true → popBody s.heap s.clock = .ok (h', none) →
      Step k s { s with heap := h', pc := put s.pc i .opUnlock }
  | opRead (s i) : s.pc i = .opLocked false → Step k s { s with pc := put s.pc i .opUnlock }
  | opReturn (s i) : s.pc i = .opUnlock → Step k s { s with holder := none, pc := put s.pc i .idle }

/-- The states reachable from `s0`. -/
inductive From (k : Client) (s0 : State V) : State V → Prop
  | refl : From k s0 s0
  | step {s s'} : From k s0 s → Step k s s' → From k s0 s'

/-- The states reachable from a new queue. -/
def Reach (k : Client) (t0 : Int) (s : State V) : Prop := From k (init t0) s

end Verif.DelayQueue
