import Verif.Model.TimingFine
import Verif.Model.TimingRun

/-!
# The timing wheel with its queue (common/timer/timingwheel)

Model/TimingFine has interruptible `add`, but the queue of buckets is a heap without mutex, and the goroutine of `channel` never sleeps. Here
`push` and `take` are taken apart, timingwheel/delayqueue.go:39-104: the mutex, the flag `sleeping`, the unbuffered channel `wakeup`, the timer; the
goroutine of `channel`, timingwheel/delayqueue.go:115-128, with its buffer of ten buckets; and the context that ends it and `Run`.

Simplifications: `Run` is called once. Looking at the first bucket, reading its expiration and the clock, and popping it are one step, as is one heap
operation of `push` (other goroutines may set the expirations of buckets meanwhile). The timer's duration is not positive (C99), so it may fire at
once. `return nil` of `take` and `close(out)` are one step.
-/

namespace Verif.TimingWhole

open Mutex (put)
open TimingWheel (Ref Bucket Wheel Timer Tw Start quo rem newWheel bucketAt setBucket less advance curTime)
open TimingFine (addStep)

/-- Where a goroutine is in `add`. -/
inductive Pc
  /-- outside of `push`; `.pushing r` waits for the mutex, timingwheel/delayqueue.go:40 -/
  | base (p : TimingFine.Pc)
  /-- before `q.h.Push(b)`, timingwheel/delayqueue.go:43 -/
  | locked (r : Ref)
  /-- before `q.h.Peek() == b`, timingwheel/delayqueue.go:45 -/
  | added (r : Ref)
  /-- before the compare-and-swap, timingwheel/delayqueue.go:46 -/
  | head
  /-- sending, timingwheel/delayqueue.go:47 -/
  | send
  /-- before the deferred unlock, timingwheel/delayqueue.go:42 -/
  | unlock
deriving DecidableEq, Repr

/-- What goroutines in `add` share: the wheels, the mutex of the queue, and `sleeping`. -/
structure Shared where
  tw : Tw
  mutex : Bool
  sleeping : Bool

/-- The next action of a goroutine in `add` for the timer `t`: `add`, timing_wheel.go:121-146, with `push`, timingwheel/delayqueue.go:39-50. `none` if it
has to wait (or panics). -/
def goStep (lk : Option Ref) (x : Shared) (t : Nat) : Pc → Option (Shared × Pc)
  | .base (.pushing r) => if x.mutex then none else some ({ x with mutex := true }, .locked r)
  | .base p =>
    match addStep lk x.tw t p with
    | .ok (tw, p') => some ({ x with tw := tw }, .base p')
    | .error _ => none
  | .locked r =>
    match Heap.push (less x.tw.wheels) x.tw.queue r with
    | .ok q => some ({ x with tw := { x.tw with queue := q } }, .added r)
    | .error _ => none
  | .added r =>
    match Heap.peek x.tw.queue with
    | .ok y => some (x, if y = r then .head else .unlock)
    | .error _ => none
  | .head => if x.sleeping then some ({ x with sleeping := false }, .send) else some (x, .unlock)
  | .send => none
  | .unlock => some ({ x with mutex := false }, .base (.returned true))

/-- Where the goroutine of `channel` is, timingwheel/delayqueue.go:117-126, most of the time in `take`, timingwheel/delayqueue.go:60-104. -/
inductive Take
  /-- before `q.mutex.Lock()`, timingwheel/delayqueue.go:63 -/
  | waiting
  /-- before `q.h.Empty()`, timingwheel/delayqueue.go:65 -/
  | looking
  /-- a bucket is popped, before `q.mutex.Unlock()`, timingwheel/delayqueue.go:72 -/
  | have (r : Ref)
  /-- before `StoreInt32(&q.sleeping, 1)`, timingwheel/delayqueue.go:79; is there a timer? -/
  | arm (timer : Bool)
  /-- before `q.mutex.Unlock()`, timingwheel/delayqueue.go:80 -/
  | armed (timer : Bool)
  /-- in a `select`, timingwheel/delayqueue.go:84 or 97 -/
  | select (timer : Bool)
  /-- the timer has fired, before `SwapInt32`, timingwheel/delayqueue.go:88 -/
  | fired
  /-- `<-q.wakeup`, timingwheel/delayqueue.go:90 -/
  | drain
  /-- `out <- entry`, timingwheel/delayqueue.go:124 -/
  | sending (r : Ref)
  | exited
deriving DecidableEq, Repr

/-- Where `Run` is, see `TimingFine.Run`; `returned`: timing_wheel.go:63; `panicked`: timing_wheel.go:59 with a nil bucket. -/
inductive Run
  | idle
  | advanced (r : Ref)
  | flushing (r : Ref)
  | moving (r : Ref) (t : Nat) (pc : Pc)
  | returned
  | panicked
deriving DecidableEq, Repr

/-- A goroutine in `add`, see `TimingFine.Adder`. -/
structure Adder where
  t : Nat
  runs : Bool
  pc : Pc
deriving DecidableEq, Repr

structure State where
  sh : Shared
  take : Take
  /-- the channel of `Run` -/
  buf : List Ref
  closed : Bool
  cancelled : Bool
  clock : Int
  next : Nat
  run : Run
  adders : List Adder
  tasks : List Nat
  /- the history: -/
  scheduled : List Nat
  started : List Start
  stopped : List Nat
  dropped : List Nat

/-- The bucket whose mutex `Run` holds. -/
def lockedRef : Run → Option Ref
  | .flushing r | .moving r _ _ => some r
  | _ => none

def init (tw : Tw) (t0 : Int) : State :=
  ⟨⟨tw, false, false⟩, .waiting, [], false, false, t0, 0, .idle, [], [], [], [], [], []⟩

/-- Replaces the wheels. -/
def State.withTw (s : State) (tw : Tw) : State := { s with sh := { s.sh with tw := tw } }

/-- `go t.task()`, timing_wheel.go:156. -/
def start (s : State) (t : Nat) : State :=
  { s with started := s.started ++ [⟨t, (s.sh.tw.timer t).exp, curTime s.sh.tw.wheels, s.clock⟩]
           tasks := if (s.sh.tw.timer t).repeats then s.tasks ++ [t] else s.tasks }

/-- What happens next. -/
inductive Act
  | tick (d : Nat)
  | after (delay : Int)
  | schedule (e : Int)
  | again (t : Nat) (e : Int)
  | enough (t : Nat)
  | act (i : Nat)
  | stop (t : Nat)
  | advance
  | lock
  | unlink
  | move
  | done
  /-- the goroutine of `channel` goes on -/
  | take
  /-- its timer fires -/
  | timer
  /-- a sender meets it: the `i`-th goroutine in `add`, or `Run` -/
  | wake (i : Option Nat)
  /-- the context is cancelled -/
  | cancel
  /-- the goroutine of `channel` sees it -/
  | quit
  /-- `Run` sees it -/
  | leave
  /-- `Run` receives nil from the closed channel -/
  | recvNil
deriving DecidableEq

/-- The next action of the goroutine of `channel`, outside of its `select`, timingwheel/delayqueue.go:62-82, 88-90, 124. -/
def takeStep (s : State) : Option State :=
  match s.take with
  | .waiting => if s.sh.mutex then none else some { s with sh := { s.sh with mutex := true }, take := .looking }
  | .looking =>
    match s.sh.tw.queue[0]? with
    | none => some { s with take := .arm false }
    | some r =>
      if s.clock > (bucketAt s.sh.tw.wheels r).exp then
        match Heap.pop (less s.sh.tw.wheels) s.sh.tw.queue with
        | .ok (r, q) => some { s.withTw { s.sh.tw with queue := q } with take := .have r }
        | .error _ => none
      else some { s with take := .arm true }
  | .have r => some { s with sh := { s.sh with mutex := false }, take := .sending r }
  | .arm b => some { s with sh := { s.sh with sleeping := true }, take := .armed b }
  | .armed b => some { s with sh := { s.sh with mutex := false }, take := .select b }
  | .fired => if s.sh.sleeping then some { s with sh := { s.sh with sleeping := false }, take := .waiting } else some { s with take := .drain }
  | .sending r => if s.buf.length < TimingWheel.Cancel.size then some { s with buf := s.buf ++ [r], take := .waiting } else none
  | _ => none

/-- Is the goroutine of `channel` receiving from `wakeup`? -/
def receives : Take → Bool
  | .select _ | .drain => true
  | _ => false

/-- The effect; `none` if this cannot happen now (or panics). Lines as in `TimingFine.exec` where the action is the same. -/
def exec (s : State) : Act → Option State
  | .tick d => some { s with clock := s.clock + d }
  | .after delay => some
    { s.withTw { s.sh.tw with timer := put s.sh.tw.timer s.next ⟨s.clock + delay, none, false⟩ } with
      next := s.next + 1, scheduled := s.scheduled ++ [s.next], adders := s.adders ++ [⟨s.next, false, .base (.enter 0)⟩] }
  | .schedule e => some
    { s.withTw { s.sh.tw with timer := put s.sh.tw.timer s.next ⟨e, none, true⟩ } with
      next := s.next + 1, scheduled := s.scheduled ++ [s.next], adders := s.adders ++ [⟨s.next, true, .base (.enter 0)⟩] }
  | .again t e =>
    if t ∈ s.tasks then some
      { s.withTw { s.sh.tw with timer := put s.sh.tw.timer t { s.sh.tw.timer t with exp := e } } with
        tasks := s.tasks.erase t, scheduled := s.scheduled ++ [t], adders := s.adders ++ [⟨t, true, .base (.enter 0)⟩] }
    else none
  | .enough t => if t ∈ s.tasks then some { s with tasks := s.tasks.erase t } else none
  | .act i =>
    match s.adders[i]? with
    | none => none
    | some ⟨t, runs, .base (.returned ok)⟩ =>
      let s := { s with adders := s.adders.eraseIdx i }
      if ok then some s else if runs then some (start s t) else some { s with dropped := s.dropped ++ [t] }
    | some ⟨t, runs, pc⟩ =>
      match goStep (lockedRef s.run) s.sh t pc with
      | some (x, pc) => some { s with sh := x, adders := s.adders.set i ⟨t, runs, pc⟩ }
      | none => none
  | .stop t =>
    match (s.sh.tw.timer t).bucket with
    | none => none
    | some r =>
      if lockedRef s.run = some r then none
      else some { s.withTw ⟨setBucket s.sh.tw.wheels r ⟨(bucketAt s.sh.tw.wheels r).exp, (bucketAt s.sh.tw.wheels r).timers.erase t⟩,
                            s.sh.tw.queue, put s.sh.tw.timer t { s.sh.tw.timer t with bucket := none }⟩ with
                  stopped := s.stopped ++ [t] }
  | .advance =>
    match s.run, s.buf with
    | .idle, r :: rest =>
      match advance (bucketAt s.sh.tw.wheels r).exp s.sh.tw.wheels with
      | .ok ws => some { s.withTw { s.sh.tw with wheels := ws } with buf := rest, run := .advanced r }
      | .error _ => none
    | _, _ => none
  | .lock =>
    match s.run with
    | .advanced r => some { s with run := .flushing r }
    | _ => none
  | .unlink =>
    match s.run with
    | .flushing r =>
      match (bucketAt s.sh.tw.wheels r).timers with
      | [] => none
      | t :: ts => some
        { s.withTw ⟨setBucket s.sh.tw.wheels r ⟨(bucketAt s.sh.tw.wheels r).exp, ts⟩, s.sh.tw.queue,
                    put s.sh.tw.timer t { s.sh.tw.timer t with bucket := none }⟩ with
          run := .moving r t (.base (.enter 0)) }
    | _ => none
  | .move =>
    match s.run with
    | .moving r t (.base (.returned ok)) =>
      let s := { s with run := .flushing r }
      if ok then some s else some (start s t)
    | .moving r t pc =>
      match goStep (some r) s.sh t pc with
      | some (x, pc) => some { s with sh := x, run := .moving r t pc }
      | none => none
    | _ => none
  | .done =>
    match s.run with
    | .flushing r =>
      if (bucketAt s.sh.tw.wheels r).timers = [] then
        some { s.withTw { s.sh.tw with wheels := setBucket s.sh.tw.wheels r ⟨-1, []⟩ } with run := .idle }
      else none
    | _ => none
  | .take => takeStep s
  /- timingwheel/delayqueue.go:87 -/
  | .timer => if s.take = .select true then some { s with take := .fired } else none
  /- timingwheel/delayqueue.go:47 meets the receive in line 85, 90 or 98 -/
  | .wake (some i) =>
    match s.adders[i]? with
    | some ⟨t, runs, .send⟩ =>
      if receives s.take then some { s with take := .waiting, adders := s.adders.set i ⟨t, runs, .unlock⟩ } else none
    | _ => none
  | .wake none =>
    match s.run with
    | .moving r t .send => if receives s.take then some { s with take := .waiting, run := .moving r t .unlock } else none
    | _ => none
  | .cancel => some { s with cancelled := true }
  /- timingwheel/delayqueue.go:92-94, 99-100 and 120-122 -/
  | .quit =>
    match s.take with
    | .select _ => if s.cancelled then some { s with take := .exited, closed := true } else none
    | _ => none
  /- timing_wheel.go:62-63 -/
  | .leave => if s.run = .idle ∧ s.cancelled = true then some { s with run := .returned } else none
  /- timing_wheel.go:57-59 -/
  | .recvNil => if s.run = .idle ∧ s.buf = [] ∧ s.closed = true then some { s with run := .panicked } else none

/-- The states reachable from `s0`. -/
inductive From (s0 : State) : State → Prop
  | refl : From s0 s0
  | step {s s' : State} (a : Act) : From s0 s → exec s a = some s' → From s0 s'

/-- The states reachable from a new wheel with the given tick and size, made at time `t0`. -/
def Reach (tick wheelSize t0 : Int) (s : State) : Prop :=
  ∃ tw, TimingWheel.new tick wheelSize t0 = .ok tw ∧ From (init tw t0) s

end Verif.TimingWhole
