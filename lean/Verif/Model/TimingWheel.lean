import Verif.Model.Heap
import Verif.Model.Mutex

/-!
# Model of `common/timer/timingwheel` (`timing_wheel.go`, `bucket.go`, the heap of `delayqueue.go`)

A wheel and its overflow wheels form a list, level 0 first; a bucket is addressed by level and slot.  Timers live in a
store indexed by numbers (their pointers).  Time is in milliseconds.

The machine below interleaves the goroutines of callers (`AfterFunc`, `ScheduleFunc`, `Stop`), of started tasks, the
goroutine of `delayQueue.channel`, and `Run`.  Simplifications:

* `int64` is unbounded (Model/Timing64 has 64 bits);
* one call of `add` (bucket lock, expiration, queue) is one step (Model/TimingFine interrupts it); `take` popping a bucket is one step, the sleeping protocol
  around it is that of `Verif.Model.DelayQueue`; the loop of `flush` is one step per unlinking and one per `addOrRun`,
  and between the steps everything else may happen;
* the linked list of a bucket is a `List` (see `Verif.Props.LinkedList`); `flush` takes a timer off the list when it unlinks
  it and not in the final `Clear`, which nobody can observe since the bucket's mutex is held;
* the channel of due buckets has no capacity limit (the code: 10).
-/

namespace Verif.TimingWheel

open Mutex (put)

/-- A bucket: its level and its slot. -/
structure Ref where
  level : Nat
  slot : Nat
deriving DecidableEq, Repr

/-- `type bucket struct`, bucket.go:35-39; the mutex is in the machine. -/
structure Bucket where
  exp : Int
  timers : List Nat
deriving DecidableEq, Repr

/-- `newBucket`, bucket.go:63-68. -/
def newBucket : Bucket := ⟨-1, []⟩

/-- `type TimingWheel struct`, timing_wheel.go:16-24, without `queue` and `overflowWheel`. -/
structure Wheel where
  tick : Int
  wheelSize : Int
  interval : Int
  cur : Int
  buckets : List Bucket
deriving DecidableEq, Repr

/-- `type Timer struct`, bucket.go:10-15. `repeats` tells the task of `ScheduleFunc` from that of `AfterFunc`. -/
structure Timer where
  exp : Int
  bucket : Option Ref
  repeats : Bool
deriving DecidableEq, Repr

/-- The wheels, the heap of `delayQueue` and the timers. -/
structure Tw where
  wheels : List Wheel
  queue : List Ref
  timer : Nat → Timer

/-- Go's `/` on integers. -/
def quo (a b : Int) : Go Int := if b = 0 then .error .divZero else .ok (a.tdiv b)

/-- Go's `%` on integers. -/
def rem (a b : Int) : Go Int := if b = 0 then .error .divZero else .ok (a.tmod b)

/-- `truncate`, timing_wheel.go:191-193. -/
def truncate (time tick : Int) : Go Int := do
  let r ← rem time tick
  .ok (time - r)

/-- `newTimingWheel`, timing_wheel.go:26-39. -/
def newWheel (tick wheelSize currentTime : Int) : Go Wheel := do
  let cur ← truncate currentTime tick
  if wheelSize < 0 then .error .makeLen
  else .ok ⟨tick, wheelSize, tick * wheelSize, cur, List.replicate wheelSize.toNat newBucket⟩

/-- The bucket at `r` (a new one if there is none). -/
def bucketAt (ws : List Wheel) (r : Ref) : Bucket :=
  match ws[r.level]? with
  | none => newBucket
  | some w => (w.buckets[r.slot]?).getD newBucket

/-- Replace the bucket at `r`. -/
def setBucket (ws : List Wheel) (r : Ref) (b : Bucket) : List Wheel :=
  match ws[r.level]? with
  | none => ws
  | some w => ws.set r.level { w with buckets := w.buckets.set r.slot b }

/-- The comparison of the heap, timingwheel/delayqueue.go:25-27. It reads the expirations at the time of the comparison. -/
def less (ws : List Wheel) (a b : Ref) : Bool := decide ((bucketAt ws a).exp < (bucketAt ws b).exp)

/-- The middle branch of `add`, timing_wheel.go:127-136, with `bucket.add`, bucket.go:41-48, `setExpiration`,
bucket.go:97-99, and the heap part of `push`, timingwheel/delayqueue.go:43. `w` is the wheel at `level`. It blocks (`diverge`) if the
bucket's mutex is held. -/
def place (tw : Tw) (level : Nat) (w : Wheel) (t : Nat) (locked : Option Ref) : Go Tw := do
  let ticks ← quo (tw.timer t).exp w.tick
  let i ← rem ticks w.wheelSize
  if i < 0 then .error .index
  else do
    let b ← Go.idx w.buckets i.toNat
    if locked = some ⟨level, i.toNat⟩ then .error .diverge
    else do
      let ws := setBucket tw.wheels ⟨level, i.toNat⟩ ⟨ticks * w.tick, b.timers ++ [t]⟩
      let timer := put tw.timer t { tw.timer t with bucket := some ⟨level, i.toNat⟩ }
      if b.exp = ticks * w.tick then .ok ⟨ws, tw.queue, timer⟩
      else do
        let q ← Heap.push (less ws) tw.queue ⟨level, i.toNat⟩
        .ok ⟨ws, q, timer⟩

/-- `setOverflowWheel`, timing_wheel.go:179-182, if there is no wheel above `w`, at `level`. -/
def overflow (tw : Tw) (level : Nat) (w : Wheel) : Go Tw :=
  if level + 1 < tw.wheels.length then .ok tw
  else do
    let o ← newWheel w.interval w.wheelSize w.cur
    .ok { tw with wheels := tw.wheels ++ [o] }

/-- `add` on the wheel at `level`, timing_wheel.go:121-146. -/
def add : Nat → Tw → Nat → Nat → Option Ref → Go (Tw × Bool)
  | 0, _, _, _, _ => .error .diverge
  | fuel + 1, tw, level, t, locked =>
    match tw.wheels[level]? with
    | none => .error .nilDeref
    | some w =>
      if (tw.timer t).exp < w.cur + w.tick then .ok (tw, false)
      else if (tw.timer t).exp < w.cur + w.interval then do
        let tw ← place tw level w t locked
        .ok (tw, true)
      else do
        let tw ← overflow tw level w
        add fuel tw (level + 1) t locked

/-- `advance`, timing_wheel.go:166-177. -/
def advance (exp : Int) : List Wheel → Go (List Wheel)
  | [] => .ok []
  | w :: ws =>
    if exp ≥ w.cur + w.tick then do
      let c ← truncate exp w.tick
      let ws ← advance c ws
      .ok ({ w with cur := c } :: ws)
    else .ok (w :: ws)

/-- `New`, timing_wheel.go:40-43. -/
def new (tick wheelSize now : Int) : Go Tw := do
  let w ← newWheel tick wheelSize now
  .ok ⟨[w], [], fun _ => ⟨0, none, false⟩⟩

/-- Where `Run` is. -/
inductive Run
  /-- in the `select`, timing_wheel.go:56 -/
  | idle
  /-- after `advance`, before the bucket's lock, timing_wheel.go:61 -/
  | advanced (r : Ref)
  /-- in the loop of `flush`, bucket.go:75 -/
  | flushing (r : Ref)
  /-- the timer is unlinked, before `addOrRun`, bucket.go:82 -/
  | moving (r : Ref) (t : Nat)
deriving DecidableEq, Repr

/-- A started task (not part of the program): the timer, its expiration, the wheel's time and the clock. -/
structure Start where
  id : Nat
  exp : Int
  cur : Int
  clock : Int
deriving DecidableEq, Repr

structure State where
  tw : Tw
  clock : Int
  /-- the next timer -/
  next : Nat
  chan : List Ref
  run : Run
  /-- started tasks of `ScheduleFunc` that have not asked for the next time yet -/
  tasks : List Nat
  /- the history: -/
  scheduled : List Nat
  started : List Start
  stopped : List Nat
  dropped : List Nat

/-- The bucket whose mutex `Run` holds. -/
def locked : Run → Option Ref
  | .flushing r | .moving r _ => some r
  | _ => none

/-- The current time of the first wheel. -/
def curTime (ws : List Wheel) : Int := (ws.head?.map (·.cur)).getD 0

/-- The initial state around a wheel made at time `t0`. -/
def init (tw : Tw) (t0 : Int) : State := ⟨tw, t0, 0, [], .idle, [], [], [], [], []⟩

/-- `go t.task()`, timing_wheel.go:156. -/
def start (s : State) (tw : Tw) (t : Nat) : State :=
  { s with tw := tw
           started := s.started ++ [⟨t, (tw.timer t).exp, curTime tw.wheels, s.clock⟩]
           tasks := if (tw.timer t).repeats then s.tasks ++ [t] else s.tasks }

/-- `k` is the condition under which `Run` may process a bucket (for the statements about well-behaved executions). -/
inductive Step (k : State → Ref → Prop) : State → State → Prop
  | tick (s d) : 0 ≤ d → Step k s { s with clock := s.clock + d }
  /-- `AfterFunc`, timing_wheel.go:76-83: the result of `add` is ignored. -/
  | afterFunc (s delay fuel tw ok) :
      add fuel { s.tw with timer := put s.tw.timer s.next ⟨s.clock + delay, none, false⟩ } 0 s.next (locked s.run) = .ok (tw, ok) →
      Step k s { s with tw := tw, next := s.next + 1, scheduled := s.scheduled ++ [s.next]
                        dropped := if ok then s.dropped else s.dropped ++ [s.next] }
  /-- `ScheduleFunc`, timing_wheel.go:91-112, accepted. -/
  | schedule (s e fuel tw) :
      add fuel { s.tw with timer := put s.tw.timer s.next ⟨e, none, true⟩ } 0 s.next (locked s.run) = .ok (tw, true) →
      Step k s { s with tw := tw, next := s.next + 1, scheduled := s.scheduled ++ [s.next] }
  /-- `ScheduleFunc`, started at once. -/
  | scheduleRun (s e fuel tw) :
      add fuel { s.tw with timer := put s.tw.timer s.next ⟨e, none, true⟩ } 0 s.next (locked s.run) = .ok (tw, false) →
      Step k s { start s tw s.next with next := s.next + 1, scheduled := s.scheduled ++ [s.next] }
  /-- The task of `ScheduleFunc`, timing_wheel.go:101-105: the next time is `e`. -/
  | again (s t e fuel tw) : t ∈ s.tasks →
      add fuel { s.tw with timer := put s.tw.timer t { s.tw.timer t with exp := e } } 0 t (locked s.run) = .ok (tw, true) →
      Step k s { s with tw := tw, tasks := s.tasks.erase t, scheduled := s.scheduled ++ [t] }
  | againRun (s t e fuel tw) : t ∈ s.tasks →
      add fuel { s.tw with timer := put s.tw.timer t { s.tw.timer t with exp := e } } 0 t (locked s.run) = .ok (tw, false) →
      Step k s { start { s with tasks := s.tasks.erase t } tw t with scheduled := s.scheduled ++ [t] }
  /-- The task of `ScheduleFunc`, timing_wheel.go:101-102: there is no next time. -/
  | enough (s t) : t ∈ s.tasks → Step k s { s with tasks := s.tasks.erase t }
  /-- `Stop`, bucket.go:17-25, with `remove`, bucket.go:50-61: it needs the bucket's mutex. -/
  | stop (s t r) : (s.tw.timer t).bucket = some r → locked s.run ≠ some r →
      Step k s { s with tw := ⟨setBucket s.tw.wheels r ⟨(bucketAt s.tw.wheels r).exp, (bucketAt s.tw.wheels r).timers.erase t⟩,
                               s.tw.queue, put s.tw.timer t { s.tw.timer t with bucket := none }⟩
                        stopped := s.stopped ++ [t] }
  /-- `take`, timingwheel/delayqueue.go:65-73, and the send in `channel`. -/
  | take (s r q) : s.tw.queue[0]? = some r → s.clock > (bucketAt s.tw.wheels r).exp →
      Heap.pop (less s.tw.wheels) s.tw.queue = .ok (r, q) →
      Step k s { s with tw := { s.tw with queue := q }, chan := s.chan ++ [r] }
  /-- timing_wheel.go:57-59 -/
  | advance (s r rest ws) : s.run = .idle → s.chan = r :: rest → k s r →
      advance (bucketAt s.tw.wheels r).exp s.tw.wheels = .ok ws →
      Step k s { s with tw := { s.tw with wheels := ws }, chan := rest, run := .advanced r }
  /-- bucket.go:72 -/
  | lock (s r) : s.run = .advanced r → Step k s { s with run := .flushing r }
  /-- bucket.go:76-81 -/
  | unlink (s r t ts) : s.run = .flushing r → (bucketAt s.tw.wheels r).timers = t :: ts →
      Step k s { s with tw := ⟨setBucket s.tw.wheels r ⟨(bucketAt s.tw.wheels r).exp, ts⟩, s.tw.queue,
                               put s.tw.timer t { s.tw.timer t with bucket := none }⟩
                        run := .moving r t }
  /-- bucket.go:82, the timer goes to another bucket -/
  | readd (s r t fuel tw) : s.run = .moving r t → add fuel s.tw 0 t (some r) = .ok (tw, true) →
      Step k s { s with tw := tw, run := .flushing r }
  /-- bucket.go:82, the task is started -/
  | fire (s r t fuel tw) : s.run = .moving r t → add fuel s.tw 0 t (some r) = .ok (tw, false) →
      Step k s { start s tw t with run := .flushing r }
  /-- bucket.go:86-89 -/
  | done (s r) : s.run = .flushing r → (bucketAt s.tw.wheels r).timers = [] →
      Step k s { s with tw := { s.tw with wheels := setBucket s.tw.wheels r ⟨-1, []⟩ }, run := .idle }

/-- The states reachable from `s0`. -/
inductive From (k : State → Ref → Prop) (s0 : State) : State → Prop
  | refl : From k s0 s0
  | step {s s'} : From k s0 s → Step k s s' → From k s0 s'

/-- The states reachable from a new wheel with the given tick and size, made at time `t0`. -/
def Reach (k : State → Ref → Prop) (tick wheelSize t0 : Int) (s : State) : Prop :=
  ∃ tw, new tick wheelSize t0 = .ok tw ∧ From k (init tw t0) s

end Verif.TimingWheel
