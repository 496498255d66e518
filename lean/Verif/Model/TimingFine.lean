import Verif.Model.TimingWheel

/-!
# The timing wheel with interruptible `add` (common/timer/timingwheel)

Model/TimingWheel takes one call of `add` as one step. Here a goroutine may be interrupted inside `add`: after reading the current time, after
entering the bucket, after setting the bucket's expiration, and between two wheels; `Run` itself may be interrupted there as well. The other
simplifications of Model/TimingWheel remain; in particular a heap operation of the queue and one call of `advance` are one step each.
-/

namespace Verif.TimingFine

open Mutex (put)
open TimingWheel (Ref Bucket Wheel Timer Tw Start quo rem newWheel bucketAt setBucket less advance curTime)

/-- Where a goroutine is in `add`, timing_wheel.go:121-146. -/
inductive Pc
  /-- before reading the time of the wheel at `level`, timing_wheel.go:122 -/
  | enter (level : Nat)
  /-- `cur` was read -/
  | loaded (level : Nat) (cur : Int)
  /-- after `b.add(t)`, timing_wheel.go:130, before `setExpiration(e)` -/
  | inBucket (r : Ref) (e : Int)
  /-- `setExpiration` returned true, before `push`, timing_wheel.go:135 -/
  | pushing (r : Ref)
  | returned (ok : Bool)
deriving DecidableEq, Repr

/-- The next action of `add` for the timer `t`, timing_wheel.go:121-146; `lk` is the bucket whose mutex is held by `Run`. -/
def addStep (lk : Option Ref) (tw : Tw) (t : Nat) : Pc → Go (Tw × Pc)
  | .enter l =>
    match tw.wheels[l]? with
    | none => .error .nilDeref
    | some w => .ok (tw, .loaded l w.cur)
  | .loaded l cur =>
    match tw.wheels[l]? with
    | none => .error .nilDeref
    | some w =>
      if (tw.timer t).exp < cur + w.tick then .ok (tw, .returned false)
      else if (tw.timer t).exp < cur + w.interval then do
        let ticks ← quo (tw.timer t).exp w.tick
        let i ← rem ticks w.wheelSize
        if i < 0 then .error .index
        else do
          let b ← Go.idx w.buckets i.toNat
          if lk = some ⟨l, i.toNat⟩ then .error .diverge
          else .ok (⟨setBucket tw.wheels ⟨l, i.toNat⟩ ⟨b.exp, b.timers ++ [t]⟩, tw.queue,
            put tw.timer t { tw.timer t with bucket := some ⟨l, i.toNat⟩ }⟩, .inBucket ⟨l, i.toNat⟩ (ticks * w.tick))
      else if l + 1 < tw.wheels.length then .ok (tw, .enter (l + 1))
      else do
        let o ← newWheel w.interval w.wheelSize cur
        .ok ({ tw with wheels := tw.wheels ++ [o] }, .enter (l + 1))
  | .inBucket r e =>
    .ok ({ tw with wheels := setBucket tw.wheels r ⟨e, (bucketAt tw.wheels r).timers⟩ },
      if (bucketAt tw.wheels r).exp = e then .returned true else .pushing r)
  | .pushing r => do
    let q ← Heap.push (less tw.wheels) tw.queue r
    .ok ({ tw with queue := q }, .returned true)
  | .returned ok => .ok (tw, .returned ok)

/-- A goroutine in `add`: called by `AfterFunc` (which ignores the result) or through `addOrRun`. -/
structure Adder where
  t : Nat
  runs : Bool
  pc : Pc
deriving DecidableEq, Repr

/-- Where `Run` is, see `TimingWheel.Run`. -/
inductive Run
  | idle
  | advanced (r : Ref)
  | flushing (r : Ref)
  /-- in `addOrRun`, bucket.go:82 -/
  | moving (r : Ref) (t : Nat) (pc : Pc)
deriving DecidableEq, Repr

structure State where
  tw : Tw
  clock : Int
  /-- the next timer -/
  next : Nat
  chan : List Ref
  run : Run
  adders : List Adder
  /-- started tasks of `ScheduleFunc` that have not asked for the next time yet -/
  tasks : List Nat
  /- the history: -/
  scheduled : List Nat
  started : List Start
  stopped : List Nat
  dropped : List Nat

/-- The bucket whose mutex `Run` holds. -/
def locked : Run → Option Ref
  | .flushing r | .moving r _ _ => some r
  | _ => none

def init (tw : Tw) (t0 : Int) : State := ⟨tw, t0, 0, [], .idle, [], [], [], [], [], []⟩

/-- `go t.task()`, timing_wheel.go:156. -/
def start (s : State) (t : Nat) : State :=
  { s with started := s.started ++ [⟨t, (s.tw.timer t).exp, curTime s.tw.wheels, s.clock⟩]
           tasks := if (s.tw.timer t).repeats then s.tasks ++ [t] else s.tasks }

/-- What happens next. -/
inductive Act
  | tick (d : Nat)
  | after (delay : Int)
  | schedule (e : Int)
  | again (t : Nat) (e : Int)
  | enough (t : Nat)
  | act (i : Nat)
  | stop (t : Nat)
  | take
  | advance
  | lock
  | unlink
  | move
  | done
deriving DecidableEq

/-- The effect; `none` if this cannot happen now (or panics). -/
def exec (s : State) : Act → Option State
  | .tick d => some { s with clock := s.clock + d }
  /- `AfterFunc`, timing_wheel.go:76-83 -/
  | .after delay => some
    { s with tw := { s.tw with timer := put s.tw.timer s.next ⟨s.clock + delay, none, false⟩ }
             next := s.next + 1, scheduled := s.scheduled ++ [s.next], adders := s.adders ++ [⟨s.next, false, .enter 0⟩] }
  /- `ScheduleFunc`, timing_wheel.go:91-112 -/
  | .schedule e => some
    { s with tw := { s.tw with timer := put s.tw.timer s.next ⟨e, none, true⟩ }
             next := s.next + 1, scheduled := s.scheduled ++ [s.next], adders := s.adders ++ [⟨s.next, true, .enter 0⟩] }
  /- the task of `ScheduleFunc`, timing_wheel.go:101-105: the next time is `e` -/
  | .again t e =>
    if t ∈ s.tasks then some
      { s with tw := { s.tw with timer := put s.tw.timer t { s.tw.timer t with exp := e } }
               tasks := s.tasks.erase t, scheduled := s.scheduled ++ [t], adders := s.adders ++ [⟨t, true, .enter 0⟩] }
    else none
  /- the task of `ScheduleFunc`, timing_wheel.go:101-102: there is no next time -/
  | .enough t => if t ∈ s.tasks then some { s with tasks := s.tasks.erase t } else none
  /- the `i`-th goroutine that is in `add` goes on -/
  | .act i =>
    match s.adders[i]? with
    | none => none
    | some ⟨t, runs, .returned ok⟩ =>
      let s := { s with adders := s.adders.eraseIdx i }
      if ok then some s else if runs then some (start s t) else some { s with dropped := s.dropped ++ [t] }
    | some ⟨t, runs, pc⟩ =>
      match addStep (locked s.run) s.tw t pc with
      | .ok (tw, pc) => some { s with tw := tw, adders := s.adders.set i ⟨t, runs, pc⟩ }
      | .error _ => none
  /- `Stop`, bucket.go:17-25, with `remove`, bucket.go:50-61 -/
  | .stop t =>
    match (s.tw.timer t).bucket with
    | none => none
    | some r =>
      if locked s.run = some r then none
      else some { s with tw := ⟨setBucket s.tw.wheels r ⟨(bucketAt s.tw.wheels r).exp, (bucketAt s.tw.wheels r).timers.erase t⟩,
                                 s.tw.queue, put s.tw.timer t { s.tw.timer t with bucket := none }⟩
                         stopped := s.stopped ++ [t] }
  /- `take`, timingwheel/delayqueue.go:65-73, and the send in `channel` -/
  | .take =>
    match s.tw.queue[0]? with
    | none => none
    | some r =>
      if s.clock > (bucketAt s.tw.wheels r).exp then
        match Heap.pop (less s.tw.wheels) s.tw.queue with
        | .ok (r, q) => some { s with tw := { s.tw with queue := q }, chan := s.chan ++ [r] }
        | .error _ => none
      else none
  /- timing_wheel.go:57-59 -/
  | .advance =>
    match s.run, s.chan with
    | .idle, r :: rest =>
      match advance (bucketAt s.tw.wheels r).exp s.tw.wheels with
      | .ok ws => some { s with tw := { s.tw with wheels := ws }, chan := rest, run := .advanced r }
      | .error _ => none
    | _, _ => none
  /- bucket.go:72 -/
  | .lock =>
    match s.run with
    | .advanced r => some { s with run := .flushing r }
    | _ => none
  /- bucket.go:76-81 -/
  | .unlink =>
    match s.run with
    | .flushing r =>
      match (bucketAt s.tw.wheels r).timers with
      | [] => none
      | t :: ts => some
        { s with tw := ⟨setBucket s.tw.wheels r ⟨(bucketAt s.tw.wheels r).exp, ts⟩, s.tw.queue,
                        put s.tw.timer t { s.tw.timer t with bucket := none }⟩
                 run := .moving r t (.enter 0) }
    | _ => none
  /- bucket.go:82 -/
  | .move =>
    match s.run with
    | .moving r t (.returned ok) =>
      let s := { s with run := .flushing r }
      if ok then some s else some (start s t)
    | .moving r t pc =>
      match addStep (some r) s.tw t pc with
      | .ok (tw, pc) => some { s with tw := tw, run := .moving r t pc }
      | .error _ => none
    | _ => none
  /- bucket.go:86-89 -/
  | .done =>
    match s.run with
    | .flushing r =>
      if (bucketAt s.tw.wheels r).timers = [] then
        some { s with tw := { s.tw with wheels := setBucket s.tw.wheels r ⟨-1, []⟩ }, run := .idle }
      else none
    | _ => none

/-- `Run` processes a bucket only if no bucket in the queue or in the channel expires before it. -/
def inOrder (s : State) : Bool :=
  match s.chan with
  | [] => true
  | r :: _ => (s.tw.queue ++ s.chan).all (fun x => decide ((bucketAt s.tw.wheels r).exp ≤ (bucketAt s.tw.wheels x).exp))

/-- The states reachable from `s0`; if `ordered`, `Run` processes the buckets in order. -/
inductive From (ordered : Bool) (s0 : State) : State → Prop
  | refl : From ordered s0 s0
  | step {s s' : State} (a : Act) : From ordered s0 s → (ordered = true → a = .advance → inOrder s = true) → exec s a = some s' →
      From ordered s0 s'

/-- The states reachable from a new wheel with the given tick and size, made at time `t0`. -/
def Reach (ordered : Bool) (tick wheelSize t0 : Int) (s : State) : Prop :=
  ∃ tw, TimingWheel.new tick wheelSize t0 = .ok tw ∧ From ordered (init tw t0) s

/-- No goroutine is inside `add`, `Run` aside. -/
def nobodyAdds (s : State) : Bool :=
  s.adders.all fun a =>
    match a.pc with
    | .enter 0 | .returned _ => true
    | _ => false

/-- The states reachable from `s0` if `Run` processes the buckets in order and begins with a bucket only when nobody is inside `add`. -/
inductive Paced (s0 : State) : State → Prop
  | refl : Paced s0 s0
  | step {s s' : State} (a : Act) : Paced s0 s → (a = .advance → inOrder s = true ∧ nobodyAdds s = true) → exec s a = some s' → Paced s0 s'

end Verif.TimingFine
