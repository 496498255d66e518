import Verif.Model.TimingWheel

/-!
# Several calls of `Run` at a time (`common/timer/timingwheel/timing_wheel.go`)

Each call of `Run` makes a channel of its own, and a goroutine that fills it (line 52); all take buckets from one queue. The machine is that of Model/TimingWheel, with its simplifications (`advance` and
`add` are one step each), but with any number of calls. No call returns (Model/TimingRestart has that). The actions of the callers of the wheel are those of Model/TimingWheel; they wait if the bucket is locked by any of
the calls.
-/

namespace Verif.TimingRuns

open TimingWheel
open Mutex (put)

/-- A call of `Run`, timing_wheel.go:51-66. -/
structure Runner where
  chan : List Ref
  run : Run
deriving DecidableEq

structure MState where
  /-- all but the calls of `Run`; `s.chan` is empty and `s.run` is idle -/
  s : State
  runs : List Runner

/-- The buckets whose mutexes are held. -/
def locks (runs : List Runner) : List Ref := runs.filterMap fun x => locked x.run

/-- `add`, timing_wheel.go:121-146; `none` if it has to wait for the mutex of the bucket. -/
def tryAdd (lk : List Ref) (fuel : Nat) (tw : Tw) (t : Nat) : Option (Tw × Bool) :=
  match add fuel tw 0 t none with
  | .ok (tw', ok) => if (tw'.timer t).bucket ∈ lk.map some then none else some (tw', ok)
  | .error _ => none

/-- What happens next. -/
inductive MAct
  | tick (d : Nat)
  | afterFunc (fuel : Nat) (delay : Int)
  | schedule (fuel : Nat) (e : Int)
  | again (fuel t : Nat) (e : Int)
  | enough (t : Nat)
  | stop (t : Nat)
  /-- `Run` is called -/
  | call
  /-- the goroutine of the channel of call `i` -/
  | take (i : Nat)
  /-- the next step of call `i` -/
  | step (i fuel : Nat)
deriving DecidableEq

/-- The callers of the wheel (see `TimingWheel.Step`), timing_wheel.go:76-112 and bucket.go:17-25. -/
def client (lk : List Ref) (s : State) : MAct → Option State
  | .tick d => some { s with clock := s.clock + d }
  | .afterFunc fuel delay =>
    match tryAdd lk fuel { s.tw with timer := put s.tw.timer s.next ⟨s.clock + delay, none, false⟩ } s.next with
    | some (tw, ok) => some { s with tw := tw, next := s.next + 1, scheduled := s.scheduled ++ [s.next], dropped := if ok then s.dropped else s.dropped ++ [s.next] }
    | none => none
  | .schedule fuel e =>
    match tryAdd lk fuel { s.tw with timer := put s.tw.timer s.next ⟨e, none, true⟩ } s.next with
    | some (tw, true) => some { s with tw := tw, next := s.next + 1, scheduled := s.scheduled ++ [s.next] }
    | some (tw, false) => some { start s tw s.next with next := s.next + 1, scheduled := s.scheduled ++ [s.next] }
    | none => none
  | .again fuel t e =>
    if t ∈ s.tasks then
      match tryAdd lk fuel { s.tw with timer := put s.tw.timer t { s.tw.timer t with exp := e } } t with
      | some (tw, true) => some { s with tw := tw, tasks := s.tasks.erase t, scheduled := s.scheduled ++ [t] }
      | some (tw, false) => some { start { s with tasks := s.tasks.erase t } tw t with scheduled := s.scheduled ++ [t] }
      | none => none
    else none
  | .enough t => if t ∈ s.tasks then some { s with tasks := s.tasks.erase t } else none
  | .stop t =>
    match (s.tw.timer t).bucket with
    | none => none
    | some r =>
      if r ∈ lk then none
      else some { s with tw := ⟨setBucket s.tw.wheels r ⟨(bucketAt s.tw.wheels r).exp, (bucketAt s.tw.wheels r).timers.erase t⟩, s.tw.queue,
                                put s.tw.timer t { s.tw.timer t with bucket := none }⟩
                         stopped := s.stopped ++ [t] }
  | _ => none

/-- The next step of call `i` of `Run`, which is `x`: timing_wheel.go:57-61, bucket.go:71-89. -/
def runStep (m : MState) (i : Nat) (x : Runner) (fuel : Nat) : Option MState :=
  match x.run with
  /- timing_wheel.go:57-59 -/
  | .idle =>
    match x.chan with
    | [] => none
    | r :: rest =>
      match advance (bucketAt m.s.tw.wheels r).exp m.s.tw.wheels with
      | .ok ws => some ⟨{ m.s with tw := { m.s.tw with wheels := ws } }, m.runs.set i ⟨rest, .advanced r⟩⟩
      | .error _ => none
  /- bucket.go:72 -/
  | .advanced r => if r ∈ locks m.runs then none else some { m with runs := m.runs.set i { x with run := .flushing r } }
  | .flushing r =>
    match (bucketAt m.s.tw.wheels r).timers with
    /- bucket.go:86-89 -/
    | [] => some ⟨{ m.s with tw := { m.s.tw with wheels := setBucket m.s.tw.wheels r ⟨-1, []⟩ } }, m.runs.set i { x with run := .idle }⟩
    /- bucket.go:76-81 -/
    | t :: ts =>
      some ⟨{ m.s with tw := ⟨setBucket m.s.tw.wheels r ⟨(bucketAt m.s.tw.wheels r).exp, ts⟩, m.s.tw.queue, put m.s.tw.timer t { m.s.tw.timer t with bucket := none }⟩ },
        m.runs.set i { x with run := .moving r t }⟩
  /- bucket.go:82 -/
  | .moving r t =>
    match tryAdd (locks m.runs) fuel m.s.tw t with
    | some (tw, true) => some ⟨{ m.s with tw := tw }, m.runs.set i { x with run := .flushing r }⟩
    | some (tw, false) => some ⟨start m.s tw t, m.runs.set i { x with run := .flushing r }⟩
    | none => none

/-- The effect; `none` if this cannot happen now. -/
def mexec (m : MState) : MAct → Option MState
  /- timing_wheel.go:51-52 -/
  | .call => some { m with runs := m.runs ++ [⟨[], .idle⟩] }
  /- timingwheel/delayqueue.go:65-73, and the send in `channel` -/
  | .take i =>
    match m.runs[i]?, m.s.tw.queue[0]? with
    | some x, some r =>
      if m.s.clock > (bucketAt m.s.tw.wheels r).exp then
        match Heap.pop (less m.s.tw.wheels) m.s.tw.queue with
        | .ok (_, q) => some ⟨{ m.s with tw := { m.s.tw with queue := q } }, m.runs.set i { x with chan := x.chan ++ [r] }⟩
        | .error _ => none
      else none
    | _, _ => none
  | .step i fuel =>
    match m.runs[i]? with
    | some x => runStep m i x fuel
    | none => none
  | a =>
    match client (locks m.runs) m.s a with
    | some s => some { m with s := s }
    | none => none

/-- The actions one after the other. -/
def mexecs : List MAct → MState → Option MState
  | [], m => some m
  | a :: as, m => (mexec m a).bind (mexecs as)

/-- A new wheel; `Run` has not been called. -/
def mstart (tick wheelSize t0 : Int) : Option MState :=
  match new tick wheelSize t0 with
  | .ok tw => some ⟨init tw t0, []⟩
  | .error _ => none

/-- The states reachable from a new wheel. -/
def MReach (tick wheelSize t0 : Int) (m : MState) : Prop := ∃ m0 as, mstart tick wheelSize t0 = some m0 ∧ mexecs as m0 = some m

end Verif.TimingRuns
