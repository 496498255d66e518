import Verif.Model.TimingFine

/-!
# `ScheduleFunc` of the timing wheel with its scheduler (common/timer/timingwheel)

Model/TimingFine lets the repeated task ask for any next time. Here the times are those of a `Scheduler`, in nanoseconds since 1970, `none` for
the zero time; the wheel rounds them down to milliseconds.
-/

namespace Verif.TimingFine

/-- `Scheduler.Next`, timing_wheel.go:85-89. -/
abbrev Scheduler := Int → Option Int

/-- `UnixMilli` of a time in nanoseconds. -/
def milli (ns : Int) : Int := ns / 1000000

/-- The first expiration, timing_wheel.go:92-98, if `ScheduleFunc` is called at `now`, in nanoseconds. -/
def firstMilli (nx : Scheduler) (now : Int) : Option Int := (nx now).map milli

/-- The expiration after `e`, timing_wheel.go:101-103. -/
def nextMilli (nx : Scheduler) (e : Int) : Option Int := (nx (e * 1000000)).map milli

/-- The timer `t` has the scheduler `nx t`. -/
def obeys (nx : Nat → Scheduler) (s : State) : Act → Prop
  | .schedule e => ∃ now, milli now = s.clock ∧ firstMilli (nx s.next) now = some e
  | .again t e => nextMilli (nx t) (s.tw.timer t).exp = some e
  | .enough t => nextMilli (nx t) (s.tw.timer t).exp = none
  | _ => True

/-- The states reachable from `s0`. -/
inductive SchedFrom (nx : Nat → Scheduler) (s0 : State) : State → Prop
  | refl : SchedFrom nx s0 s0
  | step {s s' : State} (a : Act) : SchedFrom nx s0 s → obeys nx s a → exec s a = some s' → SchedFrom nx s0 s'

/-- Reachable from a new wheel with the given tick and size, made at time `t0`. -/
def SchedReach (nx : Nat → Scheduler) (tick wheelSize t0 : Int) (s : State) : Prop :=
  ∃ tw, TimingWheel.new tick wheelSize t0 = .ok tw ∧ SchedFrom nx (init tw t0) s

end Verif.TimingFine
