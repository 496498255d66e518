import Verif.Model.TimingFine

/-!
# The timing wheel when the clock is set (common/timer/timingwheel)

The wheel uses `time.Now().UnixMilli()` (timing_wheel.go:53, 78), the clock on the wall, which an administrator or a time server may set, also
back. Everything else is as in Model/TimingFine.
-/

namespace Verif.TimingFine

/-- The states reachable from `s0`, with the highest time that the clock has shown so far; `guard` restricts when `Run` takes the next bucket. -/
inductive SetFrom (guard : State → Prop) (s0 : State) : State → Int → Prop
  | refl : SetFrom guard s0 s0 s0.clock
  | step {s s' : State} {h : Int} (a : Act) : SetFrom guard s0 s h → (a = .advance → guard s) → exec s a = some s' →
      SetFrom guard s0 s' (max h s'.clock)
  /-- the clock is set to `c` -/
  | set {s : State} {h : Int} (c : Int) : SetFrom guard s0 s h → SetFrom guard s0 { s with clock := c } (max h c)

/-- Reachable from a new wheel with the given tick and size, made at time `t0`. -/
def SetReach (guard : State → Prop) (tick wheelSize t0 : Int) (s : State) (h : Int) : Prop :=
  ∃ tw, TimingWheel.new tick wheelSize t0 = .ok tw ∧ SetFrom guard (init tw t0) s h

/-- Goroutines may be interrupted everywhere. -/
def anyTime : State → Prop := fun _ => True

/-- `Run` takes the buckets in order, and only when nobody is inside `add`. -/
def inPace (s : State) : Prop := inOrder s = true ∧ nobodyAdds s = true

end Verif.TimingFine
