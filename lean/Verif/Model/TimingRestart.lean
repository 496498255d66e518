import Verif.Model.TimingWheel

/-!
# `Run` called again after its context was cancelled (`common/timer/timingwheel/timing_wheel.go`)

`Run` returns when its `select` picks `ctx.Done()` (lines 62-63). Each call of `Run` makes a channel of its own (line 52); nobody receives from the channel of a call
that has returned. The goroutine that fills it (timingwheel/delayqueue.go:117-126) looks at the context only where it would have to wait (lines 92 and 99), so it may
take further buckets from the queue after `Run` has returned.

One call of `Run` at a time: the next one begins after the last one has returned, and a return is one step with the next call (in between only the callers of the wheel and
old goroutines do anything, which they can do before the step as well). The nil of a closed channel is not here (see Model/TimingRun).
-/

namespace Verif.TimingWheel

structure RState where
  s : State
  /-- goroutines of calls that have returned -/
  old : Nat
  /-- the buckets in channels from which nobody receives, or in the hands of old goroutines -/
  lost : List Ref

/-- A step with the present call of `Run`, a return and the next call, or a step of an old goroutine. -/
inductive RStep (k : State → Ref → Prop) : RState → RState → Prop
  | step (x s') : Step k x.s s' → RStep k x { x with s := s' }
  /-- timing_wheel.go:62-63 and 52 -/
  | again (x) : x.s.run = .idle → RStep k x ⟨{ x.s with chan := [] }, x.old + 1, x.lost ++ x.s.chan⟩
  /-- `take` of an old goroutine, timingwheel/delayqueue.go:65-73 -/
  | steal (x r q) : 0 < x.old → x.s.tw.queue[0]? = some r → x.s.clock > (bucketAt x.s.tw.wheels r).exp →
      Heap.pop (less x.s.tw.wheels) x.s.tw.queue = .ok (r, q) →
      RStep k x { x with s := { x.s with tw := { x.s.tw with queue := q } }, lost := x.lost ++ [r] }
  /-- an old goroutine sees that its context is cancelled, timingwheel/delayqueue.go:94, 100 and 120-123 -/
  | gone (x) : 0 < x.old → RStep k x { x with old := x.old - 1 }

inductive RFrom (k : State → Ref → Prop) (x0 : RState) : RState → Prop
  | refl : RFrom k x0 x0
  | step {x x'} : RFrom k x0 x → RStep k x x' → RFrom k x0 x'

/-- The states reachable from a new wheel, with any number of calls of `Run`. -/
def RReach (k : State → Ref → Prop) (tick wheelSize t0 : Int) (x : RState) : Prop :=
  ∃ tw, new tick wheelSize t0 = .ok tw ∧ RFrom k ⟨init tw t0, 0, []⟩ x

end Verif.TimingWheel
