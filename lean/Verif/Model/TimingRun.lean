import Verif.Model.TimingWheel

/-!
# Model of the end of `Run`, `common/timer/timingwheel`

`Run`, timing_wheel.go:51-67, the goroutine of `channel`, timingwheel/delayqueue.go:115-130, and the context that ends both. The wheels are
left out: any bucket may become due at any time, and a bucket that `Run` receives is processed in one step.
-/

namespace Verif.TimingWheel.Cancel

/-- The goroutine of `channel`: in `take`, timingwheel/delayqueue.go:119, before `out <- entry`, timingwheel/delayqueue.go:124, and after the return. -/
inductive Queue
  | taking
  | sending (r : Ref)
  | exited
deriving DecidableEq, Repr

/-- `Run`: in the `select`, timing_wheel.go:56, after the return, timing_wheel.go:63, and in the panic of `b.expiration`,
timing_wheel.go:59, for a nil `b`. -/
inductive Loop
  | select
  | returned
  | panicked
deriving DecidableEq, Repr

structure State where
  cancelled : Bool
  buf : List Ref
  closed : Bool
  queue : Queue
  run : Loop
deriving DecidableEq, Repr

def init : State := ⟨false, [], false, .taking, .select⟩

/-- `delayQueueBufferSize`, timing_wheel.go:10. -/
def size : Nat := 10

inductive Step : State → State → Prop
  | cancel (s) : Step s { s with cancelled := true }
  /-- `take` returns a bucket. -/
  | take (s r) : s.queue = .taking → Step s { s with queue := .sending r }
  /-- `take` returns nil, and the goroutine closes the channel, timingwheel/delayqueue.go:120-122. -/
  | close (s) : s.queue = .taking → s.cancelled = true → Step s { s with queue := .exited, closed := true }
  /-- `out <- entry` -/
  | send (s r) : s.queue = .sending r → s.buf.length < size → Step s { s with queue := .taking, buf := s.buf ++ [r] }
  /-- `b := <-bucketChan` with a bucket -/
  | receive (s r rest) : s.run = .select → s.buf = r :: rest → Step s { s with buf := rest }
  /-- `b := <-bucketChan` from the closed, empty channel: `b` is nil and `b.expiration` panics -/
  | receiveNil (s) : s.run = .select → s.buf = [] → s.closed = true → Step s { s with run := .panicked }
  /-- `<-ctx.Done()` -/
  | stop (s) : s.run = .select → s.cancelled = true → Step s { s with run := .returned }

inductive From (s0 : State) : State → Prop
  | refl : From s0 s0
  | step {s s'} : From s0 s → Step s s' → From s0 s'

def Reach (s : State) : Prop := From init s

end Verif.TimingWheel.Cancel
