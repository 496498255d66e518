import Verif.Model.DelayChannel

/-!
# Several calls of `Channel` on one queue (`common/timer/delayqueue/delayqueue.go`)

As Model/DelayChannel, but `Channel` is called any number of times: goroutine `g` with `chan g = some size` is the one that a call with this size has
started; each has a channel, a reader and a context of its own. The other goroutines use the queue as they like; whether they also call `Take` is the
parameter `direct`. A call of `Channel` that comes later is a goroutine that has not done a step yet.
-/

namespace Verif.DelayQueue

open Mutex (put)

variable {V : Type}

structure McState (V : Type) where
  q : State V
  at' : Nat → ChPc V
  /-- what is in the channels -/
  buf : Nat → List (Entry V)
  /-- what the readers have got (not part of the program) -/
  received : Nat → List (Entry V)
  /-- the contexts that are cancelled -/
  cancelled : Nat → Bool
  /-- what the goroutines have taken from the queue, and who (not part of the program) -/
  took : List (Nat × Entry V)

/-- What the callers of the queue may do. -/
def mcClient (cancel : Prop) : Client := ⟨True, cancel⟩

/-- Several calls of `Channel(ctx, size)`, delayqueue/delayqueue.go:131-145; whether others call `Take`, whether contexts get cancelled, and which channels
have a reader. -/
inductive McStep (chan : Nat → Option Nat) (direct cancel : Prop) (reader : Nat → Prop) : McState V → McState V → Prop
  | other (s q') : Step (mcClient cancel) s.q q' → (∀ g, chan g ≠ none → SameSpot g s.q q') →
      (direct ∨ ∀ j, chan j = none → ¬ inTake (q'.pc j)) → McStep chan direct cancel reader s { s with q := q' }
  /-- line 135 -/
  | call (s g) : chan g ≠ none → s.at' g = .loop → s.q.pc g = .idle →
      McStep chan direct cancel reader s { s with q := { s.q with pc := put s.q.pc g .takeWait }, at' := put s.at' g .taking }
  /-- line 86 of `Take` -/
  | pop (s g e now x h') : chan g ≠ none → s.at' g = .taking → s.q.pc g = .takeDue e now → Heap.pop before s.q.heap = .ok (x, h') →
      McStep chan direct cancel reader s
        { s with q := { s.q with heap := h', pc := put s.q.pc g .takeHave, delivered := s.q.delivered ++ [⟨e, now, true⟩] },
                 at' := put s.at' g (.popped e), took := s.took ++ [(g, e)] }
  /-- lines 87-88 of `Take` -/
  | ret (s g e) : chan g ≠ none → s.at' g = .popped e → s.q.pc g = .takeHave →
      McStep chan direct cancel reader s
        { s with q := { s.q with holder := none, pc := put s.q.pc g .idle }, at' := put s.at' g (.holding e) }
  /-- `Take` gives up, and line 137 -/
  | giveUp (s g dl) : chan g ≠ none → s.at' g = .taking → s.cancelled g = true → cancel → s.q.pc g = .select dl →
      McStep chan direct cancel reader s { s with q := { s.q with pc := put s.q.pc g .idle }, at' := put s.at' g .closed }
  | ctxCancel (s g) : cancel → McStep chan direct cancel reader s { s with cancelled := put s.cancelled g true }
  /-- line 140, the channel is not full -/
  | send (s g size e) : chan g = some size → s.at' g = .holding e → (s.buf g).length < size →
      McStep chan direct cancel reader s { s with buf := put s.buf g (s.buf g ++ [e]), at' := put s.at' g .loop }
  /-- line 140, the reader waits -/
  | handoff (s g e) : chan g ≠ none → reader g → s.at' g = .holding e → s.buf g = [] →
      McStep chan direct cancel reader s { s with received := put s.received g (s.received g ++ [e]), at' := put s.at' g .loop }
  | recv (s g e b) : reader g → s.buf g = e :: b →
      McStep chan direct cancel reader s { s with buf := put s.buf g b, received := put s.received g (s.received g ++ [e]) }

/-- The goroutines are started on the queue `q0`. -/
def mcInit (q0 : State V) : McState V := ⟨q0, fun _ => .loop, fun _ => [], fun _ => [], fun _ => false, []⟩

inductive McFrom (chan : Nat → Option Nat) (direct cancel : Prop) (reader : Nat → Prop) (s0 : McState V) : McState V → Prop
  | refl : McFrom chan direct cancel reader s0 s0
  | step {s s'} : McFrom chan direct cancel reader s0 s → McStep chan direct cancel reader s s' → McFrom chan direct cancel reader s0 s'

end Verif.DelayQueue
