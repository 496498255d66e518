import Verif.Model.DelayQueue

/-!
# Model of `Channel` of `common/timer/delayqueue/delayqueue.go`

The machine of `Verif.Model.DelayQueue` together with the goroutine `g` that `Channel` starts, its output channel and the reader of that
channel. Nobody else calls `Take` meanwhile (`Push`, `Pop`, `Peek` and `Empty` may be called by anybody).
-/

namespace Verif.DelayQueue

open Mutex (put)

variable {V : Type}

/-- Where the goroutine is, delayqueue/delayqueue.go:133-142. -/
inductive ChPc (V : Type)
  /-- before line 135 -/
  | loop
  /-- in `Take`, before its line 86 -/
  | taking
  /-- in `Take`, after its line 86, with the entry -/
  | popped (e : Entry V)
  /-- before line 140 -/
  | holding (e : Entry V)
  /-- after line 137 -/
  | closed

structure ChState (V : Type) where
  q : State V
  at' : ChPc V
  /-- what is in the channel -/
  buf : List (Entry V)
  /-- what the reader has got (not part of the program) -/
  received : List (Entry V)
  /-- the context is cancelled -/
  cancelled : Bool

/-- A step of the queue that is no call, no delivery and no return of goroutine `g`. -/
structure SameSpot (g : Nat) (q q' : State V) : Prop where
  idle : q.pc g = .idle ↔ q'.pc g = .idle
  take : inTake (q.pc g) ↔ inTake (q'.pc g)
  have' : q.pc g = .takeHave ↔ q'.pc g = .takeHave

/-- One consumer; its context may get cancelled. -/
def chClient (cancel : Prop) : Client := ⟨False, cancel⟩

/-- `Channel(ctx, size)`, delayqueue/delayqueue.go:131-145; whether contexts get cancelled, and whether there is a reader. -/
inductive ChStep (g size : Nat) (cancel reader : Prop) : ChState V → ChState V → Prop
  | other (s q') : Step (chClient cancel) s.q q' → SameSpot g s.q q' → (∀ j, j ≠ g → ¬ inTake (q'.pc j)) →
      ChStep g size cancel reader s { s with q := q' }
  /-- line 135 -/
  | call (s) : s.at' = .loop → s.q.pc g = .idle →
      ChStep g size cancel reader s { s with q := { s.q with pc := put s.q.pc g .takeWait }, at' := .taking }
  /-- line 86 of `Take` -/
  | pop (s e now x h') : s.at' = .taking → s.q.pc g = .takeDue e now → Heap.pop before s.q.heap = .ok (x, h') →
      ChStep g size cancel reader s
        { s with q := { s.q with heap := h', pc := put s.q.pc g .takeHave, delivered := s.q.delivered ++ [⟨e, now, true⟩] },
                 at' := .popped e }
  /-- lines 87-88 of `Take` -/
  | ret (s e) : s.at' = .popped e → s.q.pc g = .takeHave →
      ChStep g size cancel reader s { s with q := { s.q with holder := none, pc := put s.q.pc g .idle }, at' := .holding e }
  /-- `Take` gives up, and line 137 -/
  | giveUp (s dl) : s.at' = .taking → s.cancelled = true → cancel → s.q.pc g = .select dl →
      ChStep g size cancel reader s { s with q := { s.q with pc := put s.q.pc g .idle }, at' := .closed }
  | ctxCancel (s) : cancel → ChStep g size cancel reader s { s with cancelled := true }
  /-- line 140, the channel is not full -/
  | send (s e) : s.at' = .holding e → s.buf.length < size →
      ChStep g size cancel reader s { s with buf := s.buf ++ [e], at' := .loop }
  /-- line 140, the reader waits -/
  | handoff (s e) : reader → s.at' = .holding e → s.buf = [] →
      ChStep g size cancel reader s { s with received := s.received ++ [e], at' := .loop }
  | recv (s e b) : reader → s.buf = e :: b → ChStep g size cancel reader s { s with buf := b, received := s.received ++ [e] }

/-- `Channel` called on the queue `q0`. -/
def chInit (q0 : State V) : ChState V := ⟨q0, .loop, [], [], false⟩

inductive ChFrom (g size : Nat) (cancel reader : Prop) (s0 : ChState V) : ChState V → Prop
  | refl : ChFrom g size cancel reader s0 s0
  | step {s s'} : ChFrom g size cancel reader s0 s → ChStep g size cancel reader s s' → ChFrom g size cancel reader s0 s'

end Verif.DelayQueue
