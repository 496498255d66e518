import Verif.Model.SafeMap

/-!
# The locks of the map, help/utils/maps.go:12-106, when callbacks use the map themselves

Only the locks are modelled here: a method is the sequence of its operations on the `sync.RWMutex`. What is done to the map in between
is Model/SafeMap. `sync.RWMutex` is modelled with its waiting writers: `Lock` first keeps new readers out and then waits for the present
ones. Which of several waiting goroutines goes first is left open.

A callback that panics (or a key that cannot be hashed) makes the rest of the callbacks not happen; the deferred unlocks are done all the
same. So a range whose callback panics is a range with fewer calls in its callbacks.
-/

namespace Verif.SafeMapLock

open Mutex (put)

/-- An operation on the mutex; `work` is anything else. -/
inductive Instr
  | rlock
  | runlock
  | lock
  | unlock
  | work
deriving DecidableEq, Repr

/-- A call of a method. The calls inside a range are those that the callback makes, for all pairs of the map one after another. -/
inductive Call
  /-- `Get`, `Len`, maps.go:31-35, 81-85 -/
  | read
  /-- `Set`, `TestAndSet`, `Del`, maps.go:42-60, 67-71 -/
  | write
  /-- `RLockRange`, maps.go:96-100 -/
  | rrange (calls : List Call)
  /-- `LockRange`, maps.go:102-106 -/
  | wrange (calls : List Call)

mutual
/-- The operations of a call. -/
def code : Call → List Instr
  | .read => [.rlock, .work, .runlock]
  | .write => [.lock, .work, .unlock]
  | .rrange cs => [.rlock] ++ codes cs ++ [.runlock]
  | .wrange cs => [.lock] ++ codes cs ++ [.unlock]
/-- The operations of several calls. -/
def codes : List Call → List Instr
  | [] => []
  | c :: cs => code c ++ codes cs
end

/-- The method as a call; the callbacks of the ranges make the calls `cs`. -/
def callOf (cs : List Call) : SafeMap.Op → Call
  | .get _ => .read
  | .len => .read
  | .set _ _ => .write
  | .testAndSet _ _ => .write
  | .del _ => .write
  | .rLockRange => .rrange cs
  | .lockRange => .wrange cs

/-- The writer: `waits` has announced itself, `holds` has the lock. -/
inductive Writer
  | none
  | waits (i : Nat)
  | holds (i : Nat)
deriving DecidableEq, Repr

structure State where
  /-- what each goroutine still has to do -/
  rest : Nat → List Instr
  writer : Writer
  /-- how many read locks a goroutine has -/
  readers : Nat → Nat

/-- The goroutine `i` goes on. -/
inductive Step (i : Nat) : State → State → Prop
  | work (s rest) : s.rest i = .work :: rest → Step i s { s with rest := put s.rest i rest }
  | rlock (s rest) : s.rest i = .rlock :: rest → s.writer = .none →
      Step i s { s with rest := put s.rest i rest, readers := put s.readers i (s.readers i + 1) }
  | runlock (s rest) : s.rest i = .runlock :: rest → s.readers i ≠ 0 →
      Step i s { s with rest := put s.rest i rest, readers := put s.readers i (s.readers i - 1) }
  /-- `Lock`: new readers have to wait from now on. -/
  | announce (s rest) : s.rest i = .lock :: rest → s.writer = .none → Step i s { s with writer := .waits i }
  /-- `Lock`: the last reader has gone. -/
  | lock (s rest) : s.rest i = .lock :: rest → s.writer = .waits i → (∀ j, s.readers j = 0) →
      Step i s { s with rest := put s.rest i rest, writer := .holds i }
  | unlock (s rest) : s.rest i = .unlock :: rest → s.writer = .holds i →
      Step i s { s with rest := put s.rest i rest, writer := .none }

/-- Nobody has the lock; the goroutines are about to make their calls. -/
def init (p : Nat → List Call) : State := ⟨fun i => codes (p i), .none, fun _ => 0⟩

inductive From (s0 : State) : State → Prop
  | refl : From s0 s0
  | step {s s'} (i) : From s0 s → Step i s s' → From s0 s'

end Verif.SafeMapLock
