import Verif.Model.Hash
import Verif.Model.Mutex

/-!
# `Hash` of common/hash/hash.go used by several goroutines

`Hash` has no lock, and `Sum64` uses the one `maphash.Hash` in three steps: `Reset`, `Write`, `Sum64`. Each of the three is taken to be atomic
(`maphash.Hash` says that it is not safe for concurrent use, so this is the best case).
-/

namespace Verif.HashConc

open Hash (MapHash reset write)
open Mutex (put)

abbrev Bytes8 := List (BitVec 8)

/-- Where a goroutine is in `Sum64`, hash.go:15-22. -/
inductive Pc
  | idle
  /-- before hash.go:16 -/
  | called (b : Bytes8)
  /-- before hash.go:17 -/
  | resetDone (b : Bytes8)
  /-- before hash.go:21 -/
  | writeDone (b : Bytes8)

/-- What a `Sum64` has returned; `wrote` are the arguments that all calls have written until then, in order. -/
structure Answer where
  arg : Bytes8
  result : BitVec 64
  wrote : List Bytes8

structure State (Seed : Type) where
  h : MapHash Seed
  pc : Nat → Pc
  wrote : List Bytes8
  answers : List Answer

/-- The goroutine `i` goes on. With `excl` only one goroutine is in `Sum64` at a time. -/
inductive Step {Seed : Type} (F : Seed → Bytes8 → BitVec 64) (excl : Prop) (i : Nat) : State Seed → State Seed → Prop
  /-- `Sum64`, hash.go:15, or `Sum64String`, hash.go:24-26 -/
  | call (s b) : s.pc i = .idle → (excl → ∀ j, s.pc j = .idle) → Step F excl i s { s with pc := put s.pc i (.called b) }
  /-- hash.go:16 -/
  | reset (s b) : s.pc i = .called b → Step F excl i s { s with h := reset s.h, pc := put s.pc i (.resetDone b) }
  /-- hash.go:17-20; `Write` does not fail -/
  | write (s b) : s.pc i = .resetDone b →
      Step F excl i s { s with h := (write s.h b).1, pc := put s.pc i (.writeDone b), wrote := s.wrote ++ [b] }
  /-- hash.go:21 -/
  | sum (s b) : s.pc i = .writeDone b →
      Step F excl i s { s with pc := put s.pc i .idle, answers := s.answers ++ [⟨b, F s.h.seed s.h.written, s.wrote⟩] }

/-- After `New`, hash.go:9-13. -/
def init {Seed : Type} (seed : Seed) : State Seed := ⟨⟨seed, []⟩, fun _ => .idle, [], []⟩

inductive Reach {Seed : Type} (F : Seed → Bytes8 → BitVec 64) (excl : Prop) (seed : Seed) : State Seed → Prop
  | init : Reach F excl seed (init seed)
  | step {s s'} (i) : Reach F excl seed s → Step F excl i s s' → Reach F excl seed s'

end Verif.HashConc
