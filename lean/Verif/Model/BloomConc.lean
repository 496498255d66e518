import Verif.Model.Bloom
import Verif.Model.Mutex

/-!
# `Filter` of common/filter/bloom/bloom.go used by several goroutines

The filter has no lock. `f.bits[index] |= 1 << offset` is a read and a write of a word; other goroutines may run between them. Reads and writes of one
word are taken to be atomic and in one order (there is no such promise for data races in Go, so this is the best case).
-/

namespace Verif.BloomConc

open Bloom
open Mutex (put)

/-- Where a goroutine is. -/
inductive Pc
  | idle
  /-- in `Add`, before the next seed, bloom.go:44 -/
  | add (hash : BitVec 64) (rest : List (BitVec 64))
  /-- in `Add`, the word has been read, bloom.go:46 -/
  | loaded (hash : BitVec 64) (index offset word : BitVec 64) (rest : List (BitVec 64))
  /-- in `Contains`, before the next seed, bloom.go:64; `before` are the hashes whose `Add` had returned when `Contains` was called -/
  | look (hash : BitVec 64) (before : List (BitVec 64)) (rest : List (BitVec 64))

/-- Is it in `Add`? -/
def Pc.adding : Pc → Prop
  | .add _ _ => True
  | .loaded _ _ _ _ _ => True
  | _ => False

/-- What a `Contains` has returned, with what had been added before it was called, and what `Add` had been called with when it returned. -/
structure Answer where
  hash : BitVec 64
  before : List (BitVec 64)
  started : List (BitVec 64)
  result : Bool

structure State where
  f : Filter
  pc : Nat → Pc
  /-- the hashes `Add` has been called with -/
  started : List (BitVec 64)
  /-- the hashes whose `Add` has returned -/
  added : List (BitVec 64)
  answers : List Answer

/-- The goroutine `i` goes on. With `excl` only one goroutine is in `Add` at a time. -/
inductive Step (excl : Prop) (i : Nat) : State → State → Prop
  /-- `Add`, bloom.go:43 -/
  | callAdd (s h) : s.pc i = .idle → (excl → ∀ j, ¬ (s.pc j).adding) →
      Step excl i s { s with pc := put s.pc i (.add h s.f.seeds), started := s.started ++ [h] }
  /-- bloom.go:45-46, the read -/
  | load (s h seed rest index offset word) : s.pc i = .add h (seed :: rest) → pos s.f h seed = .ok (index, offset) →
      Go.idx s.f.bits index.toNat = .ok word → Step excl i s { s with pc := put s.pc i (.loaded h index offset word rest) }
  /-- bloom.go:46, the write -/
  | store (s h index offset word rest bits) : s.pc i = .loaded h index offset word rest →
      Go.set s.f.bits index.toNat (word ||| 1#64 <<< offset) = .ok bits →
      Step excl i s { s with f := { s.f with bits := bits }, pc := put s.pc i (.add h rest) }
  | addDone (s h) : s.pc i = .add h [] → Step excl i s { s with pc := put s.pc i .idle, added := s.added ++ [h] }
  /-- `Contains`, bloom.go:63 -/
  | callContains (s h) : s.pc i = .idle → Step excl i s { s with pc := put s.pc i (.look h s.added s.f.seeds) }
  /-- bloom.go:65-70 -/
  | absent (s h before seed rest index offset word) : s.pc i = .look h before (seed :: rest) → pos s.f h seed = .ok (index, offset) →
      Go.idx s.f.bits index.toNat = .ok word → (word &&& 1#64 <<< offset) ≠ 1#64 <<< offset →
      Step excl i s { s with pc := put s.pc i .idle, answers := s.answers ++ [⟨h, before, s.started, false⟩] }
  | present (s h before seed rest index offset word) : s.pc i = .look h before (seed :: rest) → pos s.f h seed = .ok (index, offset) →
      Go.idx s.f.bits index.toNat = .ok word → (word &&& 1#64 <<< offset) = 1#64 <<< offset →
      Step excl i s { s with pc := put s.pc i (.look h before rest) }
  /-- bloom.go:72 -/
  | lookDone (s h before) : s.pc i = .look h before [] →
      Step excl i s { s with pc := put s.pc i .idle, answers := s.answers ++ [⟨h, before, s.started, true⟩] }

/-- A filter that nobody uses yet. -/
def init (f : Filter) : State := ⟨f, fun _ => .idle, [], [], []⟩

inductive Reach (excl : Prop) (f : Filter) : State → Prop
  | init : Reach excl f (init f)
  | step {s s'} (i) : Reach excl f s → Step excl i s s' → Reach excl f s'

end Verif.BloomConc
