import Verif.Model.Mutex

/-!
# Methods protected by one `sync.RWMutex`, under every schedule

As `Model/Mutex.lean`, but a call takes either the write lock or the read lock. `sync.RWMutex` is trusted: `Lock` returns only when nobody
holds the mutex, `RLock` only when no writer does. (The real one also lets waiting writers go before new readers; every run of it is a run
of this machine.) No clock is read.
-/

namespace Verif.RWMutex

open Mutex (Body Vis put)

/-- Where a goroutine is. -/
inductive Pc (Op : Type) (L : Type) (ρ : Type)
  | idle
  | waiting (op : Op)
  | running (op : Op) (l : L)
  | returning (r : ρ)

structure Config (σ : Type) (Op : Type) (L : Type) (ρ : Type) where
  obj : σ
  writer : Option Nat
  reader : Nat → Bool
  pc : Nat → Pc Op L ρ
  hist : List (Vis Op ρ)

variable {σ Op L ρ : Type}

/-- `reads op`: the method takes the read lock. -/
inductive Step (B : Body σ Op L ρ) (reads : Op → Bool) : Config σ Op L ρ → Config σ Op L ρ → Prop
  /-- A goroutine calls a method. -/
  | call (c : Config σ Op L ρ) (i : Nat) (op : Op) : c.pc i = .idle →
      Step B reads c { c with pc := put c.pc i (.waiting op), hist := c.hist ++ [.inv i op] }
  /-- `Lock` succeeds. -/
  | lock (c : Config σ Op L ρ) (i : Nat) (op : Op) (l : L) : c.pc i = .waiting op → reads op = false → c.writer = none →
      (∀ j, c.reader j = false) → B.start op 0 l →
      Step B reads c { c with pc := put c.pc i (.running op l), writer := some i }
  /-- `RLock` succeeds. -/
  | rlock (c : Config σ Op L ρ) (i : Nat) (op : Op) (l : L) : c.pc i = .waiting op → reads op = true → c.writer = none →
      B.start op 0 l → Step B reads c { c with pc := put c.pc i (.running op l), reader := put c.reader i true }
  /-- One action of the body. -/
  | body (c : Config σ Op L ρ) (i : Nat) (op : Op) (l l' : L) (s' : σ) : c.pc i = .running op l →
      B.step (c.obj, l) (s', l') → Step B reads c { c with obj := s', pc := put c.pc i (.running op l') }
  /-- The deferred `Unlock`. -/
  | unlock (c : Config σ Op L ρ) (i : Nat) (op : Op) (l : L) (r : ρ) : c.pc i = .running op l → reads op = false →
      B.final l = some r → Step B reads c { c with pc := put c.pc i (.returning r), writer := none }
  /-- The deferred `RUnlock`. -/
  | runlock (c : Config σ Op L ρ) (i : Nat) (op : Op) (l : L) (r : ρ) : c.pc i = .running op l → reads op = true →
      B.final l = some r → Step B reads c { c with pc := put c.pc i (.returning r), reader := put c.reader i false }
  /-- The call returns. -/
  | ret (c : Config σ Op L ρ) (i : Nat) (r : ρ) : c.pc i = .returning r →
      Step B reads c { c with pc := put c.pc i .idle, hist := c.hist ++ [.res i r] }

/-- Everybody idle. -/
def init (s : σ) : Config σ Op L ρ := ⟨s, none, fun _ => false, fun _ => .idle, []⟩

/-- The configurations reachable from an object `s`. -/
inductive Reach (B : Body σ Op L ρ) (reads : Op → Bool) (s : σ) : Config σ Op L ρ → Prop
  | init : Reach B reads s (init s)
  | step {c c'} : Reach B reads s c → Step B reads c c' → Reach B reads s c'

/-- Methods with the read lock do not change the object. -/
def ReadOnly (B : Body σ Op L ρ) (reads : Op → Bool) : Prop :=
  ∀ op, reads op = true → ∀ l0 s l s' l', B.start op 0 l0 → Mutex.Star B (s, l0) (s, l) → B.step (s, l) (s', l') → s' = s

/-- `H` explains the visible history `h` of an object that was `s`: it is `h` with one effect inserted between each call and its return,
and the effects, in their order, are a sequential execution leading to `s'`. -/
structure Explains (B : Body σ Op L ρ) (s s' : σ) (h : List (Vis Op ρ)) (H : List (Mutex.Ev Op ρ)) : Prop where
  vis : H.filterMap Mutex.Ev.vis = h
  follows : ∀ i, ∃ ph, Mutex.Follows (H.filter fun e => decide (e.tid = i)) ph
  seq : Mutex.Seq B s (H.filterMap Mutex.Ev.done) s'

end Verif.RWMutex
