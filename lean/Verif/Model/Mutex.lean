/-!
# Methods protected by one mutex, under every schedule

A shared object of type `σ` and one `sync.Mutex`.  Any number of goroutines (numbered by `Nat`) call a method of the form

    m.Lock(); defer m.Unlock(); now := time.Now(); ... ; return r

over and over.  The body is an arbitrary small-step relation on the object and the local state `L` of the call, so the
object is in general inconsistent while a goroutine holds the mutex.  The schedule is arbitrary, the clock advances
arbitrarily.  `sync.Mutex` is trusted: `Lock` returns only when nobody holds the mutex.
-/

namespace Verif.Mutex

/-- A method body: `start op now l` may be the local state of call `op` at clock reading `now`, `step` is one atomic
action, `final` gives the result when the body is done. -/
structure Body (σ : Type) (Op : Type) (L : Type) (ρ : Type) where
  start : Op → Int → L → Prop
  step : σ × L → σ × L → Prop
  final : L → Option ρ

/-- Where a goroutine is. -/
inductive Pc (Op : Type) (L : Type) (ρ : Type)
  | idle
  | waiting (op : Op)
  | locked (op : Op)
  | running (op : Op) (now : Int) (l : L)
  | returning (r : ρ)

/-- What can be seen from outside: calls and returns. -/
inductive Vis (Op : Type) (ρ : Type)
  | inv (tid : Nat) (op : Op)
  | res (tid : Nat) (r : ρ)
deriving DecidableEq

structure Config (σ : Type) (Op : Type) (L : Type) (ρ : Type) where
  obj : σ
  clock : Int
  holder : Option Nat
  pc : Nat → Pc Op L ρ
  hist : List (Vis Op ρ)

/-- Sets the position of one goroutine. -/
def put {α : Type} (f : Nat → α) (i : Nat) (a : α) : Nat → α := fun j => if j = i then a else f j

variable {σ Op L ρ : Type}

inductive Step (B : Body σ Op L ρ) : Config σ Op L ρ → Config σ Op L ρ → Prop
  /-- Time passes. -/
  | tick (c : Config σ Op L ρ) (d : Int) : 0 ≤ d → Step B c { c with clock := c.clock + d }
  /-- A goroutine calls the method. -/
  | call (c : Config σ Op L ρ) (i : Nat) (op : Op) : c.pc i = .idle →
      Step B c { c with pc := put c.pc i (.waiting op), hist := c.hist ++ [.inv i op] }
  /-- `Lock` succeeds. -/
  | lock (c : Config σ Op L ρ) (i : Nat) (op : Op) : c.pc i = .waiting op → c.holder = none →
      Step B c { c with pc := put c.pc i (.locked op), holder := some i }
  /-- The clock is read. -/
  | read (c : Config σ Op L ρ) (i : Nat) (op : Op) (l : L) : c.pc i = .locked op → B.start op c.clock l →
      Step B c { c with pc := put c.pc i (.running op c.clock l) }
  /-- One action of the body. -/
  | body (c : Config σ Op L ρ) (i : Nat) (op : Op) (now : Int) (l l' : L) (s' : σ) : c.pc i = .running op now l →
      B.step (c.obj, l) (s', l') → Step B c { c with obj := s', pc := put c.pc i (.running op now l') }
  /-- The deferred `Unlock`. -/
  | unlock (c : Config σ Op L ρ) (i : Nat) (op : Op) (now : Int) (l : L) (r : ρ) : c.pc i = .running op now l →
      B.final l = some r → Step B c { c with pc := put c.pc i (.returning r), holder := none }
  /-- The call returns. -/
  | ret (c : Config σ Op L ρ) (i : Nat) (r : ρ) : c.pc i = .returning r →
      Step B c { c with pc := put c.pc i .idle, hist := c.hist ++ [.res i r] }

/-- Everybody idle. -/
def init (s : σ) (t0 : Int) : Config σ Op L ρ := ⟨s, t0, none, fun _ => .idle, []⟩

/-- The configurations reachable from an object `s` at time `t0`. -/
inductive Reach (B : Body σ Op L ρ) (s : σ) (t0 : Int) : Config σ Op L ρ → Prop
  | init : Reach B s t0 (init s t0)
  | step {c c'} : Reach B s t0 c → Step B c c' → Reach B s t0 c'

/-! ## Linearizability -/

/-- The body executed alone. -/
inductive Star (B : Body σ Op L ρ) : σ × L → σ × L → Prop
  | refl (x) : Star B x x
  | tail {x y z} : Star B x y → B.step y z → Star B x z

/-- A sequential execution of the whole body. -/
def Exec (B : Body σ Op L ρ) (op : Op) (now : Int) (s s' : σ) (r : ρ) : Prop :=
  ∃ l l', B.start op now l ∧ Star B (s, l) (s', l') ∧ B.final l' = some r

/-- A call and its effect. -/
structure Done (Op ρ : Type) where
  op : Op
  now : Int
  res : ρ

/-- A sequence of calls executed one after the other. -/
inductive Seq (B : Body σ Op L ρ) : σ → List (Done Op ρ) → σ → Prop
  | nil (s) : Seq B s [] s
  | snoc {s s' s'' ds d} : Seq B s ds s' → Exec B d.op d.now s' s'' d.res → Seq B s (ds ++ [d]) s''

/-- A history with the moment added at which each call takes effect. -/
inductive Ev (Op ρ : Type)
  | inv (tid : Nat) (op : Op)
  | lin (tid : Nat) (d : Done Op ρ)
  | res (tid : Nat) (r : ρ)

namespace Ev

def tid : Ev Op ρ → Nat
  | inv i _ => i
  | lin i _ => i
  | res i _ => i

def vis : Ev Op ρ → Option (Vis Op ρ)
  | inv i op => some (.inv i op)
  | lin _ _ => none
  | res i r => some (.res i r)

def done : Ev Op ρ → Option (Done Op ρ)
  | lin _ d => some d
  | _ => none

end Ev

/-- The events of one goroutine come in the order: call `op`, effect of `op` with result `r`, return of `r`; and again. -/
inductive Phase (Op ρ : Type)
  | idle
  | called (op : Op)
  | effected (r : ρ)

/-- `Follows es ph`: the events `es` of one goroutine are in that order, and it is now in phase `ph`. -/
inductive Follows : List (Ev Op ρ) → Phase Op ρ → Prop
  | nil : Follows [] .idle
  | inv {es i} (op) : Follows es .idle → Follows (es ++ [.inv i op]) (.called op)
  | lin {es i} (d : Done Op ρ) : Follows es (.called d.op) → Follows (es ++ [.lin i d]) (.effected d.res)
  | res {es i} (r) : Follows es (.effected r) → Follows (es ++ [.res i r]) .idle

/-- `H` explains the visible history `h` of an object that was `s` at time `t0`, up to time `t1`: it is `h` with one effect
inserted between each call and its return; the effects, in their order, are a sequential execution; and the clock readings in
that order do not decrease, from `t0` to `t1`. -/
structure Explains (B : Body σ Op L ρ) (s : σ) (t0 t1 : Int) (h : List (Vis Op ρ)) (H : List (Ev Op ρ)) : Prop where
  vis : H.filterMap Ev.vis = h
  follows : ∀ i, ∃ ph, Follows (H.filter fun e => decide (e.tid = i)) ph
  seq : ∃ s', Seq B s (H.filterMap Ev.done) s'
  mono : (t0 :: ((H.filterMap Ev.done).map (·.now) ++ [t1])).Pairwise (· ≤ ·)

end Verif.Mutex
