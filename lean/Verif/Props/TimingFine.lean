import Verif.Proof.TimingFine
import Verif.Proof.TimingWheelOrd

/-!
# C140: the timing wheel when `add` is interrupted
-/

namespace Verif.TimingFine

open Mutex (put put_self put_ne)
open TimingWheel (Ref Bucket Wheel Timer Tw Start bucketAt curTime K)

/-! ## Concrete executions -/

/-- A list of actions; `Run` processes in order. -/
def execs (s : State) : List Act → Option State
  | [] => some s
  | a :: as =>
    if a = .advance ∧ inOrder s = false then none
    else
      match exec s a with
      | some s => execs s as
      | none => none

theorem execs_from {s0 s s' : State} {as : List Act} (h : From true s0 s) (e : execs s as = some s') : From true s0 s' := by
  induction as generalizing s with
  | nil => cases e; exact h
  | cons a as ih =>
    rw [execs] at e
    split at e
    · cases e
    · rename_i hg
      cases he : exec s a with
      | none => rw [he] at e; cases e
      | some s1 =>
        rw [he] at e
        refine ih (.step a h (fun _ ha => ?_) he) e
        by_contra hx
        exact hg ⟨ha, Bool.not_eq_true _ ▸ hx⟩

/-- From a new wheel. -/
def runs (tick size t0 : Int) (as : List Act) : Option State :=
  match TimingWheel.new tick size t0 with
  | .ok tw => execs (init tw t0) as
  | .error _ => none

theorem runs_reach {tick size t0 : Int} {as : List Act} {p : State → Bool} (h : (runs tick size t0 as).any p = true) :
    ∃ s, Reach true tick size t0 s ∧ p s = true := by
  unfold runs at h
  cases e : TimingWheel.new tick size t0 with
  | error x => rw [e] at h; cases h
  | ok tw =>
    rw [e] at h
    dsimp only at h
    rw [Option.any_eq_true] at h
    obtain ⟨s, h1, h2⟩ := h
    exact ⟨s, ⟨tw, e, execs_from .refl h1⟩, h2⟩

/-- One uninterrupted `add` into a bucket, by the `i`-th goroutine. -/
def whole (i : Nat) : List Act := List.replicate 5 (.act i)

/-- `Run` processes a bucket with `n` timers that are due. -/
def process (n : Nat) : List Act := [.advance, .lock] ++ (List.replicate n [.unlink, .move, .move, .move]).flatten ++ [.done]

/-- A goroutine enters the bucket for time 2 and is interrupted before it sets the expiration; the wheel goes on to time 3, and a timer for time 22 is
put into the same bucket; then the goroutine goes on. -/
def interrupted : List Act :=
  [.after 2, .act 0, .act 0, .after 2] ++ whole 1 ++ [.after 3] ++ whole 1 ++
  [.tick 4, .take] ++ process 2 ++ [.take] ++ process 1 ++ [.after 18] ++ whole 1 ++ [.act 0, .act 0, .act 0, .take]

/-- The hypotheses of the theorems below are met by an execution in which a goroutine is interrupted: the timer of the goroutine is in a bucket
that has no expiration yet. -/
example : ∃ s, Reach true 1 20 0 s ∧ ((bucketAt s.tw.wheels ⟨0, 2⟩).timers == [0] && (bucketAt s.tw.wheels ⟨0, 2⟩).exp == -1 &&
    s.adders == [⟨0, false, .inBucket ⟨0, 2⟩ 2⟩]) = true :=
  runs_reach (as := [.after 2, .act 0, .act 0]) (by decide +kernel)

/-! ## What holds however the goroutines are interrupted -/

variable {o : Bool} {tick t0 : Int} {W : Nat}

/-- The goroutine has not put its timer into a bucket, and has not given up either. -/
def inHand (s : State) (t : Nat) : Prop :=
  (∃ a ∈ s.adders, a.t = t ∧ ((∃ l, a.pc = .enter l) ∨ (∃ l c, a.pc = .loaded l c) ∨ a.pc = .returned false)) ∨
  ∃ r, (∃ l, s.run = .moving r t (.enter l)) ∨ (∃ l c, s.run = .moving r t (.loaded l c)) ∨ s.run = .moving r t (.returned false)

theorem holds_iff {pc : Pc} : holds pc = true ↔ (∃ l, pc = .enter l) ∨ (∃ l c, pc = .loaded l c) ∨ pc = .returned false := by
  cases pc with
  | returned ok => cases ok <;> simp [holds]
  | enter l => simp [holds]
  | loaded l c => simp [holds]
  | inBucket r e => simp [holds]
  | pushing r => simp [holds]

theorem inHand_iff {s : State} {t : Nat} : inHand s t ↔ 0 < (jobs s).countP (fun j => j.1 == t && holds j.2) := by
  rw [List.countP_pos_iff]
  unfold inHand jobs
  constructor
  · rintro (⟨a, ha, rfl, hp⟩ | ⟨r, hp⟩)
    · exact ⟨(a.t, a.pc), by simp only [List.mem_append, List.mem_map]; exact .inl ⟨a, ha, rfl⟩, by simp [holds_iff.2 hp]⟩
    · obtain ⟨pc, h1, h2⟩ : ∃ pc, s.run = .moving r t pc ∧ holds pc = true := by
        rcases hp with ⟨l, hp⟩ | ⟨l, c, hp⟩ | hp <;> exact ⟨_, hp, rfl⟩
      exact ⟨(t, pc), by rw [h1]; simp [runJob], by simp [h2]⟩
  · rintro ⟨⟨t', pc⟩, hj, hp⟩
    simp only [Bool.and_eq_true, beq_iff_eq] at hp
    obtain ⟨rfl, hp⟩ := hp
    rcases List.mem_append.1 hj with hj | hj
    · obtain ⟨a, ha, hj⟩ := List.mem_map.1 hj
      cases hj
      exact .inl ⟨a, ha, rfl, holds_iff.1 hp⟩
    · cases hr : s.run with
      | moving r t pc' =>
        rw [hr] at hj
        simp only [runJob, List.mem_singleton, Prod.mk.injEq] at hj
        obtain ⟨rfl, rfl⟩ := hj
        refine .inr ⟨r, ?_⟩
        rcases holds_iff.1 hp with ⟨l, hp⟩ | ⟨l, c, hp⟩ | hp
        · exact .inl ⟨l, by rw [hp]⟩
        · exact .inr (.inl ⟨l, c, by rw [hp]⟩)
        · exact .inr (.inr (by rw [hp]))
      | idle => rw [hr] at hj; cases hj
      | advanced r => rw [hr] at hj; cases hj
      | flushing r => rw [hr] at hj; cases hj

/-- **C140** No timer is lost or doubled: each scheduling was started, stopped or dropped, or the timer is in exactly one place, a bucket or
the hand of one goroutine. -/
theorem C140_conserved (hk : 0 < tick) (hW : 1 < W) (ht : 0 ≤ t0) {s : State} (h : Reach o tick W t0 s) (t : Nat) :
    ∃ n, s.scheduled.count t = (s.started.map (·.id)).count t + s.stopped.count t + s.dropped.count t + n ∧
      ((((∃ r, (s.tw.timer t).bucket = some r) ∧ ¬ inHand s t ∨ (s.tw.timer t).bucket = none ∧ inHand s t) ∧ n = 1) ∨
        ((s.tw.timer t).bucket = none ∧ ¬ inHand s t ∧ n = 0)) := by
  have hi := reach_inv hk hW ht h
  have hl := hi.law t
  have h1 := hi.tw.one t
  refine ⟨place s.tw (jobs s) t, ?_, ?_⟩
  · rw [hl]
    simp only [List.count_eq_countP, List.countP_map]
    rfl
  · rw [inHand_iff]
    unfold place at *
    cases hb : (s.tw.timer t).bucket with
    | none =>
      rw [hb] at h1
      simp only [Option.isSome_none, Bool.toNat_false, Nat.zero_add, reduceCtorEq, exists_false, false_and, true_and, false_or] at h1 ⊢
      omega
    | some r =>
      rw [hb] at h1
      simp only [Option.isSome_some, Bool.toNat_true, Option.some.injEq, exists_eq', true_and, reduceCtorEq, false_and, or_false] at h1 ⊢
      omega

/-- **C140** A timer is started at most as often as it was scheduled, a timer of `AfterFunc` at most once, and not if it was stopped. -/
theorem C140_at_most_once (hk : 0 < tick) (hW : 1 < W) (ht : 0 ≤ t0) {s : State} (h : Reach o tick W t0 s) (t : Nat) :
    (s.started.map (·.id)).count t ≤ s.scheduled.count t ∧
      ((s.tw.timer t).repeats = false → (s.started.map (·.id)).count t + s.stopped.count t ≤ 1) := by
  obtain ⟨n, h1, -⟩ := C140_conserved hk hW ht h t
  refine ⟨by omega, fun hr => ?_⟩
  have := (reach_inv hk hW ht h).once t hr
  omega

/-- **C140** The bucket a timer points to is the only one that has it, once; and it is the slot of its expiration. -/
theorem C140_one_bucket (hk : 0 < tick) (hW : 1 < W) (ht : 0 ≤ t0) {s : State} (h : Reach o tick W t0 s) (t : Nat) (r : Ref) :
    (bucketAt s.tw.wheels r).timers.count t = (if (s.tw.timer t).bucket = some r then 1 else 0) ∧
    ((s.tw.timer t).bucket = some r → (r.slot : Int) = (s.tw.timer t).exp / (tick * W ^ r.level) % W) := by
  have hi := (reach_inv hk hW ht h).tw
  rw [List.Nodup.count (hi.nodup r)]
  refine ⟨?_, fun hb => hi.right t r ((hi.mem t r).1 hb)⟩
  by_cases hb : (s.tw.timer t).bucket = some r
  · rw [if_pos hb, if_pos ((hi.mem t r).1 hb)]
  · rw [if_neg hb, if_neg fun hx => hb ((hi.mem t r).2 hx)]

theorem mem_jobs {s : State} {t : Nat} {pc : Pc} (h : (t, pc) ∈ jobs s) : (∃ a ∈ s.adders, a.pc = pc) ∨ ∃ r t, s.run = .moving r t pc := by
  unfold jobs at h
  rcases List.mem_append.1 h with h | h
  · obtain ⟨a, ha, h⟩ := List.mem_map.1 h
    cases h
    exact .inl ⟨a, ha, rfl⟩
  · cases hr : s.run with
    | moving r t pc' =>
      rw [hr] at h
      simp only [runJob, List.mem_singleton, Prod.mk.injEq] at h
      exact .inr ⟨r, t, by rw [h.2]⟩
    | idle => rw [hr] at h; cases h
    | advanced r => rw [hr] at h; cases h
    | flushing r => rw [hr] at h; cases h

theorem mem_held {rn : Run} {r : Ref} (h : r ∈ held rn) : rn = .advanced r ∨ rn = .flushing r ∨ ∃ t pc, rn = .moving r t pc := by
  cases rn with
  | idle => cases h
  | advanced r' => simp only [held, List.mem_singleton] at h; exact .inl (by rw [h])
  | flushing r' => simp only [held, List.mem_singleton] at h; exact .inr (.inl (by rw [h]))
  | moving r' t pc => simp only [held, List.mem_singleton] at h; exact .inr (.inr ⟨t, pc, by rw [h]⟩)

/-- **C140** No bucket with timers is forgotten: it is in the delay queue, on its way to `Run` or at `Run`, or a goroutine in `add` is about to
set its expiration or to push it. -/
theorem C140_registered (hk : 0 < tick) (hW : 1 < W) (ht : 0 ≤ t0) {s : State} (h : Reach o tick W t0 s) {r : Ref}
    (hr : (bucketAt s.tw.wheels r).timers ≠ []) :
    r ∈ s.tw.queue ∨ r ∈ s.chan ∨ (s.run = .advanced r ∨ s.run = .flushing r ∨ ∃ t pc, s.run = .moving r t pc) ∨
    (∃ a ∈ s.adders, a.pc = .pushing r ∨ ∃ e, a.pc = .inBucket r e) ∨
    ∃ r' t, s.run = .moving r' t (.pushing r) ∨ ∃ e, s.run = .moving r' t (.inBucket r e) := by
  have hi := (reach_inv hk hW ht h).tw
  rcases hi.full r hr with he | ⟨t, e, hj⟩
  · rcases hi.reg r he with h1 | h1 | ⟨t, hj⟩
    · exact .inl h1
    · rcases List.mem_append.1 h1 with h1 | h1
      · exact .inr (.inl h1)
      · exact .inr (.inr (.inl (mem_held h1)))
    · rcases mem_jobs hj with ⟨a, ha, hp⟩ | ⟨r', t', hp⟩
      · exact .inr (.inr (.inr (.inl ⟨a, ha, .inl hp⟩)))
      · exact .inr (.inr (.inr (.inr ⟨r', t', .inl hp⟩)))
  · rcases mem_jobs hj with ⟨a, ha, hp⟩ | ⟨r', t', hp⟩
    · exact .inr (.inr (.inr (.inl ⟨a, ha, .inr ⟨e, hp⟩⟩)))
    · exact .inr (.inr (.inr (.inr ⟨r', t', .inr ⟨e, hp⟩⟩)))

/-! ## The executions of Model/TimingWheel -/

/-- **C140** Every execution in which `add` is not interrupted, in order or not, is one of these executions: this model only has more. -/
theorem C140_covers {s : TimingWheel.State} :
    (∀ {k}, TimingWheel.Reach k tick W t0 s → Reach false tick W t0 (embed s)) ∧
    (TimingWheel.Reach TimingWheel.inOrder tick W t0 s → Reach true tick W t0 (embed s)) := by
  have main : ∀ (o : Bool) (k : TimingWheel.State → Ref → Prop),
      (o = true → ∀ s r rest, s.chan = r :: rest → k s r → inOrder (embed s) = true) → TimingWheel.Reach k tick W t0 s →
      Reach o tick W t0 (embed s) := by
    rintro o k hk ⟨tw, e, f⟩
    refine ⟨tw, e, ?_⟩
    induction f with
    | refl => exact .refl
    | step _ st ih => exact embed_step hk ih st
  refine ⟨fun h => main false _ (fun h => by cases h) h, fun h => main true _ ?_ h⟩
  intro _ s r rest hc hio
  unfold inOrder
  rw [show (embed s).chan = r :: rest from hc]
  dsimp only
  rw [List.all_eq_true]
  intro x hx
  rw [decide_eq_true_eq]
  exact hio x (by rw [hc]; exact List.mem_append.1 hx)

/-! ## What an interruption breaks -/

/-- **C140** If `Run` is to put a timer back into the bucket it is processing, it waits forever for the mutex it holds itself. -/
theorem C140_blocked (hk : 0 < tick) (hW : 1 < W) (ht : 0 ≤ t0) {s : State} (h : Reach o tick W t0 s) {r : Ref} {t l : Nat} {cur : Int}
    (hr : s.run = .moving r t (.loaded l cur)) (h1 : cur + tick * W ^ l ≤ (s.tw.timer t).exp)
    (h2 : (s.tw.timer t).exp < cur + tick * W ^ (l + 1)) (h3 : r.level = l)
    (h4 : (r.slot : Int) = (s.tw.timer t).exp / (tick * W ^ l) % W) {s' : State} (f : From o s s') : s'.run = s.run := by
  have hi := reach_inv hk hW ht h
  have b : Blocked tick W s r t l cur := ⟨hr, h1, h2, h3, h4⟩
  rw [(blocked_from hi b f).run, hr]

/-- **C140** `Run` can come to wait forever for a mutex that it holds itself, though it processes the buckets in order: after a goroutine
was interrupted between entering its timer into a bucket and setting the bucket's expiration. -/
theorem C140_deadlock_refuted : ∃ s, Reach true 1 20 0 s ∧ s.run = .moving ⟨0, 2⟩ 3 (.loaded 0 3) ∧
    ∀ s', From true s s' → s'.run = .moving ⟨0, 2⟩ 3 (.loaded 0 3) := by
  obtain ⟨s, h, hp⟩ := runs_reach (tick := 1) (size := 20) (t0 := 0) (as := interrupted ++ [.advance, .lock, .unlink, .move])
    (p := fun s => decide (s.run = .moving ⟨0, 2⟩ 3 (.loaded 0 3)) && decide ((s.tw.timer 3).exp = 22)) (by decide +kernel)
  simp only [Bool.and_eq_true, decide_eq_true_eq] at hp
  obtain ⟨h1, h2⟩ := hp
  refine ⟨s, h, h1, fun s' f => ?_⟩
  rw [← h1]
  exact C140_blocked (W := 20) (by omega) (by omega) (by omega) h h1 (by rw [h2]; decide) (by rw [h2]; decide) rfl (by rw [h2]; decide) f

/-- **C140** In the same way a timer can be started long before its time (here 18 ticks early), in order. -/
theorem C140_early_refuted : ∃ s, Reach true 1 20 0 s ∧ ∃ x ∈ s.started, x.exp = 22 ∧ x.clock = 4 := by
  obtain ⟨s, h, hp⟩ := runs_reach (tick := 1) (size := 20) (t0 := 0)
    (as := interrupted ++ [.after 18] ++ List.replicate 3 (.act 0) ++ [.advance, .lock, .unlink, .move, .move, .move])
    (p := fun s => s.started.any (fun x => decide (x.exp = 22) && decide (x.clock = 4))) (by decide +kernel)
  rw [List.any_eq_true] at hp
  obtain ⟨x, hx, h3⟩ := hp
  simp only [Bool.and_eq_true, decide_eq_true_eq] at h3
  exact ⟨s, h, x, hx, h3.1, h3.2⟩

end Verif.TimingFine
