import Verif.Proof.TimingPaced
import Verif.Props.TimingFine

/-!
# C161: the timing wheel when `add` is interrupted, but not across a step of the wheel

`C140_deadlock_refuted` and `C140_early_refuted` show what goes wrong when the wheel turns while a goroutine is inside `add`. Here the
goroutines are interrupted at every step of `add`, by each other, by `Run` putting timers back and by `Stop`, and only this is excluded: that `Run`
takes the next bucket while a goroutine is inside `add`.
-/

namespace Verif.TimingFine

open Mutex (put put_self put_ne)
open TimingWheel (Ref Bucket Wheel Timer Tw Start bucketAt curTime K Wf fl less newWheel truncate quo rem advance setBucket)

/-- The states reachable from a new wheel. -/
def PacedReach (tick wheelSize t0 : Int) (s : State) : Prop := ∃ tw, TimingWheel.new tick wheelSize t0 = .ok tw ∧ Paced (init tw t0) s

/-- These are executions of C140. -/
theorem PacedReach.reach {tick W t0 : Int} {s : State} (h : PacedReach tick W t0 s) : Reach true tick W t0 s := by
  obtain ⟨tw, e, h⟩ := h
  refine ⟨tw, e, ?_⟩
  induction h with
  | refl => exact .refl
  | step a _ hg e ih => exact .step a ih (fun _ ha => (hg ha).1) e

variable {tick t0 : Int} {W : Nat}

/-- **C161** No task is started early: its expiration is less than a tick after the time of the wheel, which is not after the time of the clock. -/
theorem C161_not_early (hk : 0 < tick) (hW : 1 < W) (ht : 0 ≤ t0) {s : State} (h : PacedReach tick W t0 s) {x : Start} (hx : x ∈ s.started) :
    x.exp < x.cur + tick ∧ x.cur ≤ x.clock := by
  obtain ⟨tw, e, h⟩ := h
  exact ((paced_good hk hW ht e h).starts x hx).2

/-- **C161** No goroutine inside `add` ever waits for the mutex of a bucket that `Run` is processing: it can always go on. -/
theorem C161_no_waiting (hk : 0 < tick) (hW : 1 < W) (ht : 0 ≤ t0) {s : State} (h : PacedReach tick W t0 s) {i : Nat} (hi : i < s.adders.length) :
    ∃ s', exec s (.act i) = some s' := by
  obtain ⟨tw, e, h⟩ := h
  have hg := paced_good hk hW ht e h
  obtain ⟨a, ha⟩ : ∃ a, s.adders[i]? = some a := ⟨_, List.getElem?_eq_getElem hi⟩
  obtain ⟨t, runs, pc⟩ := a
  obtain ⟨l1, l2, h1, -⟩ := set_eq (b := (⟨t, runs, pc⟩ : Adder)) ha
  have hj : jobs s = l1.map (fun a => (a.t, a.pc)) ++ (t, pc) :: (l2.map (fun a => (a.t, a.pc)) ++ runJob s.run) := by
    unfold jobs
    rw [h1]
    simp
  have ht := hg.inv.tw
  have hf := hg.ft
  rw [hj] at ht hf
  obtain ⟨tw', pc', he⟩ := addStep_free ht hf hg.lk
  rw [exec, ha]
  cases pc with
  | returned ok => cases ok <;> cases runs <;> exact ⟨_, rfl⟩
  | enter l => dsimp only; rw [he]; exact ⟨_, rfl⟩
  | loaded l c => dsimp only; rw [he]; exact ⟨_, rfl⟩
  | inBucket r e' => dsimp only; rw [he]; exact ⟨_, rfl⟩
  | pushing r => dsimp only; rw [he]; exact ⟨_, rfl⟩

/-- **C161** `Run` never waits forever: processing a bucket it can always go on, by one of its own steps. -/
theorem C161_run_goes_on (hk : 0 < tick) (hW : 1 < W) (ht : 0 ≤ t0) {s : State} (h : PacedReach tick W t0 s) (hr : s.run ≠ .idle) :
    ∃ a ∈ [Act.lock, .unlink, .move, .done], ∃ s', exec s a = some s' := by
  obtain ⟨tw, e, h⟩ := h
  have hg := paced_good hk hW ht e h
  cases hs : s.run with
  | idle => exact absurd hs hr
  | advanced r => exact ⟨.lock, by simp, by rw [exec, hs]; exact ⟨_, rfl⟩⟩
  | flushing r =>
    cases hb : (bucketAt s.tw.wheels r).timers with
    | nil => exact ⟨.done, by simp, by rw [exec, hs]; dsimp only; rw [if_pos hb]; exact ⟨_, rfl⟩⟩
    | cons t ts => exact ⟨.unlink, by simp, by rw [exec, hs]; dsimp only; rw [hb]; exact ⟨_, rfl⟩⟩
  | moving r t pc =>
    refine ⟨.move, by simp, ?_⟩
    have hj : jobs s = s.adders.map (fun a => (a.t, a.pc)) ++ (t, pc) :: [] := by
      unfold jobs
      rw [hs]
      rfl
    have hlk : ∀ x, some r = some x → _ := fun x hx => hg.lk x (by rw [hs]; exact hx)
    have ht := hg.inv.tw
    have hf := hg.ft
    rw [hj] at ht hf
    obtain ⟨tw', pc', he⟩ := addStep_free ht hf hlk
    rw [exec, hs]
    cases pc with
    | returned ok => cases ok <;> exact ⟨_, rfl⟩
    | enter l => dsimp only; rw [he]; exact ⟨_, rfl⟩
    | loaded l c => dsimp only; rw [he]; exact ⟨_, rfl⟩
    | inBucket r e' => dsimp only; rw [he]; exact ⟨_, rfl⟩
    | pushing r => dsimp only; rw [he]; exact ⟨_, rfl⟩

/-- **C161** No timer is forgotten: when nobody is inside `add`, `Run` is idle, nothing is on its way to it and nothing can be taken from the queue,
the timers in the buckets have their expiration before them. -/
theorem C161_none_late (hk : 0 < tick) (hW : 1 < W) (ht : 0 ≤ t0) {s : State} (h : PacedReach tick W t0 s) (hn : nobodyAdds s = true)
    (hr : s.run = .idle) (hc : s.chan = []) (htk : exec s .take = none) {t : Nat} {r : Ref} (hb : (s.tw.timer t).bucket = some r) :
    s.clock ≤ (s.tw.timer t).exp := by
  obtain ⟨tw, e, h⟩ := h
  have hg := paced_good hk hW ht e h
  have hmem := (hg.inv.tw.mem t r).1 hb
  have hjobs : ∀ j ∈ jobs s, j.2 = .enter 0 ∨ ∃ ok, j.2 = .returned ok := by
    intro j hj
    unfold jobs at hj
    rw [hr] at hj
    simp only [runJob, List.append_nil, List.mem_map] at hj
    obtain ⟨a, ha, rfl⟩ := hj
    unfold nobodyAdds at hn
    rw [List.all_eq_true] at hn
    have := hn a ha
    dsimp only
    split at this
    · rename_i e; exact .inl e
    · rename_i ok e; exact .inr ⟨ok, e⟩
    · cases this
  have hx : (bucketAt s.tw.wheels r).exp ≠ -1 := by
    rcases hg.inv.tw.full r (List.ne_nil_of_mem hmem) with h1 | ⟨t', e, h1⟩
    · exact h1
    · rcases hjobs _ h1 with h2 | ⟨ok, h2⟩ <;> cases h2
  have hq : r ∈ s.tw.queue := by
    rcases hg.inv.tw.reg r hx with h1 | h1 | ⟨t', h1⟩
    · exact h1
    · rw [hr, hc] at h1; cases h1
    · rcases hjobs _ h1 with h2 | ⟨ok, h2⟩ <;> cases h2
  have hle : (bucketAt s.tw.wheels r).exp ≤ (s.tw.timer t).exp := by
    rw [← (hg.ft.timers r t hmem).inj hg.ft.wf.k hg.ft.wpos (hg.ft.exps r hx)]
    exact TimingWheel.fl_le (hg.ft.wf.kp r.level)
  cases h0 : s.tw.queue[0]? with
  | none =>
    rw [List.getElem?_eq_none_iff] at h0
    have := List.length_pos_of_mem hq
    omega
  | some r0 =>
    have hmin := TimingWheel.root_least s.tw.wheels hg.ft.heap h0 r hq
    rw [exec, h0] at htk
    dsimp only at htk
    split at htk
    · obtain ⟨q, e1, -⟩ := TimingWheel.pop_total s.tw.wheels h0
      rw [e1] at htk
      cases htk
    · omega

/-! ## An execution -/

/-- A list of actions; `Run` processes in order and takes a bucket only when nobody is inside `add`. -/
def pacedExecs (s : State) : List Act → Option State
  | [] => some s
  | a :: as =>
    if a = .advance ∧ (inOrder s && nobodyAdds s) = false then none
    else
      match exec s a with
      | some s => pacedExecs s as
      | none => none

theorem pacedExecs_from {s0 s s' : State} {as : List Act} (h : Paced s0 s) (e : pacedExecs s as = some s') : Paced s0 s' := by
  induction as generalizing s with
  | nil => cases e; exact h
  | cons a as ih =>
    rw [pacedExecs] at e
    split at e
    · cases e
    · rename_i hg
      cases he : exec s a with
      | none => rw [he] at e; cases e
      | some s1 =>
        rw [he] at e
        refine ih (.step a h (fun ha => ?_) he) e
        rw [← Bool.and_eq_true]
        by_contra hx
        exact hg ⟨ha, by simpa using hx⟩

def pacedRuns (tick size t0 : Int) (as : List Act) : Option State :=
  match TimingWheel.new tick size t0 with
  | .ok tw => pacedExecs (init tw t0) as
  | .error _ => none

theorem pacedRuns_reach {tick size t0 : Int} {as : List Act} {p : State → Bool} (h : (pacedRuns tick size t0 as).any p = true) :
    ∃ s, PacedReach tick size t0 s ∧ p s = true := by
  unfold pacedRuns at h
  cases e : TimingWheel.new tick size t0 with
  | error x => rw [e] at h; cases h
  | ok tw =>
    rw [e] at h
    dsimp only at h
    rw [Option.any_eq_true] at h
    obtain ⟨s, h1, h2⟩ := h
    exact ⟨s, ⟨tw, e, pacedExecs_from .refl h1⟩, h2⟩

/-- While `Run` puts a timer of the second wheel back into the first one, three other goroutines are inside `add`: one has its timer in the same
bucket and is about to set the expiration, one has read the time of the wheel, and one is about to push. -/
example : ∃ s, PacedReach 1 20 0 s ∧ (decide (s.run = .moving ⟨1, 1⟩ 0 (.inBucket ⟨0, 5⟩ 25)) &&
    decide (s.adders = [⟨1, false, .inBucket ⟨0, 5⟩ 25⟩, ⟨2, false, .loaded 0 20⟩, ⟨3, false, .pushing ⟨0, 7⟩⟩])) = true :=
  pacedRuns_reach (as := [.after 25] ++ List.replicate 7 (.act 0) ++ [.tick 21, .take, .advance, .lock, .unlink, .move,
    .after 4, .act 0, .act 0, .after 4, .act 1, .after 6, .act 2, .act 2, .act 2, .move]) (by decide +kernel)

/-- From there the four timers are started when it is their time. -/
example : ∃ s, PacedReach 1 20 0 s ∧ decide (s.started.map (fun x => (x.id, x.exp, x.clock)) = [(1, 25, 26), (0, 25, 26), (2, 25, 26), (3, 27, 28)])
    = true :=
  pacedRuns_reach (as := [.after 25] ++ List.replicate 7 (.act 0) ++ [.tick 21, .take, .advance, .lock, .unlink, .move,
    .after 4, .act 0, .act 0, .after 4, .act 1, .after 6, .act 2, .act 2, .act 2, .move] ++ [.move, .move, .move, .done] ++
    List.replicate 2 (.act 0) ++ List.replicate 3 (.act 0) ++ List.replicate 2 (.act 0) ++ [.tick 5, .take] ++ process 3 ++
    [.tick 2, .take] ++ process 1) (by decide +kernel)

end Verif.TimingFine
