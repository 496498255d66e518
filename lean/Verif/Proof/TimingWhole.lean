import Verif.Model.TimingWhole

/-!
# The timing wheel with its queue: refinement of Model/TimingFine, and the protocol of the queue
-/

namespace Verif.TimingWhole

open Mutex (put)
open TimingWheel (Ref Bucket Wheel Timer Tw Start bucketAt setBucket less curTime)
open TimingFine (addStep)

/-! ## Forgetting the queue's protocol -/

/-- What Model/TimingFine sees of a goroutine. -/
def absPc : Pc → TimingFine.Pc
  | .base p => p
  | .locked r => .pushing r
  | .added _ | .head | .send | .unlock => .returned true

def absAdder (a : Adder) : TimingFine.Adder := ⟨a.t, a.runs, absPc a.pc⟩

def absRun : Run → TimingFine.Run
  | .idle | .returned | .panicked => .idle
  | .advanced r => .advanced r
  | .flushing r => .flushing r
  | .moving r t pc => .moving r t (absPc pc)

/-- The bucket in the hand of the goroutine of `channel`. -/
def hand : Take → List Ref
  | .have r | .sending r => [r]
  | _ => []

def absSt (s : State) : TimingFine.State :=
  ⟨s.sh.tw, s.clock, s.next, s.buf ++ hand s.take, absRun s.run, s.adders.map absAdder, s.tasks, s.scheduled, s.started, s.stopped, s.dropped⟩

theorem locked_abs (r : Run) : TimingFine.locked (absRun r) = lockedRef r := by cases r <;> rfl

/-- An action of a goroutine is none or one in Model/TimingFine. -/
theorem goStep_abs {lk : Option Ref} {x x' : Shared} {t : Nat} {pc pc' : Pc} (h : goStep lk x t pc = some (x', pc')) :
    (x'.tw = x.tw ∧ absPc pc' = absPc pc) ∨
      (addStep lk x.tw t (absPc pc) = .ok (x'.tw, absPc pc') ∧ ∀ ok, absPc pc ≠ .returned ok) ∨ ∃ ok, pc = .base (.returned ok) := by
  cases pc with
  | base p =>
    cases p with
    | pushing r =>
      simp only [goStep] at h
      split at h
      · cases h
      · cases h; exact .inl ⟨rfl, rfl⟩
    | returned ok => exact .inr (.inr ⟨ok, rfl⟩)
    | enter l =>
      simp only [goStep] at h
      split at h
      · rename_i e; cases h; exact .inr (.inl ⟨e, by intro _ h; cases h⟩)
      · cases h
    | loaded l c =>
      simp only [goStep] at h
      split at h
      · rename_i e; cases h; exact .inr (.inl ⟨e, by intro _ h; cases h⟩)
      · cases h
    | inBucket r e =>
      simp only [goStep] at h
      split at h
      · rename_i e; cases h; exact .inr (.inl ⟨e, by intro _ h; cases h⟩)
      · cases h
  | locked r =>
    simp only [goStep] at h
    split at h
    · rename_i q e
      cases h
      exact .inr (.inl ⟨by simp only [absPc, addStep, e, Go.bind_ok], by intro _ h; cases h⟩)
    · cases h
  | added r =>
    simp only [goStep] at h
    split at h
    · cases h; split <;> exact .inl ⟨rfl, rfl⟩
    · cases h
  | head =>
    simp only [goStep] at h
    split at h <;> (cases h; exact .inl ⟨rfl, rfl⟩)
  | send => cases h
  | unlock => cases h; exact .inl ⟨rfl, rfl⟩

theorem map_set_same {l : List Adder} {i : Nat} {a b : Adder} (h : l[i]? = some a) (e : absAdder b = absAdder a) :
    (l.set i b).map absAdder = l.map absAdder := by
  rw [List.map_set, e]
  obtain ⟨hi, ha⟩ := List.getElem?_eq_some_iff.1 h
  apply List.ext_getElem?
  intro k
  rw [List.getElem?_set]
  split
  · rename_i hk
    subst hk
    simp [hi, ha]
  · rfl

/-- One action of the whole wheel is none or one of Model/TimingFine; if it is `advance`, the bucket is the same. -/
theorem exec_abs {s s' : State} {a : Act} (h : exec s a = some s') :
    absSt s' = absSt s ∨ ∃ a', TimingFine.exec (absSt s) a' = some (absSt s') ∧ (a' = .advance → a = .advance) := by
  cases a with
  | tick d => cases h; exact .inr ⟨.tick d, rfl, fun h => by cases h⟩
  | after d =>
    cases h
    refine .inr ⟨.after d, ?_, fun h => by cases h⟩
    simp [TimingFine.exec, absSt, State.withTw, absAdder, absPc]
  | schedule e =>
    cases h
    refine .inr ⟨.schedule e, ?_, fun h => by cases h⟩
    simp [TimingFine.exec, absSt, State.withTw, absAdder, absPc]
  | again t e =>
    simp only [exec] at h
    split at h
    · rename_i ht
      cases h
      refine .inr ⟨.again t e, ?_, fun h => by cases h⟩
      simp [TimingFine.exec, absSt, State.withTw, absAdder, absPc, ht]
    · cases h
  | enough t =>
    simp only [exec] at h
    split at h
    · rename_i ht
      cases h
      refine .inr ⟨.enough t, ?_, fun h => by cases h⟩
      simp [TimingFine.exec, absSt, ht]
    · cases h
  | act i =>
    simp only [exec] at h
    cases hi : s.adders[i]? with
    | none => rw [hi] at h; cases h
    | some a =>
      obtain ⟨t, runs, pc⟩ := a
      rw [hi] at h
      have hi' : (absSt s).adders[i]? = some ⟨t, runs, absPc pc⟩ := by simp [absSt, hi, absAdder]
      have key : ∀ x' pc', goStep (lockedRef s.run) s.sh t pc = some (x', pc') → (∀ ok, pc ≠ .base (.returned ok)) →
          s' = { s with sh := x', adders := s.adders.set i ⟨t, runs, pc'⟩ } →
          absSt s' = absSt s ∨ ∃ a', TimingFine.exec (absSt s) a' = some (absSt s') ∧ (a' = .advance → Act.act i = .advance) := by
        intro x' pc' hg hn hs
        subst hs
        rcases goStep_abs hg with ⟨h1, h2⟩ | ⟨h1, h2⟩ | ⟨ok, h1⟩
        · left
          simp only [absSt, h1]
          rw [map_set_same hi (by simp [absAdder, h2])]
        · right
          refine ⟨.act i, ?_, fun h => by cases h⟩
          simp only [TimingFine.exec, hi']
          have h3 : addStep (TimingFine.locked (absSt s).run) (absSt s).tw t (absPc pc) = .ok (x'.tw, absPc pc') := by
            simp only [absSt, locked_abs]; exact h1
          revert h3
          generalize absPc pc = p at h2
          intro h3
          cases p with
          | returned ok => exact absurd rfl (h2 ok)
          | _ => simp only [h3]; simp [absSt, List.map_set, absAdder]
        · exact absurd h1 (hn ok)
      cases pc with
      | base p =>
        cases p with
        | returned ok =>
          dsimp only at h
          refine .inr ⟨.act i, ?_, fun h => by cases h⟩
          simp only [TimingFine.exec, hi', absPc]
          have he : (s.adders.eraseIdx i).map absAdder = (s.adders.map absAdder).eraseIdx i := by rw [List.eraseIdx_map]
          cases ok <;> cases runs <;> simp at h ⊢ <;> subst h <;> simp [absSt, he, start, TimingFine.start] <;> rfl
        | _ =>
          dsimp only at h
          split at h
          · rename_i e; exact key _ _ e (by intro ok h; cases h) (by cases h; rfl)
          · cases h
      | _ =>
        dsimp only at h
        split at h
        · rename_i e; exact key _ _ e (by intro ok h; cases h) (by cases h; rfl)
        · cases h
  | stop t =>
    simp only [exec] at h
    refine .inr ⟨.stop t, ?_, fun h => by cases h⟩
    cases hb : (s.sh.tw.timer t).bucket with
    | none => rw [hb] at h; cases h
    | some r =>
      rw [hb] at h
      dsimp only at h
      split at h
      · cases h
      · rename_i hl
        cases h
        have : ¬ TimingFine.locked (absSt s).run = some r := by simp only [absSt, locked_abs]; exact hl
        simp only [TimingFine.exec, absSt] at this ⊢
        rw [hb]
        simp [this, State.withTw]
  | advance =>
    simp only [exec] at h
    split at h
    · rename_i r rest hr hbuf
      split at h
      · rename_i ws e
        cases h
        refine .inr ⟨.advance, ?_, fun _ => rfl⟩
        simp only [TimingFine.exec, absSt, hr, hbuf, absRun, List.cons_append, e]
        rfl
      · cases h
    · cases h
  | lock =>
    simp only [exec] at h
    split at h
    · rename_i r hr
      cases h
      exact .inr ⟨.lock, by simp [TimingFine.exec, absSt, hr, absRun], fun h => by cases h⟩
    · cases h
  | unlink =>
    simp only [exec] at h
    split at h
    · rename_i r hr
      split at h
      · cases h
      · rename_i t ts ht
        cases h
        exact .inr ⟨.unlink, by simp [TimingFine.exec, absSt, hr, absRun, ht, State.withTw, absPc], fun h => by cases h⟩
    · cases h
  | move =>
    simp only [exec] at h
    cases hr : s.run with
    | moving r t pc =>
      rw [hr] at h
      have key : ∀ x' pc', goStep (some r) s.sh t pc = some (x', pc') → (∀ ok, pc ≠ .base (.returned ok)) →
          s' = { s with sh := x', run := .moving r t pc' } →
          absSt s' = absSt s ∨ ∃ a', TimingFine.exec (absSt s) a' = some (absSt s') ∧ (a' = .advance → Act.move = .advance) := by
        intro x' pc' hg hn hs
        subst hs
        rcases goStep_abs hg with ⟨h1, h2⟩ | ⟨h1, h2⟩ | ⟨ok, h1⟩
        · left
          simp only [absSt, h1, hr, absRun, h2]
        · right
          refine ⟨.move, ?_, fun h => by cases h⟩
          simp only [TimingFine.exec, absSt, hr, absRun]
          revert h1
          generalize absPc pc = p at h2
          intro h3
          cases p with
          | returned ok => exact absurd rfl (h2 ok)
          | _ => simp only [h3]
        · exact absurd h1 (hn ok)
      cases pc with
      | base p =>
        cases p with
        | returned ok =>
          dsimp only at h
          refine .inr ⟨.move, ?_, fun h => by cases h⟩
          simp only [TimingFine.exec, absSt, hr, absRun, absPc]
          cases ok <;> simp at h ⊢ <;> subst h <;> simp [start, TimingFine.start, absRun]
        | _ =>
          dsimp only at h
          split at h
          · rename_i e; exact key _ _ e (by intro ok h; cases h) (by cases h; rfl)
          · cases h
      | _ =>
        dsimp only at h
        split at h
        · rename_i e; exact key _ _ e (by intro ok h; cases h) (by cases h; rfl)
        · cases h
    | _ => rw [hr] at h; cases h
  | done =>
    simp only [exec] at h
    split at h
    · rename_i r hr
      split at h
      · rename_i ht
        cases h
        exact .inr ⟨.done, by simp [TimingFine.exec, absSt, hr, absRun, ht, State.withTw], fun h => by cases h⟩
      · cases h
    · cases h
  | take =>
    simp only [exec, takeStep] at h
    cases ht : s.take with
    | waiting =>
      rw [ht] at h
      dsimp only at h
      split at h
      · cases h
      · cases h; left; simp [absSt, ht, hand]
    | looking =>
      rw [ht] at h
      dsimp only at h
      split at h
      · cases h; left; simp [absSt, ht, hand]
      · rename_i r hq
        split at h
        · rename_i hc
          split at h
          · rename_i r' q e
            cases h
            refine .inr ⟨.take, ?_, fun h => by cases h⟩
            simp [TimingFine.exec, absSt, hq, hc, e, State.withTw, ht, hand]
          · cases h
        · cases h; left; simp [absSt, ht, hand]
    | «have» r => rw [ht] at h; cases h; left; simp [absSt, ht, hand]
    | arm b => rw [ht] at h; cases h; left; simp [absSt, ht, hand]
    | armed b => rw [ht] at h; cases h; left; simp [absSt, ht, hand]
    | fired =>
      rw [ht] at h
      dsimp only at h
      split at h <;> (cases h; left; simp [absSt, ht, hand])
    | sending r =>
      rw [ht] at h
      dsimp only at h
      split at h
      · cases h; left; simp [absSt, ht, hand]
      · cases h
    | _ => rw [ht] at h; cases h
  | timer =>
    simp only [exec] at h
    split at h
    · rename_i ht; cases h; left; simp [absSt, ht, hand]
    · cases h
  | wake o =>
    left
    have hh : ∀ k, receives k = true → hand k = [] := by intro k hk; cases k <;> first | rfl | cases hk
    cases o with
    | none =>
      simp only [exec] at h
      split at h
      · rename_i r t hr
        split at h
        · rename_i hc; cases h; simp [absSt, hr, absRun, absPc, hh _ hc]; rfl
        · cases h
      · cases h
    | some i =>
      simp only [exec] at h
      split at h
      · rename_i t runs hi
        split at h
        · rename_i hc
          cases h
          simp only [absSt, hh _ hc, map_set_same (b := ⟨t, runs, .unlock⟩) hi rfl]
          rfl
        · cases h
      · cases h
  | cancel => cases h; exact .inl rfl
  | quit =>
    simp only [exec] at h
    split at h
    · rename_i ht
      split at h
      · cases h; left; simp [absSt, ht, hand]
      · cases h
    · cases h
  | leave =>
    simp only [exec] at h
    split at h
    · rename_i hr; cases h; left; simp [absSt, hr.1, absRun]
    · cases h
  | recvNil =>
    simp only [exec] at h
    split at h
    · rename_i hr; cases h; left; simp [absSt, hr.1, absRun]
    · cases h

theorem from_abs {s0 s : State} (h : From s0 s) : TimingFine.From false (absSt s0) (absSt s) := by
  induction h with
  | refl => exact .refl
  | step a _ e ih =>
    rcases exec_abs e with h | ⟨a', h, _⟩
    · rw [h]; exact ih
    · exact .step a' ih (by intro h; cases h) h

theorem reach_abs {tick W t0 : Int} {s : State} (h : Reach tick W t0 s) : TimingFine.Reach false tick W t0 (absSt s) := by
  obtain ⟨tw, h1, h2⟩ := h
  exact ⟨tw, h1, from_abs h2⟩

end Verif.TimingWhole
