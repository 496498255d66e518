import Verif.Model.TimingSet
import Verif.Props.TimingPaced

/-!
# C171: the timing wheel when the clock is set
-/

namespace Verif.TimingFine

open Mutex (put put_self put_ne)
open TimingWheel (Ref Bucket Wheel Timer Tw Start bucketAt curTime K K_zero quo rem newWheel less)

/-! ## A wheel whose clock is never set -/

/-- What a start shows except the clock. -/
def strip (x : Start) : Nat × Int × Int := (x.id, x.exp, x.cur)

/-- The same state with another clock and other clocks at the starts. -/
def withClock (s : State) (h : Int) (st : List Start) : State := { s with clock := h, started := st }

theorem guard_withClock (s : State) (h : Int) (st : List Start) : inPace (withClock s h st) = inPace s := rfl

theorem start_withClock {s : State} {h : Int} {st : List Start} (hs : st.map strip = s.started.map strip) (t : Nat) :
    ∃ st', start (withClock s h st) t = withClock (start s t) h st' ∧ st'.map strip = (start s t).started.map strip := by
  refine ⟨st ++ [⟨t, (s.tw.timer t).exp, curTime s.tw.wheels, h⟩], rfl, ?_⟩
  simp [start, hs, strip]

/-- One step with the clock as it is can be done with a clock that shows the highest time so far. -/
theorem exec_withClock {s s' : State} {a : Act} (e : exec s a = some s') {h : Int} (hc : s.clock ≤ h) {st : List Start}
    (hs : st.map strip = s.started.map strip) :
    ∃ a' st', exec (withClock s h st) a' = some (withClock s' (max h s'.clock) st') ∧ st'.map strip = s'.started.map strip ∧
      (a' = .advance → a = .advance) := by
  cases a with
  | tick d =>
    cases e
    refine ⟨.tick (max h (s.clock + d) - h).toNat, st, ?_, hs, fun h => nomatch h⟩
    show some _ = some _
    have : h + ((max h (s.clock + d) - h).toNat : Int) = max h (s.clock + d) := by omega
    simp only [withClock, this]
  | after delay =>
    cases e
    refine ⟨.after (s.clock + delay - h), st, ?_, hs, fun h => nomatch h⟩
    show some _ = some _
    have h1 : h + (s.clock + delay - h) = s.clock + delay := by omega
    have h2 : max h s.clock = h := by omega
    simp only [withClock, h1, h2]
  | take =>
    refine ⟨.take, st, ?_, ?_, fun h => nomatch h⟩
    all_goals
      simp only [exec] at e
      cases hq : s.tw.queue[0]? with
      | none => rw [hq] at e; cases e
      | some r =>
        rw [hq] at e
        dsimp only at e
        split at e
        · next hlt =>
          cases hp : Heap.pop (TimingWheel.less s.tw.wheels) s.tw.queue with
          | error x => rw [hp] at e; cases e
          | ok x =>
            obtain ⟨r', q⟩ := x
            rw [hp] at e
            cases e
            first
            | exact hs
            | have h2 : max h s.clock = h := by omega
              simp only [exec, withClock, hq, hp, h2]
              rw [if_pos (by omega)]
        · cases e
  | schedule x =>
    cases e
    exact ⟨.schedule x, st, by simp only [exec, withClock, max_eq_left hc], hs, fun h => nomatch h⟩
  | again t x =>
    simp only [exec] at e
    split at e
    · next ht =>
      cases e
      exact ⟨.again t x, st, by simp only [exec, withClock, max_eq_left hc]; exact if_pos ht, hs, fun h => nomatch h⟩
    · cases e
  | enough t =>
    simp only [exec] at e
    split at e
    · next ht =>
      cases e
      exact ⟨.enough t, st, by simp only [exec, withClock, max_eq_left hc]; exact if_pos ht, hs, fun h => nomatch h⟩
    · cases e
  | act i =>
    simp only [exec] at e
    cases ha : s.adders[i]? with
    | none => rw [ha] at e; cases e
    | some x =>
      obtain ⟨t, runs, pc⟩ := x
      rw [ha] at e
      by_cases hpc : ∃ ok, pc = .returned ok
      · obtain ⟨ok, rfl⟩ := hpc
        dsimp only at e
        cases ok with
        | true =>
          cases e
          exact ⟨.act i, st, by simp only [exec, withClock, ha, max_eq_left hc]; rfl, hs, fun h => nomatch h⟩
        | false =>
          cases runs with
          | false =>
            cases e
            exact ⟨.act i, st, by simp only [exec, withClock, ha, max_eq_left hc]; rfl, hs, fun h => nomatch h⟩
          | true =>
            cases e
            obtain ⟨st', h1, h2⟩ := start_withClock (s := { s with adders := s.adders.eraseIdx i }) (h := h) hs t
            refine ⟨.act i, st', ?_, h2, fun h => nomatch h⟩
            have h3 : max h (start { s with adders := s.adders.eraseIdx i } t).clock = h := max_eq_left hc
            rw [h3, ← h1]
            simp only [exec, withClock, ha]
            rfl
      · have e' : (match addStep (locked s.run) s.tw t pc with
            | .ok (tw, pc) => some { s with tw := tw, adders := s.adders.set i ⟨t, runs, pc⟩ }
            | .error _ => none) = some s' := by
          cases pc <;> first | exact e | exact absurd ⟨_, rfl⟩ hpc
        cases hst : addStep (locked s.run) s.tw t pc with
        | error x => rw [hst] at e'; cases e'
        | ok x =>
          obtain ⟨tw, pc'⟩ := x
          rw [hst] at e'
          cases e'
          refine ⟨.act i, st, ?_, hs, fun h => nomatch h⟩
          simp only [exec, withClock, ha, max_eq_left hc]
          cases pc <;> first | exact absurd ⟨_, rfl⟩ hpc | (simp only [hst])
  | stop t =>
    simp only [exec] at e
    cases hb : (s.tw.timer t).bucket with
    | none => rw [hb] at e; cases e
    | some r =>
      rw [hb] at e
      dsimp only at e
      split at e
      · cases e
      · next hl =>
        cases e
        exact ⟨.stop t, st, by simp only [exec, withClock, hb, max_eq_left hc]; exact if_neg hl, hs, fun h => nomatch h⟩
  | advance =>
    simp only [exec] at e
    cases hr : s.run with
    | idle =>
      cases hq : s.chan with
      | nil => rw [hr, hq] at e; cases e
      | cons r rest =>
        rw [hr, hq] at e
        dsimp only at e
        cases hv : TimingWheel.advance (bucketAt s.tw.wheels r).exp s.tw.wheels with
        | error x => rw [hv] at e; cases e
        | ok ws =>
          rw [hv] at e
          cases e
          exact ⟨.advance, st, by simp only [exec, withClock, hr, hq, hv, max_eq_left hc], hs, fun _ => rfl⟩
    | advanced r => rw [hr] at e; cases e
    | flushing r => rw [hr] at e; cases e
    | moving r t pc => rw [hr] at e; cases e
  | lock =>
    simp only [exec] at e
    cases hr : s.run with
    | advanced r =>
      rw [hr] at e
      cases e
      exact ⟨.lock, st, by simp only [exec, withClock, hr, max_eq_left hc], hs, fun h => nomatch h⟩
    | idle => rw [hr] at e; cases e
    | flushing r => rw [hr] at e; cases e
    | moving r t pc => rw [hr] at e; cases e
  | unlink =>
    simp only [exec] at e
    cases hr : s.run with
    | flushing r =>
      rw [hr] at e
      dsimp only at e
      cases hb : (bucketAt s.tw.wheels r).timers with
      | nil => rw [hb] at e; cases e
      | cons t ts =>
        rw [hb] at e
        cases e
        exact ⟨.unlink, st, by simp only [exec, withClock, hr, hb, max_eq_left hc], hs, fun h => nomatch h⟩
    | idle => rw [hr] at e; cases e
    | advanced r => rw [hr] at e; cases e
    | moving r t pc => rw [hr] at e; cases e
  | move =>
    simp only [exec] at e
    cases hr : s.run with
    | moving r t pc =>
      rw [hr] at e
      by_cases hpc : ∃ ok, pc = .returned ok
      · obtain ⟨ok, rfl⟩ := hpc
        dsimp only at e
        cases ok with
        | true =>
          cases e
          exact ⟨.move, st, by simp only [exec, withClock, hr, max_eq_left hc]; rfl, hs, fun h => nomatch h⟩
        | false =>
          cases e
          obtain ⟨st', h1, h2⟩ := start_withClock (s := { s with run := .flushing r }) (h := h) hs t
          refine ⟨.move, st', ?_, h2, fun h => nomatch h⟩
          have h3 : max h (start { s with run := .flushing r } t).clock = h := max_eq_left hc
          rw [h3, ← h1]
          simp only [exec, withClock, hr]
          rfl
      · have e' : (match addStep (some r) s.tw t pc with
            | .ok (tw, pc) => some { s with tw := tw, run := .moving r t pc }
            | .error _ => none) = some s' := by
          cases pc <;> first | exact e | exact absurd ⟨_, rfl⟩ hpc
        cases hst : addStep (some r) s.tw t pc with
        | error x => rw [hst] at e'; cases e'
        | ok x =>
          obtain ⟨tw, pc'⟩ := x
          rw [hst] at e'
          cases e'
          refine ⟨.move, st, ?_, hs, fun h => nomatch h⟩
          simp only [exec, withClock, hr, max_eq_left hc]
          cases pc <;> first | exact absurd ⟨_, rfl⟩ hpc | (simp only [hst])
    | idle => rw [hr] at e; cases e
    | advanced r => rw [hr] at e; cases e
    | flushing r => rw [hr] at e; cases e
  | done =>
    simp only [exec] at e
    cases hr : s.run with
    | flushing r =>
      rw [hr] at e
      dsimp only at e
      split at e
      · next hb =>
        cases e
        exact ⟨.done, st, by simp only [exec, withClock, hr, max_eq_left hc]; rw [if_pos hb], hs, fun h => nomatch h⟩
      · cases e
    | idle => rw [hr] at e; cases e
    | advanced r => rw [hr] at e; cases e
    | moving r t pc => rw [hr] at e; cases e

/-- **C171 (simulation).** However the clock is set, the wheel behaves as one whose clock always showed the highest time so far and is never set:
the same state, the same starts but for the clock. -/
theorem C171_simulated {guard : State → Prop} {tick W t0 : Int} {s : State} {h : Int} (r : SetReach guard tick W t0 s h) :
    s.clock ≤ h ∧ ∃ st, st.map strip = s.started.map strip ∧ Reach false tick W t0 (withClock s h st) := by
  obtain ⟨tw, e, f⟩ := r
  induction f with
  | refl => exact ⟨le_refl _, [], rfl, tw, e, .refl⟩
  | step a f _ e' ih =>
    obtain ⟨h1, st, h2, tw', et, h3⟩ := ih
    obtain ⟨a', st', h4, h5, _⟩ := exec_withClock e' h1 h2
    exact ⟨le_max_right _ _, st', h5, tw', et, .step a' h3 (fun h => nomatch h) h4⟩
  | set c f ih =>
    rename_i s h
    obtain ⟨h1, st, h2, tw', et, h3⟩ := ih
    refine ⟨le_max_right _ _, st, h2, tw', et, .step (.tick (max h c - h).toNat) h3 (fun h => nomatch h) ?_⟩
    have : h + ((max h c - h).toNat : Int) = max h c := by omega
    simp only [exec, withClock, this]

/-- The same when `Run` is paced as in C161. -/
theorem C171_simulated_paced {tick W t0 : Int} {s : State} {h : Int} (r : SetReach inPace tick W t0 s h) :
    s.clock ≤ h ∧ ∃ st, st.map strip = s.started.map strip ∧ PacedReach tick W t0 (withClock s h st) := by
  obtain ⟨tw, e, f⟩ := r
  induction f with
  | refl => exact ⟨le_refl _, [], rfl, tw, e, .refl⟩
  | step a f hg e' ih =>
    obtain ⟨h1, st, h2, tw', et, h3⟩ := ih
    obtain ⟨a', st', h4, h5, h6⟩ := exec_withClock e' h1 h2
    exact ⟨le_max_right _ _, st', h5, tw', et, .step a' h3 (fun ha => hg (h6 ha)) h4⟩
  | set c f ih =>
    rename_i s h
    obtain ⟨h1, st, h2, tw', et, h3⟩ := ih
    refine ⟨le_max_right _ _, st, h2, tw', et, .step (.tick (max h c - h).toNat) h3 (fun h => nomatch h) ?_⟩
    have : h + ((max h c - h).toNat : Int) = max h c := by omega
    simp only [exec, withClock, this]

/-! ## What still holds -/

variable {tick t0 : Int} {W : Nat} {guard : State → Prop}

theorem ids_strip {a b : List Start} (h : a.map strip = b.map strip) : a.map (·.id) = b.map (·.id) := by
  have := congrArg (List.map Prod.fst) h
  simpa [Function.comp_def, strip] using this

/-- **C171.** However the clock is set, no task is lost or doubled: whatever was scheduled has been started, stopped or dropped by `AfterFunc`, or it is
in exactly one place, a bucket or the hands of a goroutine. -/
theorem C171_conserved (hk : 0 < tick) (hW : 1 < W) (ht : 0 ≤ t0) {s : State} {h : Int} (r : SetReach guard tick W t0 s h) (t : Nat) :
    ∃ n, s.scheduled.count t = (s.started.map (·.id)).count t + s.stopped.count t + s.dropped.count t + n ∧
      ((((∃ r, (s.tw.timer t).bucket = some r) ∧ ¬ inHand s t ∨ (s.tw.timer t).bucket = none ∧ inHand s t) ∧ n = 1) ∨
        ((s.tw.timer t).bucket = none ∧ ¬ inHand s t ∧ n = 0)) := by
  obtain ⟨_, st, h2, h3⟩ := C171_simulated r
  have := C140_conserved hk hW ht h3 t
  rw [show (withClock s h st).started = st from rfl, ids_strip h2] at this
  exact this

/-- **C171.** However the clock is set: no task is started more often than scheduled, and one of `AfterFunc` is started or stopped at most once. -/
theorem C171_at_most_once (hk : 0 < tick) (hW : 1 < W) (ht : 0 ≤ t0) {s : State} {h : Int} (r : SetReach guard tick W t0 s h) (t : Nat) :
    (s.started.map (·.id)).count t ≤ s.scheduled.count t ∧
      ((s.tw.timer t).repeats = false → (s.started.map (·.id)).count t + s.stopped.count t ≤ 1) := by
  obtain ⟨_, st, h2, h3⟩ := C171_simulated r
  have := C140_at_most_once hk hW ht h3 t
  rw [show (withClock s h st).started = st from rfl, ids_strip h2] at this
  exact this

/-- A step starts tasks at the time that the clock shows. -/
theorem exec_starts {s s' : State} {a : Act} (e : exec s a = some s') :
    s.clock ≤ s'.clock ∧ ∀ x ∈ s'.started, x ∈ s.started ∨ x.clock = s.clock := by
  have hstart : ∀ (u : State) (t : Nat), u.clock = s.clock → u.started = s.started →
      s.clock ≤ (start u t).clock ∧ ∀ x ∈ (start u t).started, x ∈ s.started ∨ x.clock = s.clock := by
    intro u t h1 h2
    refine ⟨by rw [← h1]; exact le_refl _, fun x hx => ?_⟩
    rcases List.mem_append.1 (show x ∈ u.started ++ [_] from hx) with h | h
    · exact .inl (h2 ▸ h)
    · rw [List.mem_singleton.1 h]; exact .inr h1
  cases a <;> simp only [exec] at e
  case tick d => cases e; exact ⟨by dsimp only; omega, fun x hx => .inl hx⟩
  all_goals
    repeat' split at e
  all_goals first
    | cases e; done
    | (cases e; first | exact ⟨le_refl _, fun x hx => .inl hx⟩ | exact hstart _ _ rfl rfl)

/-- No start is later than the clock. -/
theorem paced_clock {tick W t0 : Int} {s : State} (h : PacedReach tick W t0 s) {x : Start} (hx : x ∈ s.started) : x.clock ≤ s.clock := by
  obtain ⟨tw, e, h⟩ := h
  induction h with
  | refl => cases hx
  | step a _ _ e ih =>
    obtain ⟨h1, h2⟩ := exec_starts e
    rcases h2 x hx with h3 | h3
    · exact le_trans (ih h3) h1
    · omega

/-- **C171.** However the clock is set, if `Run` is paced: a task starts at most a tick before its expiration in the time of the wheel, which is
not after the highest time that the clock has shown. -/
theorem C171_not_early (hk : 0 < tick) (hW : 1 < W) (ht : 0 ≤ t0) {s : State} {h : Int} (r : SetReach inPace tick W t0 s h) {x : Start}
    (hx : x ∈ s.started) : x.exp < x.cur + tick ∧ x.cur ≤ h := by
  obtain ⟨_, st, h2, h3⟩ := C171_simulated_paced r
  have hm : strip x ∈ st.map strip := by rw [h2]; exact List.mem_map.2 ⟨x, hx, rfl⟩
  obtain ⟨y, hy, e⟩ := List.mem_map.1 hm
  simp only [strip, Prod.mk.injEq] at e
  have h4 := C161_not_early hk hW ht h3 (x := y) hy
  have h5 : y.clock ≤ h := paced_clock h3 hy
  rw [e.2.1, e.2.2] at h4
  exact ⟨h4.1, h4.2.trans h5⟩

/-! ## What does not -/

theorem addStep_repeats {lk : Option Ref} {tw tw' : Tw} {t : Nat} {pc pc' : Pc} (e : addStep lk tw t pc = .ok (tw', pc')) (t' : Nat) :
    (tw'.timer t').repeats = (tw.timer t').repeats := by
  cases pc with
  | enter l =>
    rw [addStep] at e
    split at e
    · cases e
    · cases e; rfl
  | loaded l cur =>
    rw [addStep] at e
    split at e
    · cases e
    · rename_i w hw
      split at e
      · cases e; rfl
      · split at e
        · cases h1 : quo (tw.timer t).exp w.tick with
          | error x => rw [h1] at e; cases e
          | ok q =>
            rw [h1, Go.bind_ok] at e
            cases h2 : rem q w.wheelSize with
            | error x => rw [h2] at e; cases e
            | ok i =>
              rw [h2, Go.bind_ok] at e
              split at e
              · cases e
              · cases h3 : Go.idx w.buckets i.toNat with
                | error x => rw [h3] at e; cases e
                | ok b =>
                  rw [h3, Go.bind_ok] at e
                  split at e
                  · cases e
                  · cases e
                    dsimp only
                    by_cases ht : t' = t
                    · subst ht; rw [put_self]
                    · rw [put_ne _ _ ht]
        · split at e
          · cases e; rfl
          · cases h1 : newWheel w.interval w.wheelSize cur with
            | error x => rw [h1] at e; cases e
            | ok o => rw [h1, Go.bind_ok] at e; cases e; rfl
  | inBucket r E => rw [addStep] at e; cases e; rfl
  | pushing r =>
    rw [addStep] at e
    cases h1 : Heap.push (less tw.wheels) tw.queue r with
    | error x => rw [h1] at e; cases e
    | ok q => rw [h1, Go.bind_ok] at e; cases e; rfl
  | returned ok => rw [addStep] at e; cases e; rfl

theorem put_repeats (f : Nat → Timer) (t : Nat) (m : Timer) (hm : m.repeats = (f t).repeats) (t' : Nat) :
    (put f t m t').repeats = (f t').repeats := by
  by_cases e : t' = t
  · subst e; rw [put_self, hm]
  · rw [put_ne _ _ e]

/-- What a step does not undo. -/
theorem exec_history {s s' : State} {a : Act} (e : exec s a = some s') :
    s.next ≤ s'.next ∧ (∀ t, t ∈ s.dropped → t ∈ s'.dropped) ∧ ∀ t, t < s.next → (s'.tw.timer t).repeats = (s.tw.timer t).repeats := by
  cases a <;> simp only [exec] at e
  case tick d => cases e; exact ⟨le_refl _, fun _ h => h, fun _ _ => rfl⟩
  case after d =>
    cases e
    exact ⟨Nat.le_succ _, fun _ h => h, fun t ht => by dsimp only; rw [put_ne _ _ (by omega)]⟩
  case schedule d =>
    cases e
    exact ⟨Nat.le_succ _, fun _ h => h, fun t ht => by dsimp only; rw [put_ne _ _ (by omega)]⟩
  case again t x =>
    split at e
    · cases e; exact ⟨le_refl _, fun _ h => h, fun t' _ => by apply put_repeats; rfl⟩
    · cases e
  all_goals
    repeat' split at e
  all_goals first
    | cases e; done
    | (cases e; exact ⟨le_refl _, fun _ h => h, fun _ _ => rfl⟩)
    | (cases e; exact ⟨le_refl _, fun _ h => h, fun t' _ => by apply put_repeats; rfl⟩)
    | (cases e; exact ⟨le_refl _, fun _ h => List.mem_append_left _ h, fun _ _ => rfl⟩)
    | (rename_i hst; cases e; exact ⟨le_refl _, fun _ h => h, fun t' _ => addStep_repeats hst t'⟩)

theorem dropped_later {s s' : State} {h' : Int} {t : Nat} (ht : t < s.next) (hd : t ∈ s.dropped) (hr : (s.tw.timer t).repeats = false)
    (f : SetFrom guard s s' h') : t < s'.next ∧ t ∈ s'.dropped ∧ (s'.tw.timer t).repeats = false := by
  induction f with
  | refl => exact ⟨ht, hd, hr⟩
  | step a _ _ e ih =>
    obtain ⟨h1, h2, h3⟩ := ih
    obtain ⟨h4, h5, h6⟩ := exec_history e
    exact ⟨by omega, h5 t h2, (h6 t h1).trans h3⟩
  | set c _ ih => exact ih

theorem setFrom_trans {s0 s s' : State} {h h' : Int} (f : SetFrom guard s0 s h) (g : SetFrom guard s s' h') :
    ∃ h'', SetFrom guard s0 s' h'' := by
  induction g with
  | refl => exact ⟨_, f⟩
  | step a _ hg e ih => obtain ⟨_, ih⟩ := ih; exact ⟨_, .step a ih hg e⟩
  | set c _ ih => obtain ⟨_, ih⟩ := ih; exact ⟨_, .set c ih⟩

/-- The first wheel has the given tick and the time of the wheel. -/
theorem first_wheel (hk : 0 < tick) (hW : 1 < W) (ht : 0 ≤ t0) {s : State} {h : Int} (r : SetReach guard tick W t0 s h) :
    ∃ w, s.tw.wheels[0]? = some w ∧ w.tick = tick ∧ w.cur = curTime s.tw.wheels := by
  obtain ⟨_, st, _, h3⟩ := C171_simulated r
  have hi : Shape tick W s.tw.wheels := (reach_inv hk hW ht h3).tw.shape
  obtain ⟨w, hw⟩ : ∃ w, s.tw.wheels[0]? = some w := ⟨_, List.getElem?_eq_getElem hi.ne⟩
  refine ⟨w, hw, ?_, ?_⟩
  · rw [(hi.each 0 w hw).1, K_zero]
  · unfold curTime
    rw [List.head?_eq_getElem?, hw]
    rfl

/-- **C171 (counterexample to "every task of `AfterFunc` runs").** From every state: if the clock is set back to `c`, the task of `AfterFunc(delay)`
is forgotten whenever `c + delay` is less than a tick after the time of the wheel. It is in no bucket, and it is never started. -/
theorem C171_forgotten_refuted (hk : 0 < tick) (hW : 1 < W) (ht : 0 ≤ t0) {s : State} {h : Int} (r : SetReach guard tick W t0 s h) {c delay : Int}
    (hc : c + delay < curTime s.tw.wheels + tick) : ∃ s' h', SetReach guard tick W t0 s' h' ∧ s'.clock = c ∧ s.next ∈ s'.scheduled ∧
      (s'.tw.timer s.next).exp = c + delay ∧ s.next ∈ s'.dropped ∧
      ∀ s'' h'', SetFrom guard s' s'' h'' → s.next ∉ s''.started.map (·.id) ∧ (s''.tw.timer s.next).bucket = none := by
  obtain ⟨w, hw, hw1, hw2⟩ := first_wheel hk hW ht r
  obtain ⟨tw, e, f⟩ := r
  have f1 := f.set c
  have f2 := f1.step (.after delay) (fun h => nomatch h) rfl
  have f3 := f2.step (.act s.adders.length) (fun h => nomatch h)
    (show _ = some { s with clock := c
                            tw := { s.tw with timer := put s.tw.timer s.next ⟨c + delay, none, false⟩ }
                            next := s.next + 1, scheduled := s.scheduled ++ [s.next]
                            adders := s.adders ++ [⟨s.next, false, .loaded 0 w.cur⟩] } by
      simp [exec, addStep, hw])
  have f4 := f3.step (.act s.adders.length) (fun h => nomatch h)
    (show _ = some { s with clock := c
                            tw := { s.tw with timer := put s.tw.timer s.next ⟨c + delay, none, false⟩ }
                            next := s.next + 1, scheduled := s.scheduled ++ [s.next]
                            adders := s.adders ++ [⟨s.next, false, .returned false⟩] } by
      simp [exec, addStep, hw, put_self, hw1, hw2, hc])
  have f5 := f4.step (.act s.adders.length) (fun h => nomatch h)
    (show _ = some { s with clock := c
                            tw := { s.tw with timer := put s.tw.timer s.next ⟨c + delay, none, false⟩ }
                            next := s.next + 1, scheduled := s.scheduled ++ [s.next], dropped := s.dropped ++ [s.next] } by
      simp [exec, List.eraseIdx_append_of_length_le])
  refine ⟨_, _, ⟨tw, e, f5⟩, rfl, List.mem_append_right _ (List.mem_singleton.2 rfl), by dsimp only; rw [put_self],
    List.mem_append_right _ (List.mem_singleton.2 rfl), fun s'' h'' g => ?_⟩
  obtain ⟨_, h2, h3⟩ := dropped_later (t := s.next) (Nat.lt_succ_self _) (List.mem_append_right _ (List.mem_singleton.2 rfl))
    (by dsimp only; rw [put_self]) g
  obtain ⟨h4, hg⟩ := setFrom_trans f5 g
  obtain ⟨_, st, h5, h6⟩ := C171_simulated ⟨tw, e, hg⟩
  have hi := reach_inv hk hW ht h6
  obtain ⟨n, h7, h8⟩ := C140_conserved hk hW ht h6 s.next
  have h9 := hi.once s.next h3
  have h10 : 0 < s''.dropped.count s.next := List.count_pos_iff.2 h2
  rw [show (withClock s'' h4 st).started = st from rfl, ids_strip h5] at h7
  have h11 : (withClock s'' h4 st).dropped = s''.dropped := rfl
  rw [h11] at h7
  constructor
  · intro hm
    have := List.count_pos_iff.2 hm
    omega
  · rcases h8 with ⟨_, h8⟩ | ⟨h8, _⟩
    · omega
    · exact h8

/-- **C171 (counterexample to "no task runs before its time").** In the same state a task of `ScheduleFunc` that is due at `e` starts at once, though the
clock shows `c` — however much earlier that is. -/
theorem C171_early_refuted (hk : 0 < tick) (hW : 1 < W) (ht : 0 ≤ t0) {s : State} {h : Int} (r : SetReach guard tick W t0 s h) {c e : Int}
    (he : e < curTime s.tw.wheels + tick) : ∃ s' h', SetReach guard tick W t0 s' h' ∧
      ∃ x ∈ s'.started, x.id = s.next ∧ x.exp = e ∧ x.clock = c := by
  obtain ⟨w, hw, hw1, hw2⟩ := first_wheel hk hW ht r
  obtain ⟨tw, e', f⟩ := r
  have f1 := f.set c
  have f2 := f1.step (.schedule e) (fun h => nomatch h) rfl
  have f3 := f2.step (.act s.adders.length) (fun h => nomatch h)
    (show _ = some { s with clock := c
                            tw := { s.tw with timer := put s.tw.timer s.next ⟨e, none, true⟩ }
                            next := s.next + 1, scheduled := s.scheduled ++ [s.next]
                            adders := s.adders ++ [⟨s.next, true, .loaded 0 w.cur⟩] } by
      simp [exec, addStep, hw])
  have f4 := f3.step (.act s.adders.length) (fun h => nomatch h)
    (show _ = some { s with clock := c
                            tw := { s.tw with timer := put s.tw.timer s.next ⟨e, none, true⟩ }
                            next := s.next + 1, scheduled := s.scheduled ++ [s.next]
                            adders := s.adders ++ [⟨s.next, true, .returned false⟩] } by
      simp [exec, addStep, hw, put_self, hw1, hw2, he])
  have f5 := f4.step (.act s.adders.length) (fun h => nomatch h)
    (show _ = some (start { s with clock := c
                                   tw := { s.tw with timer := put s.tw.timer s.next ⟨e, none, true⟩ }
                                   next := s.next + 1, scheduled := s.scheduled ++ [s.next] } s.next) by
      simp [exec, List.eraseIdx_append_of_length_le])
  exact ⟨_, _, ⟨tw, e', f5⟩, _, List.mem_append_right _ (List.mem_singleton.2 rfl), rfl, by dsimp only; rw [put_self], rfl⟩

/-- Executions as lists: a step, or the clock is set. -/
def runSet (s : State) (h : Int) : List (Act ⊕ Int) → Option (State × Int)
  | [] => some (s, h)
  | .inl a :: as => match exec s a with
    | some s' => runSet s' (max h s'.clock) as
    | none => none
  | .inr c :: as => runSet { s with clock := c } (max h c) as

theorem runSet_from {s0 : State} : ∀ {as : List (Act ⊕ Int)} {s s' : State} {h h' : Int}, SetFrom anyTime s0 s h → runSet s h as = some (s', h') →
    SetFrom anyTime s0 s' h'
  | [], _, _, _, _, f, e => by cases e; exact f
  | .inl a :: as, s, s', h, h', f, e => by
    rw [runSet] at e
    split at e
    · next e' => exact runSet_from (f.step a (fun _ => trivial) e') e
    · cases e
  | .inr c :: as, s, s', h, h', f, e => runSet_from (f.set c) (by rw [runSet] at e; exact e)

/-- A wheel of 20 ticks of a millisecond, made at 0. A task is due at 100; the clock is set to 1000, the wheel takes the bucket and starts it; the
clock is set back to 10: the wheel has come to 100. -/
def forthAndBack : List (Act ⊕ Int) :=
  [.inl (.after 100)] ++ List.replicate 7 (.inl (.act 0)) ++ [.inr 1000, .inl .take, .inl .advance, .inr 10]

example : ∃ s h, SetReach anyTime 1 20 0 s h ∧ curTime s.tw.wheels = 100 ∧ s.clock = 10 ∧ h = 1000 := by
  have key : (match TimingWheel.new 1 20 0 with
    | .error _ => false
    | .ok tw => (runSet (init tw 0) 0 forthAndBack).any fun p =>
        decide (curTime p.1.tw.wheels = 100) && decide (p.1.clock = 10) && decide (p.2 = 1000)) = true := by decide +kernel
  cases e : TimingWheel.new 1 20 0 with
  | error x => rw [e] at key; cases key
  | ok tw =>
    rw [e] at key
    obtain ⟨⟨s, h⟩, h1, h2⟩ := (Option.any_eq_true ..).1 key
    simp only [Bool.and_eq_true, decide_eq_true_eq] at h2
    exact ⟨s, h, ⟨tw, e, runSet_from .refl h1⟩, h2.1.1, h2.1.2, h2.2⟩

end Verif.TimingFine
