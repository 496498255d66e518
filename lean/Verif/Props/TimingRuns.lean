import Verif.Model.TimingRuns
import Verif.Props.TimingRestart

/-! # Several calls of `Run` at a time: C184 -/

namespace Verif.TimingRuns

open TimingWheel
open Mutex (put put_self put_ne)

variable {k0 tick t0 : Int} {W : Nat}

theorem nodup_mid {α : Type} {a : α} {l1 l2 : List α} : (l1 ++ a :: l2).Nodup ↔ (a :: (l1 ++ l2)).Nodup := List.perm_middle.nodup_iff

/-- The buckets in channels and in the hands of the calls. -/
def hands (runs : List Runner) : List Ref := runs.flatMap fun x => x.chan ++ held x.run

/-- The timer in the hand of a call. -/
def mover : Run → Option Nat
  | .moving _ t => some t
  | _ => none

/-- The timers in the hands of the calls. -/
def moving (runs : List Runner) : List Nat := runs.filterMap fun x => mover x.run

/-- The state as one without `Run`: the buckets that the calls have are in the channel, and the timers that they have in hand count as stopped. -/
def base (m : MState) : State := { m.s with chan := hands m.runs, stopped := moving m.runs ++ m.s.stopped }

structure MInv (k0 : Int) (W : Nat) (m : MState) : Prop where
  inv : Inv k0 W (base m)
  idle : m.s.run = .idle
  nodup : (moving m.runs).Nodup
  apart : ∀ t ∈ moving m.runs, (m.s.tw.timer t).bucket = none ∧ t ∉ m.s.tasks ∧ t < m.s.next
  locks : (locks m.runs).Nodup

theorem tryAdd_ok {lk : List Ref} {fuel : Nat} {tw tw' : Tw} {t : Nat} {ok : Bool} (e : tryAdd lk fuel tw t = some (tw', ok)) :
    add fuel tw 0 t none = .ok (tw', ok) ∧ (tw'.timer t).bucket ∉ lk.map some := by
  unfold tryAdd at e
  split at e
  · rename_i tw1 ok1 e1
    split at e
    · cases e
    · rename_i hn
      cases e
      exact ⟨e1, hn⟩
  · cases e

/-- What the callers do is a step of Model/TimingWheel, also with other channels and more timers stopped. -/
theorem client_step {lk : List Ref} {s s' : State} {a : MAct} (e : client lk s a = some s') (hr : s.run = .idle) (c : List Ref) (M : List Nat) :
    Step free { s with chan := c, stopped := M ++ s.stopped } { s' with chan := c, stopped := M ++ s'.stopped } ∧ s'.run = .idle := by
  cases a with
  | tick d =>
    unfold client at e; cases e
    exact ⟨.tick _ d (Int.natCast_nonneg d), hr⟩
  | afterFunc fuel delay =>
    unfold client at e; dsimp only at e
    split at e
    · rename_i tw ok e1
      cases e
      exact ⟨.afterFunc _ delay fuel tw ok (by dsimp only; rw [hr]; exact (tryAdd_ok e1).1), hr⟩
    · cases e
  | schedule fuel x =>
    unfold client at e; dsimp only at e
    split at e
    · rename_i tw e1
      cases e
      exact ⟨.schedule _ x fuel tw (by dsimp only; rw [hr]; exact (tryAdd_ok e1).1), hr⟩
    · rename_i tw e1
      cases e
      exact ⟨.scheduleRun _ x fuel tw (by dsimp only; rw [hr]; exact (tryAdd_ok e1).1), hr⟩
    · cases e
  | again fuel t x =>
    unfold client at e; dsimp only at e
    split at e
    · rename_i ht
      split at e
      · rename_i tw e1
        cases e
        exact ⟨.again _ t x fuel tw ht (by dsimp only; rw [hr]; exact (tryAdd_ok e1).1), hr⟩
      · rename_i tw e1
        cases e
        exact ⟨.againRun _ t x fuel tw ht (by dsimp only; rw [hr]; exact (tryAdd_ok e1).1), hr⟩
      · cases e
    · cases e
  | enough t =>
    unfold client at e; dsimp only at e
    split at e
    · rename_i ht
      cases e
      exact ⟨.enough _ t ht, hr⟩
    · cases e
  | stop t =>
    unfold client at e; dsimp only at e
    split at e
    · cases e
    · rename_i r hb
      split at e
      · cases e
      · cases e
        refine ⟨?_, hr⟩
        have h := Step.stop (k := free) { s with chan := c, stopped := M ++ s.stopped } t r hb (by dsimp only; rw [hr]; exact fun x => by cases x)
        dsimp only at h ⊢
        rw [List.append_assoc] at h
        exact h
  | call => unfold client at e; cases e
  | take i => unfold client at e; cases e
  | step i fuel => unfold client at e; cases e

theorem split_at {runs : List Runner} {i : Nat} {x : Runner} (h : runs[i]? = some x) : ∃ l1 l2, runs = l1 ++ x :: l2 ∧ ∀ y, runs.set i y = l1 ++ y :: l2 := by
  obtain ⟨hi, hx⟩ := List.getElem?_eq_some_iff.1 h
  refine ⟨runs.take i, runs.drop (i + 1), ?_, fun y => ?_⟩
  · rw [← hx, List.getElem_cons_drop, List.take_append_drop]
  · rw [List.set_eq_take_append_cons_drop, if_pos hi]

theorem hands_mem {l1 l2 : List Runner} {x : Runner} {r : Ref} : r ∈ hands (l1 ++ x :: l2) ↔ r ∈ hands l1 ∨ r ∈ x.chan ∨ r ∈ held x.run ∨ r ∈ hands l2 := by
  unfold hands
  simp only [List.flatMap_append, List.flatMap_cons, List.mem_append, or_assoc]

theorem moving_split (l1 l2 : List Runner) (x : Runner) : moving (l1 ++ x :: l2) = moving l1 ++ ((mover x.run).toList ++ moving l2) := by
  unfold moving
  rw [List.filterMap_append, List.filterMap_cons]
  cases mover x.run <;> rfl

theorem locks_split (l1 l2 : List Runner) (x : Runner) : locks (l1 ++ x :: l2) = locks l1 ++ ((locked x.run).toList ++ locks l2) := by
  unfold locks
  rw [List.filterMap_append, List.filterMap_cons]
  cases locked x.run <;> rfl

theorem inv_stopped {s : State} {st : List Nat} (h : Inv k0 W s) (hs : ∀ t, st.count t = s.stopped.count t) : Inv k0 W { s with stopped := st } :=
  ⟨h.tinv, h.tasks, fun t => (h.book t).same ⟨rfl, rfl, id, rfl, rfl, hs t, rfl, .inl rfl⟩⟩

/-- The timers in the hands of the calls are left alone by a step of the others. -/
theorem apart_step {m m' : MState} (h : MInv k0 W m) {s' : State} (st : Step free (base m) s') (hr : moving m'.runs = moving m.runs) (e1 : m'.s.tw = s'.tw)
    (e2 : m'.s.tasks = s'.tasks) (e3 : m'.s.next = s'.next) :
    ∀ t ∈ moving m'.runs, (m'.s.tw.timer t).bucket = none ∧ t ∉ m'.s.tasks ∧ t < m'.s.next := by
  intro t ht
  rw [hr] at ht
  obtain ⟨h1, h2, h3⟩ := h.apart t ht
  have c := dead_step h.inv st (t := t) (by simp [pending, base, h1, h.idle, moves]) h2 h3
  have hn := c.next
  refine ⟨?_, ?_, ?_⟩
  · rw [e1, c.timer]; exact h1
  · rw [e2]; exact fun x => h2 (c.task x)
  · rw [e3]
    have : (base m).next = m.s.next := rfl
    omega

theorem minv_client {m : MState} {a : MAct} {s' : State} (h : MInv k0 W m) (e : client (locks m.runs) m.s a = some s') : MInv k0 W { m with s := s' } := by
  obtain ⟨st, hr⟩ := client_step e h.idle (hands m.runs) (moving m.runs)
  exact ⟨inv_step h.inv st, hr, h.nodup, apart_step (m' := { m with s := s' }) h st rfl rfl rfl rfl, h.locks⟩

theorem minv_take {m m' : MState} {i : Nat} (h : MInv k0 W m) (e : mexec m (.take i) = some m') : MInv k0 W m' := by
  unfold mexec at e; dsimp only at e
  split at e
  · rename_i x r hx h0
    split at e
    · rename_i hc
      split at e
      · rename_i r1 q hp
        cases e
        obtain ⟨l1, l2, e1, e2⟩ := split_at hx
        obtain ⟨q', p1, p2⟩ := pop_total m.s.tw.wheels h0
        rw [p1] at hp
        cases hp
        have st : Step free (base m) _ := Step.take (base m) r q h0 hc p1
        have hm : moving (m.runs.set i { x with chan := x.chan ++ [r] }) = moving m.runs := by
          rw [e2, e1, moving_split, moving_split]
        have hl : locks (m.runs.set i { x with chan := x.chan ++ [r] }) = locks m.runs := by
          rw [e2, e1, locks_split, locks_split]
        refine ⟨?_, h.idle, by dsimp only; rw [hm]; exact h.nodup, apart_step (m' := ⟨_, _⟩) h st hm rfl rfl rfl, by dsimp only; rw [hl]; exact h.locks⟩
        have h2 := inv_chan (c := hands (m.runs.set i { x with chan := x.chan ++ [r] })) (inv_step h.inv st) (fun y hy => by
          have hy : y ∈ hands m.runs ++ [r] := hy
          rw [e2, hands_mem]
          rw [e1] at hy
          simp only [List.mem_append, List.mem_singleton, hands_mem] at hy ⊢
          tauto)
        unfold base
        dsimp only
        rw [hm]
        exact h2
      · cases e
    · cases e
  · cases e

theorem minv_run {m m' : MState} {i fuel : Nat} {x : Runner} (h : MInv k0 W m) (hx : m.runs[i]? = some x) (e : runStep m i x fuel = some m') : MInv k0 W m' := by
  obtain ⟨l1, l2, e1, e2⟩ := split_at hx
  have hM := moving_split l1 l2 x
  have hL := locks_split l1 l2 x
  have hnd := h.nodup
  have hlk := h.locks
  rw [e1, hM] at hnd
  rw [e1, hL] at hlk
  unfold runStep at e
  split at e
  · -- the call receives a bucket
    rename_i hr
    split at e
    · cases e
    · rename_i r rest hc
      split at e
      · rename_i ws ha
        cases e
        have hm : moving (m.runs.set i ⟨rest, .advanced r⟩) = moving m.runs := by
          rw [e2, e1, moving_split, moving_split, hr]; rfl
        have hl : locks (m.runs.set i ⟨rest, .advanced r⟩) = locks m.runs := by
          rw [e2, e1, locks_split, locks_split, hr]; rfl
        refine ⟨⟨?_, h.inv.tasks, fun t => (h.inv.book t).same ⟨rfl, rfl, id, rfl, rfl, ?_, rfl, .inl rfl⟩⟩, h.idle, by dsimp only; rw [hm]; exact h.nodup, ?_,
          by dsimp only; rw [hl]; exact h.locks⟩
        · refine (advance_tinv h.inv.tinv ha).mono (fun y hy => ?_)
          have hy : y ∈ hands m.runs ++ held m.s.run := hy
          show y ∈ hands (m.runs.set i ⟨rest, .advanced r⟩) ++ held m.s.run
          rw [h.idle] at hy ⊢
          rw [e2]
          rw [e1] at hy
          simp only [List.mem_append, hands_mem, hr, hc, held, List.mem_cons, List.mem_nil_iff, or_false, false_or] at hy ⊢
          tauto
        · show (moving (m.runs.set i ⟨rest, .advanced r⟩) ++ m.s.stopped).count t = (moving m.runs ++ m.s.stopped).count t
          rw [hm]
        · intro t ht
          dsimp only at ht
          rw [hm] at ht
          exact h.apart t ht
      · cases e
  · -- the call locks the bucket
    rename_i r hr
    split at e
    · cases e
    · rename_i hn
      cases e
      have hm : moving (m.runs.set i { x with run := .flushing r }) = moving m.runs := by
        rw [e2, e1, moving_split, moving_split, hr]; rfl
      have hh : hands (m.runs.set i { x with run := .flushing r }) = hands m.runs := by
        rw [e2, e1]; unfold hands; simp only [List.flatMap_append, List.flatMap_cons, hr]; rfl
      refine ⟨?_, h.idle, by dsimp only; rw [hm]; exact h.nodup, ?_, ?_⟩
      · unfold base
        dsimp only
        rw [hm, hh]
        exact h.inv
      · intro t ht
        dsimp only at ht
        rw [hm] at ht
        exact h.apart t ht
      · dsimp only
        rw [e2, locks_split]
        rw [e1, hL, hr] at hn
        rw [hr] at hlk
        exact (nodup_mid (a := r)).2 (List.nodup_cons.2 ⟨fun x => hn (by simpa [locked] using x), by simpa [locked] using hlk⟩)
  · rename_i r hr
    split at e
    · -- the bucket is empty
      rename_i ht
      cases e
      have hm : moving (m.runs.set i { x with run := .idle }) = moving m.runs := by
        rw [e2, e1, moving_split, moving_split, hr]; rfl
      refine ⟨⟨done_tinv (e1 := hands m.runs ++ held m.s.run) h.inv.tinv ht ?_, h.inv.tasks,
        fun t => (h.inv.book t).same ⟨rfl, rfl, id, rfl, rfl, ?_, rfl, .inl rfl⟩⟩, h.idle, by dsimp only; rw [hm]; exact h.nodup, ?_, ?_⟩
      · intro y hy hne
        show y ∈ hands (m.runs.set i { x with run := .idle }) ++ held m.s.run
        rw [h.idle] at hy ⊢
        rw [e2]
        rw [e1] at hy
        simp only [List.mem_append, hands_mem, hr, held, List.mem_singleton, List.mem_nil_iff, or_false, false_or] at hy ⊢
        tauto
      · show (moving (m.runs.set i { x with run := .idle }) ++ m.s.stopped).count t = (moving m.runs ++ m.s.stopped).count t
        rw [hm]
      · intro t ht'
        dsimp only at ht'
        rw [hm] at ht'
        exact h.apart t ht'
      · dsimp only
        rw [e2, locks_split]
        rw [hr] at hlk
        exact (List.nodup_cons.1 ((nodup_mid (a := r)).1 hlk)).2
    · -- a timer is unlinked
      rename_i t ts ht
      cases e
      have hb : (m.s.tw.timer t).bucket = some r := (h.inv.tinv.mem t r).2 (by show t ∈ (bucketAt m.s.tw.wheels r).timers; rw [ht]; exact List.mem_cons_self)
      have st := Step.stop (k := free) (base m) t r hb (by unfold base; dsimp only; rw [h.idle]; exact fun x => by cases x)
      have hi := inv_step h.inv st
      have hee : (bucketAt (base m).tw.wheels r).timers.erase t = ts := by
        show (bucketAt m.s.tw.wheels r).timers.erase t = ts
        rw [ht]; simp
      rw [hee] at hi st
      have hm0 : moving m.runs = moving l1 ++ moving l2 := by rw [e1, hM, hr]; rfl
      have hm : moving (m.runs.set i { x with run := .moving r t }) = moving l1 ++ t :: moving l2 := by
        rw [e2, moving_split]; rfl
      have hh : hands (m.runs.set i { x with run := .moving r t }) = hands m.runs := by
        rw [e2, e1]; unfold hands; simp only [List.flatMap_append, List.flatMap_cons, hr]; rfl
      have htn : t ∉ moving m.runs := fun hmem => by
        have := (h.apart t hmem).1
        rw [hb] at this
        cases this
      have hpend : pending (base m) t = true := by simp [pending, base, hb]
      refine ⟨?_, h.idle, ?_, ?_, ?_⟩
      · have h3 := inv_stopped (st := moving l1 ++ t :: moving l2 ++ m.s.stopped) hi (fun t' => by
          show _ = ((moving m.runs ++ m.s.stopped) ++ [t]).count t'
          rw [hm0]
          simp only [List.count_append, List.count_cons, List.count_nil]
          omega)
        unfold base
        dsimp only
        rw [hm, hh]
        exact h3
      · dsimp only
        rw [hm]
        rw [hm0] at htn
        refine (nodup_mid (a := t)).2 (List.nodup_cons.2 ⟨htn, ?_⟩)
        rw [← hm0]; exact h.nodup
      · intro t' ht'
        dsimp only at ht' ⊢
        rw [hm] at ht'
        by_cases et : t' = t
        · subst et
          rw [put_self]
          refine ⟨rfl, fun hx => ?_, mem_lt h.inv (.inl hpend)⟩
          have := ((h.inv.book t').task hx).2
          rw [hpend] at this
          cases this
        · rw [put_ne _ _ et]
          refine h.apart t' ?_
          rw [hm0]
          simp only [List.mem_append, List.mem_cons] at ht' ⊢
          tauto
      · dsimp only
        rw [e2, locks_split]
        rw [hr] at hlk
        exact hlk
  · -- the timer goes to a bucket or is started
    rename_i r t hr
    have hm0 : moving m.runs = moving l1 ++ t :: moving l2 := by rw [e1, hM, hr]; rfl
    have hm : moving (m.runs.set i { x with run := .flushing r }) = moving l1 ++ moving l2 := by rw [e2, moving_split]; rfl
    have hh : hands (m.runs.set i { x with run := .flushing r }) = hands m.runs := by
      rw [e2, e1]; unfold hands; simp only [List.flatMap_append, List.flatMap_cons, hr]; rfl
    have hl : (locks (m.runs.set i { x with run := .flushing r })).Nodup := by
      rw [e2, locks_split]
      rw [hr] at hlk
      exact hlk
    obtain ⟨hb, hnt, hlt⟩ := h.apart t (by rw [hm0]; simp)
    have hn0 := h.nodup
    rw [hm0] at hn0
    obtain ⟨hn1, hn2⟩ := List.nodup_cons.1 ((nodup_mid (a := t)).1 hn0)
    have hcnt : ∀ t', (moving m.runs ++ m.s.stopped).count t' = (moving l1 ++ moving l2 ++ m.s.stopped).count t' + if t' = t then 1 else 0 := fun t' => by
      rw [hm0]
      simp only [List.count_append, List.count_cons]
      by_cases et : t' = t
      · subst et; simp; omega
      · have : ¬ t = t' := fun x => et x.symm
        simp [et, this]
    have hsub : ∀ t' ∈ moving l1 ++ moving l2, t' ∈ moving m.runs ∧ t' ≠ t := fun t' ht' => by
      refine ⟨?_, fun et => hn1 (by rw [← et]; exact ht')⟩
      rw [hm0]
      simp only [List.mem_append, List.mem_cons] at ht' ⊢
      tauto
    split at e
    · rename_i tw e3
      cases e
      rcases add_cases h.inv.tinv (tryAdd_ok e3).1 with ⟨hx', _⟩ | ⟨_, r', ha, _⟩
      · cases hx'
      · refine ⟨⟨?_, h.inv.tasks, fun t' => ?_⟩, h.idle, by dsimp only; rw [hm]; exact hn2, ?_, hl⟩
        · have h4 := added_tinv h.inv.tinv hb ha
          unfold base
          dsimp only
          rw [hh]
          exact h4
        · unfold base
          dsimp only
          rw [hm]
          by_cases et : t' = t
          · subst et
            have hbk := h.inv.book t'
            have hpt : (tw.timer t').bucket = some r' := by rw [ha.timer, put_self]
            refine ⟨fun y => absurd y (by dsimp only; omega), fun y => ?_, fun y => absurd y hnt, fun _ y => ?_, ?_⟩
            · dsimp only at y
              rw [h.idle] at y; cases y
            · refine hbk.once hlt ?_
              have y : (tw.timer t').repeats = false := y
              rw [ha.timer, put_self] at y
              exact y
            · have h5 := hbk.law
              have h6 : pending (base m) t' = false := by simp [pending, base, hb, h.idle, moves]
              rw [h6] at h5
              have h7 := hcnt t'
              rw [if_pos rfl] at h7
              have h5 : m.s.scheduled.count t' = (m.s.started.map (·.id)).count t' + (moving m.runs ++ m.s.stopped).count t' + m.s.dropped.count t' + 0 := h5
              show m.s.scheduled.count t' = (m.s.started.map (·.id)).count t' + (moving l1 ++ moving l2 ++ m.s.stopped).count t' + m.s.dropped.count t' +
                ((tw.timer t').bucket.isSome || moves m.s.run t').toNat
              rw [hpt]
              simp only [Option.isSome_some, Bool.true_or, Bool.toNat_true]
              omega
          · refine (h.inv.book t').same ⟨by show tw.timer t' = _; rw [ha.timer, put_ne _ _ et], rfl, id, rfl, rfl, ?_, rfl, .inl rfl⟩
            have h7 := hcnt t'
            rw [if_neg et] at h7
            exact h7.symm
        · intro t' ht'
          dsimp only at ht' ⊢
          rw [hm] at ht'
          obtain ⟨h8, h9⟩ := hsub t' ht'
          rw [ha.timer, put_ne _ _ h9]
          exact h.apart t' h8
    · rename_i tw e3
      cases e
      rcases add_cases h.inv.tinv (tryAdd_ok e3).1 with ⟨_, htw, _⟩ | ⟨hx', _⟩
      · have htw : tw = m.s.tw := htw
        subst htw
        have htasks : ∀ t', t' ∈ (start m.s m.s.tw t).tasks → t' ∈ m.s.tasks ∨ t' = t ∧ (m.s.tw.timer t).repeats = true := fun t' h' => by
          have h' : t' ∈ (if (m.s.tw.timer t).repeats then m.s.tasks ++ [t] else m.s.tasks) := h'
          split at h'
          · rename_i hrep
            rcases List.mem_append.1 h' with h' | h'
            · exact .inl h'
            · exact .inr ⟨by simpa using h', hrep⟩
          · exact .inl h'
        refine ⟨⟨?_, ?_, fun t' => ?_⟩, h.idle, by dsimp only; rw [hm]; exact hn2, ?_, hl⟩
        · unfold base
          dsimp only
          rw [hh]
          exact h.inv.tinv
        · show (if (m.s.tw.timer t).repeats then m.s.tasks ++ [t] else m.s.tasks).Nodup
          split
          · exact List.nodup_append.2 ⟨h.inv.tasks, by simp, by
              intro a ha b hb'
              simp only [List.mem_singleton] at hb'
              subst hb'
              rintro rfl
              exact hnt ha⟩
          · exact h.inv.tasks
        · unfold base
          dsimp only
          rw [hm]
          by_cases et : t' = t
          · subst et
            have hbk := h.inv.book t'
            refine ⟨fun y => absurd y (by simp only [start]; omega), fun _ => hb, fun y => ?_, fun _ y => hbk.once hlt y, ?_⟩
            · rcases htasks t' y with y | ⟨_, y⟩
              · exact absurd y hnt
              · exact ⟨y, by simp [pending, start, hb, h.idle, moves]⟩
            · have h5 := hbk.law
              have h6 : pending (base m) t' = false := by simp [pending, base, hb, h.idle, moves]
              rw [h6] at h5
              have h7 := hcnt t'
              rw [if_pos rfl] at h7
              have h5 : m.s.scheduled.count t' = (m.s.started.map (·.id)).count t' + (moving m.runs ++ m.s.stopped).count t' + m.s.dropped.count t' + 0 := h5
              show m.s.scheduled.count t' = ((m.s.started ++ [_]).map fun x : Start => x.id).count t' + (moving l1 ++ moving l2 ++ m.s.stopped).count t' + m.s.dropped.count t' +
                ((m.s.tw.timer t').bucket.isSome || moves m.s.run t').toNat
              rw [hb, h.idle, List.map_append, List.map_singleton, count_snoc, if_pos rfl]
              simp only [Option.isSome_none, moves, Bool.or_self, Bool.toNat_false]
              omega
          · refine (h.inv.book t').same ⟨rfl, rfl, fun y => ?_, rfl, ?_, ?_, rfl, .inl rfl⟩
            · rcases htasks t' y with y | ⟨y, _⟩
              · exact y
              · exact absurd y et
            · show ((m.s.started ++ [_]).map fun x : Start => x.id).count t' = _
              rw [List.map_append, List.map_singleton, count_snoc, if_neg et]; rfl
            · have h7 := hcnt t'
              rw [if_neg et] at h7
              exact h7.symm
        · intro t' ht'
          dsimp only at ht' ⊢
          rw [hm] at ht'
          obtain ⟨h8, h9⟩ := hsub t' ht'
          obtain ⟨a1, a2, a3⟩ := h.apart t' h8
          refine ⟨a1, fun y => ?_, a3⟩
          rcases htasks t' y with y | ⟨y, _⟩
          · exact a2 y
          · exact h9 y
      · cases hx'
    · cases e

theorem minv_step {m m' : MState} {a : MAct} (h : MInv k0 W m) (e : mexec m a = some m') : MInv k0 W m' := by
  have hc : ∀ {a}, (match client (locks m.runs) m.s a with | some s => some { m with s := s } | none => none) = some m' → MInv k0 W m' := fun {a} e => by
    cases h1 : client (locks m.runs) m.s a with
    | none => rw [h1] at e; cases e
    | some s => rw [h1] at e; cases e; exact minv_client h h1
  cases a with
  | call =>
    unfold mexec at e; cases e
    have hm : moving (m.runs ++ [⟨[], .idle⟩]) = moving m.runs := by unfold moving; simp [mover]
    have hh : hands (m.runs ++ [⟨[], .idle⟩]) = hands m.runs := by unfold hands; simp [held]
    have hl : locks (m.runs ++ [⟨[], .idle⟩]) = locks m.runs := by unfold locks; simp [locked]
    refine ⟨?_, h.idle, by dsimp only; rw [hm]; exact h.nodup, fun t ht => ?_, by dsimp only; rw [hl]; exact h.locks⟩
    · unfold base
      dsimp only
      rw [hm, hh]
      exact h.inv
    · dsimp only at ht
      rw [hm] at ht
      exact h.apart t ht
  | take i => exact minv_take h e
  | step i fuel =>
    unfold mexec at e; dsimp only at e
    split at e
    · rename_i x hx
      exact minv_run h hx e
    · cases e
  | tick d => exact hc (a := .tick d) e
  | afterFunc fuel delay => exact hc (a := .afterFunc fuel delay) e
  | schedule fuel x => exact hc (a := .schedule fuel x) e
  | again fuel t x => exact hc (a := .again fuel t x) e
  | enough t => exact hc (a := .enough t) e
  | stop t => exact hc (a := .stop t) e

theorem minv_execs : ∀ {as : List MAct} {m m' : MState}, MInv k0 W m → mexecs as m = some m' → MInv k0 W m'
  | [], _, _, h, e => by cases e; exact h
  | a :: as, m, m', h, e => by
    unfold mexecs at e
    cases h1 : mexec m a with
    | none => rw [h1] at e; cases e
    | some m1 => rw [h1] at e; exact minv_execs (minv_step h h1) e

theorem minv_reach (hk : 0 < tick) (hW : 1 < W) (ht : 0 ≤ t0) {m : MState} (h : MReach tick W t0 m) : MInv tick W m := by
  obtain ⟨m0, as, e0, e⟩ := h
  refine minv_execs ?_ e
  unfold mstart at e0
  split at e0
  · rename_i tw hn
    cases e0
    exact ⟨(new_inv hk hW ht hn).inv, rfl, List.nodup_nil, fun _ h => (by cases h), List.nodup_nil⟩
  · cases e0

theorem mem_moving {runs : List Runner} {t : Nat} : t ∈ moving runs ↔ ∃ x ∈ runs, ∃ r, x.run = .moving r t := by
  unfold moving
  rw [List.mem_filterMap]
  refine exists_congr fun x => and_congr_right fun _ => ?_
  cases x.run <;> simp [mover]

/-- **C184 (nothing is lost or started twice).** With any number of calls of `Run` at a time: each scheduling of a timer was started, stopped or dropped, or is pending, and the counts add up; a pending timer is in a
bucket or in the hand of one call. -/
theorem C184_conserved (hk : 0 < tick) (hW : 1 < W) (ht : 0 ≤ t0) {m : MState} (h : MReach tick W t0 m) (t : Nat) :
    ∃ n, m.s.scheduled.count t = (m.s.started.map (·.id)).count t + m.s.stopped.count t + m.s.dropped.count t + n ∧
      ((∃ r, (m.s.tw.timer t).bucket = some r) ∧ (∀ x ∈ m.runs, ∀ r, x.run ≠ .moving r t) ∧ n = 1 ∨
        (m.s.tw.timer t).bucket = none ∧ (∃ x ∈ m.runs, ∃ r, x.run = .moving r t) ∧ n = 1 ∨
        (m.s.tw.timer t).bucket = none ∧ (∀ x ∈ m.runs, ∀ r, x.run ≠ .moving r t) ∧ n = 0) := by
  have hi := minv_reach hk hW ht h
  have hl := (hi.inv.book t).law
  have hl : m.s.scheduled.count t = (m.s.started.map (·.id)).count t + (moving m.runs ++ m.s.stopped).count t + m.s.dropped.count t +
    ((m.s.tw.timer t).bucket.isSome || moves m.s.run t).toNat := hl
  rw [hi.idle, List.count_append] at hl
  simp only [moves, Bool.or_false] at hl
  by_cases hm : t ∈ moving m.runs
  · have h1 : (moving m.runs).count t = 1 := by
      have := List.nodup_iff_count.1 hi.nodup t
      have := List.count_pos_iff.2 hm
      omega
    have hb := (hi.apart t hm).1
    rw [h1, hb] at hl
    refine ⟨1, ?_, .inr (.inl ⟨hb, mem_moving.1 hm, rfl⟩)⟩
    simp only [Option.isSome_none, Bool.toNat_false] at hl
    omega
  · have h1 := List.count_eq_zero_of_not_mem hm
    have h2 : ∀ x ∈ m.runs, ∀ r, x.run ≠ .moving r t := fun x hx r hr => hm (mem_moving.2 ⟨x, hx, r, hr⟩)
    rw [h1] at hl
    cases hb : (m.s.tw.timer t).bucket with
    | none =>
      rw [hb] at hl
      refine ⟨0, ?_, .inr (.inr ⟨rfl, h2, rfl⟩)⟩
      simp only [Option.isSome_none, Bool.toNat_false] at hl
      omega
    | some r =>
      rw [hb] at hl
      refine ⟨1, ?_, .inl ⟨⟨r, rfl⟩, h2, rfl⟩⟩
      simp only [Option.isSome_some, Bool.toNat_true] at hl
      omega

/-- **C184** So a task of `AfterFunc` is started at most once. -/
theorem C184_at_most_once (hk : 0 < tick) (hW : 1 < W) (ht : 0 ≤ t0) {m : MState} (h : MReach tick W t0 m) (t : Nat) :
    (m.s.started.map (·.id)).count t ≤ m.s.scheduled.count t ∧ ((m.s.tw.timer t).repeats = false → (m.s.started.map (·.id)).count t ≤ 1) := by
  have hb := (minv_reach hk hW ht h).inv.book t
  have h1 := hb.law
  have e1 : (base m).scheduled = m.s.scheduled := rfl
  have e2 : (base m).started = m.s.started := rfl
  rw [e1, e2] at h1
  refine ⟨by omega, fun hr => ?_⟩
  by_cases hn : t < m.s.next
  · have h2 := hb.once hn hr
    rw [e1] at h2
    omega
  · have h2 := (hb.fresh (by show m.s.next ≤ t; omega)).2.2.2
    rw [e1] at h2
    omega

/-- **C184** A bucket that holds a timer has an expiration and is in the queue, or some call has it, in its channel or in hand. -/
theorem C184_registered (hk : 0 < tick) (hW : 1 < W) (ht : 0 ≤ t0) {m : MState} (h : MReach tick W t0 m) {r : Ref} (hr : (bucketAt m.s.tw.wheels r).timers ≠ []) :
    (bucketAt m.s.tw.wheels r).exp ≠ -1 ∧ (r ∈ m.s.tw.queue ∨ ∃ x ∈ m.runs, r ∈ x.chan ∨ x.run = .advanced r ∨ x.run = .flushing r ∨ ∃ t, x.run = .moving r t) := by
  have hi := minv_reach hk hW ht h
  have hf := hi.inv.tinv.full r hr
  refine ⟨hf, (hi.inv.tinv.reg r hf).imp id fun hx => ?_⟩
  have hx : r ∈ hands m.runs ++ held m.s.run := hx
  rw [hi.idle] at hx
  simp only [held, List.append_nil] at hx
  unfold hands at hx
  obtain ⟨x, hx1, hx2⟩ := List.mem_flatMap.1 hx
  refine ⟨x, hx1, (List.mem_append.1 hx2).imp id fun h' => ?_⟩
  cases hq : x.run with
  | idle => rw [hq] at h'; cases h'
  | advanced r' => rw [hq] at h'; simp only [held, List.mem_singleton] at h'; subst h'; exact .inl rfl
  | flushing r' => rw [hq] at h'; simp only [held, List.mem_singleton] at h'; subst h'; exact .inr (.inl rfl)
  | moving r' t => rw [hq] at h'; simp only [held, List.mem_singleton] at h'; subst h'; exact .inr (.inr ⟨t, rfl⟩)

/-- **C184** Two calls never empty the same bucket, nor have the same timer in hand. -/
theorem C184_exclusive (hk : 0 < tick) (hW : 1 < W) (ht : 0 ≤ t0) {m : MState} (h : MReach tick W t0 m) {i j : Nat} (hij : i < j) {x y : Runner}
    (hx : m.runs[i]? = some x) (hy : m.runs[j]? = some y) :
    (∀ r, locked x.run = some r → locked y.run ≠ some r) ∧ ∀ r r' t, x.run = .moving r t → y.run ≠ .moving r' t := by
  have hi := minv_reach hk hW ht h
  have hsp : ∃ l1 l2 l3, m.runs = l1 ++ x :: (l2 ++ y :: l3) := by
    obtain ⟨h1, h2⟩ := List.getElem?_eq_some_iff.1 hx
    obtain ⟨h3, h4⟩ := List.getElem?_eq_some_iff.1 hy
    have hd : (m.runs.drop (i + 1))[j - (i + 1)]? = some y := by
      rw [List.getElem?_drop, show i + 1 + (j - (i + 1)) = j by omega]; exact hy
    obtain ⟨l2, l3, e, -⟩ := split_at hd
    refine ⟨m.runs.take i, l2, l3, ?_⟩
    rw [← e, ← h2, List.getElem_cons_drop, List.take_append_drop]
  obtain ⟨l1, l2, l3, e⟩ := hsp
  have hl := hi.locks
  have hm := hi.nodup
  rw [e, locks_split, locks_split] at hl
  rw [e, moving_split, moving_split] at hm
  refine ⟨fun r h1 h2 => ?_, fun r r' t h1 h2 => ?_⟩
  · rw [h1, h2] at hl
    have := (List.nodup_cons.1 ((nodup_mid (a := r)).1 hl)).1
    simp at this
  · rw [h1, h2] at hm
    have := (List.nodup_cons.1 ((nodup_mid (a := t)).1 hm)).1
    simp [mover] at this

/-! ## What goes wrong -/

/-- What can be seen of a state. -/
structure View where
  clock : Int
  started : List Start
  runs : List Runner
  cur : Int
deriving DecidableEq

def view (m : MState) : View := ⟨m.s.clock, m.s.started, m.runs, curTime m.s.tw.wheels⟩

def after (as : List MAct) : Option MState := (mstart 1 4 0).bind (mexecs as)

theorem of_view {as : List MAct} {v : View} (h : (after as).map view = some v) : ∃ m, after as = some m ∧ MReach 1 4 0 m ∧ m.s.clock = v.clock ∧ m.s.started = v.started ∧ m.runs = v.runs := by
  cases e : after as with
  | none => rw [e] at h; cases h
  | some m =>
    rw [e] at h
    cases h
    refine ⟨m, rfl, ?_, rfl, rfl, rfl⟩
    unfold after at e
    cases e0 : mstart 1 4 0 with
    | none => rw [e0] at e; cases e
    | some m0 => rw [e0] at e; exact ⟨m0, as, e0, e⟩

/-- Two timers, for times 2 and 3, and two calls of `Run`. At time 4, call 1 takes the first bucket and call 0 the second one, which it processes first. -/
def overtaken : List MAct := [.afterFunc 5 2, .afterFunc 5 3, .call, .call, .tick 4, .take 1, .take 0, .step 0 5, .step 0 5, .step 0 5, .step 0 5, .step 0 5]

/-- **C184 (refuted: no timer starts early).** Both calls take and process their buckets in order. A timer for time 6 comes to the bucket that call 1 has in its channel, and is started with it, at time 4. -/
theorem C184_early_refuted : ∃ m, MReach 1 4 0 m ∧ m.s.clock = 4 ∧ ⟨2, 6, 6, 4⟩ ∈ m.s.started := by
  obtain ⟨m, -, h1, h2, h3, -⟩ := of_view (as := overtaken ++ [.afterFunc 5 2, .step 1 5, .step 1 5, .step 1 5, .step 1 5, .step 1 5, .step 1 5])
    (v := ⟨4, [⟨1, 3, 3, 4⟩, ⟨0, 2, 6, 4⟩, ⟨2, 6, 6, 4⟩], [⟨[], .idle⟩, ⟨[], .flushing ⟨0, 2⟩⟩], 6⟩) (by decide +kernel)
  exact ⟨m, h1, h2, by rw [h3]; simp⟩

theorem add_one {tw : Tw} {w : Wheel} {t : Nat} (hw : tw.wheels[0]? = some w) (h : (tw.timer t).exp < w.cur + w.interval) (fuel : Nat) (lk : Option Ref) :
    add (fuel + 1) tw 0 t lk = add 1 tw 0 t lk := by
  unfold add
  rw [hw]
  dsimp only
  rw [if_pos h, if_pos h]

/-- The time of timer 2 and whether it is in the reach of the lowest wheel, and what becomes of adding it. -/
def stuck (m : MState) : Bool × Bool × Bool :=
  ((match m.s.tw.wheels[0]? with | some w => decide ((m.s.tw.timer 2).exp < w.cur + w.interval) | none => false),
   (tryAdd (locks m.runs) 1 m.s.tw 2).isNone,
   match add 1 m.s.tw 0 2 (some ⟨0, 2⟩) with | .error .diverge => true | _ => false)

/-- **C184 (refuted: `Run` comes to an end with each bucket).** The timer comes to the bucket after call 1 has moved the wheels on for it. The wheels already stand at 3, so the timer goes back to the bucket it comes from,
whose mutex the call has itself: `add` waits for ever. -/
theorem C184_deadlock_refuted : ∃ m, MReach 1 4 0 m ∧ m.s.clock = 4 ∧ m.runs = [⟨[], .idle⟩, ⟨[], .moving ⟨0, 2⟩ 2⟩] ∧
    (∀ fuel, add fuel m.s.tw 0 2 (some ⟨0, 2⟩) = .error .diverge) ∧ ∀ fuel, mexec m (.step 1 fuel) = none := by
  obtain ⟨m, h0, h1, h2, -, h4⟩ := of_view (as := overtaken ++ [.step 1 5, .afterFunc 5 2, .step 1 5, .step 1 5, .step 1 5, .step 1 5])
    (v := ⟨4, [⟨1, 3, 3, 4⟩, ⟨0, 2, 3, 4⟩], [⟨[], .idle⟩, ⟨[], .moving ⟨0, 2⟩ 2⟩], 3⟩) (by decide +kernel)
  have h4 : m.runs = [⟨[], .idle⟩, ⟨[], .moving ⟨0, 2⟩ 2⟩] := h4
  have hs : (after (overtaken ++ [.step 1 5, .afterFunc 5 2, .step 1 5, .step 1 5, .step 1 5, .step 1 5])).map stuck = some (true, true, true) := by decide +kernel
  rw [h0] at hs
  simp only [Option.map_some, Option.some.injEq, stuck, Prod.mk.injEq] at hs
  obtain ⟨a1, a2, a3⟩ := hs
  split at a1
  · rename_i w hw
    have hlt := of_decide_eq_true a1
    have hd : ∀ fuel, add fuel m.s.tw 0 2 (some ⟨0, 2⟩) = .error .diverge := fun fuel => by
      cases fuel with
      | zero => rfl
      | succ fuel =>
        rw [add_one hw hlt]
        split at a3
        · assumption
        · cases a3
    have hz : ∀ fuel, tryAdd (locks m.runs) fuel m.s.tw 2 = none := fun fuel => by
      cases fuel with
      | zero => rfl
      | succ fuel =>
        have := Option.isNone_iff_eq_none.1 a2
        unfold tryAdd at this ⊢
        rw [add_one hw hlt]
        exact this
    refine ⟨m, h1, h2, h4, hd, fun fuel => ?_⟩
    unfold mexec
    dsimp only
    have hr : m.runs[1]? = some ⟨[], .moving ⟨0, 2⟩ 2⟩ := by rw [h4]; rfl
    rw [hr]
    unfold runStep
    dsimp only
    rw [hz]
  · cases a1

/-- The calls as the property wants them: two of them at work at the same time, with different buckets. -/
theorem C184_example : ∃ m, MReach 1 4 0 m ∧ m.s.started = [] ∧ m.runs = [⟨[], .moving ⟨0, 3⟩ 1⟩, ⟨[], .moving ⟨0, 2⟩ 0⟩] := by
  obtain ⟨m, -, h1, -, h3, h4⟩ := of_view (as := [.afterFunc 5 2, .afterFunc 5 3, .call, .call, .tick 4, .take 1, .take 0, .step 1 5, .step 0 5, .step 0 5, .step 1 5, .step 1 5, .step 0 5])
    (v := ⟨4, [], [⟨[], .moving ⟨0, 3⟩ 1⟩, ⟨[], .moving ⟨0, 2⟩ 0⟩], 3⟩) (by decide +kernel)
  exact ⟨m, h1, h3, h4⟩

end Verif.TimingRuns
