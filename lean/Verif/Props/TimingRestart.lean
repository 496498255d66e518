import Verif.Model.TimingRestart
import Verif.Props.TimingWheel

/-! # `Run` called again: C178 -/

namespace Verif.TimingWheel

open Mutex (put put_self put_ne)

variable {tick t0 : Int} {W : Nat} {k0 : Int} {k : State → Ref → Prop}

/-- The state with the lost buckets at the end of the channel. -/
def widen (x : RState) : State := { x.s with chan := x.s.chan ++ x.lost }

theorem inv_chan {s : State} {c : List Ref} (h : Inv k0 W s) (hc : ∀ r ∈ s.chan, r ∈ c) : Inv k0 W { s with chan := c } := by
  refine ⟨h.tinv.mono ?_, h.tasks, fun t => ⟨(h.book t).fresh, (h.book t).move, (h.book t).task, (h.book t).once, (h.book t).law⟩⟩
  intro x hx
  rcases List.mem_append.1 hx with hx | hx
  · exact List.mem_append_left _ (hc x hx)
  · exact List.mem_append_right _ hx

/-- A step is a step too if there are more buckets at the end of the channel. -/
theorem wide_step {s s' : State} (l : List Ref) (st : Step k s s') :
    ∃ c, Step free { s with chan := s.chan ++ l } { s' with chan := c } ∧ ∀ r ∈ c, r ∈ s'.chan ++ l := by
  cases st with
  | tick d hd => exact ⟨_, .tick _ d hd, fun _ => id⟩
  | afterFunc delay fuel tw ok e => exact ⟨_, .afterFunc _ delay fuel tw ok e, fun _ => id⟩
  | schedule e fuel tw he => exact ⟨_, .schedule _ e fuel tw he, fun _ => id⟩
  | scheduleRun e fuel tw he => exact ⟨_, .scheduleRun _ e fuel tw he, fun _ => id⟩
  | again t e fuel tw hm he => exact ⟨_, .again _ t e fuel tw hm he, fun _ => id⟩
  | againRun t e fuel tw hm he => exact ⟨_, .againRun _ t e fuel tw hm he, fun _ => id⟩
  | enough t hm => exact ⟨_, .enough _ t hm, fun _ => id⟩
  | stop t r hb hl => exact ⟨_, .stop _ t r hb hl, fun _ => id⟩
  | take r q h0 hc hp =>
    refine ⟨_, .take _ r q h0 hc hp, fun x hx => ?_⟩
    simp only [List.mem_append, List.mem_singleton] at hx ⊢
    tauto
  | advance r rest ws hr hc hk he =>
    exact ⟨_, .advance _ r (rest ++ l) ws hr (by dsimp only; rw [hc]; rfl) trivial he, fun _ => id⟩
  | lock r hr => exact ⟨_, .lock _ r hr, fun _ => id⟩
  | unlink r t ts hr hts => exact ⟨_, .unlink _ r t ts hr hts, fun _ => id⟩
  | readd r t fuel tw hr he => exact ⟨_, .readd _ r t fuel tw hr he, fun _ => id⟩
  | fire r t fuel tw hr he => exact ⟨_, .fire _ r t fuel tw hr he, fun _ => id⟩
  | done r hr hts => exact ⟨_, .done _ r hr hts, fun _ => id⟩

theorem rinv_step {x x' : RState} (h : Inv k0 W (widen x)) (st : RStep k x x') : Inv k0 W (widen x') := by
  cases st with
  | step s' st =>
    obtain ⟨c, h1, h2⟩ := wide_step x.lost st
    have h3 := inv_chan (c := s'.chan ++ x.lost) (inv_step h h1) h2
    exact h3
  | again hr =>
    have h3 := inv_chan (s := widen x) (c := [] ++ (x.lost ++ x.s.chan)) h (fun r hm => by
      simp only [widen, List.nil_append, List.mem_append] at hm ⊢
      tauto)
    exact h3
  | steal r q ho h0 hc hp =>
    have h1 := inv_step (k := free) h (.take _ r q h0 hc hp)
    have h3 := inv_chan (c := x.s.chan ++ (x.lost ++ [r])) h1 (fun y hy => by
      simp only [widen, List.mem_append, List.mem_singleton] at hy ⊢
      tauto)
    exact h3
  | gone ho => exact h

theorem rinv_from {x x' : RState} (h : Inv k0 W (widen x)) (f : RFrom k x x') : Inv k0 W (widen x') := by
  induction f with
  | refl => exact h
  | step _ st ih => exact rinv_step ih st

theorem rinv_reach (hk : 0 < tick) (hW : 1 < W) (ht : 0 ≤ t0) {x : RState} (h : RReach k tick W t0 x) : Inv tick W (widen x) := by
  obtain ⟨tw, e, f⟩ := h
  exact rinv_from (x := ⟨init tw t0, 0, []⟩) (new_inv hk hW ht e).inv f

/-- **C178** Across any number of calls of `Run`: each scheduling of a timer was started, stopped or dropped, or is pending, and the counts add up; so nothing is started twice. -/
theorem C178_conserved (hk : 0 < tick) (hW : 1 < W) (ht : 0 ≤ t0) {x : RState} (h : RReach k tick W t0 x) (t : Nat) :
    (∃ n, x.s.scheduled.count t = (x.s.started.map (·.id)).count t + x.s.stopped.count t + x.s.dropped.count t + n ∧
      (((∃ r, (x.s.tw.timer t).bucket = some r) ∨ ∃ r, x.s.run = .moving r t) ∧ n = 1 ∨
        (x.s.tw.timer t).bucket = none ∧ (∀ r, x.s.run ≠ .moving r t) ∧ n = 0)) ∧
    ((x.s.tw.timer t).repeats = false → (x.s.started.map (·.id)).count t ≤ 1) := by
  have hb := (rinv_reach hk hW ht h).book t
  refine ⟨⟨_, hb.law, ?_⟩, fun hr => ?_⟩
  · have hm : moves x.s.run t = true ↔ ∃ r, x.s.run = .moving r t := by
      cases x.s.run <;> simp [moves]
    by_cases hp : pending x.s t = true
    · left
      refine ⟨?_, by show (pending x.s t).toNat = 1; rw [hp]; rfl⟩
      unfold pending at hp
      rw [Bool.or_eq_true, Option.isSome_iff_exists, hm] at hp
      exact hp
    · right
      have hp' : pending x.s t = false := by simpa using hp
      have hq := hp'
      simp only [pending, Bool.or_eq_false_iff, Option.isSome_eq_false_iff, Option.isNone_iff_eq_none] at hq
      exact ⟨hq.1, fun r hr => by rw [hr] at hq; simp [moves] at hq, by show (pending x.s t).toNat = 0; rw [hp']; rfl⟩
  · have h1 := hb.law
    by_cases hn : t < x.s.next
    · have h2 := hb.once hn hr
      change x.s.scheduled.count t = 1 at h2
      change x.s.scheduled.count t = _ at h1
      change (x.s.started.map (·.id)).count t ≤ 1
      simp only [widen] at h1
      omega
    · have h2 := (hb.fresh (by show x.s.next ≤ t; omega)).2.2.2
      change x.s.scheduled.count t = 0 at h2
      simp only [widen] at h1
      omega

/-- **C178** A bucket that holds a timer is in the queue, on its way to the present `Run`, in its hand, or lost. -/
theorem C178_registered (hk : 0 < tick) (hW : 1 < W) (ht : 0 ≤ t0) {x : RState} (h : RReach k tick W t0 x) {r : Ref}
    (hr : (bucketAt x.s.tw.wheels r).timers ≠ []) :
    r ∈ x.s.tw.queue ∨ r ∈ x.s.chan ∨ (∃ r', held x.s.run = [r'] ∧ r' = r) ∨ r ∈ x.lost := by
  have hi := (rinv_reach hk hW ht h).tinv
  rcases hi.reg r (hi.full r hr) with h1 | h1
  · exact .inl h1
  · simp only [widen, List.mem_append] at h1
    rcases h1 with (h1 | h1) | h1
    · exact .inr (.inl h1)
    · exact .inr (.inr (.inr h1))
    · refine .inr (.inr (.inl ?_))
      cases hr' : x.s.run <;> rw [hr'] at h1 <;> simp only [held, List.not_mem_nil, List.mem_singleton] at h1
      all_goals exact ⟨_, rfl, h1.symm⟩

/-- **C178** As long as nothing is lost, the wheel is one that some execution with a single call of `Run` gives. -/
theorem C178_clean {x : RState} (h : RReach k tick W t0 x) (hl : x.lost = []) : Reach k tick W t0 x.s := by
  obtain ⟨tw, e, f⟩ := h
  refine ⟨tw, e, ?_⟩
  clear e
  induction f with
  | refl => exact .refl
  | step _ st ih =>
    cases st with
    | step s' st => exact .step (ih hl) st
    | again hr =>
      obtain ⟨h1, h2⟩ := List.append_eq_nil_iff.1 hl
      have h3 := ih h1
      rw [← h2]
      exact h3
    | steal r q ho h0 hc hp => simp at hl
    | gone ho => exact ih hl

/-- The steps in which the expiration of the bucket `r` is not changed. -/
inductive Quiet (k : State → Ref → Prop) (r : Ref) (x0 : RState) : RState → Prop
  | refl : Quiet k r x0 x0
  | step {x x'} : Quiet k r x0 x → RStep k x x' →
      (bucketAt x'.s.tw.wheels r).exp = (bucketAt x.s.tw.wheels r).exp → Quiet k r x0 x'

/-- The bucket is neither in the queue nor on its way to the present `Run` nor in its hand. -/
def Lone (s : State) (r : Ref) : Prop := r ∉ s.tw.queue ∧ r ∉ s.chan ∧ r ∉ held s.run

theorem lone_add {tw tw' : Tw} {c0 : Int} {t' : Nat} {r r' : Ref} (ha : Added k0 W c0 tw t' r' tw') (hq : r ∉ tw.queue)
    (he : (bucketAt tw'.wheels r).exp = (bucketAt tw.wheels r).exp) : r ∉ tw'.queue := by
  by_cases hr : r = r'
  · subst hr
    rw [ha.bk, if_pos rfl] at he
    rw [ha.same he.symm]
    exact hq
  · by_cases hs : (bucketAt tw.wheels r').exp = fl (tw.timer t').exp (K k0 W r'.level)
    · rw [ha.same hs]; exact hq
    · obtain ⟨q, e1, e2⟩ := push_total tw'.wheels tw.queue r'
      have := ha.push hs
      rw [e1] at this
      cases this
      intro hm
      rcases List.mem_cons.1 (e2.mem_iff.1 hm) with h1 | h1
      · exact hr h1
      · exact hq h1

/-- What a step leaves of a timer in a bucket that nobody will process. -/
theorem lone_step {s s' : State} {c : List Ref} {t : Nat} {r : Ref} (h : Inv k0 W { s with chan := c }) (st : Step k s s') (hb : (s.tw.timer t).bucket = some r)
    (hl : Lone s r) (he : (bucketAt s'.tw.wheels r).exp = (bucketAt s.tw.wheels r).exp) :
    (s'.started.map (·.id)).count t = (s.started.map (·.id)).count t ∧ t < s'.next ∧
      ((s'.tw.timer t).bucket = some r ∧ Lone s' r ∨ pending s' t = false ∧ t ∉ s'.tasks) := by
  obtain ⟨l1, l2, l3⟩ := hl
  have hp : pending s t = true := by simp [pending, hb]
  have hn : t < s.next := mem_lt h (.inl hp)
  have en : t ≠ s.next := by omega
  have hnt : t ∉ s.tasks := fun x => by have h2 : pending s t = false := ((h.book t).task x).2; rw [hp] at h2; simp at h2
  have hnm : moves s.run t = false := by
    cases hm : moves s.run t with
    | false => rfl
    | true => have := (h.book t).move hm; rw [hb] at this; simp at this
  cases st with
  | tick d hd => exact ⟨rfl, hn, .inl ⟨hb, l1, l2, l3⟩⟩
  | afterFunc delay fuel tw ok e =>
    have hf := fresh_timer h ⟨s.clock + delay, none, false⟩ rfl
    rcases add_cases hf e with ⟨rfl, rfl, _⟩ | ⟨rfl, r', ha, _⟩
    · exact ⟨rfl, Nat.lt_succ_of_lt hn, .inl ⟨by dsimp only; rw [put_ne _ _ en]; exact hb, l1, l2, l3⟩⟩
    · refine ⟨rfl, Nat.lt_succ_of_lt hn, .inl ⟨?_, lone_add ha l1 he, l2, l3⟩⟩
      dsimp only
      rw [ha.timer, put_ne _ _ en]
      dsimp only
      rw [put_ne _ _ en]; exact hb
  | schedule e fuel tw he' =>
    have hf := fresh_timer h ⟨e, none, true⟩ rfl
    rcases add_cases hf he' with ⟨hx, _⟩ | ⟨_, r', ha, _⟩
    · simp at hx
    · refine ⟨rfl, Nat.lt_succ_of_lt hn, .inl ⟨?_, lone_add ha l1 he, l2, l3⟩⟩
      dsimp only
      rw [ha.timer, put_ne _ _ en]
      dsimp only
      rw [put_ne _ _ en]; exact hb
  | scheduleRun e fuel tw he' =>
    have hf := fresh_timer h ⟨e, none, true⟩ rfl
    rcases add_cases hf he' with ⟨_, rfl, _⟩ | ⟨hx, _⟩
    · refine ⟨?_, Nat.lt_succ_of_lt hn, .inl ⟨by show Timer.bucket (put _ _ _ t) = _; rw [put_ne _ _ en]; exact hb, l1, l2, l3⟩⟩
      show ((_ ++ [_]).map _).count _ = _
      rw [List.map_append, List.map_singleton, count_snoc, if_neg en]; rfl
    · simp at hx
  | again t' e fuel tw hm he' =>
    have et : t ≠ t' := by rintro rfl; exact hnt hm
    have g2 := ((h.book t').task hm).2
    simp only [pending, Bool.or_eq_false_iff, Option.isSome_eq_false_iff, Option.isNone_iff_eq_none] at g2
    have hf := timer_tinv (v := { s.tw.timer t' with exp := e }) h.tinv g2.1 g2.1
    rcases add_cases hf he' with ⟨hx, _⟩ | ⟨_, r', ha, _⟩
    · simp at hx
    · refine ⟨rfl, hn, .inl ⟨?_, lone_add ha l1 he, l2, l3⟩⟩
      dsimp only
      rw [ha.timer, put_ne _ _ et]
      dsimp only
      rw [put_ne _ _ et]; exact hb
  | againRun t' e fuel tw hm he' =>
    have et : t ≠ t' := by rintro rfl; exact hnt hm
    have g2 := ((h.book t').task hm).2
    simp only [pending, Bool.or_eq_false_iff, Option.isSome_eq_false_iff, Option.isNone_iff_eq_none] at g2
    have hf := timer_tinv (v := { s.tw.timer t' with exp := e }) h.tinv g2.1 g2.1
    rcases add_cases hf he' with ⟨_, rfl, _⟩ | ⟨hx, _⟩
    · refine ⟨?_, hn, .inl ⟨by show Timer.bucket (put _ _ _ t) = _; rw [put_ne _ _ et]; exact hb, l1, l2, l3⟩⟩
      show ((_ ++ [_]).map _).count _ = _
      rw [List.map_append, List.map_singleton, count_snoc, if_neg et]; rfl
    · simp at hx
  | enough t' hm => exact ⟨rfl, hn, .inl ⟨hb, l1, l2, l3⟩⟩
  | stop t' r' hb' hl' =>
    by_cases et : t = t'
    · subst et
      exact ⟨rfl, hn, .inr ⟨by simp [pending, put_self, hnm], hnt⟩⟩
    · exact ⟨rfl, hn, .inl ⟨by dsimp only; rw [put_ne _ _ et]; exact hb, l1, l2, l3⟩⟩
  | take r' q h0 hc hpop =>
    obtain ⟨q', e1, e2⟩ := pop_total s.tw.wheels h0
    rw [e1] at hpop
    cases hpop
    refine ⟨rfl, hn, .inl ⟨hb, fun x => l1 (e2.mem_iff.1 (List.mem_cons_of_mem _ x)), fun x => ?_, l3⟩⟩
    rcases List.mem_append.1 x with x | x
    · exact l2 x
    · rw [List.mem_singleton] at x
      subst x
      exact l1 (List.mem_of_getElem? h0)
  | advance r' rest ws hr hc hk he' =>
    refine ⟨rfl, hn, .inl ⟨hb, l1, fun x => l2 (by rw [hc]; exact List.mem_cons_of_mem _ x), fun x => ?_⟩⟩
    simp only [held, List.mem_singleton] at x
    subst x
    exact l2 (by rw [hc]; exact List.mem_cons_self ..)
  | lock r' hr => exact ⟨rfl, hn, .inl ⟨hb, l1, l2, by rw [hr] at l3; exact l3⟩⟩
  | unlink r' t' ts hr hts =>
    have et : t ≠ t' := by
      rintro rfl
      have h1 := (h.tinv.mem t r').2 (by rw [hts]; exact List.mem_cons_self ..)
      rw [hb] at h1
      cases h1
      rw [hr] at l3
      exact l3 (by simp [held])
    exact ⟨rfl, hn, .inl ⟨by dsimp only; rw [put_ne _ _ et]; exact hb, l1, l2, by rw [hr] at l3; exact l3⟩⟩
  | readd r' t' fuel tw hr he' =>
    have et : t ≠ t' := by rintro rfl; rw [hr] at hnm; simp [moves] at hnm
    rcases add_cases h.tinv he' with ⟨hx, _⟩ | ⟨_, r2, ha, _⟩
    · simp at hx
    · refine ⟨rfl, hn, .inl ⟨?_, lone_add ha l1 he, l2, by rw [hr] at l3; exact l3⟩⟩
      dsimp only
      rw [ha.timer, put_ne _ _ et]; exact hb
  | fire r' t' fuel tw hr he' =>
    have et : t ≠ t' := by rintro rfl; rw [hr] at hnm; simp [moves] at hnm
    rcases add_cases h.tinv he' with ⟨_, rfl, _⟩ | ⟨hx, _⟩
    · refine ⟨?_, hn, .inl ⟨hb, l1, l2, by rw [hr] at l3; exact l3⟩⟩
      show ((_ ++ [_]).map _).count _ = _
      rw [List.map_append, List.map_singleton, count_snoc, if_neg et]; rfl
    · simp at hx
  | done r' hr hts => exact ⟨rfl, hn, .inl ⟨hb, l1, l2, by simp [held]⟩⟩

/-- **C178** A timer in a bucket that is neither in the queue nor on its way to the present `Run` nor in its hand is not started, whatever happens, as long as nobody puts a timer with
another expiration into that bucket: not by the present `Run`, nor by any later one. -/
theorem C178_never (hk : 0 < tick) (hW : 1 < W) (ht : 0 ≤ t0) {x x' : RState} (h : RReach k tick W t0 x) {t : Nat} {r : Ref}
    (hb : (x.s.tw.timer t).bucket = some r) (hq : r ∉ x.s.tw.queue) (hc : r ∉ x.s.chan) (hr : ∀ t', x.s.run ≠ .moving r t')
    (hr' : x.s.run ≠ .advanced r ∧ x.s.run ≠ .flushing r) (f : Quiet k r x x') :
    (x'.s.started.map (·.id)).count t = (x.s.started.map (·.id)).count t := by
  have hi := rinv_reach hk hW ht h
  have hl : Lone x.s r := by
    refine ⟨hq, hc, fun hm => ?_⟩
    cases hx : x.s.run <;> rw [hx] at hm hr hr' <;> simp only [held, List.not_mem_nil, List.mem_singleton] at hm <;> subst hm
    · exact hr'.1 rfl
    · exact hr'.2 rfl
    · exact hr _ rfl
  have hn : t < x.s.next := mem_lt hi (.inl (by simp [pending, widen, hb]))
  have key : Inv tick W (widen x') ∧ (x'.s.started.map (·.id)).count t = (x.s.started.map (·.id)).count t ∧ t < x'.s.next ∧
      ((x'.s.tw.timer t).bucket = some r ∧ Lone x'.s r ∨ pending x'.s t = false ∧ t ∉ x'.s.tasks) := by
    induction f with
    | refl => exact ⟨hi, rfl, hn, .inl ⟨hb, hl⟩⟩
    | step _ st he ih =>
      obtain ⟨i1, i2, i3, i4⟩ := ih
      refine ⟨rinv_step i1 st, ?_⟩
      cases st with
      | step s' st =>
        rcases i4 with ⟨j1, j2⟩ | ⟨j1, j2⟩
        · obtain ⟨a1, a2, a3⟩ := lone_step i1 st j1 j2 he
          exact ⟨a1.trans i2, a2, a3⟩
        · obtain ⟨c, h1, _⟩ := wide_step _ st
          have a := dead_step i1 h1 j1 j2 i3
          refine ⟨a.sta.trans i2, ?_, .inr ⟨?_, fun y => j2 (a.task y)⟩⟩
          · have := a.next
            dsimp only [widen] at this i3 ⊢
            omega
          · have a1 := a.timer
            have a2 := a.move
            dsimp only [widen] at a1 a2
            unfold pending at j1 ⊢
            dsimp only
            rw [a1, a2]
            exact j1
      | again hr =>
        refine ⟨i2, i3, i4.imp (fun j => ⟨j.1, j.2.1, by simp, j.2.2.2⟩) id⟩
      | steal r' q ho h0 hc hp =>
        refine ⟨i2, i3, i4.imp (fun j => ⟨j.1, fun y => j.2.1 ?_, j.2.2.1, j.2.2.2⟩) id⟩
        obtain ⟨q', e1, e2⟩ := pop_total _ h0
        rw [e1] at hp
        cases hp
        exact e2.mem_iff.1 (List.mem_cons_of_mem _ y)
      | gone ho => exact ⟨i2, i3, i4⟩
  exact key.2.1

/-- The commands of Proof/TimingWheelRun, a return of `Run` with the next call, and a `take` of an old goroutine. -/
inductive RCmd
  | one (c : Cmd)
  | again
  | steal

def rexec1 (x : RState) : RCmd → Option RState
  | .one c => (exec1 (fun _ _ => true) x.s c).map (fun s' => { x with s := s' })
  | .again => match x.s.run with
    | .idle => some ⟨{ x.s with chan := [] }, x.old + 1, x.lost ++ x.s.chan⟩
    | _ => none
  | .steal =>
    match x.s.tw.queue[0]? with
    | none => none
    | some r =>
      if 0 < x.old ∧ x.s.clock > (bucketAt x.s.tw.wheels r).exp then
        match Heap.pop (less x.s.tw.wheels) x.s.tw.queue with
        | .ok (r', q) => if r' = r then some { x with s := { x.s with tw := { x.s.tw with queue := q } }, lost := x.lost ++ [r] } else none
        | .error _ => none
      else none

def rexec (x : RState) : List RCmd → Option RState
  | [] => some x
  | c :: cs => (rexec1 x c).bind (fun x' => rexec x' cs)

def rrun (tick wheelSize t0 : Int) (cs : List RCmd) : Option RState :=
  match new tick wheelSize t0 with
  | .ok tw => rexec ⟨init tw t0, 0, []⟩ cs
  | .error _ => none

theorem rexec1_sound {x x' : RState} {c : RCmd} (e : rexec1 x c = some x') : RStep free x x' := by
  cases c with
  | one c =>
    simp only [rexec1, Option.map_eq_some_iff] at e
    obtain ⟨s', e1, rfl⟩ := e
    exact .step x s' (exec1_sound free_ok e1)
  | again =>
    simp only [rexec1] at e
    split at e
    · rename_i hr
      cases e
      exact .again x hr
    · simp at e
  | steal =>
    simp only [rexec1] at e
    split at e
    · simp at e
    · rename_i r h0
      split at e
      · rename_i hc
        split at e
        · rename_i r' q hp
          split at e
          · rename_i hr
            subst hr
            cases e
            exact .steal x r' q hc.1 h0 hc.2 hp
          · simp at e
        · simp at e
      · simp at e

theorem rfrom_trans {x x1 x2 : RState} (h1 : RFrom k x x1) (h2 : RFrom k x1 x2) : RFrom k x x2 := by
  induction h2 with
  | refl => exact h1
  | step _ st ih => exact .step ih st

theorem rexec_sound : ∀ {cs : List RCmd} {x x' : RState}, rexec x cs = some x' → RFrom free x x'
  | [], x, x', e => by simp only [rexec, Option.some.injEq] at e; subst e; exact .refl
  | c :: cs, x, x', e => by
    simp only [rexec, Option.bind_eq_some_iff] at e
    obtain ⟨x1, e1, e2⟩ := e
    exact rfrom_trans (.step .refl (rexec1_sound e1)) (rexec_sound e2)

theorem rrun_test {wheelSize : Int} {cs : List RCmd} {p : RState → Bool} (e : (rrun tick wheelSize t0 cs).any p = true) :
    ∃ x, RReach free tick wheelSize t0 x ∧ p x = true := by
  unfold rrun at e
  split at e
  · rename_i tw h
    cases hx : rexec ⟨init tw t0, 0, []⟩ cs with
    | none => rw [hx] at e; simp at e
    | some x => rw [hx] at e; exact ⟨x, ⟨tw, h, rexec_sound hx⟩, by simpa using e⟩
  · simp at e

/-- `AfterFunc`, the bucket becomes due and goes into the channel, and `Run` is stopped and called again. -/
def stopped1 : List RCmd := [.one (.after 2), .one (.tick 3), .one .take, .again]

/-- **C178** The natural statement is false: a timer that is due when `Run` is stopped and called again is never started, however long the new `Run` runs and however often it is
called again, and whatever timers others set, as long as none with another expiration comes into its bucket. -/
theorem C178_lost_refuted : ∃ x, RReach free 1 4 0 x ∧ x.s.scheduled = [0] ∧ x.s.stopped = [] ∧ x.s.dropped = [] ∧ (x.s.tw.timer 0).exp < x.s.clock ∧
    x.s.run = .idle ∧ ∀ x', Quiet free ⟨0, 2⟩ x x' → 0 ∉ x'.s.started.map (·.id) := by
  obtain ⟨x, h1, h2⟩ := rrun_test (tick := 1) (wheelSize := 4) (t0 := 0) (cs := stopped1)
    (p := fun x => decide (x.s.scheduled = [0] ∧ x.s.stopped = [] ∧ x.s.dropped = [] ∧ (x.s.tw.timer 0).exp < x.s.clock ∧ x.s.run = .idle ∧
      (x.s.tw.timer 0).bucket = some ⟨0, 2⟩ ∧ x.s.tw.queue = [] ∧ x.s.chan = [] ∧ x.s.started = [])) (by decide +kernel)
  obtain ⟨a1, a2, a3, a4, a5, a6, a7, a8, a9⟩ := of_decide_eq_true h2
  refine ⟨x, h1, a1, a2, a3, a4, a5, fun x' f hm => ?_⟩
  have h3 := C178_never (W := 4) (by omega) (by omega) (by omega) h1 a6 (by rw [a7]; simp) (by rw [a8]; simp) (by rw [a5]; simp) (by rw [a5]; simp) f
  rw [a9] at h3
  have h4 := List.count_pos_iff.2 hm
  rw [h3] at h4
  simp at h4

/-- **C178** A timer that another caller sets after the new call joins the lost ones if its expiration is in the span of the lost bucket (wheel with a tick of 4: the bucket is that of 4 to 7,
the first timer is for time 5 and the second one, set at time 5 after `Run` was called again, for time 7). -/
theorem C178_joins_refuted : ∃ x, RReach free 4 4 0 x ∧ x.s.scheduled = [0, 1] ∧ x.s.dropped = [] ∧ (x.s.tw.timer 1).exp = 7 ∧ x.old = 1 ∧
    ∀ x', Quiet free ⟨0, 1⟩ x x' → 0 ∉ x'.s.started.map (·.id) ∧ 1 ∉ x'.s.started.map (·.id) := by
  obtain ⟨x, h1, h2⟩ := rrun_test (tick := 4) (wheelSize := 4) (t0 := 0)
    (cs := [.one (.after 5), .one (.tick 5), .one .take, .again, .one (.after 2)])
    (p := fun x => decide (x.s.scheduled = [0, 1] ∧ x.s.dropped = [] ∧ (x.s.tw.timer 1).exp = 7 ∧ x.old = 1 ∧ x.s.run = .idle ∧
      (x.s.tw.timer 0).bucket = some ⟨0, 1⟩ ∧ (x.s.tw.timer 1).bucket = some ⟨0, 1⟩ ∧ x.s.tw.queue = [] ∧ x.s.chan = [] ∧ x.s.started = []))
    (by decide +kernel)
  obtain ⟨a1, a2, a3, a4, a5, a6, a7, a8, a9, a10⟩ := of_decide_eq_true h2
  have key : ∀ t, (x.s.tw.timer t).bucket = some ⟨0, 1⟩ → ∀ x', Quiet free ⟨0, 1⟩ x x' → t ∉ x'.s.started.map (·.id) := by
    intro t hb x' f hm
    have h3 := C178_never (W := 4) (by omega) (by omega) (by omega) h1 hb (by rw [a8]; simp) (by rw [a9]; simp) (by rw [a5]; simp) (by rw [a5]; simp) f
    rw [a10] at h3
    have h4 := List.count_pos_iff.2 hm
    rw [h3] at h4
    simp at h4
  exact ⟨x, h1, a1, a2, a3, a4, fun x' f => ⟨key 0 a6 x' f, key 1 a7 x' f⟩⟩

/-- **C178** A timer with another expiration that comes into the lost bucket brings it back: the lost timer, for time 2, is started with it, after time 6. -/
theorem C178_late_refuted : ∃ x, RReach free 1 4 0 x ∧ ∃ a ∈ x.s.started, a.id = 0 ∧ a.exp = 2 ∧ a.clock = 7 ∧ x.old = 1 := by
  obtain ⟨x, h1, h2⟩ := rrun_test (tick := 1) (wheelSize := 4) (t0 := 0)
    (cs := stopped1 ++ [.one (.after 3), .one (.tick 3), .one .take, .one .advance, .one .lock, .one .unlink, .one .move, .one .done,
      .one (.tick 1), .one .take, .one .advance, .one .lock, .one .unlink, .one .move])
    (p := fun x => x.s.started.any (fun a => decide (a.id = 0 ∧ a.exp = 2 ∧ a.clock = 7 ∧ x.old = 1))) (by decide +kernel)
  rw [List.any_eq_true] at h2
  obtain ⟨a, ha, h3⟩ := h2
  exact ⟨x, h1, a, ha, of_decide_eq_true h3⟩

/-- A call again with nothing in the channel: the timer is started by the new `Run`. -/
example : (rrun 1 4 0 [.one (.after 2), .again, .one (.tick 3), .one .take, .one .advance, .one .lock, .one .unlink, .one .move, .one .done]).any
    (fun x => decide (x.lost = [] ∧ x.s.started.map (·.id) = [0] ∧ x.old = 1)) = true := by decide +kernel

/-- An old goroutine takes a bucket that becomes due after the new call. -/
example : (rrun 1 4 0 [.one (.after 2), .again, .one (.tick 3), .steal]).any
    (fun x => decide (x.lost = [⟨0, 2⟩] ∧ x.s.tw.queue = [] ∧ x.s.chan = [] ∧ (x.s.tw.timer 0).bucket = some ⟨0, 2⟩)) = true := by decide +kernel

end Verif.TimingWheel
