import Verif.Proof.TimingProto
import Verif.Props.TimingFine
import Verif.Props.Heap

/-!
# Property C168: the queue of the timing wheel, its sleep and its end

Model/TimingWhole: the wheel of Model/TimingFine, with the mutex, the flag and the wakeup channel of its queue, the goroutine of `channel` and the
cancelled context.
-/

namespace Verif.TimingWhole

open Mutex (put)
open TimingWheel (Ref Bucket Wheel Timer Tw Start bucketAt setBucket less curTime)

variable {tick t0 : Int} {W : Nat}

/-! ## The same executions -/

/-- **C168.** However the queue is locked, sleeps and is woken, whatever the channel holds and whenever the context is cancelled: what happens to the
wheels, the timers and the tasks is an execution of Model/TimingFine, so that C140 holds. -/
theorem C168_refines {s : State} (h : Reach tick W t0 s) :
    ∃ f, TimingFine.Reach false tick W t0 f ∧ f.tw = s.sh.tw ∧ f.clock = s.clock ∧ f.scheduled = s.scheduled ∧ f.started = s.started ∧
      f.stopped = s.stopped ∧ f.dropped = s.dropped ∧ f.chan = s.buf ++ hand s.take :=
  ⟨absSt s, reach_abs h, rfl, rfl, rfl, rfl, rfl, rfl, rfl⟩

/-- **C168.** For instance no scheduling is started twice. -/
theorem C168_at_most_once (hk : 0 < tick) (hW : 1 < W) (ht : 0 ≤ t0) {s : State} (h : Reach tick W t0 s) (t : Nat) :
    (s.started.map (·.id)).count t ≤ s.scheduled.count t ∧
      ((s.sh.tw.timer t).repeats = false → (s.started.map (·.id)).count t + s.stopped.count t ≤ 1) :=
  TimingFine.C140_at_most_once hk hW ht (reach_abs h) t

/-! ## Who is where -/

/-- The `i`-th goroutine in `add`, or `Run` if there is no `i`, is at `pc`, with timer `t`. -/
def At (s : State) (o : Option Nat) (t : Nat) (pc : Pc) : Prop :=
  match o with
  | some i => ∃ runs, s.adders[i]? = some ⟨t, runs, pc⟩
  | none => ∃ r, s.run = .moving r t pc

/-- Its next action. -/
def actOf : Option Nat → Act
  | some i => .act i
  | none => .move

theorem mem_at {s : State} {pc : Pc} (h : pc ∈ pcs s) : ∃ o t, At s o t pc := by
  rcases List.mem_append.1 h with h | h
  · obtain ⟨a, ha, rfl⟩ := List.mem_map.1 h
    obtain ⟨i, hi⟩ := List.mem_iff_getElem?.1 ha
    exact ⟨some i, a.t, a.runs, hi⟩
  · cases hr : s.run with
    | moving r t p =>
      rw [hr] at h
      simp only [runPcs, List.mem_singleton] at h
      subst h
      exact ⟨none, t, r, hr⟩
    | _ => rw [hr] at h; cases h

theorem at_mem {s : State} {o : Option Nat} {t : Nat} {pc : Pc} (h : At s o t pc) : pc ∈ pcs s := by
  cases o with
  | some i =>
    obtain ⟨runs, h⟩ := h
    exact List.mem_append.2 (.inl (List.mem_map.2 ⟨_, List.mem_of_getElem? h, rfl⟩))
  | none =>
    obtain ⟨r, h⟩ := h
    exact List.mem_append.2 (.inr (by rw [h]; simp [runPcs]))

/-- In a state satisfying the invariant, the mutex is held by at most one goroutine. -/
theorem one_holder {s : State} (h : Inv s) {o : Option Nat} {t : Nat} {pc : Pc} (ha : At s o t pc) (hc : crit pc = true) :
    s.sh.mutex = true ∧ takeCrit s.take = 0 := by
  have h1 := h.one
  have : 0 < (pcs s).countP crit := List.countP_pos_iff.2 ⟨pc, at_mem ha, hc⟩
  cases hm : s.sh.mutex
  · rw [hm] at h1; simp only [Bool.false_eq_true, if_false] at h1; omega
  · rw [hm] at h1; simp only [if_true] at h1; exact ⟨rfl, by omega⟩

/-- **C168.** The mutex excludes: two goroutines inside `push`, or one and the goroutine of `channel`, never hold it together. -/
theorem C168_exclusive {s : State} (h : Reach tick W t0 s) :
    (pcs s).countP crit + takeCrit s.take ≤ 1 ∧ (s.sh.mutex = true ↔ (pcs s).countP crit + takeCrit s.take = 1) := by
  have h1 := (reach_inv h).one
  cases hm : s.sh.mutex <;> rw [hm] at h1 <;> simp only [Bool.false_eq_true, if_false, if_true, false_iff, true_iff] at h1 ⊢ <;> omega

/-! ## A sender finds a receiver -/

/-- Actions of goroutines that are inside `push`, and of the goroutine of `channel`; no time passes, nobody comes, nothing is cancelled. -/
def quiet : Act → Bool
  | .act _ | .move | .take | .timer | .wake _ => true
  | _ => false

inductive Path (s : State) : State → Prop
  | refl : Path s s
  | step {s' s'' : State} (a : Act) : Path s s' → quiet a = true → exec s' a = some s'' → Path s s''

theorem Path.trans {a b c : State} (h1 : Path a b) (h2 : Path b c) : Path a c := by
  induction h2 with
  | refl => exact h1
  | step x _ hq e ih => exact .step x ih hq e

theorem Path.one {s s' : State} (a : Act) (hq : quiet a = true) (e : exec s a = some s') : Path s s' := .step a .refl hq e

theorem Path.inv {s s' : State} (h : Path s s') (hi : Inv s) : Inv s' := by
  induction h with
  | refl => exact hi
  | step a _ _ e ih => exact exec_inv ih e

theorem Path.from {s s' : State} (h : Path s s') : From s s' := by
  induction h with
  | refl => exact .refl
  | step a _ _ e ih => exact .step a ih e

theorem buf_step {s s' : State} {a : Act} (h : s.buf.length ≤ 10) (e : exec s a = some s') : s'.buf.length ≤ 10 := by
  cases a with
  | take =>
    simp only [exec, takeStep] at e
    split at e
    · split at e <;> cases e; exact h
    · split at e
      · cases e; exact h
      · split at e
        · split at e <;> cases e; exact h
        · cases e; exact h
    · cases e; exact h
    · cases e; exact h
    · cases e; exact h
    · split at e <;> cases e <;> exact h
    · split at e
      · rename_i hb
        cases e
        rw [List.length_append]
        exact hb
      · cases e
    · cases e
  | advance =>
    simp only [exec] at e
    split at e
    · rename_i hb
      split at e
      · cases e
        rw [hb] at h
        exact Nat.le_of_succ_le h
      · cases e
    · cases e
  | act i =>
    simp only [exec] at e
    split at e
    · cases e
    · split at e
      · cases e; exact h
      · split at e <;> cases e <;> exact h
    · split at e
      · cases e; exact h
      · cases e
  | move =>
    simp only [exec] at e
    split at e
    · split at e <;> cases e <;> exact h
    · split at e <;> cases e; exact h
    · cases e
  | wake o =>
    cases o <;> simp only [exec] at e <;> split at e
    · split at e <;> cases e; exact h
    · cases e
    · split at e <;> cases e; exact h
    · cases e
  | unlink =>
    simp only [exec] at e
    split at e
    · split at e <;> cases e; exact h
    · cases e
  | stop t =>
    simp only [exec] at e
    split at e
    · cases e
    · split at e <;> cases e; exact h
  | done =>
    simp only [exec] at e
    split at e
    · split at e <;> cases e; exact h
    · cases e
  | quit =>
    simp only [exec] at e
    split at e
    · split at e <;> cases e; exact h
    · cases e
  | lock =>
    simp only [exec] at e
    split at e <;> cases e; exact h
  | tick d => cases e; exact h
  | after d => cases e; exact h
  | schedule d => cases e; exact h
  | cancel => cases e; exact h
  | _ => simp only [exec] at e; split at e <;> cases e; exact h

/-- What the queue, the channel and the goroutine between them hold. -/
def buckets (s : State) : List Ref := s.sh.tw.queue ++ (s.buf ++ hand s.take)

/-- A goroutine that holds the mutex goes on. -/
theorem at_step {s : State} {o : Option Nat} {t : Nat} {pc pc' : Pc} {x : Shared} (h : At s o t pc) (hc : crit pc = true)
    (hg : ∀ lk, goStep lk s.sh t pc = some (x, pc')) :
    ∃ s', exec s (actOf o) = some s' ∧ At s' o t pc' ∧ s'.sh = x ∧ s'.take = s.take ∧ s'.buf = s.buf := by
  cases o with
  | some i =>
    obtain ⟨runs, h⟩ := h
    obtain ⟨hi, _⟩ := List.getElem?_eq_some_iff.1 h
    refine ⟨{ s with sh := x, adders := s.adders.set i ⟨t, runs, pc'⟩ }, ?_, ⟨runs, by simp [hi]⟩, rfl, rfl, rfl⟩
    simp only [actOf, exec, h]
    cases pc with
    | base p => cases hc
    | _ => simp only [hg]
  | none =>
    obtain ⟨r, h⟩ := h
    refine ⟨{ s with sh := x, run := .moving r t pc' }, ?_, ⟨r, rfl⟩, rfl, rfl, rfl⟩
    simp only [actOf, exec, h]
    cases pc with
    | base p => cases hc
    | _ => simp only [hg]

theorem quiet_actOf (o : Option Nat) : quiet (actOf o) = true := by cases o <;> rfl

/-- The mutex can be released. -/
def Free (s : State) : Prop :=
  ∃ s', Path s s' ∧ s'.sh.mutex = false ∧ s'.take ≠ .exited ∧ List.Subperm (buckets s) (buckets s')

theorem Free.of {s s1 : State} (hp : Path s s1) (hb : List.Subperm (buckets s) (buckets s1)) (h : Free s1) : Free s := by
  obtain ⟨s', h1, h2, h3, h4⟩ := h
  exact ⟨s', hp.trans h1, h2, h3, hb.trans h4⟩

theorem buckets_eq {s s' : State} (h1 : s'.sh.tw.queue = s.sh.tw.queue) (h2 : s'.buf = s.buf) (h3 : hand s'.take = hand s.take) :
    List.Subperm (buckets s) (buckets s') := by
  unfold buckets
  rw [h1, h2, h3]

theorem free_unlock {s : State} {o : Option Nat} {t : Nat} (h : At s o t .unlock) (hx : s.take ≠ .exited) : Free s := by
  obtain ⟨s', e, _, h2, h3, h4⟩ := at_step (x := { s.sh with mutex := false }) h rfl (fun _ => rfl)
  exact ⟨s', .one _ (quiet_actOf o) e, by rw [h2], by rw [h3]; exact hx, buckets_eq (by rw [h2]) h4 (by rw [h3])⟩

/-- A sender meets a receiver. -/
theorem at_wake {s : State} {o : Option Nat} {t : Nat} (h : At s o t .send) (hk : receives s.take = true) :
    ∃ s', exec s (.wake o) = some s' ∧ At s' o t .unlock ∧ s'.sh = s.sh ∧ s'.take = .waiting ∧ s'.buf = s.buf := by
  cases o with
  | some i =>
    obtain ⟨runs, h⟩ := h
    obtain ⟨hi, _⟩ := List.getElem?_eq_some_iff.1 h
    exact ⟨{ s with take := .waiting, adders := s.adders.set i ⟨t, runs, .unlock⟩ }, by simp [exec, h, hk], ⟨runs, by simp [hi]⟩, rfl, rfl, rfl⟩
  | none =>
    obtain ⟨r, h⟩ := h
    exact ⟨{ s with take := .waiting, run := .moving r t .unlock }, by simp [exec, h, hk], ⟨r, rfl⟩, rfl, rfl, rfl⟩

theorem receiver {s : State} (hi : Inv s) {o : Option Nat} {t : Nat} (h : At s o t .send) (hx : s.take ≠ .exited) :
    receives s.take = true ∨ s.take = .fired ∧ s.sh.sleeping = false := by
  have hn : 0 < (pcs s).countP isSend := List.countP_pos_iff.2 ⟨.send, at_mem h, rfl⟩
  have hf := hi.flag
  cases hk : s.take with
  | select b => exact .inl rfl
  | drain => exact .inl rfl
  | fired =>
    rw [hk] at hf
    rcases hf with hf | hf
    · omega
    · exact .inr ⟨rfl, hf.1⟩
  | exited => exact absurd hk hx
  | _ => rw [hk] at hf; have := hf.2; omega

/-- **C168: a sender has a receiver.** As long as the goroutine of `channel` has not seen the cancellation, whoever sends on `wakeup` is met by it: it
waits in a `select`, or its timer has fired and it will receive. -/
theorem C168_receiver {s : State} (hr : Reach tick W t0 s) {o : Option Nat} {t : Nat} (h : At s o t .send) (hx : s.take ≠ .exited) :
    (∃ b, s.take = .select b) ∨ s.take = .fired ∧ s.sh.sleeping = false ∨ s.take = .drain := by
  rcases receiver (reach_inv hr) h hx with h | h
  · cases hk : s.take with
    | select b => exact .inl ⟨b, rfl⟩
    | drain => exact .inr (.inr rfl)
    | _ => rw [hk] at h; cases h
  · exact .inr (.inl h)

theorem free_send {s : State} (hi : Inv s) {o : Option Nat} {t : Nat} (h : At s o t .send) (hx : s.take ≠ .exited) : Free s := by
  have key : ∀ s : State, At s o t .send → receives s.take = true → Free s := by
    intro s h hk
    obtain ⟨s1, e, h1, h2, h3, h4⟩ := at_wake h hk
    refine Free.of (.one _ rfl e) (buckets_eq (by rw [h2]) h4 ?_) (free_unlock h1 (by rw [h3]; simp))
    rw [h3]
    cases hk' : s.take <;> rw [hk'] at hk <;> first | rfl | cases hk
  rcases receiver hi h hx with hk | ⟨hk, hs⟩
  · exact key s h hk
  · have e : exec s .take = some { s with take := .drain } := by simp [exec, takeStep, hk, hs]
    refine Free.of (.one _ rfl e) (buckets_eq rfl rfl (by rw [hk]; rfl)) (key _ ?_ rfl)
    cases o <;> exact h

theorem free_head {s : State} (hi : Inv s) {o : Option Nat} {t : Nat} (h : At s o t .head) (hx : s.take ≠ .exited) : Free s := by
  cases hs : s.sh.sleeping with
  | true =>
    obtain ⟨s', e, h1, h2, h3, h4⟩ := at_step (x := { s.sh with sleeping := false }) (pc' := .send) h rfl (fun _ => by simp [goStep, hs])
    exact Free.of (.one _ (quiet_actOf o) e) (buckets_eq (by rw [h2]) h4 (by rw [h3])) (free_send (exec_inv hi e) h1 (by rw [h3]; exact hx))
  | false =>
    obtain ⟨s', e, h1, h2, h3, h4⟩ := at_step (x := s.sh) (pc' := .unlock) h rfl (fun _ => by simp [goStep, hs])
    exact Free.of (.one _ (quiet_actOf o) e) (buckets_eq (by rw [h2]) h4 (by rw [h3])) (free_unlock h1 (by rw [h3]; exact hx))

theorem free_added {s : State} (hi : Inv s) {o : Option Nat} {t : Nat} {r : Ref} (h : At s o t (.added r)) (hq : s.sh.tw.queue ≠ [])
    (hx : s.take ≠ .exited) : Free s := by
  obtain ⟨y, hy⟩ := ((Heap.C10_pop_peek_panic_iff_empty (less s.sh.tw.wheels) s.sh.tw.queue).1 hq).2
  obtain ⟨s', e, h1, h2, h3, h4⟩ := at_step (x := s.sh) (pc' := if y = r then .head else .unlock) h rfl (fun _ => by simp [goStep, hy])
  refine Free.of (.one _ (quiet_actOf o) e) (buckets_eq (by rw [h2]) h4 (by rw [h3])) ?_
  split at h1
  · exact free_head (exec_inv hi e) h1 (by rw [h3]; exact hx)
  · exact free_unlock h1 (by rw [h3]; exact hx)

theorem free_locked {s : State} (hi : Inv s) {o : Option Nat} {t : Nat} {r : Ref} (h : At s o t (.locked r)) (hx : s.take ≠ .exited) : Free s := by
  obtain ⟨q, hq, hp⟩ := TimingWheel.push_total s.sh.tw.wheels s.sh.tw.queue r
  obtain ⟨s', e, h1, h2, h3, h4⟩ := at_step (x := { s.sh with tw := { s.sh.tw with queue := q } }) (pc' := .added r) h rfl (fun _ => by simp [goStep, hq])
  have hq' : s'.sh.tw.queue = q := by rw [h2]
  refine Free.of (.one _ (quiet_actOf o) e) ?_ (free_added (exec_inv hi e) h1 ?_ (by rw [h3]; exact hx))
  · unfold buckets
    rw [hq', h3, h4]
    exact (List.subperm_append_right _).2 ((List.sublist_cons_self r _).subperm.trans hp.symm.subperm)
  · rw [hq']
    intro hn
    rw [hn] at hp
    have := hp.length_eq
    simp at this

theorem free_take {s : State} (h : takeCrit s.take = 1) : Free s := by
  have hsel : ∀ (s : State) (b : Bool), s.take = .armed b → Free s := by
    intro s b hk
    refine ⟨{ s with sh := { s.sh with mutex := false }, take := .select b }, .one .take rfl (by simp [exec, takeStep, hk]), rfl, by simp, ?_⟩
    exact buckets_eq rfl rfl (by rw [hk]; rfl)
  have harm : ∀ (s : State) (b : Bool), s.take = .arm b → Free s := by
    intro s b hk
    refine Free.of (s1 := { s with sh := { s.sh with sleeping := true }, take := .armed b }) (.one .take rfl (by simp [exec, takeStep, hk])) ?_
      (hsel _ b rfl)
    exact buckets_eq rfl rfl (by rw [hk]; rfl)
  have hhave : ∀ (s : State) (r : Ref), s.take = .have r → Free s := by
    intro s r hk
    refine ⟨{ s with sh := { s.sh with mutex := false }, take := .sending r }, .one .take rfl (by simp [exec, takeStep, hk]), rfl, by simp, ?_⟩
    exact buckets_eq rfl rfl (by rw [hk]; rfl)
  cases hk : s.take with
  | armed b => exact hsel s b hk
  | arm b => exact harm s b hk
  | «have» r => exact hhave s r hk
  | looking =>
    cases hq : s.sh.tw.queue with
    | nil =>
      refine Free.of (s1 := { s with take := .arm false }) (.one .take rfl (by simp [exec, takeStep, hk, hq])) ?_ (harm _ false rfl)
      exact buckets_eq rfl rfl (by rw [hk]; rfl)
    | cons r q =>
      by_cases hc : s.clock > (bucketAt s.sh.tw.wheels r).exp
      · obtain ⟨q', e, hp⟩ := Heap.popG_total (less s.sh.tw.wheels) 2 2 (by omega) (r :: q) (by simp)
        rw [← Heap.pop_eq] at e
        refine Free.of (s1 := { s.withTw { s.sh.tw with queue := q' } with take := .have r })
          (.one .take rfl (by simp [exec, takeStep, hk, hq, hc, e])) ?_ (hhave _ r rfl)
        have : (r :: q).Perm (q' ++ [r]) := hp.symm.trans (List.perm_append_singleton _ _).symm
        unfold buckets
        rw [hq, hk]
        show List.Subperm ((r :: q) ++ (s.buf ++ [])) (q' ++ (s.buf ++ [r]))
        rw [List.append_nil]
        refine (this.append_right s.buf).subperm.trans (List.Perm.subperm ?_)
        rw [List.append_assoc]
        exact (List.perm_append_left_iff q').2 List.perm_append_comm
      · refine Free.of (s1 := { s with take := .arm true }) (.one .take rfl (by simp [exec, takeStep, hk, hq, hc])) ?_ (harm _ true rfl)
        exact buckets_eq rfl rfl (by rw [hk]; rfl)
  | _ => rw [hk] at h; cases h

theorem from_trans {s s' : State} (h : Reach tick W t0 s) (h2 : From s s') : Reach tick W t0 s' := by
  obtain ⟨tw, h1, h⟩ := h
  refine ⟨tw, h1, ?_⟩
  induction h2 with
  | refl => exact h
  | step a _ e ih => exact .step a ih e

/-- **C168.** At most ten buckets wait in the channel. -/
theorem C168_buffer {s : State} (h : Reach tick W t0 s) : s.buf.length ≤ 10 := by
  obtain ⟨tw, h1, h⟩ := h
  induction h with
  | refl => exact Nat.zero_le _
  | step a _ e ih => exact buf_step ih e

theorem free {s : State} (hi : Inv s) (hx : s.take ≠ .exited) : Free s := by
  cases hm : s.sh.mutex with
  | false => exact ⟨s, .refl, hm, hx, List.Subperm.refl _⟩
  | true =>
    have h1 := hi.one
    rw [hm, if_pos rfl] at h1
    by_cases hk : takeCrit s.take = 1
    · exact free_take hk
    · have : 0 < (pcs s).countP crit := by omega
      obtain ⟨pc, hp, hc⟩ := List.countP_pos_iff.1 this
      obtain ⟨o, t, ha⟩ := mem_at hp
      cases pc with
      | base p => cases hc
      | locked r => exact free_locked hi ha hx
      | added r => exact free_added hi ha (hi.added r hp) hx
      | head => exact free_head hi ha hx
      | send => exact free_send hi ha hx
      | unlock => exact free_unlock ha hx

/-- **C168: `push` does not block for ever.** As long as the goroutine of `channel` has not seen the cancellation, the mutex of the queue can be released
without time passing and without anybody else coming, and no bucket is lost on the way. -/
theorem C168_released {s : State} (h : Reach tick W t0 s) (hx : s.take ≠ .exited) :
    ∃ s', Path s s' ∧ s'.sh.mutex = false ∧ s'.take ≠ .exited ∧ List.Subperm (buckets s) (buckets s') := free (reach_inv h) hx

/-- **C168: no wakeup is lost.** From every reachable state, as long as it has not seen the cancellation, the goroutine of `channel` gets — without time
passing — to the point where it looks at the queue, unless it waits for `Run` to empty the channel, or sleeps because there is no bucket. -/
theorem C168_looks {s : State} (h : Reach tick W t0 s) (hx : s.take ≠ .exited) :
    ∃ s', Path s s' ∧ s'.sh.mutex = false ∧ List.Subperm (buckets s) (buckets s') ∧
      (s'.take = .waiting ∨ (s'.take = .select false ∧ s'.sh.tw.queue = []) ∨ ∃ r, s'.take = .sending r ∧ s'.buf.length = 10) := by
  obtain ⟨s1, h1, h2, h3, h4⟩ := free (reach_inv h) hx
  have hi := h1.inv (reach_inv h)
  have hone := hi.one
  rw [h2] at hone
  simp only [Bool.false_eq_true, if_false] at hone
  have hn : (pcs s1).countP isSend = 0 := by have := send_le (pcs s1); omega
  have hf := hi.flag
  rw [hn] at hf
  have hfired : ∀ s2 : State, s2.take = .fired → s2.sh.sleeping = true → exec s2 .take = some { s2 with sh := { s2.sh with sleeping := false }, take := .waiting } := by
    intro s2 e1 e2
    simp [exec, takeStep, e1, e2]
  cases hk : s1.take with
  | waiting => exact ⟨s1, h1, h2, h4, .inl hk⟩
  | looking => rw [hk] at hone; simp [takeCrit] at hone
  | «have» r => rw [hk] at hone; simp [takeCrit] at hone
  | arm b => rw [hk] at hone; simp [takeCrit] at hone
  | armed b => rw [hk] at hone; simp [takeCrit] at hone
  | drain => rw [hk] at hf; cases hf.2
  | exited => exact absurd hk h3
  | fired =>
    rw [hk] at hf
    have hs : s1.sh.sleeping = true := by
      rcases hf with hf | hf
      · exact hf.1
      · cases hf.2
    exact ⟨_, .step .take h1 rfl (hfired s1 hk hs), h2, h4.trans (buckets_eq rfl rfl (by rw [hk]; rfl)), .inl rfl⟩
  | select b =>
    rw [hk] at hf
    have hs : s1.sh.sleeping = true := by
      rcases hf with hf | hf
      · exact hf.1
      · cases hf.2
    cases b with
    | true =>
      have e1 : exec s1 .timer = some { s1 with take := .fired } := by simp [exec, hk]
      exact ⟨_, .step .take (.step .timer h1 rfl e1) rfl (hfired _ rfl hs), h2, h4.trans (buckets_eq rfl rfl (by rw [hk]; rfl)), .inl rfl⟩
    | false =>
      have ha := hi.awake
      rw [hk] at ha
      refine ⟨s1, h1, h2, h4, .inr (.inl ⟨hk, ?_⟩)⟩
      have hc : (pcs s1).countP crit = 0 := by omega
      rcases ha hs with ha | ⟨r, _, hr⟩ | hr
      · exact ha
      · have := mem_crit hc hr; cases this
      · have := mem_crit hc hr; cases this
  | sending r =>
    by_cases hb : s1.buf.length < 10
    · have e1 : exec s1 .take = some { s1 with buf := s1.buf ++ [r], take := .waiting } := by
        simp only [exec, takeStep, hk]
        rw [if_pos (show s1.buf.length < TimingWheel.Cancel.size from hb)]
      refine ⟨_, .step .take h1 rfl e1, h2, h4.trans ?_, .inl rfl⟩
      unfold buckets
      rw [hk]
      show List.Subperm (s1.sh.tw.queue ++ (s1.buf ++ [r])) (s1.sh.tw.queue ++ ((s1.buf ++ [r]) ++ []))
      rw [List.append_nil]
    · refine ⟨s1, h1, h2, h4, .inr (.inr ⟨r, hk, ?_⟩)⟩
      have : s1.buf.length ≤ 10 := C168_buffer (from_trans h h1.from)
      omega

/-! ## After the cancellation -/

/-- Nothing has ended. -/
def Going (s : State) : Prop := s.closed = false ∧ s.take ≠ .exited ∧ s.run ≠ .returned ∧ s.run ≠ .panicked

theorem going_step {s s' : State} {a : Act} (h : s.cancelled = true ∨ Going s) (e : exec s a = some s') : s'.cancelled = true ∨ Going s' := by
  cases a with
  | take =>
    simp only [exec, takeStep] at e
    rcases h with h | h
    · left
      split at e
      · split at e <;> cases e; exact h
      · split at e
        · cases e; exact h
        · split at e
          · split at e <;> cases e; exact h
          · cases e; exact h
      · cases e; exact h
      · cases e; exact h
      · cases e; exact h
      · split at e <;> cases e <;> exact h
      · split at e <;> cases e; exact h
      · cases e
    · right
      split at e
      · split at e <;> cases e; exact ⟨h.1, by simp, h.2.2⟩
      · split at e
        · cases e; exact ⟨h.1, by simp, h.2.2⟩
        · split at e
          · split at e <;> cases e; exact ⟨h.1, by simp, h.2.2⟩
          · cases e; exact ⟨h.1, by simp, h.2.2⟩
      · cases e; exact ⟨h.1, by simp, h.2.2⟩
      · cases e; exact ⟨h.1, by simp, h.2.2⟩
      · cases e; exact ⟨h.1, by simp, h.2.2⟩
      · split at e <;> cases e <;> exact ⟨h.1, by simp, h.2.2⟩
      · split at e <;> cases e; exact ⟨h.1, by simp, h.2.2⟩
      · cases e
  | timer => simp only [exec] at e; split at e <;> cases e; exact h.imp_right fun h => ⟨h.1, by simp, h.2.2⟩
  | wake o =>
    cases o <;> simp only [exec] at e <;> split at e
    · split at e <;> cases e; exact h.imp_right fun h => ⟨h.1, by simp, by simp⟩
    · cases e
    · split at e <;> cases e; exact h.imp_right fun h => ⟨h.1, by simp, h.2.2⟩
    · cases e
  | quit =>
    simp only [exec] at e
    split at e
    · split at e <;> cases e; exact .inl (by assumption)
    · cases e
  | advance =>
    simp only [exec] at e
    split at e
    · split at e <;> cases e; exact h.imp_right fun h => ⟨h.1, h.2.1, by simp⟩
    · cases e
  | act i =>
    simp only [exec] at e
    split at e
    · cases e
    · split at e
      · cases e; exact h
      · split at e <;> cases e <;> exact h
    · split at e
      · cases e; exact h
      · cases e
  | move =>
    simp only [exec] at e
    split at e
    · split at e <;> cases e <;> exact h.imp_right fun h => ⟨h.1, h.2.1, by simp [start]⟩
    · split at e <;> cases e; exact h.imp_right fun h => ⟨h.1, h.2.1, by simp⟩
    · cases e
  | unlink =>
    simp only [exec] at e
    split at e
    · split at e <;> cases e; exact h.imp_right fun h => ⟨h.1, h.2.1, by simp⟩
    · cases e
  | stop t =>
    simp only [exec] at e
    split at e
    · cases e
    · split at e <;> cases e; exact h
  | done =>
    simp only [exec] at e
    split at e
    · split at e <;> cases e; exact h.imp_right fun h => ⟨h.1, h.2.1, by simp⟩
    · cases e
  | lock =>
    simp only [exec] at e
    split at e <;> cases e; exact h.imp_right fun h => ⟨h.1, h.2.1, by simp⟩
  | leave => simp only [exec] at e; split at e <;> cases e; rename_i hc; exact .inl hc.2
  | recvNil =>
    simp only [exec] at e
    split at e <;> cases e
    rename_i hc
    exact h.imp_right fun h => absurd hc.2.2 (by rw [h.1]; simp)
  | tick d => cases e; exact h
  | after d => cases e; exact h
  | schedule d => cases e; exact h
  | cancel => cases e; exact .inl rfl
  | _ => simp only [exec] at e; split at e <;> cases e; exact h

/-- **C168.** Before the cancellation neither `Run` nor the goroutine of `channel` ends, the channel is open, and `Run` does not panic. -/
theorem C168_not_before {s : State} (h : Reach tick W t0 s) (hc : s.cancelled = false) :
    s.closed = false ∧ s.take ≠ .exited ∧ s.run ≠ .returned ∧ s.run ≠ .panicked := by
  have key : s.cancelled = true ∨ Going s := by
    obtain ⟨tw, _, h⟩ := h
    induction h with
    | refl => exact .inr ⟨rfl, by simp [init], by simp [init], by simp [init]⟩
    | step a _ e ih =>
      rename_i s1 s2 _
      by_cases h1 : s1.cancelled = true
      · exact going_step (.inl h1) e
      · exact going_step (.inr ((ih (by simpa using h1)).resolve_left h1)) e
  exact key.resolve_left (by rw [hc]; simp)

/-- Once the goroutine of `channel` has gone, it stays away. -/
theorem exited_step {s s' : State} {a : Act} (h : s.take = .exited) (e : exec s a = some s') : s'.take = .exited := by
  cases a with
  | take => simp [exec, takeStep, h] at e
  | timer => simp [exec, h] at e
  | wake o =>
    cases o <;> simp only [exec] at e <;> split at e
    · simp [h, receives] at e
    · cases e
    · simp [h, receives] at e
    · cases e
  | quit => simp [exec, h] at e
  | advance =>
    simp only [exec] at e
    split at e
    · split at e <;> cases e; exact h
    · cases e
  | act i =>
    simp only [exec] at e
    split at e
    · cases e
    · split at e
      · cases e; exact h
      · split at e <;> cases e <;> exact h
    · split at e
      · cases e; exact h
      · cases e
  | move =>
    simp only [exec] at e
    split at e
    · split at e <;> cases e <;> exact h
    · split at e <;> cases e; exact h
    · cases e
  | unlink =>
    simp only [exec] at e
    split at e
    · split at e <;> cases e; exact h
    · cases e
  | stop t =>
    simp only [exec] at e
    split at e
    · cases e
    · split at e <;> cases e; exact h
  | done =>
    simp only [exec] at e
    split at e
    · split at e <;> cases e; exact h
    · cases e
  | lock =>
    simp only [exec] at e
    split at e <;> cases e; exact h
  | tick d => cases e; exact h
  | after d => cases e; exact h
  | schedule d => cases e; exact h
  | cancel => cases e; exact h
  | _ => simp only [exec] at e; split at e <;> cases e; exact h

theorem run_stuck {s s' : State} {a : Act} {r : Ref} {t : Nat} (h : s.take = .exited) (hr : s.run = .moving r t .send)
    (e : exec s a = some s') : s'.run = .moving r t .send := by
  cases a with
  | take => simp [exec, takeStep, h] at e
  | timer => simp [exec, h] at e
  | wake o =>
    cases o <;> simp only [exec] at e <;> split at e
    · simp [h, receives] at e
    · cases e
    · simp [h, receives] at e
    · cases e
  | quit => simp [exec, h] at e
  | advance => simp [exec, hr] at e
  | act i =>
    simp only [exec] at e
    split at e
    · cases e
    · split at e
      · cases e; exact hr
      · split at e <;> cases e <;> exact hr
    · split at e
      · cases e; exact hr
      · cases e
  | move => simp [exec, hr, goStep] at e
  | unlink => simp [exec, hr] at e
  | stop t =>
    simp only [exec] at e
    split at e
    · cases e
    · split at e <;> cases e; exact hr
  | done => simp [exec, hr] at e
  | lock => simp [exec, hr] at e
  | leave => simp [exec, hr] at e
  | recvNil => simp [exec, hr] at e
  | tick d => cases e; exact hr
  | after d => cases e; exact hr
  | schedule d => cases e; exact hr
  | cancel => cases e; exact hr
  | _ => simp only [exec] at e; split at e <;> cases e; exact hr

theorem adder_stuck {s s' : State} {a : Act} {b : Adder} (h : s.take = .exited) (hb : b ∈ s.adders) (hs : b.pc = .send)
    (e : exec s a = some s') : b ∈ s'.adders := by
  cases a with
  | take => simp [exec, takeStep, h] at e
  | timer => simp [exec, h] at e
  | wake o =>
    cases o <;> simp only [exec] at e <;> split at e
    · simp [h, receives] at e
    · cases e
    · simp [h, receives] at e
    · cases e
  | quit => simp [exec, h] at e
  | advance =>
    simp only [exec] at e
    split at e
    · split at e <;> cases e; exact hb
    · cases e
  | act i =>
    obtain ⟨k, hk⟩ := List.mem_iff_getElem?.1 hb
    by_cases hki : k = i
    · subst hki
      obtain ⟨t, runs, pc⟩ := b
      dsimp only at hs
      subst hs
      simp [exec, hk, goStep] at e
    · have hset : ∀ c, b ∈ s.adders.set i c := fun c =>
        List.mem_iff_getElem?.2 ⟨k, by rw [List.getElem?_set_ne (Ne.symm hki)]; exact hk⟩
      have hera : b ∈ s.adders.eraseIdx i := List.mem_eraseIdx_iff_getElem?.2 ⟨k, hki, hk⟩
      simp only [exec] at e
      split at e
      · cases e
      · split at e
        · cases e; exact hera
        · split at e <;> cases e <;> exact hera
      · split at e
        · cases e; exact hset _
        · cases e
  | move =>
    simp only [exec] at e
    split at e
    · split at e <;> cases e <;> exact hb
    · split at e <;> cases e; exact hb
    · cases e
  | unlink =>
    simp only [exec] at e
    split at e
    · split at e <;> cases e; exact hb
    · cases e
  | stop t =>
    simp only [exec] at e
    split at e
    · cases e
    · split at e <;> cases e; exact hb
  | done =>
    simp only [exec] at e
    split at e
    · split at e <;> cases e; exact hb
    · cases e
  | lock =>
    simp only [exec] at e
    split at e <;> cases e; exact hb
  | again t d =>
    simp only [exec] at e
    split at e
    · cases e; exact List.mem_append.2 (.inl hb)
    · cases e
  | tick d => cases e; exact hb
  | after d => cases e; exact List.mem_append.2 (.inl hb)
  | schedule d => cases e; exact List.mem_append.2 (.inl hb)
  | cancel => cases e; exact hb
  | _ => simp only [exec] at e; split at e <;> cases e; exact hb

/-- **C168: after the cancellation a sender blocks for ever**, and with it the mutex of the queue: whatever happens, a goroutine that sends on `wakeup`
when the goroutine of `channel` has gone stays there, and everybody else who opens a bucket waits for the mutex. -/
theorem C168_adder_blocked {s : State} (hr : Reach tick W t0 s) (hx : s.take = .exited) {b : Adder} (hb : b ∈ s.adders) (hs : b.pc = .send)
    {s' : State} (h : From s s') : b ∈ s'.adders ∧ s'.sh.mutex = true := by
  have key : s'.take = .exited ∧ b ∈ s'.adders := by
    induction h with
    | refl => exact ⟨hx, hb⟩
    | step a _ e ih => exact ⟨exited_step ih.1 e, adder_stuck ih.1 ih.2 hs e⟩
  refine ⟨key.2, ?_⟩
  have hm : Pc.send ∈ pcs s' := List.mem_append.2 (.inl (List.mem_map.2 ⟨b, key.2, hs⟩))
  obtain ⟨o, t, ha⟩ := mem_at hm
  exact (one_holder (reach_inv (from_trans hr h)) ha rfl).1

/-- **C168: so does `Run`.** If `Run` itself is the sender it never returns, although the context is cancelled. -/
theorem C168_run_blocked {s : State} (hr : Reach tick W t0 s) (hx : s.take = .exited) {r : Ref} {t : Nat} (hrun : s.run = .moving r t .send)
    {s' : State} (h : From s s') : s'.run = .moving r t .send ∧ s'.sh.mutex = true := by
  have key : s'.take = .exited ∧ s'.run = .moving r t .send := by
    induction h with
    | refl => exact ⟨hx, hrun⟩
    | step a _ e ih => exact ⟨exited_step ih.1 e, run_stuck ih.1 ih.2 e⟩
  refine ⟨key.2, ?_⟩
  exact (one_holder (o := none) (t := t) (reach_inv (from_trans hr h)) ⟨r, key.2⟩ rfl).1

/-- **C168: the first bucket opened after an idle wheel was cancelled.** If the goroutine of `channel` was cancelled in its sleep and the queue is empty, a
goroutine about to push a bucket gets to the point where it blocks for ever, and `Run` likewise. -/
theorem C168_next_push_blocks {s : State} (hs : s.sh.sleeping = true) (hm : s.sh.mutex = false) (hq : s.sh.tw.queue = []) {i : Nat} {t : Nat}
    {runs : Bool} {r : Ref} (hi : s.adders[i]? = some ⟨t, runs, .base (.pushing r)⟩) :
    ∃ s', Path s s' ∧ s'.take = s.take ∧ s'.adders = s.adders.set i ⟨t, runs, .send⟩ := by
  obtain ⟨hlt, _⟩ := List.getElem?_eq_some_iff.1 hi
  let s1 : State := { s with sh := { s.sh with mutex := true }, adders := s.adders.set i ⟨t, runs, .locked r⟩ }
  let s2 : State := { s1 with sh := { s1.sh with tw := { s1.sh.tw with queue := [r] } }, adders := s1.adders.set i ⟨t, runs, .added r⟩ }
  let s3 : State := { s2 with adders := s2.adders.set i ⟨t, runs, .head⟩ }
  let s4 : State := { s3 with sh := { s3.sh with sleeping := false }, adders := s3.adders.set i ⟨t, runs, .send⟩ }
  have e1 : exec s (.act i) = some s1 := by simp [exec, hi, goStep, hm, s1]
  have a1 : s1.adders[i]? = some ⟨t, runs, .locked r⟩ := by simp [s1, hlt]
  have e2 : exec s1 (.act i) = some s2 := by
    have : s1.sh.tw.queue = [] := hq
    simp only [exec, a1, goStep, this, push_nil]
    rfl
  have a2 : s2.adders[i]? = some ⟨t, runs, .added r⟩ := by simp [s2, s1, hlt]
  have e3 : exec s2 (.act i) = some s3 := by
    have : Heap.peek s2.sh.tw.queue = .ok r := rfl
    simp only [exec, a2, goStep, this, if_true]
    rfl
  have a3 : s3.adders[i]? = some ⟨t, runs, .head⟩ := by simp [s3, s2, s1, hlt]
  have e4 : exec s3 (.act i) = some s4 := by
    have : s3.sh.sleeping = true := hs
    simp only [exec, a3, goStep, this, if_true]
    rfl
  refine ⟨s4, .step _ (.step _ (.step _ (.one _ rfl e1) rfl e2) rfl e3) rfl e4, rfl, ?_⟩
  simp [s4, s3, s2, s1]

/-- **C168.** `Run` returns after the cancellation if it waits for a bucket. -/
theorem C168_returns {s : State} (hc : s.cancelled = true) (hr : s.run = .idle) : ∃ s', exec s .leave = some s' ∧ s'.run = .returned :=
  ⟨{ s with run := .returned }, by simp [exec, hc, hr], rfl⟩

/-! ## Concrete executions -/

def execs (s : State) : List Act → Option State
  | [] => some s
  | a :: as =>
    match exec s a with
    | some s => execs s as
    | none => none

theorem execs_from {s0 s s' : State} {as : List Act} (h : From s0 s) (e : execs s as = some s') : From s0 s' := by
  induction as generalizing s with
  | nil => cases e; exact h
  | cons a as ih =>
    rw [execs] at e
    cases he : exec s a with
    | none => rw [he] at e; cases e
    | some s1 => rw [he] at e; exact ih (.step a h he) e

def runs (tick size t0 : Int) (as : List Act) : Option State :=
  match TimingWheel.new tick size t0 with
  | .ok tw => execs (init tw t0) as
  | .error _ => none

theorem runs_reach {tick size t0 : Int} {as : List Act} {p : State → Bool} (h : (runs tick size t0 as).any p = true) :
    ∃ s, Reach tick size t0 s ∧ p s = true := by
  unfold runs at h
  cases e : TimingWheel.new tick size t0 with
  | error x => rw [e] at h; cases h
  | ok tw =>
    rw [e] at h
    dsimp only at h
    rw [Option.any_eq_true] at h
    obtain ⟨s, h1, h2⟩ := h
    exact ⟨s, ⟨tw, e, execs_from .refl h1⟩, h2⟩

/-- The goroutine of `channel` finds an empty queue and falls asleep. -/
def sleep : List Act := [.take, .take, .take, .take]

/-- **C168 fails after a cancellation: `AfterFunc` does not return.** A wheel with nothing to do is stopped by its context; then `AfterFunc` is called: it
blocks for ever, holding the mutex of the queue. -/
theorem C168_after_cancel_refuted : ∃ s, Reach 1 20 0 s ∧ s.run = .returned ∧ s.adders = [⟨0, false, .send⟩] ∧
    ∀ s', From s s' → ⟨0, false, .send⟩ ∈ s'.adders ∧ s'.sh.mutex = true := by
  obtain ⟨s, h1, h2⟩ := runs_reach (tick := 1) (size := 20) (t0 := 0)
    (as := sleep ++ [.cancel, .quit, .leave, .after 5] ++ List.replicate 7 (.act 0))
    (p := fun s => s.take == .exited && s.run == .returned && s.adders == [⟨0, false, .send⟩]) (by decide +kernel)
  simp only [Bool.and_eq_true, beq_iff_eq] at h2
  exact ⟨s, h1, h2.1.2, h2.2, fun s' h => C168_adder_blocked h1 h2.1.1 (by rw [h2.2]; simp) rfl h⟩

/-- **C168 fails, and with it C61: `Run` does not return.** A timer for time 25 is in the second wheel; its bucket, for time 20, is due at 21. While `Run` moves the
timer down to the first wheel, the context is cancelled and the sleeping goroutine of `channel` sees it first. `Run` pushes the bucket of the first wheel,
finds the flag set, and sends for ever. -/
theorem C168_run_refuted : ∃ s, Reach 1 20 0 s ∧ s.cancelled = true ∧ ∀ s', From s s' → s'.run = .moving ⟨1, 1⟩ 0 .send ∧ s'.sh.mutex = true := by
  obtain ⟨s, h1, h2⟩ := runs_reach (tick := 1) (size := 20) (t0 := 0)
    (as := [.after 25] ++ List.replicate 10 (.act 0) ++ [.tick 21, .take, .take, .take, .take] ++ sleep ++
      [.advance, .lock, .unlink, .move, .move, .move, .cancel, .quit] ++ List.replicate 4 .move)
    (p := fun s => s.take == .exited && s.run == .moving ⟨1, 1⟩ 0 .send && s.cancelled) (by decide +kernel)
  simp only [Bool.and_eq_true, beq_iff_eq] at h2
  exact ⟨s, h1, h2.2, fun s' h => C168_run_blocked h1 h2.1.1 h2.1.2 h⟩

/-- Without a cancellation the same timer is started. -/
example : ∃ s, Reach 1 20 0 s ∧ (s.started.map (fun x => (x.id, x.exp)) == [(0, 25)]) = true :=
  runs_reach (as := [.after 25] ++ List.replicate 10 (.act 0) ++ [.tick 21, .take, .take, .take, .take] ++ sleep ++
      [.advance, .lock, .unlink] ++ List.replicate 7 .move ++ [.wake none, .move, .move, .done, .tick 5, .take, .take, .take, .take] ++
      [.advance, .lock, .unlink, .move, .move, .move, .done]) (by decide +kernel)

end Verif.TimingWhole
