import Verif.Proof.TimingWheelOrd

/-! # The timing wheel: the work of its own goroutines ends and starts everything that is due -/

namespace Verif.TimingWheel

open Mutex (put put_self put_ne)

variable {k0 : Int} {W : Nat}

/-- A step of `Run` or of the queue's goroutine: the clock stands still, no timer is scheduled or stopped, no task goes on.
The queue's goroutine takes a bucket only when `Run` is waiting and has none on its way. -/
def Own (s s' : State) : Prop :=
  Step inOrder s s' ∧ s' ≠ s ∧ s'.clock = s.clock ∧ s'.scheduled = s.scheduled ∧ s'.stopped = s.stopped ∧
    s.tasks.length ≤ s'.tasks.length ∧ (s.chan.length < s'.chan.length → s.chan = [] ∧ s.run = .idle)

/-- Any number of such steps. -/
inductive Owns (s : State) : State → Prop
  | refl : Owns s s
  | step {s1 s2} : Owns s s1 → Own s1 s2 → Owns s s2

/-- Nothing is on its way to `Run`, or one bucket that it may process. -/
def Calm (s : State) : Prop := s.chan = [] ∨ ∃ r, s.chan = [r] ∧ s.run = .idle ∧ inOrder s r

def sumTo (f : Nat → Nat) : Nat → Nat
  | 0 => 0
  | n + 1 => sumTo f n + f n

theorem sumTo_congr {f g : Nat → Nat} : ∀ {n : Nat}, (∀ i, i < n → f i = g i) → sumTo f n = sumTo g n
  | 0, _ => rfl
  | n + 1, h => by
    simp only [sumTo]
    rw [sumTo_congr (n := n) (fun i hi => h i (by omega)), h n (by omega)]

theorem sumTo_one {f g : Nat → Nat} {t : Nat} (h : ∀ i, i ≠ t → f i = g i) : ∀ {n : Nat}, t < n →
    sumTo f n + g t = sumTo g n + f t
  | 0, hn => by omega
  | n + 1, hn => by
    simp only [sumTo]
    by_cases e : t = n
    · subst e
      rw [sumTo_congr (g := g) (fun i hi => h i (by omega))]
      omega
    · have := sumTo_one h (n := n) (by omega)
      rw [h n (fun x => e x.symm)]
      omega

/-- What is left to do for a timer. -/
def weight (v : Timer) : Nat :=
  match v.bucket with
  | none => 0
  | some r => 6 * (r.level + 1)

/-- What is left to do for the bucket in hand. -/
def left : Run → Nat
  | .idle => 0
  | .advanced _ => 2
  | .flushing _ => 1
  | .moving r _ => 6 * r.level + 6

/-- What is left to do. -/
def todo (s : State) : Nat :=
  sumTo (fun t => weight (s.tw.timer t)) s.next + 4 * s.tw.queue.length + 3 * s.chan.length + left s.run

/-- A timer taken out of the bucket in hand goes to a lower level. -/
theorem readd_lower {s : State} {r r' : Ref} {t : Nat} {tw : Tw} (h : Ord k0 W s) (hr : s.run = .moving r t)
    (ha : Added k0 W (curTime s.tw.wheels) s.tw t r' tw) : r'.level < r.level := by
  have h1 := h.hand r (by rw [hr]; simp [held])
  have h2 := (h.moving r t hr).2
  by_contra hn
  rcases Nat.lt_or_ge r.level r'.level with hl | hl
  · have := ha.first r.level hl
    have hle : K k0 W r.level ≤ K k0 W (r.level + 1) :=
      K_le h.inv.tinv.wf.k (by have := h.inv.tinv.wf.w; omega) (by omega)
    omega
  · have he : r'.level = r.level := by omega
    have := ha.lo
    rw [he] at this
    omega

theorem Added.queue_len {c0 : Int} {tw tw' : Tw} {t : Nat} {r : Ref} (ha : Added k0 W c0 tw t r tw') :
    tw'.queue.length ≤ tw.queue.length + 1 := by
  by_cases hs : (bucketAt tw.wheels r).exp = fl (tw.timer t).exp (K k0 W r.level)
  · rw [ha.same hs]; omega
  · obtain ⟨q, e1, e2⟩ := push_total tw'.wheels tw.queue r
    have := ha.push hs
    rw [e1] at this
    cases this
    rw [e2.length_eq]
    simp

theorem own_step {s s' : State} (h : Ord k0 W s) (o : Own s s') :
    todo s' < todo s ∧ (∀ t, (s'.tw.timer t).exp = (s.tw.timer t).exp) ∧ s'.dropped = s.dropped := by
  obtain ⟨st, hne, hclock, hsch, hsto, htasks, _⟩ := o
  have nosch : ∀ t : Nat, s.scheduled ++ [t] = s.scheduled → False := fun t e => by
    have := congrArg List.length e; simp at this
  cases st with
  | tick d hd =>
    dsimp only at hclock
    have : d = 0 := by omega
    subst this
    exact absurd (by simp) hne
  | afterFunc delay fuel tw ok e => exact (nosch _ hsch).elim
  | schedule e fuel tw he => exact (nosch _ hsch).elim
  | scheduleRun e fuel tw he => exact (nosch _ hsch).elim
  | again t e fuel tw hm he => exact (nosch _ hsch).elim
  | againRun t e fuel tw hm he => exact (nosch _ hsch).elim
  | enough t hm =>
    dsimp only at htasks
    rw [List.length_erase_of_mem hm] at htasks
    have := List.length_pos_of_mem hm
    omega
  | stop t r hb hl =>
    have := congrArg List.length hsto; simp at this
  | take r q h0 hc hpop =>
    obtain ⟨q', e1, hp⟩ := pop_total s.tw.wheels h0
    have hq : q = q' := by rw [e1] at hpop; cases hpop; rfl
    subst hq
    have := hp.length_eq
    refine ⟨?_, fun _ => rfl, rfl⟩
    simp only [todo, List.length_append, List.length_cons, List.length_nil] at this ⊢
    omega
  | advance r rest ws hr hc hk he =>
    refine ⟨?_, fun _ => rfl, rfl⟩
    simp only [todo, hr, hc, left, List.length_cons]
    omega
  | lock r hr =>
    refine ⟨?_, fun _ => rfl, rfl⟩
    simp only [todo, hr, left]
    omega
  | unlink r t ts hr hts =>
    have hb : (s.tw.timer t).bucket = some r := (h.inv.tinv.mem t r).2 (by rw [hts]; exact List.mem_cons_self ..)
    have hlt := mem_lt h.inv (t := t) (.inl (by simp [pending, hb]))
    refine ⟨?_, ?_, rfl⟩
    · have := sumTo_one (f := fun t' => weight (put s.tw.timer t { s.tw.timer t with bucket := none } t'))
        (g := fun t' => weight (s.tw.timer t')) (t := t) (by
          intro i hi; dsimp only; rw [put_ne _ _ hi]) hlt
      simp only [put_self, weight, hb] at this
      simp only [todo, hr, left, weight]
      omega
    · intro t'
      show (put s.tw.timer t { s.tw.timer t with bucket := none } t').exp = _
      by_cases et : t' = t
      · subst et; rw [put_self]
      · rw [put_ne _ _ et]
  | readd r t fuel tw hr he =>
    have hm : moves s.run t = true := by rw [hr]; simp [moves]
    have hb := (h.inv.book t).move hm
    have hlt := mem_lt h.inv (t := t) (.inl (by simp [pending, hm]))
    rcases add_cases h.inv.tinv he with ⟨hx, _⟩ | ⟨_, r', ha, _⟩
    · simp at hx
    · have hlow := readd_lower h hr ha
      have hq := ha.queue_len
      refine ⟨?_, ?_, rfl⟩
      · have := sumTo_one (f := fun t' => weight (tw.timer t'))
          (g := fun t' => weight (s.tw.timer t')) (t := t) (by
            intro i hi; rw [ha.timer, put_ne _ _ hi]) hlt
        simp only [ha.timer, put_self, weight, hb] at this
        simp only [todo, hr, left, weight, ha.timer]
        omega
      · intro t'
        dsimp only
        rw [ha.timer]
        by_cases et : t' = t
        · subst et; rw [put_self]
        · rw [put_ne _ _ et]
  | fire r t fuel tw hr he =>
    rcases add_cases h.inv.tinv he with ⟨_, rfl, hlt⟩ | ⟨hx, _⟩
    · refine ⟨?_, fun _ => rfl, rfl⟩
      simp only [todo, start, hr, left]
      omega
    · simp at hx
  | done r hr ht =>
    refine ⟨?_, fun _ => rfl, rfl⟩
    simp only [todo, hr, left]
    omega

theorem own_calm {s s' : State} (h : Ord k0 W s) (hc : Calm s) (o : Own s s') : Calm s' := by
  obtain ⟨st, hne, hclock, hsch, hsto, htasks, hser⟩ := o
  have nosch : ∀ t : Nat, s.scheduled ++ [t] = s.scheduled → False := fun t e => by
    have := congrArg List.length e; simp at this
  have keep : s.run ≠ .idle → s.chan = [] := by
    intro hr
    rcases hc with hc | ⟨r, _, h2, _⟩
    · exact hc
    · exact absurd h2 hr
  cases st with
  | tick d hd =>
    dsimp only at hclock
    have : d = 0 := by omega
    subst this
    exact absurd (by simp) hne
  | afterFunc delay fuel tw ok e => exact (nosch _ hsch).elim
  | schedule e fuel tw he => exact (nosch _ hsch).elim
  | scheduleRun e fuel tw he => exact (nosch _ hsch).elim
  | again t e fuel tw hm he => exact (nosch _ hsch).elim
  | againRun t e fuel tw hm he => exact (nosch _ hsch).elim
  | enough t hm =>
    dsimp only at htasks
    rw [List.length_erase_of_mem hm] at htasks
    have := List.length_pos_of_mem hm
    omega
  | stop t r hb hl =>
    have := congrArg List.length hsto; simp at this
  | take r q h0 hc' hpop =>
    obtain ⟨h1, h2⟩ := hser (by simp)
    obtain ⟨q', e1, hp⟩ := pop_total s.tw.wheels h0
    have hq : q = q' := by rw [e1] at hpop; cases hpop; rfl
    subst hq
    refine .inr ⟨r, by simp [h1], h2, ?_⟩
    intro x hx
    dsimp only at hx ⊢
    refine root_least s.tw.wheels h.tord.heap h0 x ?_
    rcases hx with hx | hx
    · exact hp.mem_iff.1 (List.mem_cons_of_mem _ hx)
    · simp only [h1, List.nil_append, List.mem_singleton] at hx
      rw [hx]
      exact List.mem_of_getElem? h0
  | advance r rest ws hr hc' hk he =>
    left
    rcases hc with hc | ⟨r', h1, _⟩
    · rw [hc] at hc'; simp at hc'
    · rw [h1] at hc'
      simp at hc'
      exact hc'.2
  | lock r hr => exact .inl (keep (by rw [hr]; simp))
  | unlink r t ts hr hts => exact .inl (keep (by rw [hr]; simp))
  | readd r t fuel tw hr he => exact .inl (keep (by rw [hr]; simp))
  | fire r t fuel tw hr he => exact .inl (keep (by rw [hr]; simp))
  | done r hr ht => exact .inl (keep (by rw [hr]; simp))

/-- While `Run` is busy it can go on. -/
theorem run_goes_on {s : State} (h : Ord k0 W s) (hr : s.run ≠ .idle) : ∃ s', Own s s' ∧ s'.chan = s.chan := by
  cases e : s.run with
  | idle => exact absurd e hr
  | advanced r =>
    exact ⟨_, ⟨.lock s r e, by intro x; have := congrArg State.run x; rw [e] at this; simp at this, rfl, rfl, rfl, Nat.le_refl _,
      fun hx => absurd hx (Nat.lt_irrefl _)⟩, rfl⟩
  | flushing r =>
    cases ht : (bucketAt s.tw.wheels r).timers with
    | nil =>
      exact ⟨_, ⟨.done s r e ht, by intro x; have := congrArg State.run x; rw [e] at this; simp at this, rfl, rfl, rfl, Nat.le_refl _,
        fun hx => absurd hx (Nat.lt_irrefl _)⟩, rfl⟩
    | cons t ts =>
      exact ⟨_, ⟨.unlink s r t ts e ht, by intro x; have := congrArg State.run x; rw [e] at this; simp at this, rfl, rfl, rfl,
        Nat.le_refl _, fun hx => absurd hx (Nat.lt_irrefl _)⟩, rfl⟩
  | moving r t =>
    obtain ⟨n, hn⟩ := add_total t (some r) h.inv.tinv.wf
    rcases hn n (Nat.le_refl _) with ⟨_, ha⟩ | ⟨_, r', tw', ha, h1, _⟩
    · refine ⟨_, ⟨.fire s r t n s.tw e ha, by intro x; have := congrArg State.run x; rw [e] at this; simp at this, rfl, rfl, rfl, ?_,
        fun hx => absurd hx (Nat.lt_irrefl _)⟩, rfl⟩
      simp only [start]
      split <;> simp
    · have hne : r' ≠ r := added_ne h.tord ha (h := r) (by rw [e]; simp [held]) (h.hand r (by rw [e]; simp [held]))
      have := h1 (by intro x; exact hne (Option.some.inj x).symm)
      exact ⟨_, ⟨.readd s r t n tw' e this, by intro x; have := congrArg State.run x; rw [e] at this; simp at this, rfl, rfl, rfl,
        Nat.le_refl _, fun hx => absurd hx (Nat.lt_irrefl _)⟩, rfl⟩

/-- When nothing is left to do, no bucket in the queue is due. -/
theorem own_stuck {s : State} (h : Ord k0 W s) (hc : Calm s) (hs : ∀ s', ¬ Own s s') :
    s.run = .idle ∧ s.chan = [] ∧ ∀ r ∈ s.tw.queue, s.clock ≤ (bucketAt s.tw.wheels r).exp := by
  have hidle : s.run = .idle := by
    by_contra hr
    obtain ⟨s', o, _⟩ := run_goes_on h hr
    exact hs s' o
  have hchan : s.chan = [] := by
    rcases hc with hc | ⟨r, h1, h2, h3⟩
    · exact hc
    · obtain ⟨ws, e, _⟩ := advance_spec h.inv.tinv.wf (bucketAt s.tw.wheels r).exp
      exact absurd ⟨.advance s r [] ws h2 h1 h3 e, by
        intro x; have := congrArg State.run x; rw [h2] at this; simp at this, rfl, rfl, rfl, Nat.le_refl _,
        fun hx => by simp at hx⟩ (hs _)
  refine ⟨hidle, hchan, ?_⟩
  intro r hr
  by_contra hlt
  obtain ⟨r0, h0⟩ : ∃ r0, s.tw.queue[0]? = some r0 := by
    have := List.length_pos_of_mem hr
    exact ⟨_, List.getElem?_eq_getElem this⟩
  have hmin := root_least s.tw.wheels h.tord.heap h0 r hr
  obtain ⟨q, e, hp⟩ := pop_total s.tw.wheels h0
  exact absurd ⟨.take s r0 q h0 (by omega) e, by
    intro x
    have := congrArg (fun s => s.chan.length) x
    simp at this, rfl, rfl, rfl, Nat.le_refl _, fun _ => ⟨hchan, hidle⟩⟩ (hs _)

theorem owns_ord {s s' : State} (h : Ord k0 W s) (hc : Calm s) (o : Owns s s') :
    Ord k0 W s' ∧ Calm s' ∧ (∀ t, (s'.tw.timer t).exp = (s.tw.timer t).exp) ∧ s'.dropped = s.dropped ∧ s'.clock = s.clock ∧
      s'.scheduled = s.scheduled ∧ s'.stopped = s.stopped := by
  induction o with
  | refl => exact ⟨h, hc, fun _ => rfl, rfl, rfl, rfl, rfl⟩
  | step _ st ih =>
    obtain ⟨i1, i2, i3, i4, i5, i6, i7⟩ := ih
    obtain ⟨_, o2, o3⟩ := own_step i1 st
    exact ⟨ord_step i1 st.1, own_calm i1 i2 st, fun t => (o2 t).trans (i3 t), o3.trans i4, st.2.2.1.trans i5,
      st.2.2.2.1.trans i6, st.2.2.2.2.1.trans i7⟩

theorem own_acc (n : Nat) : ∀ {s : State}, Ord k0 W s → todo s ≤ n → Acc (fun a b => Own b a) s := by
  induction n with
  | zero =>
    intro s h hn
    refine ⟨s, fun s' o => ?_⟩
    have := (own_step h o).1
    omega
  | succ n ih =>
    intro s h hn
    refine ⟨s, fun s' o => ?_⟩
    have := (own_step h o).1
    exact ih (ord_step h o.1) (by omega)

theorem owns_end {s : State} (h : Ord k0 W s) : ∃ s', Owns s s' ∧ ∀ s'', ¬ Own s' s'' := by
  have hacc := own_acc (todo s) h (Nat.le_refl _)
  have : ∀ s0, Owns s0 s → ∃ s', Owns s0 s' ∧ ∀ s'', ¬ Own s' s'' := by
    clear h
    induction hacc with
    | intro s _ ih =>
      intro s0 h0
      by_cases hx : ∃ s', Own s s'
      · obtain ⟨s', o⟩ := hx
        exact ih s' o s0 (.step h0 o)
      · exact ⟨s, h0, fun s'' o => hx ⟨s'', o⟩⟩
  exact this s .refl

/-- When nothing is left to do, every timer that was pending and is due has been started, once. -/
theorem all_started {s s' : State} (h : Ord k0 W s) (hc : Calm s) (o : Owns s s') (hs : ∀ s'', ¬ Own s' s'') {t : Nat}
    (hp : pending s t = true) (hd : (s.tw.timer t).exp < s.clock) :
    (s'.started.map (·.id)).count t = (s.started.map (·.id)).count t + 1 := by
  obtain ⟨h1, h2, h3, h4, h5, h6, h7⟩ := owns_ord h hc o
  obtain ⟨s1, s2, s3⟩ := own_stuck h1 h2 hs
  have hp' : pending s' t = false := by
    cases hx : pending s' t with
    | false => rfl
    | true =>
      simp only [pending, s1, moves, Bool.or_false, Option.isSome_iff_exists] at hx
      obtain ⟨r, hr⟩ := hx
      have hm := (h1.inv.tinv.mem t r).1 hr
      have hreg := h1.inv.tinv.reg r (h1.inv.tinv.full r (List.ne_nil_of_mem hm))
      simp only [s1, s2, held, List.append_nil, List.not_mem_nil, or_false] at hreg
      have := s3 r hreg
      have := (h1.tord.timers r t hm).1
      have := h3 t
      omega
  have l1 := (h.inv.book t).law
  have l2 := (h1.inv.book t).law
  rw [hp] at l1
  rw [hp', h4, h6, h7] at l2
  simp at l1 l2
  omega

end Verif.TimingWheel
