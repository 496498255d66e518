import Verif.Proof.TimingWheel

/-! # The timing wheel: what holds in every execution -/

namespace Verif.TimingWheel

open Mutex (put put_self put_ne)

variable {k0 : Int} {W : Nat}

/-- Timers and buckets agree; buckets that have an expiration are in the queue or in `extra`. -/
structure TInv (k0 : Int) (W : Nat) (tw : Tw) (extra : List Ref) : Prop where
  wf : Wf k0 W (curTime tw.wheels) tw.wheels
  mem : ∀ t r, (tw.timer t).bucket = some r ↔ t ∈ (bucketAt tw.wheels r).timers
  nodup : ∀ r, (bucketAt tw.wheels r).timers.Nodup
  reg : ∀ r, (bucketAt tw.wheels r).exp ≠ -1 → r ∈ tw.queue ∨ r ∈ extra
  full : ∀ r, (bucketAt tw.wheels r).timers ≠ [] → (bucketAt tw.wheels r).exp ≠ -1

theorem TInv.valid {tw : Tw} {extra : List Ref} (h : TInv k0 W tw extra) {t : Nat} {r : Ref}
    (hb : (tw.timer t).bucket = some r) : Valid W tw.wheels r := by
  by_contra hn
  have := (h.mem t r).1 hb
  rw [bucketAt_invalid h.wf hn] at this
  simp [newBucket] at this

theorem Added.cur {tw tw' : Tw} {t : Nat} {r : Ref} (ha : Added k0 W (curTime tw.wheels) tw t r tw') :
    curTime tw'.wheels = curTime tw.wheels := curTime_eq ha.wf

theorem Added.queue_mem {c0 : Int} {tw tw' : Tw} {t : Nat} {r : Ref} (ha : Added k0 W c0 tw t r tw') :
    ∀ x, x ∈ tw.queue → x ∈ tw'.queue := by
  intro x hx
  by_cases hs : (bucketAt tw.wheels r).exp = fl (tw.timer t).exp (K k0 W r.level)
  · rw [ha.same hs]; exact hx
  · obtain ⟨q, e1, e2⟩ := push_total tw'.wheels tw.queue r
    have := ha.push hs
    rw [e1] at this
    cases this
    exact e2.mem_iff.2 (List.mem_cons_of_mem _ hx)

theorem Added.exp_nonneg {c0 : Int} {tw tw' : Tw} {t : Nat} {r : Ref} (ha : Added k0 W c0 tw t r tw') :
    0 ≤ fl (tw.timer t).exp (K k0 W r.level) := by
  have h1 := ha.wf.kp r.level
  have h2 := fl_nonneg h1 ha.wf.c
  have := ha.lo
  exact fl_nonneg h1 (by omega)

theorem added_tinv {tw tw' : Tw} {extra : List Ref} {t : Nat} {r : Ref} (h : TInv k0 W tw extra)
    (hn : (tw.timer t).bucket = none) (ha : Added k0 W (curTime tw.wheels) tw t r tw') : TInv k0 W tw' extra := by
  have hE := ha.exp_nonneg
  have ht : ∀ r', t ∉ (bucketAt tw.wheels r').timers := fun r' hm => by
    have := (h.mem t r').2 hm
    rw [hn] at this
    simp at this
  refine ⟨by rw [ha.cur]; exact ha.wf, ?_, ?_, ?_, ?_⟩
  · intro t' r'
    rw [ha.timer, ha.bk]
    by_cases hr : r' = r
    · subst hr
      rw [if_pos rfl]
      by_cases e : t' = t
      · subst e; rw [put_self]; simp
      · rw [put_ne _ _ e, h.mem]; simp [e]
    · rw [if_neg hr]
      by_cases e : t' = t
      · subst e
        rw [put_self]
        simp only [Option.some.injEq]
        exact ⟨fun x => absurd x.symm hr, fun x => absurd x (ht r')⟩
      · rw [put_ne _ _ e, h.mem]
  · intro r'
    rw [ha.bk]
    split
    · rename_i hr
      subst hr
      exact List.nodup_append.2 ⟨h.nodup _, by simp, by
        intro a ha' b hb
        simp only [List.mem_singleton] at hb
        subst hb
        rintro rfl
        exact ht _ ha'⟩
    · exact h.nodup r'
  · intro r' hr'
    rw [ha.bk] at hr'
    by_cases hr : r' = r
    · subst hr
      by_cases hs : (bucketAt tw.wheels r').exp = fl (tw.timer t).exp (K k0 W r'.level)
      · rcases h.reg r' (by rw [hs]; omega) with h1 | h1
        · exact .inl (ha.queue_mem _ h1)
        · exact .inr h1
      · obtain ⟨q, e1, e2⟩ := push_total tw'.wheels tw.queue r'
        have := ha.push hs
        rw [e1] at this
        cases this
        exact .inl (e2.mem_iff.2 (List.mem_cons_self ..))
    · rw [if_neg hr] at hr'
      rcases h.reg r' hr' with h1 | h1
      · exact .inl (ha.queue_mem _ h1)
      · exact .inr h1
  · intro r'
    rw [ha.bk]
    split
    · intro _
      show fl _ _ ≠ -1
      omega
    · exact h.full r'

theorem timer_tinv {tw : Tw} {extra : List Ref} {t : Nat} {v : Timer} (h : TInv k0 W tw extra)
    (hn : (tw.timer t).bucket = none) (hv : v.bucket = none) : TInv k0 W { tw with timer := put tw.timer t v } extra := by
  refine ⟨h.wf, ?_, h.nodup, h.reg, h.full⟩
  intro t' r'
  show (put tw.timer t v t').bucket = some r' ↔ _
  by_cases e : t' = t
  · subst e
    rw [put_self, hv, ← h.mem, hn]
  · rw [put_ne _ _ e, h.mem]

theorem remove_tinv {tw : Tw} {extra : List Ref} {t : Nat} {r : Ref} {ts : List Nat} (h : TInv k0 W tw extra)
    (hb : (tw.timer t).bucket = some r) (hts : ts = (bucketAt tw.wheels r).timers.erase t) :
    TInv k0 W ⟨setBucket tw.wheels r ⟨(bucketAt tw.wheels r).exp, ts⟩, tw.queue,
      put tw.timer t { tw.timer t with bucket := none }⟩ extra := by
  subst hts
  have hv := h.valid hb
  have hwf := setBucket_wf h.wf r ⟨(bucketAt tw.wheels r).exp, (bucketAt tw.wheels r).timers.erase t⟩
  have hbk := bucketAt_set h.wf hv ⟨(bucketAt tw.wheels r).exp, (bucketAt tw.wheels r).timers.erase t⟩
  refine ⟨by dsimp only; rw [curTime_eq hwf]; exact hwf, ?_, ?_, ?_, ?_⟩
  · intro t' r'
    show (put tw.timer t _ t').bucket = some r' ↔ t' ∈ (bucketAt (setBucket _ _ _) r').timers
    rw [hbk]
    by_cases hr : r' = r
    · subst hr
      rw [if_pos rfl]
      dsimp only
      by_cases e : t' = t
      · subst e
        rw [put_self, List.Nodup.mem_erase_iff (h.nodup r')]
        simp
      · rw [put_ne _ _ e, List.Nodup.mem_erase_iff (h.nodup r'), h.mem]
        simp [e]
    · rw [if_neg hr]
      by_cases e : t' = t
      · subst e
        rw [put_self, ← h.mem, hb]
        simp only [reduceCtorEq, Option.some.injEq, false_iff]
        exact fun x => hr x.symm
      · rw [put_ne _ _ e, h.mem]
  · intro r'
    show (bucketAt (setBucket _ _ _) r').timers.Nodup
    rw [hbk]
    split
    · exact (h.nodup r).erase t
    · exact h.nodup r'
  · intro r' hr'
    have hr' : (bucketAt (setBucket _ _ _) r').exp ≠ -1 := hr'
    rw [hbk] at hr'
    by_cases hr : r' = r
    · subst hr
      rw [if_pos rfl] at hr'
      exact h.reg r' hr'
    · rw [if_neg hr] at hr'
      exact h.reg r' hr'
  · intro r'
    show (bucketAt (setBucket _ _ _) r').timers ≠ [] → (bucketAt (setBucket _ _ _) r').exp ≠ -1
    rw [hbk]
    split
    · intro hne
      refine h.full r ?_
      intro e
      dsimp only at hne
      rw [e] at hne
      exact hne rfl
    · exact h.full r'

theorem TInv.mono {tw : Tw} {e1 e2 : List Ref} (h : TInv k0 W tw e1) (he : ∀ x ∈ e1, x ∈ e2) : TInv k0 W tw e2 :=
  ⟨h.wf, h.mem, h.nodup, fun r hr => (h.reg r hr).imp id (he r), h.full⟩

theorem pop_tinv {tw : Tw} {extra : List Ref} {r : Ref} {q : List Ref} (h : TInv k0 W tw extra) (h0 : tw.queue[0]? = some r)
    (e : Heap.pop (less tw.wheels) tw.queue = .ok (r, q)) : TInv k0 W { tw with queue := q } (r :: extra) := by
  obtain ⟨q', e1, e2⟩ := pop_total tw.wheels h0
  rw [e1] at e
  cases e
  refine ⟨h.wf, h.mem, h.nodup, ?_, h.full⟩
  intro x hx
  rcases h.reg x hx with h1 | h1
  · rcases List.mem_cons.1 (e2.mem_iff.2 h1) with h2 | h2
    · exact .inr (by rw [h2]; exact List.mem_cons_self ..)
    · exact .inl h2
  · exact .inr (List.mem_cons_of_mem _ h1)

theorem advance_tinv {tw : Tw} {extra : List Ref} {x : Int} {ws : List Wheel} (h : TInv k0 W tw extra)
    (e : advance x tw.wheels = .ok ws) : TInv k0 W { tw with wheels := ws } extra := by
  obtain ⟨ws', e1, e2, e3, e4⟩ := advance_spec h.wf x
  rw [e1] at e
  cases e
  refine ⟨by dsimp only; rw [curTime_eq e2]; exact e2, ?_, ?_, ?_, ?_⟩
  · intro t r; show _ ↔ t ∈ (bucketAt ws r).timers; rw [e3]; exact h.mem t r
  · intro r; show (bucketAt ws r).timers.Nodup; rw [e3]; exact h.nodup r
  · intro r; show (bucketAt ws r).exp ≠ -1 → _; rw [e3]; exact h.reg r
  · intro r; show (bucketAt ws r).timers ≠ [] → (bucketAt ws r).exp ≠ -1; rw [e3]; exact h.full r

theorem done_tinv {tw : Tw} {e1 e2 : List Ref} {r : Ref} (h : TInv k0 W tw e1) (ht : (bucketAt tw.wheels r).timers = [])
    (he : ∀ x ∈ e1, x ≠ r → x ∈ e2) : TInv k0 W { tw with wheels := setBucket tw.wheels r ⟨-1, []⟩ } e2 := by
  have hwf := setBucket_wf h.wf r ⟨-1, []⟩
  have hbk : ∀ r', bucketAt (setBucket tw.wheels r ⟨-1, []⟩) r' = if r' = r then ⟨-1, []⟩ else bucketAt tw.wheels r' := by
    by_cases hv : Valid W tw.wheels r
    · exact bucketAt_set h.wf hv _
    · intro r'
      by_cases hr : r' = r
      · subst hr
        rw [if_pos rfl]
        exact bucketAt_invalid hwf (fun hv' => hv ⟨by have := hv'.1; rwa [length_setBucket] at this, hv'.2⟩)
      · rw [if_neg hr]
        unfold setBucket
        cases e : tw.wheels[r.level]? with
        | none => rfl
        | some w =>
          dsimp only
          unfold bucketAt
          by_cases hl : r.level = r'.level
          · have hlt : r.level < tw.wheels.length := by
              by_contra hn
              rw [List.getElem?_eq_none (by omega)] at e
              simp at e
            rw [← hl, List.getElem?_set_self hlt, e]
            dsimp only
            rw [List.getElem?_set_ne]
            intro hs
            exact hr (by cases r; cases r'; simp_all)
          · rw [List.getElem?_set_ne hl]
  refine ⟨by dsimp only; rw [curTime_eq hwf]; exact hwf, ?_, ?_, ?_, ?_⟩
  · intro t r'
    show _ ↔ t ∈ (bucketAt (setBucket _ _ _) r').timers
    rw [hbk, h.mem]
    split
    · rename_i hr; subst hr; rw [ht]
    · rfl
  · intro r'
    show (bucketAt (setBucket _ _ _) r').timers.Nodup
    rw [hbk]
    split
    · simp
    · exact h.nodup r'
  · intro r'
    show (bucketAt (setBucket _ _ _) r').exp ≠ -1 → _
    rw [hbk]
    split
    · intro hh; exact absurd rfl hh
    · rename_i hr
      exact fun hh => (h.reg r' hh).imp id (fun hm => he r' hm hr)
  · intro r'
    show (bucketAt (setBucket _ _ _) r').timers ≠ [] → (bucketAt (setBucket _ _ _) r').exp ≠ -1
    rw [hbk]
    split
    · intro hh; exact absurd rfl hh
    · exact h.full r'

/-- The bucket `Run` has in hand. -/
def held : Run → List Ref
  | .idle => []
  | .advanced r | .flushing r | .moving r _ => [r]

/-- `Run` has the timer in hand. -/
def moves (run : Run) (t : Nat) : Bool :=
  match run with
  | .moving _ t' => t' == t
  | _ => false

/-- The timer is in a bucket or in `Run`'s hand. -/
def pending (s : State) (t : Nat) : Bool := (s.tw.timer t).bucket.isSome || moves s.run t

/-- The bookkeeping of one timer. -/
structure BookAt (s : State) (t : Nat) : Prop where
  fresh : s.next ≤ t → (s.tw.timer t).bucket = none ∧ moves s.run t = false ∧ t ∉ s.tasks ∧ s.scheduled.count t = 0
  move : moves s.run t = true → (s.tw.timer t).bucket = none
  task : t ∈ s.tasks → (s.tw.timer t).repeats = true ∧ pending s t = false
  once : t < s.next → (s.tw.timer t).repeats = false → s.scheduled.count t = 1
  law : s.scheduled.count t = (s.started.map (·.id)).count t + s.stopped.count t + s.dropped.count t + (pending s t).toNat

structure Inv (k0 : Int) (W : Nat) (s : State) : Prop where
  tinv : TInv k0 W s.tw (s.chan ++ held s.run)
  tasks : s.tasks.Nodup
  book : ∀ t, BookAt s t

theorem count_snoc (l : List Nat) (a t : Nat) : (l ++ [a]).count t = l.count t + if t = a then 1 else 0 := by
  rw [List.count_append, List.count_singleton]
  by_cases h : t = a
  · subst h; simp
  · have : ¬ a = t := fun e => h e.symm
    simp [h, this]

theorem add_cases {tw tw' : Tw} {extra : List Ref} {fuel t : Nat} {lk : Option Ref} {ok : Bool} (h : TInv k0 W tw extra)
    (e : add fuel tw 0 t lk = .ok (tw', ok)) :
    (ok = false ∧ tw' = tw ∧ (tw.timer t).exp < curTime tw.wheels + k0) ∨
      (ok = true ∧ ∃ r, Added k0 W (curTime tw.wheels) tw t r tw' ∧ lk ≠ some r) :=
  add_inv fuel h.wf h.wf.ne (by intro j hj; omega) e

/-- Nothing changes for `t`. -/
structure Same (s s' : State) (t : Nat) : Prop where
  timer : s'.tw.timer t = s.tw.timer t
  move : moves s'.run t = moves s.run t
  task : t ∈ s'.tasks → t ∈ s.tasks
  sch : s'.scheduled.count t = s.scheduled.count t
  sta : (s'.started.map (·.id)).count t = (s.started.map (·.id)).count t
  sto : s'.stopped.count t = s.stopped.count t
  dro : s'.dropped.count t = s.dropped.count t
  next : s'.next = s.next ∨ (s'.next = s.next + 1 ∧ t ≠ s.next)

theorem BookAt.same {s s' : State} {t : Nat} (h : BookAt s t) (c : Same s s' t) : BookAt s' t := by
  have hn := c.next
  have hp : pending s' t = pending s t := by unfold pending; rw [c.timer, c.move]
  refine ⟨?_, ?_, ?_, ?_, ?_⟩
  · intro h'
    obtain ⟨f1, f2, f3, f4⟩ := h.fresh (by omega)
    rw [c.timer, c.move, c.sch]
    exact ⟨f1, f2, fun x => f3 (c.task x), f4⟩
  · rw [c.timer, c.move]; exact h.move
  · intro h'
    rw [c.timer, hp]
    exact h.task (c.task h')
  · rw [c.timer, c.sch]
    intro h1 h2
    exact h.once (by omega) h2
  · rw [c.sch, c.sta, c.sto, c.dro, hp]; exact h.law

theorem fresh_timer {s : State} (h : Inv k0 W s) (v : Timer) (hv : v.bucket = none) :
    TInv k0 W { s.tw with timer := put s.tw.timer s.next v } (s.chan ++ held s.run) :=
  timer_tinv h.tinv ((h.book s.next).fresh (Nat.le_refl _)).1 hv

theorem fresh_law {s : State} (h : Inv k0 W s) : (s.started.map (·.id)).count s.next = 0 ∧ s.stopped.count s.next = 0 ∧
    s.dropped.count s.next = 0 := by
  have h1 := (h.book s.next).law
  have h2 := ((h.book s.next).fresh (Nat.le_refl _)).2.2.2
  omega

theorem mem_lt {s : State} (h : Inv k0 W s) {t : Nat} (hp : pending s t = true ∨ t ∈ s.tasks) : t < s.next := by
  by_contra hn
  obtain ⟨f1, f2, f3, f4⟩ := (h.book t).fresh (by omega)
  rcases hp with hp | hp
  · simp [pending, f1, f2] at hp
  · exact f3 hp

theorem inv_step {k : State → Ref → Prop} {s s' : State} (h : Inv k0 W s) (st : Step k s s') : Inv k0 W s' := by
  cases st with
  | tick d hd => exact ⟨h.tinv, h.tasks, fun t => (h.book t).same ⟨rfl, rfl, id, rfl, rfl, rfl, rfl, .inl rfl⟩⟩
  | afterFunc delay fuel tw ok e =>
    have hf := fresh_timer h ⟨s.clock + delay, none, false⟩ rfl
    obtain ⟨f1, f2, f3, f4⟩ := (h.book s.next).fresh (Nat.le_refl _)
    obtain ⟨f5, f6, f7⟩ := fresh_law h
    rcases add_cases hf e with ⟨rfl, rfl, _⟩ | ⟨rfl, r, ha, _⟩
    · refine ⟨hf, h.tasks, fun t => ?_⟩
      by_cases et : t = s.next
      · subst et
        refine ⟨fun x => absurd x (by dsimp only; omega), fun _ => ?_, fun x => absurd x f3, fun _ _ => ?_, ?_⟩
        · simp [start, put_self, *]
        · show (_ ++ [_]).count _ = 1
          rw [count_snoc, f4, if_pos rfl]
        · simp [pending, count_snoc, put_self, f2, f4, f5, f6, f7]
      · refine (h.book t).same ⟨put_ne _ _ et, rfl, id, ?_, rfl, rfl, ?_, .inr ⟨rfl, et⟩⟩
        · rw [count_snoc, if_neg et]; rfl
        · show ((if false = true then s.dropped else s.dropped ++ [s.next]).count t) = _
          rw [if_neg (by simp), count_snoc, if_neg et]; rfl
    · refine ⟨added_tinv hf (by simp [put_self]) ha, h.tasks, fun t => ?_⟩
      by_cases et : t = s.next
      · subst et
        refine ⟨fun x => absurd x (by dsimp only; omega), fun x => ?_, fun x => absurd x f3, fun _ _ => ?_, ?_⟩
        · rw [f2] at x; simp at x
        · show (_ ++ [_]).count _ = 1
          rw [count_snoc, f4, if_pos rfl]
        · simp [pending, count_snoc, ha.timer, put_self, f2, f4, f5, f6, f7]
      · refine (h.book t).same ⟨?_, rfl, id, ?_, rfl, rfl, rfl, .inr ⟨rfl, et⟩⟩
        · rw [ha.timer, put_ne _ _ et]; exact put_ne _ _ et
        · rw [count_snoc, if_neg et]; rfl
  | schedule e fuel tw he =>
    have hf := fresh_timer h ⟨e, none, true⟩ rfl
    obtain ⟨f1, f2, f3, f4⟩ := (h.book s.next).fresh (Nat.le_refl _)
    obtain ⟨f5, f6, f7⟩ := fresh_law h
    rcases add_cases hf he with ⟨hx, _⟩ | ⟨_, r, ha, _⟩
    · simp at hx
    · refine ⟨added_tinv hf (by simp [put_self]) ha, h.tasks, fun t => ?_⟩
      by_cases et : t = s.next
      · subst et
        refine ⟨fun x => absurd x (by dsimp only; omega), fun x => ?_, fun x => absurd x f3, fun _ _ => ?_, ?_⟩
        · rw [f2] at x; simp at x
        · show (_ ++ [_]).count _ = 1
          rw [count_snoc, f4, if_pos rfl]
        · simp [pending, count_snoc, ha.timer, put_self, f2, f4, f5, f6, f7]
      · refine (h.book t).same ⟨?_, rfl, id, ?_, rfl, rfl, rfl, .inr ⟨rfl, et⟩⟩
        · rw [ha.timer, put_ne _ _ et]; exact put_ne _ _ et
        · rw [count_snoc, if_neg et]; rfl
  | scheduleRun e fuel tw he =>
    have hf := fresh_timer h ⟨e, none, true⟩ rfl
    obtain ⟨f1, f2, f3, f4⟩ := (h.book s.next).fresh (Nat.le_refl _)
    obtain ⟨f5, f6, f7⟩ := fresh_law h
    rcases add_cases hf he with ⟨_, rfl, _⟩ | ⟨hx, _⟩
    · have htasks : (start s { s.tw with timer := put s.tw.timer s.next ⟨e, none, true⟩ } s.next).tasks = s.tasks ++ [s.next] := by
        simp [start, put_self]
      refine ⟨hf, ?_, fun t => ?_⟩
      · show (start s _ s.next).tasks.Nodup
        rw [htasks]
        exact List.nodup_append.2 ⟨h.tasks, by simp, by
          intro a ha b hb
          simp only [List.mem_singleton] at hb
          subst hb
          rintro rfl
          exact f3 ha⟩
      · by_cases et : t = s.next
        · subst et
          refine ⟨fun x => absurd x (by dsimp only; omega), fun _ => ?_, fun x => ?_, fun _ _ => ?_, ?_⟩
          · simp [start, put_self, *]
          · simp [start, pending, put_self, f2]
          · show (_ ++ [_]).count _ = 1
            rw [count_snoc, f4, if_pos rfl]
          · simp [start, pending, count_snoc, put_self, f2, f4, f5, f6, f7]
        · refine (h.book t).same ⟨put_ne _ _ et, rfl, ?_, ?_, ?_, rfl, rfl, .inr ⟨rfl, et⟩⟩
          · intro x
            have x : t ∈ (start s { s.tw with timer := put s.tw.timer s.next ⟨e, none, true⟩ } s.next).tasks := x
            rw [htasks] at x
            simpa [et] using x
          · rw [count_snoc, if_neg et]; rfl
          · show ((_ ++ [_]).map _).count _ = _
            rw [List.map_append, List.map_singleton, count_snoc, if_neg et]; rfl
    · simp at hx
  | again t e fuel tw hm he =>
    obtain ⟨g1, g2⟩ := (h.book t).task hm
    have hlt := mem_lt h (.inr hm)
    simp only [pending, Bool.or_eq_false_iff, Option.isSome_eq_false_iff, Option.isNone_iff_eq_none] at g2
    obtain ⟨g2, g3⟩ := g2
    have hf := timer_tinv (v := { s.tw.timer t with exp := e }) h.tinv g2 g2
    rcases add_cases hf he with ⟨hx, _⟩ | ⟨_, r, ha, _⟩
    · simp at hx
    · refine ⟨added_tinv hf (by simp [put_self, g2]) ha, h.tasks.erase t, fun t' => ?_⟩
      by_cases et : t' = t
      · subst et
        refine ⟨fun x => absurd x (by dsimp only; omega), fun x => ?_, fun x => ?_, fun _ x => ?_, ?_⟩
        · rw [g3] at x; simp at x
        · exact absurd ((List.Nodup.mem_erase_iff h.tasks).1 x).1 (by simp)
        · simp [ha.timer, put_self, g1] at x
        · have := (h.book t').law
          simp [pending, g2, g3] at this
          simp [pending, count_snoc, ha.timer, put_self, this]
      · refine (h.book t').same ⟨?_, rfl, List.mem_of_mem_erase, ?_, rfl, rfl, rfl, .inl rfl⟩
        · rw [ha.timer, put_ne _ _ et]; exact put_ne _ _ et
        · rw [count_snoc, if_neg et]; rfl
  | againRun t e fuel tw hm he =>
    obtain ⟨g1, g2⟩ := (h.book t).task hm
    have hlt := mem_lt h (.inr hm)
    simp only [pending, Bool.or_eq_false_iff, Option.isSome_eq_false_iff, Option.isNone_iff_eq_none] at g2
    obtain ⟨g2, g3⟩ := g2
    have hf := timer_tinv (v := { s.tw.timer t with exp := e }) h.tinv g2 g2
    rcases add_cases hf he with ⟨_, rfl, _⟩ | ⟨hx, _⟩
    · have htasks : (start { s with tasks := s.tasks.erase t } { s.tw with timer := put s.tw.timer t { s.tw.timer t with exp := e } } t).tasks =
          s.tasks.erase t ++ [t] := by
        simp [start, put_self, g1]
      refine ⟨hf, ?_, fun t' => ?_⟩
      · show (start _ _ t).tasks.Nodup
        rw [htasks]
        exact List.nodup_append.2 ⟨h.tasks.erase t, by simp, by
          intro a ha b hb
          simp only [List.mem_singleton] at hb
          subst hb
          exact ((List.Nodup.mem_erase_iff h.tasks).1 ha).1⟩
      · by_cases et : t' = t
        · subst et
          refine ⟨fun x => absurd x (by simp only [start]; omega), fun _ => ?_, fun x => ?_, fun _ x => ?_, ?_⟩
          · simp [start, put_self, *]
          · simp [start, pending, put_self, g1, g2, g3]
          · simp [start, put_self, g1] at x
          · have := (h.book t').law
            simp [pending, g2, g3] at this
            simp [start, pending, count_snoc, put_self, g2, g3, this]
            omega
        · refine (h.book t').same ⟨put_ne _ _ et, rfl, ?_, ?_, ?_, rfl, rfl, .inl rfl⟩
          · intro x
            have x : t' ∈ (start { s with tasks := s.tasks.erase t } { s.tw with timer := put s.tw.timer t { s.tw.timer t with exp := e } } t).tasks := x
            rw [htasks] at x
            simp only [List.mem_append, List.mem_singleton, et, or_false] at x
            exact List.mem_of_mem_erase x
          · rw [count_snoc, if_neg et]; rfl
          · show ((_ ++ [_]).map _).count _ = _
            rw [List.map_append, List.map_singleton, count_snoc, if_neg et]; rfl
    · simp at hx
  | enough t hm =>
    exact ⟨h.tinv, h.tasks.erase t, fun t' => (h.book t').same ⟨rfl, rfl, List.mem_of_mem_erase, rfl, rfl, rfl, rfl, .inl rfl⟩⟩
  | stop t r hb hl =>
    refine ⟨remove_tinv h.tinv hb rfl, h.tasks, fun t' => ?_⟩
    by_cases et : t' = t
    · subst et
      have hp : pending s t' = true := by simp [pending, hb]
      have hlt := mem_lt h (.inl hp)
      have hmv : moves s.run t' = false := by
        cases hx : moves s.run t' with
        | false => rfl
        | true => have := (h.book t').move hx; rw [hb] at this; simp at this
      refine ⟨fun x => absurd x (by dsimp only; omega), fun _ => ?_, fun x => ?_, fun _ x => ?_, ?_⟩
      · simp [start, put_self, *]
      · have := ((h.book t').task x).2
        rw [hp] at this; simp at this
      · refine (h.book t').once hlt ?_
        simpa [put_self] using x
      · have := (h.book t').law
        rw [hp] at this
        simp [pending, count_snoc, put_self, hmv, this]
        omega
    · refine (h.book t').same ⟨put_ne _ _ et, rfl, id, rfl, rfl, ?_, rfl, .inl rfl⟩
      rw [count_snoc, if_neg et]; rfl
  | take r q h0 hc hpop =>
    refine ⟨(pop_tinv h.tinv h0 hpop).mono ?_, h.tasks, fun t => (h.book t).same ⟨rfl, rfl, id, rfl, rfl, rfl, rfl, .inl rfl⟩⟩
    intro x hx
    simp only [List.mem_cons, List.mem_append] at hx ⊢
    simp only [List.mem_nil_iff, or_false]
    tauto
  | advance r rest ws hr hc hk he =>
    refine ⟨(advance_tinv h.tinv he).mono ?_, h.tasks, fun t => ?_⟩
    · rw [hr, hc]
      intro x hx
      simp only [held, List.mem_cons, List.mem_append, List.mem_nil_iff, or_false] at hx ⊢
      tauto
    · exact (h.book t).same ⟨rfl, by rw [hr]; rfl, id, rfl, rfl, rfl, rfl, .inl rfl⟩
  | lock r hr =>
    refine ⟨h.tinv.mono ?_, h.tasks, fun t => ?_⟩
    · rw [hr]; exact fun x hx => hx
    · exact (h.book t).same ⟨rfl, by rw [hr]; rfl, id, rfl, rfl, rfl, rfl, .inl rfl⟩
  | unlink r t ts hr hts =>
    have hb : (s.tw.timer t).bucket = some r := (h.tinv.mem t r).2 (by rw [hts]; exact List.mem_cons_self ..)
    refine ⟨(remove_tinv h.tinv hb (ts := ts) (by rw [hts]; simp)).mono ?_, h.tasks, fun t' => ?_⟩
    · rw [hr]; exact fun x hx => hx
    · have hmv : ∀ x, moves s.run x = false := by intro x; rw [hr]; rfl
      by_cases et : t' = t
      · subst et
        have hp : pending s t' = true := by simp [pending, hb]
        have hlt := mem_lt h (.inl hp)
        refine ⟨fun x => absurd x (by dsimp only; omega), fun _ => ?_, fun x => ?_, fun _ x => ?_, ?_⟩
        · simp [start, put_self, *]
        · have := ((h.book t').task x).2
          rw [hp] at this; simp at this
        · refine (h.book t').once hlt ?_
          simpa [put_self] using x
        · have := (h.book t').law
          rw [hp] at this
          simp [pending, put_self, moves, this]
      · refine (h.book t').same ⟨put_ne _ _ et, ?_, id, rfl, rfl, rfl, rfl, .inl rfl⟩
        rw [hmv]
        simp only [moves]
        simpa using fun x : t = t' => et x.symm
  | readd r t fuel tw hr he =>
    have hm : moves s.run t = true := by rw [hr]; simp [moves]
    have hb := (h.book t).move hm
    have hp : pending s t = true := by simp [pending, hm]
    have hlt := mem_lt h (.inl hp)
    rcases add_cases h.tinv he with ⟨hx, _⟩ | ⟨_, r', ha, _⟩
    · simp at hx
    · refine ⟨(added_tinv h.tinv hb ha).mono ?_, h.tasks, fun t' => ?_⟩
      · rw [hr]; exact fun x hx => hx
      · by_cases et : t' = t
        · subst et
          refine ⟨fun x => absurd x (by dsimp only; omega), fun x => ?_, fun x => ?_, fun _ x => ?_, ?_⟩
          · simp [moves] at x
          · have := ((h.book t').task x).2
            rw [hp] at this; simp at this
          · refine (h.book t').once hlt ?_
            simpa [ha.timer, put_self] using x
          · have := (h.book t').law
            rw [hp] at this
            simp [pending, put_self, ha.timer, this]
        · refine (h.book t').same ⟨by rw [ha.timer, put_ne _ _ et], ?_, id, rfl, rfl, rfl, rfl, .inl rfl⟩
          rw [hr]
          simp only [moves]
          simpa using fun x : t = t' => et x.symm
  | fire r t fuel tw hr he =>
    have hm : moves s.run t = true := by rw [hr]; simp [moves]
    have hb := (h.book t).move hm
    have hp : pending s t = true := by simp [pending, hm]
    have hlt := mem_lt h (.inl hp)
    have hnt : t ∉ s.tasks := by
      intro x
      have := ((h.book t).task x).2
      rw [hp] at this; simp at this
    rcases add_cases h.tinv he with ⟨_, rfl, _⟩ | ⟨hx, _⟩
    · refine ⟨TInv.mono h.tinv ?_, ?_, fun t' => ?_⟩
      · rw [hr]; exact fun x hx => hx
      · show (if _ then s.tasks ++ [t] else s.tasks).Nodup
        split
        · exact List.nodup_append.2 ⟨h.tasks, by simp, by
            intro a ha b hb
            simp only [List.mem_singleton] at hb
            subst hb
            rintro rfl
            exact hnt ha⟩
        · exact h.tasks
      · by_cases et : t' = t
        · subst et
          refine ⟨fun x => absurd x (by simp only [start]; omega), fun _ => hb, fun x => ?_, fun _ x => (h.book t').once hlt x, ?_⟩
          · have x : t' ∈ (if (s.tw.timer t').repeats then s.tasks ++ [t'] else s.tasks) := x
            by_cases hrep : (s.tw.timer t').repeats = true
            · exact ⟨hrep, by simp [start, pending, hb, moves]⟩
            · rw [if_neg hrep] at x
              exact absurd x hnt
          · have := (h.book t').law
            rw [hp] at this
            simp [start, pending, hb, moves, count_snoc, this]
            omega
        · refine (h.book t').same ⟨rfl, ?_, ?_, rfl, ?_, rfl, rfl, .inl rfl⟩
          · rw [hr]
            simp only [moves]
            simpa using fun x : t = t' => et x.symm
          · intro x
            have x : t' ∈ (if (s.tw.timer t).repeats then s.tasks ++ [t] else s.tasks) := x
            split at x
            · simpa [et] using x
            · exact x
          · show ((_ ++ [_]).map _).count _ = _
            rw [List.map_append, List.map_singleton, count_snoc, if_neg et]; rfl
    · simp at hx
  | done r hr ht =>
    refine ⟨done_tinv h.tinv ht ?_, h.tasks, fun t => ?_⟩
    · rw [hr]
      intro x hx hne
      simpa [held, hne] using hx
    · exact (h.book t).same ⟨rfl, by rw [hr]; rfl, id, rfl, rfl, rfl, rfl, .inl rfl⟩

/-- A timer that is neither pending nor about to be scheduled again is left alone. -/
theorem dead_step {k : State → Ref → Prop} {s s' : State} {t : Nat} (h : Inv k0 W s) (st : Step k s s')
    (hp : pending s t = false) (ht : t ∉ s.tasks) (hn : t < s.next) : Same s s' t := by
  have hb : (s.tw.timer t).bucket = none := by
    simp only [pending, Bool.or_eq_false_iff, Option.isSome_eq_false_iff, Option.isNone_iff_eq_none] at hp
    exact hp.1
  have hmv : moves s.run t = false := by
    simp only [pending, Bool.or_eq_false_iff] at hp
    exact hp.2
  have en : t ≠ s.next := by omega
  have ne_moving : ∀ {r t'}, s.run = .moving r t' → t ≠ t' := by
    rintro r t' hr rfl
    rw [hr] at hmv
    simp [moves] at hmv
  have ne_bucket : ∀ {r t'}, (s.tw.timer t').bucket = some r → t ≠ t' := by
    rintro r t' hr rfl
    rw [hb] at hr
    simp at hr
  have mv : ∀ {t' : Nat}, t ≠ t' → (t' == t) = false := fun h => by simpa using fun x => h x.symm
  cases st with
  | tick d hd => exact ⟨rfl, rfl, id, rfl, rfl, rfl, rfl, .inl rfl⟩
  | afterFunc delay fuel tw ok e =>
    have hf := fresh_timer h ⟨s.clock + delay, none, false⟩ rfl
    rcases add_cases hf e with ⟨rfl, rfl, _⟩ | ⟨rfl, r, ha, _⟩
    · refine ⟨put_ne _ _ en, rfl, id, ?_, rfl, rfl, ?_, .inr ⟨rfl, en⟩⟩
      · rw [count_snoc, if_neg en]; rfl
      · show ((if false = true then s.dropped else s.dropped ++ [s.next]).count t) = _
        rw [if_neg (by simp), count_snoc, if_neg en]; rfl
    · refine ⟨?_, rfl, id, ?_, rfl, rfl, rfl, .inr ⟨rfl, en⟩⟩
      · rw [ha.timer, put_ne _ _ en]; exact put_ne _ _ en
      · rw [count_snoc, if_neg en]; rfl
  | schedule e fuel tw he =>
    have hf := fresh_timer h ⟨e, none, true⟩ rfl
    rcases add_cases hf he with ⟨hx, _⟩ | ⟨_, r, ha, _⟩
    · simp at hx
    · refine ⟨?_, rfl, id, ?_, rfl, rfl, rfl, .inr ⟨rfl, en⟩⟩
      · rw [ha.timer, put_ne _ _ en]; exact put_ne _ _ en
      · rw [count_snoc, if_neg en]; rfl
  | scheduleRun e fuel tw he =>
    have hf := fresh_timer h ⟨e, none, true⟩ rfl
    rcases add_cases hf he with ⟨_, rfl, _⟩ | ⟨hx, _⟩
    · refine ⟨put_ne _ _ en, rfl, ?_, ?_, ?_, rfl, rfl, .inr ⟨rfl, en⟩⟩
      · intro x
        simp [start, put_self] at x
        exact x.resolve_right en
      · rw [count_snoc, if_neg en]; rfl
      · show ((_ ++ [_]).map _).count _ = _
        rw [List.map_append, List.map_singleton, count_snoc, if_neg en]; rfl
    · simp at hx
  | again t' e fuel tw hm he =>
    have et : t ≠ t' := by rintro rfl; exact ht hm
    have g2 := ((h.book t').task hm).2
    simp only [pending, Bool.or_eq_false_iff, Option.isSome_eq_false_iff, Option.isNone_iff_eq_none] at g2
    have hf := timer_tinv (v := { s.tw.timer t' with exp := e }) h.tinv g2.1 g2.1
    rcases add_cases hf he with ⟨hx, _⟩ | ⟨_, r, ha, _⟩
    · simp at hx
    · refine ⟨?_, rfl, List.mem_of_mem_erase, ?_, rfl, rfl, rfl, .inl rfl⟩
      · rw [ha.timer, put_ne _ _ et]; exact put_ne _ _ et
      · rw [count_snoc, if_neg et]; rfl
  | againRun t' e fuel tw hm he =>
    have et : t ≠ t' := by rintro rfl; exact ht hm
    have g2 := ((h.book t').task hm).2
    simp only [pending, Bool.or_eq_false_iff, Option.isSome_eq_false_iff, Option.isNone_iff_eq_none] at g2
    have hf := timer_tinv (v := { s.tw.timer t' with exp := e }) h.tinv g2.1 g2.1
    rcases add_cases hf he with ⟨_, rfl, _⟩ | ⟨hx, _⟩
    · refine ⟨put_ne _ _ et, rfl, ?_, ?_, ?_, rfl, rfl, .inl rfl⟩
      · intro x
        have x : t ∈ (if (put s.tw.timer t' { s.tw.timer t' with exp := e } t').repeats then s.tasks.erase t' ++ [t']
            else s.tasks.erase t') := x
        split at x
        · simp only [List.mem_append, List.mem_singleton, et, or_false] at x
          exact List.mem_of_mem_erase x
        · exact List.mem_of_mem_erase x
      · rw [count_snoc, if_neg et]; rfl
      · show ((_ ++ [_]).map _).count _ = _
        rw [List.map_append, List.map_singleton, count_snoc, if_neg et]; rfl
    · simp at hx
  | enough t' hm => exact ⟨rfl, rfl, List.mem_of_mem_erase, rfl, rfl, rfl, rfl, .inl rfl⟩
  | stop t' r hb' hl =>
    have et := ne_bucket hb'
    refine ⟨put_ne _ _ et, rfl, id, rfl, rfl, ?_, rfl, .inl rfl⟩
    rw [count_snoc, if_neg et]; rfl
  | take r q h0 hc hpop => exact ⟨rfl, rfl, id, rfl, rfl, rfl, rfl, .inl rfl⟩
  | advance r rest ws hr hc hk he => exact ⟨rfl, by rw [hr]; rfl, id, rfl, rfl, rfl, rfl, .inl rfl⟩
  | lock r hr => exact ⟨rfl, by rw [hr]; rfl, id, rfl, rfl, rfl, rfl, .inl rfl⟩
  | unlink r t' ts hr hts =>
    have et : t ≠ t' := ne_bucket ((h.tinv.mem t' r).2 (by rw [hts]; exact List.mem_cons_self ..))
    refine ⟨put_ne _ _ et, ?_, id, rfl, rfl, rfl, rfl, .inl rfl⟩
    rw [hr]
    exact mv et
  | readd r t' fuel tw hr he =>
    have et := ne_moving hr
    rcases add_cases h.tinv he with ⟨hx, _⟩ | ⟨_, r', ha, _⟩
    · simp at hx
    · refine ⟨by rw [ha.timer, put_ne _ _ et], ?_, id, rfl, rfl, rfl, rfl, .inl rfl⟩
      rw [hr]
      exact (mv et).symm
  | fire r t' fuel tw hr he =>
    have et := ne_moving hr
    rcases add_cases h.tinv he with ⟨_, rfl, _⟩ | ⟨hx, _⟩
    · refine ⟨rfl, ?_, ?_, rfl, ?_, rfl, rfl, .inl rfl⟩
      · rw [hr]
        exact (mv et).symm
      · intro x
        have x : t ∈ (if (s.tw.timer t').repeats then s.tasks ++ [t'] else s.tasks) := x
        split at x
        · simpa [et] using x
        · exact x
      · show ((_ ++ [_]).map _).count _ = _
        rw [List.map_append, List.map_singleton, count_snoc, if_neg et]; rfl
    · simp at hx
  | done r hr hts => exact ⟨rfl, by rw [hr]; rfl, id, rfl, rfl, rfl, rfl, .inl rfl⟩

theorem dead_from {k : State → Ref → Prop} {s s' : State} {t : Nat} (h : Inv k0 W s) (f : From k s s')
    (hp : pending s t = false) (ht : t ∉ s.tasks) (hn : t < s.next) :
    Inv k0 W s' ∧ pending s' t = false ∧ t ∉ s'.tasks ∧ t < s'.next ∧
      (s'.started.map (·.id)).count t = (s.started.map (·.id)).count t := by
  induction f with
  | refl => exact ⟨h, hp, ht, hn, rfl⟩
  | step _ st ih =>
    obtain ⟨i1, i2, i3, i4, i5⟩ := ih
    have c := dead_step i1 st i2 i3 i4
    refine ⟨inv_step i1 st, ?_, fun x => i3 (c.task x), ?_, c.sta.trans i5⟩
    · unfold pending at i2 ⊢; rw [c.timer, c.move]; exact i2
    · have := c.next; omega

/-- A timer of `AfterFunc` keeps its expiration, and its start is recorded with that expiration. -/
structure Kept (s s' : State) : Prop where
  timer : ∀ t, t < s.next → (s.tw.timer t).repeats = false → (s'.tw.timer t).exp = (s.tw.timer t).exp
  repeats : ∀ t, t < s.next → (s'.tw.timer t).repeats = (s.tw.timer t).repeats
  next : s.next ≤ s'.next
  starts : ∀ x, x ∈ s'.started → x ∈ s.started ∨ x.exp = (s'.tw.timer x.id).exp

theorem put_field {α : Type} (f : Nat → Timer) (g : Timer → α) (t : Nat) (v : Timer) (h : g v = g (f t)) (t' : Nat) :
    g (put f t v t') = g (f t') := by
  by_cases e : t' = t
  · subst e; rw [put_self]; exact h
  · rw [put_ne _ _ e]

theorem kept_step {k : State → Ref → Prop} {s s' : State} (h : Inv k0 W s) (st : Step k s s') : Kept s s' := by
  cases st with
  | tick d hd => exact ⟨fun _ _ _ => rfl, fun _ _ => rfl, Nat.le_refl _, fun _ h => .inl h⟩
  | afterFunc delay fuel tw ok e =>
    have hf := fresh_timer h ⟨s.clock + delay, none, false⟩ rfl
    rcases add_cases hf e with ⟨rfl, rfl, _⟩ | ⟨rfl, r, ha, _⟩
    · exact ⟨fun t hl _ => congrArg Timer.exp (put_ne _ _ (by omega)), fun t hl => congrArg Timer.repeats (put_ne _ _ (by omega)),
        Nat.le_succ _, fun _ h => .inl h⟩
    · refine ⟨fun t hl _ => ?_, fun t hl => ?_, Nat.le_succ _, fun _ h => .inl h⟩
      · dsimp only; rw [ha.timer, put_ne _ _ (by omega)]; exact congrArg Timer.exp (put_ne _ _ (by omega))
      · dsimp only; rw [ha.timer, put_ne _ _ (by omega)]; exact congrArg Timer.repeats (put_ne _ _ (by omega))
  | schedule e fuel tw he =>
    have hf := fresh_timer h ⟨e, none, true⟩ rfl
    rcases add_cases hf he with ⟨hx, _⟩ | ⟨_, r, ha, _⟩
    · simp at hx
    · refine ⟨fun t hl _ => ?_, fun t hl => ?_, Nat.le_succ _, fun _ h => .inl h⟩
      · dsimp only; rw [ha.timer, put_ne _ _ (by omega)]; exact congrArg Timer.exp (put_ne _ _ (by omega))
      · dsimp only; rw [ha.timer, put_ne _ _ (by omega)]; exact congrArg Timer.repeats (put_ne _ _ (by omega))
  | scheduleRun e fuel tw he =>
    have hf := fresh_timer h ⟨e, none, true⟩ rfl
    rcases add_cases hf he with ⟨_, rfl, _⟩ | ⟨hx, _⟩
    · refine ⟨fun t hl _ => congrArg Timer.exp (put_ne _ _ (by omega)), fun t hl => congrArg Timer.repeats (put_ne _ _ (by omega)),
        Nat.le_succ _, fun x hx => ?_⟩
      simp only [start, List.mem_append, List.mem_singleton] at hx
      rcases hx with hx | rfl
      · exact .inl hx
      · exact .inr rfl
    · simp at hx
  | again t' e fuel tw hm he =>
    obtain ⟨g1, g2⟩ := (h.book t').task hm
    simp only [pending, Bool.or_eq_false_iff, Option.isSome_eq_false_iff, Option.isNone_iff_eq_none] at g2
    have hf := timer_tinv (v := { s.tw.timer t' with exp := e }) h.tinv g2.1 g2.1
    rcases add_cases hf he with ⟨hx, _⟩ | ⟨_, r, ha, _⟩
    · simp at hx
    · refine ⟨fun t hl hrep => ?_, fun t hl => ?_, Nat.le_refl _, fun _ h => .inl h⟩
      · have et : t ≠ t' := by rintro rfl; rw [g1] at hrep; simp at hrep
        dsimp only; rw [ha.timer, put_ne _ _ et]; exact congrArg Timer.exp (put_ne _ _ et)
      · dsimp only
        rw [ha.timer]
        exact (put_field _ Timer.repeats _ _ (by rfl) _).trans (put_field _ Timer.repeats _ _ (by rfl) _)
  | againRun t' e fuel tw hm he =>
    obtain ⟨g1, g2⟩ := (h.book t').task hm
    simp only [pending, Bool.or_eq_false_iff, Option.isSome_eq_false_iff, Option.isNone_iff_eq_none] at g2
    have hf := timer_tinv (v := { s.tw.timer t' with exp := e }) h.tinv g2.1 g2.1
    rcases add_cases hf he with ⟨_, rfl, _⟩ | ⟨hx, _⟩
    · refine ⟨fun t hl hrep => ?_, fun t hl => ?_, Nat.le_refl _, fun x hx => ?_⟩
      · have et : t ≠ t' := by rintro rfl; rw [g1] at hrep; simp at hrep
        exact congrArg Timer.exp (put_ne _ _ et)
      · exact put_field _ Timer.repeats _ _ (by rfl) _
      · simp only [start, List.mem_append, List.mem_singleton] at hx
        rcases hx with hx | rfl
        · exact .inl hx
        · exact .inr rfl
    · simp at hx
  | enough t' hm => exact ⟨fun _ _ _ => rfl, fun _ _ => rfl, Nat.le_refl _, fun _ h => .inl h⟩
  | stop t' r hb' hl =>
    exact ⟨fun t _ _ => put_field _ Timer.exp _ _ (by rfl) _, fun t _ => put_field _ Timer.repeats _ _ (by rfl) _, Nat.le_refl _, fun _ h => .inl h⟩
  | take r q h0 hc hpop => exact ⟨fun _ _ _ => rfl, fun _ _ => rfl, Nat.le_refl _, fun _ h => .inl h⟩
  | advance r rest ws hr hc hk he => exact ⟨fun _ _ _ => rfl, fun _ _ => rfl, Nat.le_refl _, fun _ h => .inl h⟩
  | lock r hr => exact ⟨fun _ _ _ => rfl, fun _ _ => rfl, Nat.le_refl _, fun _ h => .inl h⟩
  | unlink r t' ts hr hts =>
    exact ⟨fun t _ _ => put_field _ Timer.exp _ _ (by rfl) _, fun t _ => put_field _ Timer.repeats _ _ (by rfl) _, Nat.le_refl _, fun _ h => .inl h⟩
  | readd r t' fuel tw hr he =>
    rcases add_cases h.tinv he with ⟨hx, _⟩ | ⟨_, r', ha, _⟩
    · simp at hx
    · refine ⟨fun t _ _ => ?_, fun t _ => ?_, Nat.le_refl _, fun _ h => .inl h⟩
      · dsimp only; rw [ha.timer]; exact put_field _ Timer.exp _ _ (by rfl) _
      · dsimp only; rw [ha.timer]; exact put_field _ Timer.repeats _ _ (by rfl) _
  | fire r t' fuel tw hr he =>
    rcases add_cases h.tinv he with ⟨_, rfl, _⟩ | ⟨hx, _⟩
    · refine ⟨fun _ _ _ => rfl, fun _ _ => rfl, Nat.le_refl _, fun x hx => ?_⟩
      simp only [start, List.mem_append, List.mem_singleton] at hx
      rcases hx with hx | rfl
      · exact .inl hx
      · exact .inr rfl
    · simp at hx
  | done r hr hts => exact ⟨fun _ _ _ => rfl, fun _ _ => rfl, Nat.le_refl _, fun _ h => .inl h⟩

theorem started_lt {s : State} (h : Inv k0 W s) {x : Start} (hx : x ∈ s.started) : x.id < s.next := by
  by_contra hn
  have h1 := (h.book x.id).law
  rw [((h.book x.id).fresh (by omega)).2.2.2] at h1
  have : 0 < (s.started.map (·.id)).count x.id := List.count_pos_iff.2 (List.mem_map_of_mem hx)
  omega

theorem kept_from {k : State → Ref → Prop} {s s' : State} (h : Inv k0 W s) (f : From k s s')
    (h0 : ∀ x ∈ s.started, (s.tw.timer x.id).repeats = false → x.exp = (s.tw.timer x.id).exp) :
    Inv k0 W s' ∧ (∀ t, t < s.next → (s'.tw.timer t).repeats = (s.tw.timer t).repeats) ∧
    (∀ t, t < s.next → (s.tw.timer t).repeats = false → (s'.tw.timer t).exp = (s.tw.timer t).exp) ∧ s.next ≤ s'.next ∧
    (∀ x ∈ s'.started, (s'.tw.timer x.id).repeats = false → x.exp = (s'.tw.timer x.id).exp) := by
  induction f with
  | refl => exact ⟨h, fun _ _ => rfl, fun _ _ _ => rfl, Nat.le_refl _, h0⟩
  | step _ st ih =>
    obtain ⟨i1, i2, i3, i4, i5⟩ := ih
    have c := kept_step i1 st
    refine ⟨inv_step i1 st, fun t ht => (c.repeats t (by omega)).trans (i2 t ht), ?_, Nat.le_trans i4 c.next, ?_⟩
    · intro t ht hr
      rw [c.timer t (by omega) (by rw [i2 t ht]; exact hr)]
      exact i3 t ht hr
    · intro x hx hr
      rcases c.starts x hx with hx | hx
      · have hlt := started_lt i1 hx
        have hr' : _ = false := (c.repeats x.id hlt).symm.trans hr
        rw [c.timer x.id hlt hr']
        exact i5 x hx hr'
      · exact hx

end Verif.TimingWheel
