import Verif.Proof.TimingWheelInv

/-! # The timing wheel: executions in which `Run` processes the buckets in order -/

namespace Verif.TimingWheel

open Mutex (put put_self put_ne)

variable {k0 : Int} {W : Nat}

/-- No bucket in the queue or on its way to `Run` expires before `r`. -/
def inOrder (s : State) (r : Ref) : Prop :=
  ∀ r', r' ∈ s.tw.queue ∨ r' ∈ s.chan → (bucketAt s.tw.wheels r).exp ≤ (bucketAt s.tw.wheels r').exp

theorem heap_congr {f g : Ref → Ref → Bool} {q : List Ref} (hq : ∀ a ∈ q, ∀ b ∈ q, f a b = g a b)
    (h : Heap.HeapN f 2 q.length q) : Heap.HeapN g 2 q.length q := by
  intro j h1 h2 x y hx hy
  rw [← hq x (List.mem_of_getElem? hx) y (List.mem_of_getElem? hy)]
  exact h j h1 h2 x y hx hy

/-- The buckets in the queue or in `extra` are those with an expiration, once each; expirations and timers fit. -/
structure TOrd (k0 : Int) (W : Nat) (tw : Tw) (extra : List Ref) : Prop where
  nodup : (tw.queue ++ extra).Nodup
  live : ∀ r, r ∈ tw.queue ∨ r ∈ extra → (bucketAt tw.wheels r).exp ≠ -1
  exps : ∀ r, (bucketAt tw.wheels r).exp ≠ -1 → K k0 W r.level ∣ (bucketAt tw.wheels r).exp ∧
    r.slot = slotOf k0 W r.level (bucketAt tw.wheels r).exp ∧
    fl (curTime tw.wheels) (K k0 W r.level) ≤ (bucketAt tw.wheels r).exp ∧
    (bucketAt tw.wheels r).exp < fl (curTime tw.wheels) (K k0 W r.level) + K k0 W (r.level + 1)
  timers : ∀ r t, t ∈ (bucketAt tw.wheels r).timers → (bucketAt tw.wheels r).exp ≤ (tw.timer t).exp ∧
    (tw.timer t).exp < (bucketAt tw.wheels r).exp + K k0 W r.level
  heap : Heap.HeapN (less tw.wheels) 2 tw.queue.length tw.queue

theorem Added.exp_lo {c0 : Int} {tw tw' : Tw} {t : Nat} {r : Ref} (ha : Added k0 W c0 tw t r tw') :
    fl c0 (K k0 W r.level) + K k0 W r.level ≤ fl (tw.timer t).exp (K k0 W r.level) := by
  have hk := ha.wf.kp r.level
  exact le_fl hk (Int.dvd_add (fl_dvd _ _) (Int.dvd_refl _)) ha.lo

/-- A bucket that gets a timer keeps its expiration if it has one. -/
theorem added_same {tw tw' : Tw} {extra : List Ref} {t : Nat} {r : Ref} (o : TOrd k0 W tw extra)
    (ha : Added k0 W (curTime tw.wheels) tw t r tw') (hr : (bucketAt tw.wheels r).exp ≠ -1) :
    (bucketAt tw.wheels r).exp = fl (tw.timer t).exp (K k0 W r.level) := by
  have hk := ha.wf.kp r.level
  obtain ⟨d, sl, lo, hi⟩ := o.exps r hr
  have h1 := ha.exp_lo
  have h2 : fl (tw.timer t).exp (K k0 W r.level) ≤ (tw.timer t).exp := fl_le hk
  have h3 := ha.hi
  exact slot_inj ha.wf.k (by have := ha.wf.w; omega) d (fl_dvd _ _) lo hi (by omega) (by omega) (by rw [← sl, ← ha.slot])

/-- A timer never goes into the bucket in hand. -/
theorem added_ne {tw tw' : Tw} {extra : List Ref} {t : Nat} {r h : Ref} (o : TOrd k0 W tw extra)
    (ha : Added k0 W (curTime tw.wheels) tw t r tw') (hh : h ∈ extra)
    (he : (bucketAt tw.wheels h).exp = fl (curTime tw.wheels) (K k0 W h.level)) : r ≠ h := by
  rintro rfl
  have := added_same o ha (o.live r (.inr hh))
  have h1 := ha.exp_lo
  have hk := ha.wf.kp r.level
  omega

theorem added_exp {tw tw' : Tw} {extra : List Ref} {t : Nat} {r : Ref} (o : TOrd k0 W tw extra)
    (ha : Added k0 W (curTime tw.wheels) tw t r tw') {x : Ref} (hx : x ∈ tw.queue ∨ x ∈ extra) :
    (bucketAt tw'.wheels x).exp = (bucketAt tw.wheels x).exp := by
  rw [ha.bk]
  split
  · rename_i e
    subst e
    exact (added_same o ha (o.live x hx)).symm
  · rfl

theorem added_tord {tw tw' : Tw} {extra : List Ref} {t : Nat} {r : Ref} (h : TInv k0 W tw extra) (o : TOrd k0 W tw extra)
    (hn : (tw.timer t).bucket = none) (ha : Added k0 W (curTime tw.wheels) tw t r tw') : TOrd k0 W tw' extra := by
  have hE := ha.exp_nonneg
  have hk := ha.wf.kp r.level
  have h1 := ha.exp_lo
  have h2 : fl (tw.timer t).exp (K k0 W r.level) ≤ (tw.timer t).exp := fl_le hk
  have h3 := ha.hi
  have h4 : (tw.timer t).exp < fl (tw.timer t).exp (K k0 W r.level) + K k0 W r.level := lt_fl hk
  have hless : ∀ a ∈ tw.queue, ∀ b ∈ tw.queue, less tw.wheels a b = less tw'.wheels a b := by
    intro a haq b hbq
    unfold less
    rw [added_exp o ha (.inl haq), added_exp o ha (.inl hbq)]
  have hheap := heap_congr hless o.heap
  have hmem : ∀ r', t ∉ (bucketAt tw.wheels r').timers := fun r' hm => by
    have := (h.mem t r').2 hm
    rw [hn] at this
    simp at this
  by_cases hr : (bucketAt tw.wheels r).exp = -1
  · have hpush := ha.push (by rw [hr]; omega)
    obtain ⟨q, e1, e2⟩ := push_total tw'.wheels tw.queue r
    rw [e1] at hpush
    have hq : q = tw'.queue := by cases hpush; rfl
    subst hq
    have hnr : ¬ (r ∈ tw.queue ∨ r ∈ extra) := fun hx => o.live r hx hr
    refine ⟨?_, ?_, ?_, ?_, push_heap _ hheap e1⟩
    · have : (tw'.queue ++ extra).Perm (r :: (tw.queue ++ extra)) := e2.append_right extra
      rw [this.nodup_iff, List.nodup_cons]
      exact ⟨by simpa using hnr, o.nodup⟩
    · intro x hx
      rw [ha.bk]
      split
      · show fl _ _ ≠ -1
        omega
      · rename_i hne
        refine o.live x (hx.imp (fun hq => ?_) id)
        exact (List.mem_cons.1 (e2.mem_iff.1 hq)).resolve_left hne
    · intro x
      rw [ha.bk, ha.cur]
      split
      · rename_i e
        subst e
        intro _
        exact ⟨fl_dvd _ _, ha.slot, by dsimp only; omega, by dsimp only; omega⟩
      · exact o.exps x
    · intro x t'
      rw [ha.bk, ha.timer]
      split
      · rename_i e
        subst e
        intro hx
        by_cases et : t' = t
        · subst et
          rw [put_self]
          exact ⟨h2, h4⟩
        · have hm : t' ∈ (bucketAt tw.wheels x).timers := by simpa [et] using hx
          exact absurd hr (h.full x (List.ne_nil_of_mem hm))
      · intro hx
        have et : t' ≠ t := by rintro rfl; exact hmem x hx
        rw [put_ne _ _ et]
        exact o.timers x t' hx
  · have hs := added_same o ha hr
    have hq := ha.same hs
    have hexp : ∀ x, (bucketAt tw'.wheels x).exp = (bucketAt tw.wheels x).exp := by
      intro x
      rw [ha.bk]
      split
      · rename_i e; subst e; exact hs.symm
      · rfl
    refine ⟨by rw [hq]; exact o.nodup, ?_, ?_, ?_, by rw [hq]; exact hheap⟩
    · intro x
      rw [hq, hexp]
      exact o.live x
    · intro x
      rw [hexp, ha.cur]
      exact o.exps x
    · intro x t'
      rw [hexp, ha.bk, ha.timer]
      split
      · rename_i e
        subst e
        intro hx
        by_cases et : t' = t
        · subst et
          rw [put_self, hs]
          exact ⟨h2, h4⟩
        · have hm : t' ∈ (bucketAt tw.wheels x).timers := by simpa [et] using hx
          rw [put_ne _ _ et]
          exact o.timers x t' hm
      · intro hx
        have et : t' ≠ t := by rintro rfl; exact hmem x hx
        rw [put_ne _ _ et]
        exact o.timers x t' hx

theorem timer_tord {tw : Tw} {extra : List Ref} {t : Nat} {v : Timer} (h : TInv k0 W tw extra) (o : TOrd k0 W tw extra)
    (hn : (tw.timer t).bucket = none) : TOrd k0 W ⟨tw.wheels, tw.queue, put tw.timer t v⟩ extra := by
  refine ⟨o.nodup, o.live, o.exps, ?_, o.heap⟩
  intro x t' hx
  have et : t' ≠ t := by
    rintro rfl
    have := (h.mem t' x).2 hx
    rw [hn] at this
    simp at this
  show _ ≤ (put tw.timer t v t').exp ∧ (put tw.timer t v t').exp < _
  rw [put_ne _ _ et]
  exact o.timers x t' hx

theorem remove_tord {tw : Tw} {extra : List Ref} {t : Nat} {r : Ref} {ts : List Nat} (h : TInv k0 W tw extra)
    (o : TOrd k0 W tw extra) (hb : (tw.timer t).bucket = some r) (hts : ∀ x ∈ ts, x ∈ (bucketAt tw.wheels r).timers ∧ x ≠ t) :
    TOrd k0 W ⟨setBucket tw.wheels r ⟨(bucketAt tw.wheels r).exp, ts⟩, tw.queue,
      put tw.timer t { tw.timer t with bucket := none }⟩ extra := by
  have hv := h.valid hb
  have hwf := setBucket_wf h.wf r ⟨(bucketAt tw.wheels r).exp, ts⟩
  have hbk := bucketAt_set h.wf hv ⟨(bucketAt tw.wheels r).exp, ts⟩
  have hexp : ∀ x, (bucketAt (setBucket tw.wheels r ⟨(bucketAt tw.wheels r).exp, ts⟩) x).exp = (bucketAt tw.wheels x).exp := by
    intro x
    rw [hbk]
    split
    · rename_i e; subst e; rfl
    · rfl
  have hcur := curTime_eq hwf
  refine ⟨o.nodup, ?_, ?_, ?_, ?_⟩
  · intro x; dsimp only; rw [hexp]; exact o.live x
  · intro x; dsimp only; rw [hexp, hcur]; exact o.exps x
  · intro x t'
    dsimp only
    rw [hexp, hbk]
    by_cases e : x = r
    · subst e
      rw [if_pos rfl]
      intro hx
      obtain ⟨h1, h2⟩ := hts t' hx
      rw [put_ne _ _ h2]
      exact o.timers x t' h1
    · rw [if_neg e]
      intro hx
      have et : t' ≠ t := by
        rintro rfl
        have := (h.mem t' x).2 hx
        rw [hb] at this
        exact e (Option.some.inj this).symm
      rw [put_ne _ _ et]
      exact o.timers x t' hx
  · dsimp only
    refine heap_congr ?_ o.heap
    intro a _ b _
    unfold less
    rw [hexp, hexp]

theorem pop_tord {tw : Tw} {extra e2 : List Ref} {r : Ref} {q : List Ref} (o : TOrd k0 W tw extra) (h0 : tw.queue[0]? = some r)
    (e : Heap.pop (less tw.wheels) tw.queue = .ok (r, q)) (he : e2.Perm (r :: extra)) : TOrd k0 W ⟨tw.wheels, q, tw.timer⟩ e2 := by
  obtain ⟨q', e1, hp⟩ := pop_total tw.wheels h0
  have hq : q = q' := by rw [e1] at e; cases e; rfl
  subst hq
  refine ⟨?_, ?_, o.exps, o.timers, pop_heap _ o.heap e⟩
  · have : (q ++ e2).Perm (tw.queue ++ extra) :=
      (he.append_left q).trans (List.perm_middle.trans (hp.append_right extra))
    rw [this.nodup_iff]
    exact o.nodup
  · intro x hx
    refine o.live x ?_
    rcases hx with hx | hx
    · exact .inl (hp.mem_iff.1 (List.mem_cons_of_mem _ hx))
    · rcases List.mem_cons.1 (he.mem_iff.1 hx) with rfl | hx
      · exact .inl (List.mem_of_getElem? h0)
      · exact .inr hx

theorem TOrd.perm {tw : Tw} {e1 e2 : List Ref} (o : TOrd k0 W tw e1) (h : e1.Perm e2) : TOrd k0 W tw e2 :=
  ⟨((h.append_left _).nodup_iff).1 o.nodup, fun r hr => o.live r (hr.imp id h.mem_iff.2), o.exps, o.timers, o.heap⟩

/-- After `advance` the bucket in hand begins at the current time of its level. -/
theorem advance_tord {tw : Tw} {extra : List Ref} {r : Ref} {ws : List Wheel} (h : TInv k0 W tw extra) (o : TOrd k0 W tw extra)
    (hr : r ∈ extra) (hmin : ∀ r', r' ∈ tw.queue ∨ r' ∈ extra → (bucketAt tw.wheels r).exp ≤ (bucketAt tw.wheels r').exp)
    (e : advance (bucketAt tw.wheels r).exp tw.wheels = .ok ws) :
    TOrd k0 W ⟨ws, tw.queue, tw.timer⟩ extra ∧ (bucketAt ws r).exp = fl (curTime ws) (K k0 W r.level) ∧
      curTime ws = max (curTime tw.wheels) (bucketAt tw.wheels r).exp ∧ (∀ x, bucketAt ws x = bucketAt tw.wheels x) := by
  obtain ⟨ws', e1, hwf, hbk, _⟩ := advance_spec h.wf (bucketAt tw.wheels r).exp
  have hws : ws = ws' := by rw [e1] at e; cases e; rfl
  subst hws
  have hkp := fun l => h.wf.kp l
  have hk0 : K k0 W 0 = k0 := K_zero
  obtain ⟨rd, _, rlo, _⟩ := o.exps r (o.live r (.inr hr))
  have hd0 : k0 ∣ (bucketAt tw.wheels r).exp := by
    have : K k0 W 0 ∣ K k0 W r.level := K_dvd (Nat.zero_le _)
    rw [hk0] at this
    exact Int.dvd_trans this rd
  have hcur : curTime ws = max (curTime tw.wheels) (bucketAt tw.wheels r).exp := by
    rw [curTime_eq hwf, fl_of_dvd hd0]
  refine ⟨⟨o.nodup, ?_, ?_, ?_, ?_⟩, ?_, hcur, hbk⟩
  · intro x; dsimp only; rw [hbk]; exact o.live x
  · intro x hx
    dsimp only at hx ⊢
    rw [hbk] at hx ⊢
    rw [hcur]
    obtain ⟨d, sl, lo, hi⟩ := o.exps x hx
    have hreg := h.reg x hx
    have hm := hmin x hreg
    have hf1 : fl (bucketAt tw.wheels r).exp (K k0 W x.level) ≤ (bucketAt tw.wheels r).exp := fl_le (hkp x.level)
    have hf2 : fl (curTime tw.wheels) (K k0 W x.level) ≤ fl (max (curTime tw.wheels) (bucketAt tw.wheels r).exp) (K k0 W x.level) :=
      fl_mono (hkp x.level) (Int.le_max_left _ _)
    refine ⟨d, sl, ?_, by omega⟩
    rcases Int.le_total (curTime tw.wheels) (bucketAt tw.wheels r).exp with hc | hc
    · rw [Int.max_eq_right hc]; omega
    · rw [Int.max_eq_left hc]; exact lo
  · intro x t; dsimp only; rw [hbk]; exact o.timers x t
  · refine heap_congr ?_ o.heap
    intro a _ b _
    unfold less
    dsimp only
    rw [hbk, hbk]
  · rw [hbk, hcur]
    rcases Int.le_total (curTime tw.wheels) (bucketAt tw.wheels r).exp with hc | hc
    · rw [Int.max_eq_right hc]; exact (fl_of_dvd rd).symm
    · rw [Int.max_eq_left hc]
      have := le_fl (hkp r.level) rd hc
      omega

theorem done_tord {tw : Tw} {e1 : List Ref} {r : Ref} (h : TInv k0 W tw e1) (o : TOrd k0 W tw e1)
    {e2 : List Ref} (he : e1.Perm (r :: e2)) (hv : Valid W tw.wheels r) :
    TOrd k0 W ⟨setBucket tw.wheels r ⟨-1, []⟩, tw.queue, tw.timer⟩ e2 := by
  have hwf := setBucket_wf h.wf r ⟨-1, []⟩
  have hbk := bucketAt_set h.wf hv ⟨-1, []⟩
  have hnd : (r :: (tw.queue ++ e2)).Nodup := by
    have : (tw.queue ++ e1).Perm (r :: (tw.queue ++ e2)) := (he.append_left _).trans List.perm_middle
    exact this.nodup_iff.1 o.nodup
  obtain ⟨hnr, hnd⟩ := List.nodup_cons.1 hnd
  have hcur := curTime_eq hwf
  have hne : ∀ x, x ∈ tw.queue ∨ x ∈ e2 → x ≠ r := by
    rintro x hx rfl
    exact hnr (by simpa using hx)
  refine ⟨hnd, ?_, ?_, ?_, ?_⟩
  · intro x hx
    dsimp only
    rw [hbk, if_neg (hne x hx)]
    exact o.live x (hx.imp id (fun hm => he.mem_iff.2 (List.mem_cons_of_mem _ hm)))
  · intro x
    dsimp only
    rw [hbk, hcur]
    split
    · intro hh; exact absurd rfl hh
    · exact o.exps x
  · intro x t
    dsimp only
    rw [hbk]
    split
    · simp
    · exact o.timers x t
  · refine heap_congr ?_ o.heap
    intro a ha b hb
    unfold less
    dsimp only
    rw [hbk, hbk, if_neg (hne a (.inl ha)), if_neg (hne b (.inl hb))]

/-- What holds in executions in which `Run` processes the buckets in order. -/
structure Ord (k0 : Int) (W : Nat) (s : State) : Prop where
  inv : Inv k0 W s
  tord : TOrd k0 W s.tw (s.chan ++ held s.run)
  hand : ∀ r, r ∈ held s.run → (bucketAt s.tw.wheels r).exp = fl (curTime s.tw.wheels) (K k0 W r.level)
  moving : ∀ r t, s.run = .moving r t → (bucketAt s.tw.wheels r).exp ≤ (s.tw.timer t).exp ∧
    (s.tw.timer t).exp < (bucketAt s.tw.wheels r).exp + K k0 W r.level
  now : curTime s.tw.wheels ≤ s.clock
  due : ∀ r, r ∈ s.chan ++ held s.run → (bucketAt s.tw.wheels r).exp < s.clock
  starts : ∀ x, x ∈ s.started → k0 ∣ x.cur ∧ x.exp < x.cur + k0 ∧ x.cur ≤ x.clock

theorem Ord.valid {s : State} (h : Ord k0 W s) {r : Ref} (hr : r ∈ s.chan ++ held s.run) : Valid W s.tw.wheels r := by
  by_contra hn
  have := h.tord.live r (.inr hr)
  rw [bucketAt_invalid h.inv.tinv.wf hn] at this
  exact this rfl

/-- A timer is put into a bucket (from a state `s` whose timer `t` may have been changed to `tw`). -/
theorem ord_added {s s' : State} {tw : Tw} {t : Nat} {r : Ref} (h : Ord k0 W s) (hinv : Inv k0 W s')
    (hti : TInv k0 W tw (s.chan ++ held s.run)) (hto : TOrd k0 W tw (s.chan ++ held s.run)) (hw : tw.wheels = s.tw.wheels)
    (hn : (tw.timer t).bucket = none) (ha : Added k0 W (curTime tw.wheels) tw t r s'.tw) (h1 : s'.clock = s.clock)
    (h2 : s'.chan = s.chan) (h3 : held s'.run = held s.run) (h4 : s'.started = s.started)
    (hm : ∀ r' t', s'.run = .moving r' t' → t' ≠ t ∧ s.run = .moving r' t' ∧ tw.timer t' = s.tw.timer t') : Ord k0 W s' := by
  have hcur : curTime s'.tw.wheels = curTime s.tw.wheels := by rw [ha.cur, hw]
  have hex : ∀ x, x ∈ s.chan ++ held s.run → (bucketAt s'.tw.wheels x).exp = (bucketAt s.tw.wheels x).exp := by
    intro x hx
    rw [added_exp hto ha (.inr hx), hw]
  refine ⟨hinv, ?_, ?_, ?_, ?_, ?_, ?_⟩
  · rw [h2, h3]; exact added_tord hti hto hn ha
  · intro x hx
    rw [h3] at hx
    rw [hex x (List.mem_append_right _ hx), hcur]
    exact h.hand x hx
  · intro r' t' hx
    obtain ⟨m1, m2, m3⟩ := hm r' t' hx
    rw [hex r' (List.mem_append_right _ (by rw [m2]; simp [held])), ha.timer, put_ne _ _ m1, m3]
    exact h.moving r' t' m2
  · rw [hcur, h1]; exact h.now
  · intro x hx
    rw [h2, h3] at hx
    rw [hex x hx, h1]
    exact h.due x hx
  · rw [h4]; exact h.starts

/-- A task is started. -/
theorem ord_start {s s' : State} {tw : Tw} {t : Nat} (h : Ord k0 W s) (hinv : Inv k0 W s')
    (hto : TOrd k0 W tw (s.chan ++ held s.run)) (hw : tw.wheels = s.tw.wheels)
    (he : (tw.timer t).exp < curTime tw.wheels + k0) (h0 : s'.tw = tw) (h1 : s'.clock = s.clock)
    (h2 : s'.chan = s.chan) (h3 : held s'.run = held s.run)
    (h4 : s'.started = s.started ++ [⟨t, (tw.timer t).exp, curTime tw.wheels, s.clock⟩])
    (hm : ∀ r' t', s'.run = .moving r' t' → s.run = .moving r' t' ∧ tw.timer t' = s.tw.timer t') : Ord k0 W s' := by
  subst h0
  refine ⟨hinv, ?_, ?_, ?_, ?_, ?_, ?_⟩
  · rw [h2, h3]; exact hto
  · rw [h3, hw]; exact h.hand
  · intro r' t' hx
    obtain ⟨m2, m3⟩ := hm r' t' hx
    rw [hw, m3]
    exact h.moving r' t' m2
  · rw [hw, h1]; exact h.now
  · rw [h2, h3, hw, h1]; exact h.due
  · intro x hx
    rw [h4, List.mem_append, List.mem_singleton] at hx
    rcases hx with hx | rfl
    · exact h.starts x hx
    · refine ⟨?_, he, ?_⟩
      · dsimp only; rw [hw]; exact h.inv.tinv.wf.d
      · dsimp only; rw [hw]; exact h.now

theorem ord_step {s s' : State} (h : Ord k0 W s) (st : Step inOrder s s') : Ord k0 W s' := by
  have hinv := inv_step h.inv st
  cases st with
  | tick d hd =>
    refine ⟨hinv, h.tord, h.hand, h.moving, ?_, ?_, h.starts⟩
    · have := h.now; dsimp only; omega
    · intro x hx; have := h.due x hx; dsimp only; omega
  | afterFunc delay fuel tw ok e =>
    have hf := fresh_timer h.inv ⟨s.clock + delay, none, false⟩ rfl
    obtain ⟨f1, f2, f3, f4⟩ := (h.inv.book s.next).fresh (Nat.le_refl _)
    have hto := timer_tord (v := ⟨s.clock + delay, none, false⟩) h.inv.tinv h.tord f1
    have hmv : ∀ r' t', s.run = .moving r' t' → t' ≠ s.next := by
      rintro r' t' hr rfl
      rw [hr] at f2
      simp [moves] at f2
    rcases add_cases hf e with ⟨rfl, rfl, _⟩ | ⟨rfl, r, ha, _⟩
    · refine ⟨hinv, hto, h.hand, ?_, h.now, h.due, h.starts⟩
      intro r' t' hr
      dsimp only at hr ⊢
      rw [put_ne _ _ (hmv r' t' hr)]
      exact h.moving r' t' hr
    · refine ord_added h hinv hf hto rfl (by simp [put_self]) ha rfl rfl rfl rfl ?_
      intro r' t' hr
      exact ⟨hmv r' t' hr, hr, put_ne _ _ (hmv r' t' hr)⟩
  | schedule e fuel tw he =>
    have hf := fresh_timer h.inv ⟨e, none, true⟩ rfl
    obtain ⟨f1, f2, f3, f4⟩ := (h.inv.book s.next).fresh (Nat.le_refl _)
    have hto := timer_tord (v := ⟨e, none, true⟩) h.inv.tinv h.tord f1
    have hmv : ∀ r' t', s.run = .moving r' t' → t' ≠ s.next := by
      rintro r' t' hr rfl
      rw [hr] at f2
      simp [moves] at f2
    rcases add_cases hf he with ⟨hx, _⟩ | ⟨_, r, ha, _⟩
    · simp at hx
    · refine ord_added h hinv hf hto rfl (by simp [put_self]) ha rfl rfl rfl rfl ?_
      intro r' t' hr
      exact ⟨hmv r' t' hr, hr, put_ne _ _ (hmv r' t' hr)⟩
  | scheduleRun e fuel tw he =>
    have hf := fresh_timer h.inv ⟨e, none, true⟩ rfl
    obtain ⟨f1, f2, f3, f4⟩ := (h.inv.book s.next).fresh (Nat.le_refl _)
    have hto := timer_tord (v := ⟨e, none, true⟩) h.inv.tinv h.tord f1
    have hmv : ∀ r' t', s.run = .moving r' t' → t' ≠ s.next := by
      rintro r' t' hr rfl
      rw [hr] at f2
      simp [moves] at f2
    rcases add_cases hf he with ⟨_, rfl, hlt⟩ | ⟨hx, _⟩
    · refine ord_start h hinv hto rfl hlt rfl rfl rfl rfl rfl ?_
      intro r' t' hr
      exact ⟨hr, put_ne _ _ (hmv r' t' hr)⟩
    · simp at hx
  | again t e fuel tw hm he =>
    obtain ⟨g1, g2⟩ := (h.inv.book t).task hm
    simp only [pending, Bool.or_eq_false_iff, Option.isSome_eq_false_iff, Option.isNone_iff_eq_none] at g2
    obtain ⟨g2, g3⟩ := g2
    have hf := timer_tinv (v := { s.tw.timer t with exp := e }) h.inv.tinv g2 g2
    have hto := timer_tord (v := { s.tw.timer t with exp := e }) h.inv.tinv h.tord g2
    have hmv : ∀ r' t', s.run = .moving r' t' → t' ≠ t := by
      rintro r' t' hr rfl
      rw [hr] at g3
      simp [moves] at g3
    rcases add_cases hf he with ⟨hx, _⟩ | ⟨_, r, ha, _⟩
    · simp at hx
    · refine ord_added h hinv hf hto rfl (by simp [put_self, g2]) ha rfl rfl rfl rfl ?_
      intro r' t' hr
      exact ⟨hmv r' t' hr, hr, put_ne _ _ (hmv r' t' hr)⟩
  | againRun t e fuel tw hm he =>
    obtain ⟨g1, g2⟩ := (h.inv.book t).task hm
    simp only [pending, Bool.or_eq_false_iff, Option.isSome_eq_false_iff, Option.isNone_iff_eq_none] at g2
    obtain ⟨g2, g3⟩ := g2
    have hf := timer_tinv (v := { s.tw.timer t with exp := e }) h.inv.tinv g2 g2
    have hto := timer_tord (v := { s.tw.timer t with exp := e }) h.inv.tinv h.tord g2
    have hmv : ∀ r' t', s.run = .moving r' t' → t' ≠ t := by
      rintro r' t' hr rfl
      rw [hr] at g3
      simp [moves] at g3
    rcases add_cases hf he with ⟨_, rfl, hlt⟩ | ⟨hx, _⟩
    · refine ord_start h hinv hto rfl hlt rfl rfl rfl rfl rfl ?_
      intro r' t' hr
      exact ⟨hr, put_ne _ _ (hmv r' t' hr)⟩
    · simp at hx
  | enough t hm => exact ⟨hinv, h.tord, h.hand, h.moving, h.now, h.due, h.starts⟩
  | stop t r hb hl =>
    have hmv : ∀ r' t', s.run = .moving r' t' → t' ≠ t := by
      rintro r' t' hr rfl
      have := (h.inv.book t').move (by rw [hr]; simp [moves])
      rw [hb] at this
      simp at this
    have hto := remove_tord (ts := (bucketAt s.tw.wheels r).timers.erase t) h.inv.tinv h.tord hb (by
      intro x hx
      have := (List.Nodup.mem_erase_iff (h.inv.tinv.nodup r)).1 hx
      exact ⟨this.2, this.1⟩)
    have hv := h.inv.tinv.valid hb
    have hbk := bucketAt_set h.inv.tinv.wf hv ⟨(bucketAt s.tw.wheels r).exp, (bucketAt s.tw.wheels r).timers.erase t⟩
    have hcur := curTime_eq (setBucket_wf h.inv.tinv.wf r ⟨(bucketAt s.tw.wheels r).exp, (bucketAt s.tw.wheels r).timers.erase t⟩)
    have hexp : ∀ x, (bucketAt (setBucket s.tw.wheels r ⟨(bucketAt s.tw.wheels r).exp, (bucketAt s.tw.wheels r).timers.erase t⟩) x).exp =
        (bucketAt s.tw.wheels x).exp := by
      intro x
      rw [hbk]
      split
      · rename_i e; subst e; rfl
      · rfl
    refine ⟨hinv, hto, ?_, ?_, ?_, ?_, h.starts⟩
    · intro x hx; dsimp only; rw [hexp, hcur]; exact h.hand x hx
    · intro r' t' hr
      dsimp only at hr ⊢
      rw [hexp, put_ne _ _ (hmv r' t' hr)]
      exact h.moving r' t' hr
    · dsimp only; rw [hcur]; exact h.now
    · intro x hx; dsimp only; rw [hexp]; exact h.due x hx
  | take r q h0 hc hpop =>
    have hperm : (s.chan ++ [r] ++ held s.run).Perm (r :: (s.chan ++ held s.run)) := by
      rw [List.append_assoc]; exact List.perm_middle
    refine ⟨hinv, pop_tord h.tord h0 hpop hperm, h.hand, h.moving, h.now, ?_, h.starts⟩
    intro x hx
    rcases List.mem_cons.1 (hperm.mem_iff.1 hx) with rfl | hx
    · exact hc
    · exact h.due x hx
  | advance r rest ws hr hc hk he =>
    have hmem : r ∈ s.chan ++ held s.run := by rw [hc]; simp
    have hmin : ∀ r', r' ∈ s.tw.queue ∨ r' ∈ s.chan ++ held s.run →
        (bucketAt s.tw.wheels r).exp ≤ (bucketAt s.tw.wheels r').exp := by
      intro r' hx
      refine hk r' (hx.imp id ?_)
      rw [hr]
      simp [held]
    obtain ⟨a1, a2, a3, a4⟩ := advance_tord h.inv.tinv h.tord hmem hmin he
    have hperm : (s.chan ++ held s.run).Perm (rest ++ held (.advanced r)) := by
      rw [hr, hc]
      simp only [held, List.append_nil]
      exact List.perm_append_comm (l₁ := [r]) (l₂ := rest)
    refine ⟨hinv, a1.perm hperm, ?_, ?_, ?_, ?_, h.starts⟩
    · intro x hx
      simp only [held, List.mem_singleton] at hx
      subst hx
      exact a2
    · intro r' t' hx; simp at hx
    · dsimp only
      rw [a3]
      have := h.now
      have := h.due r hmem
      omega
    · intro x hx
      dsimp only
      rw [a4]
      exact h.due x (hperm.mem_iff.2 hx)
  | lock r hr =>
    have hh : held s.run = held (.flushing r) := by rw [hr]; rfl
    refine ⟨hinv, ?_, ?_, ?_, h.now, ?_, h.starts⟩
    · dsimp only; rw [← hh]; exact h.tord
    · dsimp only; rw [← hh]; exact h.hand
    · intro r' t' hx; simp at hx
    · dsimp only; rw [← hh]; exact h.due
  | unlink r t ts hr hts =>
    have hb : (s.tw.timer t).bucket = some r := (h.inv.tinv.mem t r).2 (by rw [hts]; exact List.mem_cons_self ..)
    have hh : held s.run = held (.moving r t) := by rw [hr]; rfl
    have hnd := h.inv.tinv.nodup r
    rw [hts, List.nodup_cons] at hnd
    have hto := remove_tord (ts := ts) h.inv.tinv h.tord hb (by
      intro x hx
      exact ⟨by rw [hts]; exact List.mem_cons_of_mem _ hx, by rintro rfl; exact hnd.1 hx⟩)
    have hv := h.inv.tinv.valid hb
    have hbk := bucketAt_set h.inv.tinv.wf hv ⟨(bucketAt s.tw.wheels r).exp, ts⟩
    have hcur := curTime_eq (setBucket_wf h.inv.tinv.wf r ⟨(bucketAt s.tw.wheels r).exp, ts⟩)
    have hexp : ∀ x, (bucketAt (setBucket s.tw.wheels r ⟨(bucketAt s.tw.wheels r).exp, ts⟩) x).exp =
        (bucketAt s.tw.wheels x).exp := by
      intro x
      rw [hbk]
      split
      · rename_i e; subst e; rfl
      · rfl
    refine ⟨hinv, ?_, ?_, ?_, ?_, ?_, h.starts⟩
    · dsimp only; rw [← hh]; exact hto
    · intro x hx; dsimp only at hx ⊢; rw [← hh] at hx; rw [hexp, hcur]; exact h.hand x hx
    · intro r' t' hx
      dsimp only at hx ⊢
      cases hx
      rw [hexp, put_self]
      exact h.tord.timers r t (by rw [hts]; exact List.mem_cons_self ..)
    · dsimp only; rw [hcur]; exact h.now
    · intro x hx; dsimp only at hx ⊢; rw [← hh] at hx; rw [hexp]; exact h.due x hx
  | readd r t fuel tw hr he =>
    have hm : moves s.run t = true := by rw [hr]; simp [moves]
    have hb := (h.inv.book t).move hm
    rcases add_cases h.inv.tinv he with ⟨hx, _⟩ | ⟨_, r', ha, _⟩
    · simp at hx
    · refine ord_added h hinv h.inv.tinv h.tord rfl hb ha rfl rfl (by dsimp only; rw [hr]; rfl) rfl ?_
      intro r' t' hx
      simp at hx
  | fire r t fuel tw hr he =>
    rcases add_cases h.inv.tinv he with ⟨_, rfl, hlt⟩ | ⟨hx, _⟩
    · refine ord_start h hinv h.tord rfl hlt rfl rfl rfl (by dsimp only; rw [hr]; rfl) rfl ?_
      intro r' t' hx
      simp at hx
    · simp at hx
  | done r hr ht =>
    have hmem : r ∈ s.chan ++ held s.run := by rw [hr]; simp [held]
    have hv := h.valid hmem
    have hperm : (s.chan ++ held s.run).Perm (r :: (s.chan ++ held .idle)) := by
      rw [hr]
      simp only [held, List.append_nil]
      exact List.perm_append_comm (l₁ := s.chan) (l₂ := [r])
    have hto := done_tord h.inv.tinv h.tord hperm hv
    have hbk := bucketAt_set h.inv.tinv.wf hv ⟨-1, []⟩
    have hcur := curTime_eq (setBucket_wf h.inv.tinv.wf r ⟨-1, []⟩)
    refine ⟨hinv, hto, ?_, ?_, ?_, ?_, h.starts⟩
    · intro x hx; simp [held] at hx
    · intro r' t' hx; simp at hx
    · dsimp only; rw [hcur]; exact h.now
    · intro x hx
      have hd := h.due x (by
        simp only [held, List.append_nil] at hx
        exact List.mem_append_left _ hx)
      dsimp only
      rw [hbk]
      split
      · have := h.due r hmem
        have h0 := (h.tord.exps r (h.tord.live r (.inr hmem))).2.2.1
        have h1 := fl_nonneg (h.inv.tinv.wf.kp r.level) h.inv.tinv.wf.c
        show (-1 : Int) < _
        omega
      · exact hd

theorem new_inv {t0 : Int} {tw : Tw} (hk : 0 < k0) (hW : 1 < W) (ht : 0 ≤ t0) (e : new k0 W t0 = .ok tw) :
    Ord k0 W (init tw t0) := by
  unfold new newWheel at e
  rw [truncate_ok ht hk] at e
  have hneg : ¬ ((W : Int) < 0) := by omega
  simp only [Go.bind_ok, if_neg hneg, Except.ok.injEq, Int.toNat_natCast] at e
  subst e
  have hb : ∀ r, bucketAt [⟨k0, W, k0 * W, fl t0 k0, List.replicate W newBucket⟩] r = newBucket := by
    intro r
    unfold bucketAt
    cases hr : ([⟨k0, W, k0 * W, fl t0 k0, List.replicate W newBucket⟩] : List Wheel)[r.level]? with
    | none => rfl
    | some w =>
      have := List.mem_of_getElem? hr
      simp only [List.mem_singleton] at this
      subst this
      dsimp only
      rw [List.getElem?_replicate]
      split <;> rfl
  have hwf : Wf k0 W (fl t0 k0) [⟨k0, W, k0 * W, fl t0 k0, List.replicate W newBucket⟩] := by
    refine ⟨hk, hW, fl_nonneg hk ht, fl_dvd _ _, by simp, ?_⟩
    intro l w hw
    cases l with
    | zero =>
      simp only [List.length_cons, List.length_nil, List.getElem?_cons_zero, Option.some.injEq] at hw
      subst hw
      simp only [K_zero, K_succ, List.length_replicate, true_and, and_true]
      rw [fl_of_dvd (fl_dvd _ _)]
    | succ l => simp at hw
  have hti : TInv k0 W ⟨[⟨k0, W, k0 * W, fl t0 k0, List.replicate W newBucket⟩], [], fun _ => ⟨0, none, false⟩⟩ [] := by
    refine ⟨hwf, ?_, ?_, ?_, ?_⟩
    · intro t r; dsimp only; rw [hb]; simp [newBucket]
    · intro r; dsimp only; rw [hb]; simp [newBucket]
    · intro r; dsimp only; rw [hb]; simp [newBucket]
    · intro r; dsimp only; rw [hb]; simp [newBucket]
  refine ⟨⟨hti, by simp [init], ?_⟩, ?_, ?_, ?_, ?_, ?_, ?_⟩
  · intro t
    refine ⟨?_, ?_, ?_, ?_, ?_⟩ <;> simp [init, moves, pending]
  · refine ⟨by simp [init, held], ?_, ?_, ?_, ?_⟩
    · intro r hr; simp [init, held] at hr
    · intro r; simp only [init]; rw [hb]; intro hr; exact absurd rfl hr
    · intro r t; simp only [init]; rw [hb]; simp [newBucket]
    · intro j _ hj; simp [init] at hj
  · intro r hr; simp [init, held] at hr
  · intro r t hr; simp [init] at hr
  · show fl t0 k0 ≤ t0
    exact fl_le hk
  · intro r hr; simp [init, held] at hr
  · intro x hx; simp [init] at hx

theorem inv_from {k : State → Ref → Prop} {s s' : State} (h : Inv k0 W s) (f : From k s s') : Inv k0 W s' := by
  induction f with
  | refl => exact h
  | step _ st ih => exact inv_step ih st

theorem ord_from {s s' : State} (h : Ord k0 W s) (f : From inOrder s s') : Ord k0 W s' := by
  induction f with
  | refl => exact h
  | step _ st ih => exact ord_step ih st

theorem inv_reach {k : State → Ref → Prop} {t0 : Int} {s : State} (hk : 0 < k0) (hW : 1 < W) (ht : 0 ≤ t0)
    (h : Reach k k0 W t0 s) : Inv k0 W s := by
  obtain ⟨tw, e, f⟩ := h
  exact inv_from (new_inv hk hW ht e).inv f

theorem ord_reach {t0 : Int} {s : State} (hk : 0 < k0) (hW : 1 < W) (ht : 0 ≤ t0) (h : Reach inOrder k0 W t0 s) : Ord k0 W s := by
  obtain ⟨tw, e, f⟩ := h
  exact ord_from (new_inv hk hW ht e) f

end Verif.TimingWheel
