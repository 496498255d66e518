import Verif.Model.Schedule
import Verif.Props.TimingFine

/-!
# C174: `ScheduleFunc` follows its scheduler
-/

namespace Verif.TimingFine

open Mutex (put put_self put_ne)
open TimingWheel (Ref Bucket Wheel Timer Tw Start bucketAt setBucket curTime)

/-! ## What is expected -/

/-- The first `n` occurrences, the first of them at `e`, if there is one. -/
def occurrences (next : Int → Option Int) : Nat → Option Int → List Int
  | 0, _ => []
  | _ + 1, none => []
  | n + 1, some e => e :: occurrences next n (next e)

/-- The expirations with which the task of `t` was started, in order. -/
def occasions (s : State) (t : Nat) : List Int := (s.started.filter (fun x => x.id == t)).map (·.exp)

/-! ## Proof -/

theorem occ_snoc {next : Int → Option Int} {n : Nat} {o : Option Int} {e e' : Int} (hl : (occurrences next n o).length = n)
    (h : (occurrences next n o).getLast? = some e) (hn : next e = some e') : occurrences next (n + 1) o = occurrences next n o ++ [e'] := by
  induction n generalizing o with
  | zero => cases h
  | succ n ih =>
    cases o with
    | none => cases h
    | some x =>
      rw [occurrences] at h hl ⊢
      have hl' : (occurrences next n (next x)).length = n := by simpa using hl
      cases n with
      | zero =>
        simp [occurrences] at h
        subst h
        simp [occurrences, hn]
      | succ n =>
        have hne : occurrences next (n + 1) (next x) ≠ [] := by
          intro h0
          rw [h0] at hl'
          cases hl'
        rw [ih hl' (by rwa [List.getLast?_cons_of_ne_nil hne] at h), occurrences]
        rfl

/-- What an action does to the schedule. -/
inductive Effect (s s' : State) : Act → Prop
  /-- a task is started -/
  | starts (a : Act) (x : Nat) (c d : Int) (hs : s'.started = s.started ++ [⟨x, (s.tw.timer x).exp, c, d⟩])
      (ht : s'.tasks = if (s.tw.timer x).repeats then s.tasks ++ [x] else s.tasks) (hn : s'.next = s.next)
      (h1 : s'.scheduled = s.scheduled) (h2 : s'.stopped = s.stopped) (h3 : s'.dropped = s.dropped)
      (ht : ∀ t, (s'.tw.timer t).exp = (s.tw.timer t).exp ∧ (s'.tw.timer t).repeats = (s.tw.timer t).repeats) : Effect s s' a
  /-- nothing -/
  | quiet (a : Act) (hs : s'.started = s.started) (ht : ∀ t, t ∈ s'.tasks → t ∈ s.tasks) (hn : s'.next = s.next)
      (h1 : s'.scheduled = s.scheduled) (h2 : ∀ t, s.stopped.count t ≤ s'.stopped.count t) (h3 : ∀ t, s.dropped.count t ≤ s'.dropped.count t)
      (ht : ∀ t, (s'.tw.timer t).exp = (s.tw.timer t).exp ∧ (s'.tw.timer t).repeats = (s.tw.timer t).repeats) : Effect s s' a
  | after (d : Int) (hs : s' = { s with tw := { s.tw with timer := put s.tw.timer s.next ⟨s.clock + d, none, false⟩ }
                                        next := s.next + 1, scheduled := s.scheduled ++ [s.next], adders := s.adders ++ [⟨s.next, false, .enter 0⟩] }) :
      Effect s s' (.after d)
  | schedule (e : Int) (hs : s' = { s with tw := { s.tw with timer := put s.tw.timer s.next ⟨e, none, true⟩ }
                                           next := s.next + 1, scheduled := s.scheduled ++ [s.next], adders := s.adders ++ [⟨s.next, true, .enter 0⟩] }) :
      Effect s s' (.schedule e)
  | again (t : Nat) (e : Int) (ht : t ∈ s.tasks)
      (hs : s' = { s with tw := { s.tw with timer := put s.tw.timer t { s.tw.timer t with exp := e } }
                          tasks := s.tasks.erase t, scheduled := s.scheduled ++ [t], adders := s.adders ++ [⟨t, true, .enter 0⟩] }) :
      Effect s s' (.again t e)

theorem addStep_repeats {lk : Option Ref} {tw tw' : Tw} {t : Nat} {pc pc' : Pc} (e : addStep lk tw t pc = .ok (tw', pc')) (t' : Nat) :
    (tw'.timer t').repeats = (tw.timer t').repeats := by
  cases pc with
  | enter l =>
    rw [addStep] at e
    split at e
    · cases e
    · cases e; rfl
  | loaded l cur =>
    rw [addStep] at e
    split at e
    · cases e
    · rename_i w hw
      split at e
      · cases e; rfl
      · split at e
        · cases h1 : TimingWheel.quo (tw.timer t).exp w.tick with
          | error x => rw [h1] at e; cases e
          | ok q =>
            rw [h1, Go.bind_ok] at e
            cases h2 : TimingWheel.rem q w.wheelSize with
            | error x => rw [h2] at e; cases e
            | ok i =>
              rw [h2, Go.bind_ok] at e
              split at e
              · cases e
              · cases h3 : Go.idx w.buckets i.toNat with
                | error x => rw [h3] at e; cases e
                | ok b =>
                  rw [h3, Go.bind_ok] at e
                  split at e
                  · cases e
                  · cases e
                    dsimp only
                    by_cases ht : t' = t
                    · subst ht; rw [put_self]
                    · rw [put_ne _ _ ht]
        · split at e
          · cases e; rfl
          · cases h1 : TimingWheel.newWheel w.interval w.wheelSize cur with
            | error x => rw [h1] at e; cases e
            | ok o => rw [h1, Go.bind_ok] at e; cases e; rfl
  | inBucket r E => rw [addStep] at e; cases e; rfl
  | pushing r =>
    rw [addStep] at e
    cases h1 : Heap.push (TimingWheel.less tw.wheels) tw.queue r with
    | error x => rw [h1] at e; cases e
    | ok q => rw [h1, Go.bind_ok] at e; cases e; rfl
  | returned ok => rw [addStep] at e; cases e; rfl

theorem put_none_exp (f : Nat → Timer) (x : Nat) (b : Option Ref) (t : Nat) :
    (put f x { f x with bucket := b } t).exp = (f t).exp ∧ (put f x { f x with bucket := b } t).repeats = (f t).repeats := by
  by_cases ht : t = x
  · subst ht; rw [put_self]; exact ⟨rfl, rfl⟩
  · rw [put_ne _ _ ht]; exact ⟨rfl, rfl⟩

theorem exec_effect {s s' : State} {a : Act} (e : exec s a = some s') : Effect s s' a := by
  have same : ∀ {s' : State}, s'.started = s.started → s'.tasks = s.tasks → s'.next = s.next → s'.scheduled = s.scheduled → s'.stopped = s.stopped →
      s'.dropped = s.dropped → (∀ t, (s'.tw.timer t).exp = (s.tw.timer t).exp ∧ (s'.tw.timer t).repeats = (s.tw.timer t).repeats) → Effect s s' a := by
    intro s' h1 h2 h3 h4 h5 h6 h7
    exact .quiet _ h1 (fun t h => by rwa [h2] at h) h3 h4 (fun t => by rw [h5]) (fun t => by rw [h6]) h7
  cases a with
  | tick d => rw [exec] at e; cases e; exact same rfl rfl rfl rfl rfl rfl fun _ => ⟨rfl, rfl⟩
  | after delay => rw [exec] at e; cases e; exact .after _ rfl
  | schedule e' => rw [exec] at e; cases e; exact .schedule _ rfl
  | again t' e' =>
    rw [exec] at e
    split at e
    · rename_i hm
      cases e
      exact .again _ _ hm rfl
    · cases e
  | enough t' =>
    rw [exec] at e
    split at e
    · cases e
      exact .quiet _ rfl (fun t h => List.mem_of_mem_erase h) rfl rfl (fun _ => Nat.le_refl _) (fun _ => Nat.le_refl _) fun _ => ⟨rfl, rfl⟩
    · cases e
  | act i =>
    rw [exec] at e
    split at e
    · cases e
    · dsimp only at e
      split at e
      · cases e
        exact same rfl rfl rfl rfl rfl rfl fun _ => ⟨rfl, rfl⟩
      · split at e
        · cases e
          exact .starts _ _ _ _ rfl rfl rfl rfl rfl rfl fun _ => ⟨rfl, rfl⟩
        · cases e
          refine .quiet _ rfl (fun t h => h) rfl rfl (fun _ => Nat.le_refl _) (fun t => ?_) fun _ => ⟨rfl, rfl⟩
          dsimp only
          rw [List.count_append]
          exact Nat.le_add_right _ _
    · split at e
      · rename_i hs
        cases e
        exact same rfl rfl rfl rfl rfl rfl fun t => ⟨addStep_exp hs t, addStep_repeats hs t⟩
      · cases e
  | stop t' =>
    rw [exec] at e
    split at e
    · cases e
    · split at e
      · cases e
      · cases e
        refine .quiet _ rfl (fun t h => h) rfl rfl (fun t => ?_) (fun _ => Nat.le_refl _) fun t => put_none_exp _ _ _ _
        dsimp only
        rw [List.count_append]
        exact Nat.le_add_right _ _
  | take =>
    rw [exec] at e
    split at e
    · cases e
    · split at e
      · split at e
        · cases e; exact same rfl rfl rfl rfl rfl rfl fun _ => ⟨rfl, rfl⟩
        · cases e
      · cases e
  | advance =>
    rw [exec] at e
    split at e
    · split at e
      · cases e; exact same rfl rfl rfl rfl rfl rfl fun _ => ⟨rfl, rfl⟩
      · cases e
    · cases e
  | lock =>
    rw [exec] at e
    split at e
    · cases e; exact same rfl rfl rfl rfl rfl rfl fun _ => ⟨rfl, rfl⟩
    · cases e
  | unlink =>
    rw [exec] at e
    split at e
    · split at e
      · cases e
      · cases e
        exact same rfl rfl rfl rfl rfl rfl fun t => put_none_exp _ _ _ _
    · cases e
  | move =>
    rw [exec] at e
    split at e
    · dsimp only at e
      split at e
      · cases e; exact same rfl rfl rfl rfl rfl rfl fun _ => ⟨rfl, rfl⟩
      · cases e
        exact .starts _ _ _ _ rfl rfl rfl rfl rfl rfl fun _ => ⟨rfl, rfl⟩
    · split at e
      · rename_i hs
        cases e
        exact same rfl rfl rfl rfl rfl rfl fun t => ⟨addStep_exp hs t, addStep_repeats hs t⟩
      · cases e
    · cases e
  | done =>
    rw [exec] at e
    split at e
    · split at e
      · cases e; exact same rfl rfl rfl rfl rfl rfl fun _ => ⟨rfl, rfl⟩
      · cases e
    · cases e

/-- The clock does not run backwards. -/
theorem exec_clock {s s' : State} {a : Act} (e : exec s a = some s') : s.clock ≤ s'.clock := by
  cases a with
  | tick d => rw [exec] at e; cases e; dsimp only; omega
  | after delay => rw [exec] at e; cases e; exact Int.le_refl _
  | schedule e' => rw [exec] at e; cases e; exact Int.le_refl _
  | again t' e' =>
    rw [exec] at e
    split at e <;> cases e
    exact Int.le_refl _
  | enough t' =>
    rw [exec] at e
    split at e <;> cases e
    exact Int.le_refl _
  | act i =>
    rw [exec] at e
    split at e
    · cases e
    · dsimp only at e
      split at e
      · cases e; exact Int.le_refl _
      · split at e <;> cases e <;> exact Int.le_refl _
    · split at e <;> cases e
      exact Int.le_refl _
  | stop t' =>
    rw [exec] at e
    split at e
    · cases e
    · split at e <;> cases e
      exact Int.le_refl _
  | take =>
    rw [exec] at e
    split at e
    · cases e
    · split at e
      · split at e <;> cases e
        exact Int.le_refl _
      · cases e
  | advance =>
    rw [exec] at e
    split at e
    · split at e <;> cases e
      exact Int.le_refl _
    · cases e
  | lock =>
    rw [exec] at e
    split at e <;> cases e
    exact Int.le_refl _
  | unlink =>
    rw [exec] at e
    split at e
    · split at e <;> cases e
      exact Int.le_refl _
    · cases e
  | move =>
    rw [exec] at e
    split at e
    · dsimp only at e
      split at e <;> cases e <;> exact Int.le_refl _
    · split at e <;> cases e
      exact Int.le_refl _
    · cases e
  | done =>
    rw [exec] at e
    split at e
    · split at e <;> cases e
      exact Int.le_refl _
    · cases e

/-- What is known about a repeated timer. -/
structure Follows (next : Int → Option Int) (e0 : Int) (s : State) (t : Nat) : Prop where
  past : occasions s t = occurrences next (occasions s t).length (some e0)
  coming : 0 < place s.tw (jobs s) t → occasions s t ++ [(s.tw.timer t).exp] = occurrences next ((occasions s t).length + 1) (some e0)
  running : t ∈ s.tasks → (occasions s t).getLast? = some (s.tw.timer t).exp

theorem occasions_len (s : State) (t : Nat) : (occasions s t).length = s.started.countP (fun x => x.id == t) := by
  unfold occasions
  rw [List.length_map, List.countP_eq_length_filter]

theorem occasions_snoc {s s' : State} {x : Start} (h : s'.started = s.started ++ [x]) (t : Nat) :
    occasions s' t = if x.id = t then occasions s t ++ [x.exp] else occasions s t := by
  unfold occasions
  rw [h, List.filter_append]
  by_cases hx : x.id = t
  · rw [if_pos hx]
    simp [hx]
  · rw [if_neg hx]
    simp [hx]

/-- The first expiration comes from a call of `ScheduleFunc` between `t0` and now. -/
def Begun (nx : Scheduler) (t0 : Int) (s : State) (e0 : Int) : Prop := ∃ now, t0 ≤ milli now ∧ milli now ≤ s.clock ∧ firstMilli nx now = some e0

theorem Begun.mono {nx : Scheduler} {t0 : Int} {s s' : State} {e0 : Int} (h : Begun nx t0 s e0) (hc : s.clock ≤ s'.clock) : Begun nx t0 s' e0 := by
  obtain ⟨now, h1, h2, h3⟩ := h
  exact ⟨now, h1, Int.le_trans h2 hc, h3⟩

theorem follows_step {k0 : Int} {W : Nat} {nx : Nat → Scheduler} {t0 : Int} {s s' : State} {a : Act} (hi : Inv k0 W s) (ht0 : t0 ≤ s.clock)
    (ho : obeys nx s a) (e : exec s a = some s')
    (ih : ∀ t, t < s.next → (s.tw.timer t).repeats = true → ∃ e0, Begun (nx t) t0 s e0 ∧ Follows (nextMilli (nx t)) e0 s t) :
    ∀ t, t < s'.next → (s'.tw.timer t).repeats = true → ∃ e0, Begun (nx t) t0 s' e0 ∧ Follows (nextMilli (nx t)) e0 s' t := by
  have hi' := exec_inv hi e
  have hc := exec_clock e
  intro t hlt hr
  have law := hi.law t
  have law' := hi'.law t
  have one := hi.tw.one t
  cases exec_effect e with
  | starts _ x c d hs hta hn h1 h2 h3 hx =>
    rw [hn] at hlt
    rw [(hx t).2] at hr
    obtain ⟨e0, hb, hf⟩ := ih t hlt hr
    refine ⟨e0, hb.mono hc, ?_⟩
    rw [h1, h2, h3, hs, List.countP_append, List.countP_singleton] at law'
    have ho := occasions_snoc hs t
    dsimp only at ho law'
    by_cases hxt : x = t
    · subst hxt
      simp only [beq_self_eq_true, if_true] at law'
      rw [if_pos rfl] at ho
      have hp : 0 < place s.tw (jobs s) x := by omega
      refine ⟨?_, fun h => by omega, fun _ => ?_⟩
      · rw [ho, hf.coming hp]
        congr 1
        rw [← hf.coming hp, List.length_append]
        rfl
      · rw [ho, (hx x).1]
        exact List.getLast?_concat ..
    · have hxt' : (x == t) = false := by simpa using hxt
      simp only [hxt', Bool.false_eq_true, if_false] at law'
      rw [if_neg hxt] at ho
      refine ⟨by rw [ho]; exact hf.past, fun h => ?_, fun h => ?_⟩
      · rw [ho, (hx t).1]
        exact hf.coming (by omega)
      · rw [ho, (hx t).1]
        refine hf.running ?_
        rw [hta] at h
        split at h
        · rcases List.mem_append.1 h with h | h
          · exact h
          · exact absurd (List.mem_singleton.1 h).symm hxt
        · exact h
  | quiet _ hs hta hn h1 h2 h3 hx =>
    rw [hn] at hlt
    rw [(hx t).2] at hr
    obtain ⟨e0, hb, hf⟩ := ih t hlt hr
    have ho : occasions s' t = occasions s t := by unfold occasions; rw [hs]
    have h2' := h2 t
    have h3' := h3 t
    rw [h1, hs] at law'
    refine ⟨e0, hb.mono hc, by rw [ho]; exact hf.past, fun h => ?_, fun h => ?_⟩
    · rw [ho, (hx t).1]
      exact hf.coming (by omega)
    · rw [ho, (hx t).1]
      exact hf.running (hta t h)
  | after d hs =>
    subst hs
    dsimp only at hlt hr law'
    have hne : t ≠ s.next := by
      rintro rfl
      rw [put_self] at hr
      cases hr
    rw [put_ne _ _ hne] at hr
    obtain ⟨e0, hb, hf⟩ := ih t (by omega) hr
    rw [count_snoc, if_neg hne] at law'
    refine ⟨e0, hb.mono hc, hf.past, fun h => ?_, fun h => ?_⟩
    · dsimp only
      rw [put_ne _ _ hne]
      exact hf.coming (by dsimp only at h; omega)
    · dsimp only
      rw [put_ne _ _ hne]
      exact hf.running h
  | schedule e' hs =>
    subst hs
    dsimp only at hlt hr law'
    by_cases hne : t = s.next
    · subst hne
      obtain ⟨now, hn1, hn2⟩ := ho
      have hfr := hi.fresh s.next (Nat.le_refl _)
      have hnil : occasions s s.next = [] := by
        rw [← List.length_eq_zero_iff, occasions_len]
        omega
      refine ⟨e', ⟨now, by omega, by dsimp only; omega, hn2⟩, ?_, fun h => ?_, fun h => absurd h hfr.2.1⟩
      · change occasions s s.next = occurrences _ (occasions s s.next).length _
        rw [hnil]
        rfl
      · change occasions s s.next ++ [_] = occurrences _ ((occasions s s.next).length + 1) _
        rw [hnil]
        dsimp only
        rw [put_self]
        rfl
    · rw [put_ne _ _ hne] at hr
      obtain ⟨e0, hb, hf⟩ := ih t (by omega) hr
      rw [count_snoc, if_neg hne] at law'
      refine ⟨e0, hb.mono hc, hf.past, fun h => ?_, fun h => ?_⟩
      · dsimp only
        rw [put_ne _ _ hne]
        exact hf.coming (by dsimp only at h; omega)
      · dsimp only
        rw [put_ne _ _ hne]
        exact hf.running h
  | again x e' hx hs =>
    subst hs
    dsimp only at hlt hr law'
    by_cases hne : t = x
    · subst hne
      rw [put_self] at hr
      obtain ⟨e0, hb, hf⟩ := ih t hlt hr
      refine ⟨e0, hb.mono hc, hf.past, fun h => ?_, fun h => ?_⟩
      · change occasions s t ++ [_] = occurrences _ ((occasions s t).length + 1) _
        dsimp only
        rw [put_self]
        have hp := hf.past
        rw [occ_snoc (e := (s.tw.timer t).exp) (by rw [← hp]) (by rw [← hp]; exact hf.running hx) ho, ← hp]
      · exact absurd h (hi.tasks.not_mem_erase)
    · rw [put_ne _ _ hne] at hr
      obtain ⟨e0, hb, hf⟩ := ih t (by omega) hr
      rw [count_snoc, if_neg hne] at law'
      refine ⟨e0, hb.mono hc, hf.past, fun h => ?_, fun h => ?_⟩
      · dsimp only
        rw [put_ne _ _ hne]
        exact hf.coming (by dsimp only at h; omega)
      · dsimp only
        rw [put_ne _ _ hne]
        exact hf.running (List.mem_of_mem_erase h)

theorem sched_inv {nx : Nat → Scheduler} {tick t0 : Int} {W : Nat} (hk : 0 < tick) (hW : 1 < W) (ht : 0 ≤ t0) {s : State}
    (h : SchedReach nx tick W t0 s) : Inv tick W s ∧ t0 ≤ s.clock ∧
      ∀ t, t < s.next → (s.tw.timer t).repeats = true → ∃ e0, Begun (nx t) t0 s e0 ∧ Follows (nextMilli (nx t)) e0 s t := by
  obtain ⟨tw, e, f⟩ := h
  induction f with
  | refl => exact ⟨init_inv hk hW ht e, Int.le_refl _, fun t h => absurd h (Nat.not_lt_zero _)⟩
  | step a _ ho he ih => exact ⟨exec_inv ih.1 he, Int.le_trans ih.2.1 (exec_clock he), follows_step ih.1 ih.2.1 ho he ih.2.2⟩

/-- **C174 (occurrences).** However the goroutines are interrupted: a repeated task is started for the occurrences of its scheduler, each
rounded down to a millisecond, one after the other from the first, none left out, none twice. -/
theorem C174_follows {nx : Nat → Scheduler} {tick t0 : Int} {W : Nat} (hk : 0 < tick) (hW : 1 < W) (ht : 0 ≤ t0) {s : State}
    (h : SchedReach nx tick W t0 s) {t : Nat} (hlt : t < s.next) (hr : (s.tw.timer t).repeats = true) :
    ∃ now e0, t0 ≤ milli now ∧ milli now ≤ s.clock ∧ firstMilli (nx t) now = some e0 ∧
      occasions s t = occurrences (nextMilli (nx t)) (occasions s t).length (some e0) := by
  obtain ⟨e0, ⟨now, h1, h2, h3⟩, hf⟩ := (sched_inv hk hW ht h).2.2 t hlt hr
  exact ⟨now, e0, h1, h2, h3, hf.past⟩

theorem occ_pairwise {next : Int → Option Int} (hn : ∀ e e', next e = some e' → e < e') (n : Nat) (o : Option Int) :
    (occurrences next n o).Pairwise (· < ·) ∧ ∀ e, o = some e → ∀ x ∈ occurrences next n o, e ≤ x := by
  induction n generalizing o with
  | zero => exact ⟨List.Pairwise.nil, fun _ _ _ h => by cases h⟩
  | succ n ih =>
    cases o with
    | none => exact ⟨List.Pairwise.nil, fun _ h => by cases h⟩
    | some e =>
      rw [occurrences]
      have hlt : ∀ x ∈ occurrences next n (next e), e < x := by
        intro x hx
        cases h : next e with
        | none =>
          rw [h] at hx
          cases n <;> cases hx
        | some e' => exact Int.lt_of_lt_of_le (hn e e' h) ((ih (next e)).2 e' h x hx)
      refine ⟨List.pairwise_cons.2 ⟨hlt, (ih _).1⟩, ?_⟩
      rintro _ ⟨rfl⟩ x hx
      rcases List.mem_cons.1 hx with rfl | hx
      · exact Int.le_refl _
      · exact Int.le_of_lt (hlt x hx)

/-- **C174 (different times).** If the scheduler advances by a millisecond at least, the task is never started twice for the same millisecond. -/
theorem C174_distinct {nx : Nat → Scheduler} {tick t0 : Int} {W : Nat} (hk : 0 < tick) (hW : 1 < W) (ht : 0 ≤ t0) {s : State}
    (h : SchedReach nx tick W t0 s) {t : Nat} (hlt : t < s.next) (hr : (s.tw.timer t).repeats = true)
    (hadv : ∀ x y, nx t x = some y → x + 1000000 ≤ y) : (occasions s t).Pairwise (· < ·) := by
  obtain ⟨now, e0, -, -, -, h4⟩ := C174_follows hk hW ht h hlt hr
  rw [h4]
  refine (occ_pairwise (fun e e' he => ?_) _ _).1
  unfold nextMilli at he
  cases hx : nx t (e * 1000000) with
  | none => rw [hx] at he; cases he
  | some y =>
    rw [hx] at he
    have := hadv _ _ hx
    simp only [Option.map_some, Option.some.injEq, milli] at he
    omega

/-- Nothing more happens to a timer that is nowhere. -/
theorem over_step {k0 : Int} {W : Nat} {s s' : State} {a : Act} (hi : Inv k0 W s) (e : exec s a = some s') {t : Nat} (hlt : t < s.next)
    (h1 : place s.tw (jobs s) t = 0) (h2 : t ∉ s.tasks) :
    t < s'.next ∧ place s'.tw (jobs s') t = 0 ∧ t ∉ s'.tasks ∧ occasions s' t = occasions s t := by
  have hi' := exec_inv hi e
  have law := hi.law t
  have law' := hi'.law t
  cases exec_effect e with
  | starts _ x c d hs hta hn g1 g2 g3 hx =>
    rw [g1, g2, g3, hs, List.countP_append, List.countP_singleton] at law'
    dsimp only at law'
    have hxt : x ≠ t := by
      rintro rfl
      simp only [beq_self_eq_true, if_true] at law'
      omega
    have hxt' : (x == t) = false := by simpa using hxt
    simp only [hxt', Bool.false_eq_true, if_false] at law'
    refine ⟨by omega, by omega, ?_, ?_⟩
    · rw [hta]
      split
      · intro h
        rcases List.mem_append.1 h with h | h
        · exact h2 h
        · exact hxt (List.mem_singleton.1 h).symm
      · exact h2
    · rw [occasions_snoc hs]
      exact if_neg hxt
  | quiet _ hs hta hn g1 g2 g3 hx =>
    have g2' := g2 t
    have g3' := g3 t
    rw [g1, hs] at law'
    exact ⟨by omega, by omega, fun h => h2 (hta t h), by unfold occasions; rw [hs]⟩
  | after d hs =>
    subst hs
    dsimp only at law'
    rw [count_snoc, if_neg (by omega)] at law'
    exact ⟨by dsimp only; omega, by dsimp only; omega, h2, rfl⟩
  | schedule e' hs =>
    subst hs
    dsimp only at law'
    rw [count_snoc, if_neg (by omega)] at law'
    exact ⟨by dsimp only; omega, by dsimp only; omega, h2, rfl⟩
  | again x e' hx hs =>
    subst hs
    have hne : t ≠ x := by
      rintro rfl
      exact h2 hx
    dsimp only at law'
    rw [count_snoc, if_neg hne] at law'
    exact ⟨hlt, by dsimp only; omega, fun h => h2 (List.mem_of_mem_erase h), rfl⟩

/-- **C174 (`Stop` that returns true).** It ends the schedule: the task is never started again, whatever happens. -/
theorem C174_stop {tick t0 : Int} {W : Nat} (hk : 0 < tick) (hW : 1 < W) (ht : 0 ≤ t0) {o : Bool} {s s1 s' : State} (h : Reach o tick W t0 s) {t : Nat}
    (hs : exec s (.stop t) = some s1) (f : From false s1 s') : occasions s' t = occasions s t := by
  have hi := reach_inv hk hW ht h
  have hi1 := exec_inv hi hs
  have law := hi.law t
  have law1 := hi1.law t
  have one := hi.tw.one t
  have base : t < s1.next ∧ place s1.tw (jobs s1) t = 0 ∧ t ∉ s1.tasks ∧ occasions s1 t = occasions s t := by
    rw [exec] at hs
    split at hs
    · cases hs
    · rename_i r hb
      split at hs
      · cases hs
      · have hp : 0 < place s.tw (jobs s) t := by
          unfold place
          rw [hb]
          exact Nat.lt_of_lt_of_le Nat.zero_lt_one (Nat.le_add_right _ _)
        have hlt : t < s.next := by
          by_contra hc
          have := (hi.fresh t (by omega)).1
          omega
        cases hs
        dsimp only at law1
        rw [count_snoc, if_pos rfl] at law1
        refine ⟨hlt, by dsimp only; omega, fun hx => ?_, rfl⟩
        have := (hi.task t hx).1
        omega
  clear law law1 one hs
  induction f with
  | refl => exact base.2.2.2
  | step a f' _ he ih =>
    have key : ∀ {s2 : State}, From false s1 s2 → Inv tick W s2 ∧ t < s2.next ∧ place s2.tw (jobs s2) t = 0 ∧ t ∉ s2.tasks ∧ occasions s2 t = occasions s t := by
      intro s2 g
      induction g with
      | refl => exact ⟨hi1, base⟩
      | step a _ _ he ih =>
        obtain ⟨g1, g2, g3, g4, g5⟩ := ih
        obtain ⟨k1, k2, k3, k4⟩ := over_step g1 he g2 g3 g4
        exact ⟨exec_inv g1 he, k1, k2, k3, k4.trans g5⟩
    obtain ⟨g1, g2, g3, g4, g5⟩ := key f'
    exact (over_step g1 he g2 g3 g4).2.2.2.trans g5

/-! ## Executions -/

/-- `ScheduleFunc` is called at the beginning of a millisecond, and the answer is that of the scheduler. -/
def answers (nx : Nat → Scheduler) (s : State) : Act → Bool
  | .schedule e => firstMilli (nx s.next) (s.clock * 1000000) == some e
  | .again t e => nextMilli (nx t) (s.tw.timer t).exp == some e
  | .enough t => nextMilli (nx t) (s.tw.timer t).exp == none
  | _ => true

/-- The actions one after the other. -/
def follow (nx : Nat → Scheduler) (s : State) : List Act → Option State
  | [] => some s
  | a :: as =>
    if answers nx s a then
      match exec s a with
      | some s => follow nx s as
      | none => none
    else none

theorem follow_from {nx : Nat → Scheduler} {s0 s s' : State} {as : List Act} (h : SchedFrom nx s0 s) (e : follow nx s as = some s') :
    SchedFrom nx s0 s' := by
  induction as generalizing s with
  | nil => cases e; exact h
  | cons a as ih =>
    rw [follow] at e
    split at e
    · rename_i hg
      cases he : exec s a with
      | none => rw [he] at e; cases e
      | some s1 =>
        rw [he] at e
        refine ih (.step a h ?_ he) e
        cases a with
        | schedule e' => exact ⟨s.clock * 1000000, by unfold milli; omega, eq_of_beq hg⟩
        | again t e' => exact eq_of_beq hg
        | enough t => exact eq_of_beq hg
        | _ => trivial
    · cases e

/-- From a new wheel. -/
def follows (nx : Nat → Scheduler) (tick size t0 : Int) (as : List Act) : Option State :=
  match TimingWheel.new tick size t0 with
  | .ok tw => follow nx (init tw t0) as
  | .error _ => none

theorem follows_reach {nx : Nat → Scheduler} {tick size t0 : Int} {as : List Act} {p : State → Bool} (h : (follows nx tick size t0 as).any p = true) :
    ∃ s, SchedReach nx tick size t0 s ∧ p s = true := by
  unfold follows at h
  cases e : TimingWheel.new tick size t0 with
  | error x => rw [e] at h; cases h
  | ok tw =>
    rw [e] at h
    dsimp only at h
    cases hf : follow nx (init tw t0) as with
    | none => rw [hf] at h; cases h
    | some s =>
      rw [hf] at h
      exact ⟨s, ⟨tw, e, follow_from .refl hf⟩, h⟩

/-- Every three milliseconds, up to time 9. -/
def everyThree : Nat → Scheduler := fun _ ns => if ns + 3000000 ≤ 9000000 then some (ns + 3000000) else none

/-- A wheel with ticks of one millisecond and ten buckets; `ScheduleFunc` is called at time 1. The clock comes to 5 before `Run` notices. -/
def threes : List Act :=
  [.tick 1, .schedule 4] ++ whole 0 ++ [.tick 4, .take] ++ process 1 ++ [.again 0 7] ++ whole 0 ++ [.tick 10, .take] ++ process 1 ++ [.enough 0]

/-- The hypotheses of the theorems are met: the task was started for 4 and for 7, as `occurrences` has it; 10 is too late. -/
theorem threes_runs : ∃ s, SchedReach everyThree 1 10 0 s ∧ s.next = 1 ∧ (s.tw.timer 0).repeats = true ∧ occasions s 0 = [4, 7] ∧
    occurrences (nextMilli (everyThree 0)) 5 (firstMilli (everyThree 0) 1000000) = [4, 7] := by
  have h := follows_reach (nx := everyThree) (tick := 1) (size := 10) (t0 := 0) (as := threes)
    (p := fun s => decide (s.next = 1) && (s.tw.timer 0).repeats && decide (occasions s 0 = [4, 7])) (by decide +kernel)
  obtain ⟨s, hs, hp⟩ := h
  simp only [Bool.and_eq_true, decide_eq_true_eq] at hp
  exact ⟨s, hs, hp.1.1, hp.1.2, hp.2, by decide +kernel⟩

/-- **C174 (`Stop` that returns false), refuted.** A schedule that goes on is not always ended by `Stop`: while the task is on its way to ask for the
next time the timer is in no bucket, `Stop` returns false without effect (`exec` has no such action), and the task is started again later. -/
theorem C174_stop_refuted : ∃ s s', SchedReach everyThree 1 10 0 s ∧ SchedFrom everyThree s s' ∧ (s.tw.timer 0).bucket = none ∧
    exec s (.stop 0) = none ∧ 0 ∈ s.tasks ∧ s.stopped = [] ∧ occasions s 0 = [4] ∧ occasions s' 0 = [4, 7] := by
  have h : ((follows everyThree 1 10 0 ([.tick 1, .schedule 4] ++ whole 0 ++ [.tick 4, .take] ++ process 1)).any fun s =>
      decide ((s.tw.timer 0).bucket = none) && decide (0 ∈ s.tasks) && decide (s.stopped = []) && decide (occasions s 0 = [4]) &&
      (follow everyThree s ([.again 0 7] ++ whole 0 ++ [.tick 10, .take] ++ process 1)).any fun s' => decide (occasions s' 0 = [4, 7])) = true := by
    decide +kernel
  obtain ⟨s, hs, hp⟩ := follows_reach h
  simp only [Bool.and_eq_true, decide_eq_true_eq] at hp
  obtain ⟨⟨⟨⟨h1, h2⟩, h3⟩, h4⟩, h5⟩ := hp
  cases hf : follow everyThree s ([.again 0 7] ++ whole 0 ++ [.tick 10, .take] ++ process 1) with
  | none => rw [hf] at h5; cases h5
  | some s' =>
    rw [hf] at h5
    exact ⟨s, s', hs, follow_from .refl hf, h1, by rw [exec, h1], h2, h3, h4, of_decide_eq_true h5⟩

/-- The hypotheses of `C174_stop` are met: a timer of `ScheduleFunc` waits for its second time and is stopped. -/
example : ∃ s s1, Reach true 1 10 0 s ∧ exec s (.stop 0) = some s1 ∧ occasions s 0 = [4] ∧ (s.tw.timer 0).repeats = true := by
  have h : ((runs 1 10 0 ([.tick 1, .schedule 4] ++ whole 0 ++ [.tick 4, .take] ++ process 1 ++ [.again 0 7] ++ whole 0)).any fun s =>
      decide (occasions s 0 = [4]) && (s.tw.timer 0).repeats && (exec s (.stop 0)).isSome) = true := by decide +kernel
  obtain ⟨s, hs, hp⟩ := runs_reach h
  simp only [Bool.and_eq_true, decide_eq_true_eq] at hp
  obtain ⟨s1, h1⟩ := Option.isSome_iff_exists.1 hp.2
  exact ⟨s, s1, hs, h1, hp.1.1, hp.1.2⟩

/-- Every half millisecond. -/
def halves : Nat → Scheduler := fun _ ns => some (ns + 500000)

/-- The task is on its way, for a time that is over. -/
structure Spins (x : Int) (s : State) : Prop where
  adders : s.adders = []
  tasks : s.tasks = [0]
  timer : s.tw.timer 0 = ⟨x, none, true⟩
  over : ∃ w, s.tw.wheels[0]? = some w ∧ x < w.cur + w.tick

theorem started_now {s : State} {x : Int} (ha : s.adders = [⟨0, true, .enter 0⟩]) (ht : s.tasks = []) (hx : s.tw.timer 0 = ⟨x, none, true⟩)
    (hw : ∃ w, s.tw.wheels[0]? = some w ∧ x < w.cur + w.tick) : ∃ s', follow halves s [.act 0, .act 0, .act 0] = some s' ∧ Spins x s' ∧
      s'.clock = s.clock ∧ s'.started = s.started ++ [⟨0, x, curTime s.tw.wheels, s.clock⟩] := by
  obtain ⟨w, hw, hlt⟩ := hw
  obtain ⟨tw, clock, next, chan, run, adders, tasks, scheduled, started, stopped, dropped⟩ := s
  dsimp only at ha ht hx hw
  subst ha ht
  refine ⟨⟨tw, clock, next, chan, run, [], [0], scheduled, started ++ [⟨0, x, curTime tw.wheels, clock⟩], stopped, dropped⟩, ?_, ⟨rfl, rfl, hx, w, hw, hlt⟩,
    rfl, rfl⟩
  simp [follow, answers, exec, addStep, hw, hx, hlt, start]

theorem spins_again {s : State} {x : Int} (h : Spins x s) : ∃ s', follow halves s [.again 0 x, .act 0, .act 0, .act 0] = some s' ∧ Spins x s' ∧
    s'.clock = s.clock ∧ ∃ c, s'.started = s.started ++ [⟨0, x, c, s.clock⟩] := by
  obtain ⟨ha, ht, hx, hw⟩ := h
  have hn : nextMilli (halves 0) x = some x := by
    unfold nextMilli halves milli
    rw [Option.map_some]
    congr 1
    omega
  have he : exec s (.again 0 x) = some
      { s with tw := { s.tw with timer := put s.tw.timer 0 { s.tw.timer 0 with exp := x } }
               tasks := s.tasks.erase 0, scheduled := s.scheduled ++ [0], adders := s.adders ++ [⟨0, true, .enter 0⟩] } := by
    rw [exec, ht]
    rfl
  obtain ⟨s', h1, h2, h3, h4⟩ := started_now (x := x) (s := { s with
      tw := { s.tw with timer := put s.tw.timer 0 { s.tw.timer 0 with exp := x } }
      tasks := s.tasks.erase 0, scheduled := s.scheduled ++ [0], adders := s.adders ++ [⟨0, true, .enter 0⟩] })
    (by dsimp only; rw [ha]; rfl) (by dsimp only; rw [ht]; rfl) (by dsimp only; rw [put_self, hx]) hw
  refine ⟨s', ?_, h2, h3, _, h4⟩
  have hb : answers halves s (.again 0 x) = true := by
    rw [answers, hx]
    exact beq_iff_eq.2 hn
  rw [follow, if_pos hb, he]
  exact h1

/-- **C174 (a scheduler finer than a millisecond), refuted.** `Next` is later than the time it is given, yet the task is started without end for the
same millisecond: on any wheel, in the millisecond in which `ScheduleFunc` was called, any number of times. -/
theorem C174_spin_refuted {tick t0 : Int} {W : Nat} (hk : 0 < tick) (ht : 0 ≤ t0) (n : Nat) :
    (∀ ns, ∃ later, halves 0 ns = some later ∧ ns < later) ∧
    ∃ s, SchedReach halves tick W t0 s ∧ s.clock = t0 ∧ occasions s 0 = List.replicate n t0 := by
  refine ⟨fun ns => ⟨ns + 500000, rfl, by omega⟩, ?_⟩
  have hnew : TimingWheel.new tick W t0 = .ok ⟨[⟨tick, W, tick * W, t0 - t0 % tick, List.replicate W TimingWheel.newBucket⟩], [], fun _ => ⟨0, none, false⟩⟩ := by
    have hc : TimingWheel.fl t0 tick = t0 - t0 % tick := by
      have := Int.mul_ediv_add_emod t0 tick
      unfold TimingWheel.fl
      rw [Int.mul_comm]
      omega
    unfold TimingWheel.new TimingWheel.newWheel
    rw [TimingWheel.truncate_ok ht hk, Go.bind_ok, if_neg (by omega), Go.bind_ok, hc]
    rfl
  cases n with
  | zero => exact ⟨_, ⟨_, hnew, .refl⟩, rfl, rfl⟩
  | succ n =>
    have key : ∃ s, SchedReach halves tick W t0 s ∧ Spins t0 s ∧ s.clock = t0 ∧ occasions s 0 = List.replicate (n + 1) t0 := by
      induction n with
      | zero =>
        have hf : firstMilli (halves 0) (t0 * 1000000) = some t0 := by
          unfold firstMilli halves milli
          rw [Option.map_some]
          congr 1
          omega
        have hm := Int.emod_lt_of_pos t0 hk
        obtain ⟨s', h1, h2, h3, h4⟩ := started_now (x := t0) (s :=
          { tw := ⟨[⟨tick, W, tick * W, t0 - t0 % tick, List.replicate W TimingWheel.newBucket⟩], [], put (fun _ => ⟨0, none, false⟩) 0 ⟨t0, none, true⟩⟩
            clock := t0, next := 1, chan := [], run := .idle, adders := [⟨0, true, .enter 0⟩], tasks := [], scheduled := [0], started := [], stopped := []
            dropped := [] }) rfl rfl (by dsimp only; rw [put_self]) ⟨_, rfl, by dsimp only; omega⟩
        refine ⟨s', ⟨_, hnew, follow_from (as := [.act 0, .act 0, .act 0]) (.step (.schedule t0) .refl ⟨t0 * 1000000, ?_, hf⟩ rfl) h1⟩, h2, h3, ?_⟩
        · unfold milli
          change _ = t0
          omega
        · unfold occasions
          rw [h4]
          rfl
      | succ n ih =>
        obtain ⟨s, ⟨tw, e, f⟩, h2, h3, h4⟩ := ih
        obtain ⟨s', g1, g2, g3, c, g4⟩ := spins_again h2
        refine ⟨s', ⟨tw, e, follow_from f g1⟩, g2, g3.trans h3, ?_⟩
        rw [occasions_snoc g4, if_pos rfl, h4]
        exact (List.replicate_succ' ..).symm
    obtain ⟨s, h1, -, h3, h4⟩ := key
    exact ⟨s, h1, h3, h4⟩

end Verif.TimingFine
