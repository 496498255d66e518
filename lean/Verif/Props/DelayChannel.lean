import Verif.Model.DelayChannel
import Verif.Props.DelayQueue

/-!
# C130: `Channel` of the delay queue
-/

namespace Verif.DelayQueue

open Mutex (put put_self put_ne)

variable {V : Type}

/-- The entries `Take` has delivered, in order. -/
def taken (q : State V) : List (Entry V) := (q.delivered.filter (·.byTake)).map (·.entry)

/-- The entry the goroutine has in its hands. -/
def held : ChPc V → List (Entry V)
  | .popped e | .holding e => [e]
  | _ => []

/-- Where the goroutine is in the queue's machine. -/
def Spot (p : Pc V) : ChPc V → Prop
  | .loop | .holding _ | .closed => p = .idle
  | .taking => inTake p ∧ p ≠ .takeHave
  | .popped _ => p = .takeHave

structure ChInv (g size : Nat) (cancel : Prop) (q0 : State V) (s : ChState V) : Prop where
  run : From (chClient cancel) q0 s.q
  alone : ∀ j, j ≠ g → ¬ inTake (s.q.pc j)
  spot : Spot (s.q.pc g) s.at'
  fifo : taken s.q = taken q0 ++ s.received ++ s.buf ++ held s.at'
  bound : s.buf.length ≤ size
  closed : s.at' = .closed → s.cancelled = true

theorem spot_same {g : Nat} {q q' : State V} {a : ChPc V} (h : Spot (q.pc g) a) (hs : SameSpot g q q') : Spot (q'.pc g) a := by
  cases a with
  | loop => exact hs.idle.1 h
  | taking => exact ⟨hs.take.1 h.1, fun h' => h.2 (hs.have'.2 h')⟩
  | popped e => exact hs.have'.1 h
  | holding e => exact hs.idle.1 h
  | closed => exact hs.idle.1 h

theorem taken_append (q : State V) (d : Delivery V) (hd : d.byTake = false) (q' : State V) (h : q'.delivered = q.delivered ++ [d]) :
    taken q' = taken q := by
  unfold taken
  rw [h, List.filter_append]
  simp [hd]

/-- Steps of others deliver nothing by `Take`. -/
theorem taken_same {k : Client} {g : Nat} {q q' : State V} (hs : Step k q q') (h : SameSpot g q q')
    (alone : ∀ j, j ≠ g → ¬ inTake (q.pc j)) : taken q' = taken q := by
  cases hs with
  | takePop i e now x h' hp he =>
    by_cases hi : i = g
    · subst hi
      have := h.have'.2 (put_self _ _ _)
      rw [hp] at this
      cases this
    · exact absurd (show inTake (q.pc i) by rw [hp]; trivial) (alone i hi)
  | opPop i h' e hp he => exact taken_append q _ rfl _ rfl
  | _ => rfl

theorem alone_put {g : Nat} {q : State V} {b : Pc V} (alone : ∀ j, j ≠ g → ¬ inTake (q.pc j)) :
    ∀ j, j ≠ g → ¬ inTake (put q.pc g b j) := by
  intro j hj
  rw [put_ne _ _ hj]
  exact alone j hj

theorem chInv_step {g size : Nat} {cancel reader : Prop} {q0 : State V} {s s' : ChState V} (i : ChInv g size cancel q0 s)
    (hs : ChStep g size cancel reader s s') : ChInv g size cancel q0 s' := by
  cases hs with
  | other q' h1 h2 h3 => exact ⟨i.run.step h1, h3, spot_same i.spot h2, (taken_same h1 h2 i.alone).trans i.fifo, i.bound, i.closed⟩
  | call h1 h2 =>
    refine ⟨i.run.step (.callTake _ g h2 (.inr fun j => ?_)), alone_put i.alone, ?_, ?_, i.bound, fun h => by cases h⟩
    · by_cases hj : j = g
      · subst hj; rw [h2]; exact id
      · exact i.alone j hj
    · simp only [Spot, put_self]
      exact ⟨trivial, by simp⟩
    · have := i.fifo
      rw [h1] at this
      exact this
  | pop e now x h' h1 h2 h3 =>
    refine ⟨i.run.step (.takePop _ g e now x h' h2 h3), alone_put i.alone, put_self _ _ _, ?_, i.bound, fun h => by cases h⟩
    have := i.fifo
    rw [h1] at this
    unfold taken at this ⊢
    rw [List.filter_append, List.map_append, this]
    simp [held]
  | ret e h1 h2 =>
    refine ⟨i.run.step (.takeReturn _ g h2), alone_put i.alone, put_self _ _ _, ?_, i.bound, fun h => by cases h⟩
    have := i.fifo
    rw [h1] at this
    exact this
  | giveUp dl h1 h2 h3 h4 =>
    refine ⟨i.run.step (.cancel _ g dl h3 h4), alone_put i.alone, put_self _ _ _, ?_, i.bound, fun _ => h2⟩
    have := i.fifo
    rw [h1] at this
    exact this
  | ctxCancel h => exact ⟨i.run, i.alone, i.spot, i.fifo, i.bound, fun _ => rfl⟩
  | send e h1 h2 =>
    refine ⟨i.run, i.alone, ?_, ?_, ?_, fun h => by cases h⟩
    · have := i.spot; rw [h1] at this; exact this
    · have := i.fifo
      rw [h1] at this
      simpa [held] using this
    · simp only [List.length_append, List.length_singleton]; omega
  | handoff e h0 h1 h2 =>
    refine ⟨i.run, i.alone, ?_, ?_, i.bound, fun h => by cases h⟩
    · have := i.spot; rw [h1] at this; exact this
    · have := i.fifo
      rw [h1, h2] at this
      simpa [held, h2] using this
  | recv e b h0 h1 =>
    refine ⟨i.run, i.alone, i.spot, ?_, ?_, i.closed⟩
    · have := i.fifo
      rw [h1] at this
      simpa using this
    · have := i.bound
      rw [h1] at this
      simp only [List.length_cons] at this
      dsimp only
      omega

theorem chInv_reach {g size : Nat} {cancel reader : Prop} {q0 : State V} {s : ChState V} (hi : q0.pc g = .idle)
    (h0 : ∀ j, ¬ inTake (q0.pc j)) (h : ChFrom g size cancel reader (chInit q0) s) : ChInv g size cancel q0 s := by
  induction h with
  | refl => exact ⟨.refl, fun j _ => h0 j, hi, by simp [chInit, held], Nat.zero_le _, fun h => by cases h⟩
  | step _ hs ih => exact chInv_step ih hs

theorem ChFrom.trans {g size : Nat} {cancel reader : Prop} {s s' s'' : ChState V} (h1 : ChFrom g size cancel reader s s')
    (h2 : ChFrom g size cancel reader s' s'') : ChFrom g size cancel reader s s'' := by
  induction h2 with
  | refl => exact h1
  | step _ hs ih => exact .step ih hs

/-- A step of goroutine `g` inside `Take`. -/
theorem same_put {g : Nat} {q q' : State V} (a b : Pc V) (hq' : q'.pc = put q.pc g b) (ha : q.pc g = a) (h : inTake a ∧ a ≠ .takeHave)
    (h' : inTake b ∧ b ≠ .takeHave) : SameSpot g q q' := by
  have e : q'.pc g = b := by rw [hq', put_self]
  have ni : ∀ {p : Pc V}, inTake p → p ≠ .idle := by rintro p hp rfl; exact hp
  exact ⟨by rw [ha, e]; exact ⟨fun x => absurd x (ni h.1), fun x => absurd x (ni h'.1)⟩, by rw [ha, e]; exact ⟨fun _ => h'.1, fun _ => h.1⟩,
    by rw [ha, e]; exact ⟨fun x => absurd x h.2, fun x => absurd x h'.2⟩⟩

/-- Every entry taken was put in and has expired. -/
theorem clock_reach {k : Client} {t0 : Int} {s : State V} (h : Reach k t0 s) :
    (∀ d ∈ s.delivered, d.now ≤ s.clock) ∧ ∀ j e now, s.pc j = .takeDue e now → now ≤ s.clock := by
  unfold Reach at h
  induction h with
  | refl => exact ⟨by simp [init], by simp [init]⟩
  | @step s s' _ hs ih =>
    obtain ⟨a, b⟩ := ih
    have keep : ∀ {pc' : Nat → Pc V} {i : Nat} {p : Pc V}, (∀ e now, p ≠ .takeDue e now) → pc' = put s.pc i p →
        ∀ j e now, pc' j = .takeDue e now → now ≤ s.clock := by
      rintro pc' i p hp rfl j e now hj
      by_cases hji : j = i
      · subst hji; rw [put_self] at hj; exact absurd hj (hp e now)
      · rw [put_ne _ _ hji] at hj; exact b j e now hj
    have keep2 : ∀ {i i' : Nat} {p p' : Pc V}, (∀ e now, p ≠ .takeDue e now) → (∀ e now, p' ≠ .takeDue e now) →
        ∀ j e now, put (put s.pc i p) i' p' j = .takeDue e now → now ≤ s.clock := by
      intro i i' p p' hp hp' j e now hj
      by_cases hji : j = i'
      · subst hji; rw [put_self] at hj; exact absurd hj (hp' e now)
      · rw [put_ne _ _ hji] at hj; exact keep hp rfl j e now hj
    cases hs with
    | tick d hd =>
      exact ⟨fun x hx => by have := a x hx; dsimp only; omega, fun j e now hj => by have := b j e now hj; dsimp only; omega⟩
    | takeIsDue i e hp hc =>
      refine ⟨a, ?_⟩
      intro j e' now hj
      dsimp only at hj ⊢
      by_cases hji : j = i
      · subst hji
        rw [put_self] at hj
        cases hj
        exact Int.le_refl _
      · rw [put_ne _ _ hji] at hj; exact b j e' now hj
    | takePop i e now x h' hp he =>
      refine ⟨?_, keep (by simp) rfl⟩
      intro d hd
      rcases List.mem_append.1 hd with hd | hd
      · exact a d hd
      · rw [List.mem_singleton] at hd
        subst hd
        exact b i e now hp
    | opPop i h' e hp he =>
      refine ⟨?_, keep (by simp) rfl⟩
      intro d hd
      rcases List.mem_append.1 hd with hd | hd
      · exact a d hd
      · rw [List.mem_singleton] at hd
        subst hd
        exact Int.le_refl _
    | wake i j dl hi hj => exact ⟨a, keep2 (by simp) (by simp)⟩
    | wakeDrain i j hi hj => exact ⟨a, keep2 (by simp) (by simp)⟩
    | _ => exact ⟨a, keep (by simp) rfl⟩

/-- **C130 (order).** What the reader has got, then what is in the channel, then the entry in the hands of the goroutine, are exactly the
entries `Take` has delivered since the call, in that order: nothing is lost, doubled or reordered on the way. -/
theorem C130_fifo {g size : Nat} {cancel reader : Prop} {q0 : State V} {s : ChState V} (hi : q0.pc g = .idle)
    (h0 : ∀ j, ¬ inTake (q0.pc j)) (h : ChFrom g size cancel reader (chInit q0) s) :
    taken s.q = taken q0 ++ s.received ++ s.buf ++ held s.at' := (chInv_reach hi h0 h).fifo

/-- **C130 (once).** Every entry the reader gets was pushed and has expired, and none comes twice. -/
theorem C130_once {g size : Nat} {cancel reader : Prop} {t0 : Int} {q0 : State V} {s : ChState V}
    (hq : Reach (chClient cancel) t0 q0) (hi : q0.pc g = .idle) (h0 : ∀ j, ¬ inTake (q0.pc j))
    (h : ChFrom g size cancel reader (chInit q0) s) :
    (s.received.map (·.id)).Nodup ∧ ∀ e ∈ s.received, e ∈ s.q.pushed ∧ e ∉ s.q.heap ∧ e.exp < s.q.clock := by
  have i := chInv_reach hi h0 h
  have hr : Reach (chClient cancel) t0 s.q := hq.trans i.run
  obtain ⟨c1, c2, c3⟩ := C52_conserved hr
  have hsub : s.received.Sublist (s.q.delivered.map (·.entry)) := by
    have h1 : s.received.Sublist (taken s.q) := by
      rw [i.fifo, List.append_assoc, List.append_assoc]
      exact (List.sublist_append_left _ _).trans (List.sublist_append_right _ _)
    exact h1.trans (List.filter_sublist.map _)
  refine ⟨(hsub.map (·.id)).nodup c3, fun e he => ?_⟩
  have hin : e ∈ s.q.pushed := c1.mem_iff.2 (List.mem_append_left _ (hsub.subset he))
  refine ⟨hin, ?_, ?_⟩
  · intro hh
    have h1 := (c1.map (·.id)).nodup_iff.1 c2
    rw [List.map_append, List.nodup_append] at h1
    exact h1.2.2 e.id (List.mem_map.2 ⟨e, hsub.subset he, rfl⟩) e.id (List.mem_map.2 ⟨e, hh, rfl⟩) rfl
  · have h2 : e ∈ taken s.q := by rw [i.fifo]; simp [he]
    obtain ⟨d, hd, rfl⟩ := List.mem_map.1 h2
    obtain ⟨hd1, hd2⟩ := List.mem_filter.1 hd
    have h3 := (C51_not_early hr d hd1).2 hd2
    have h4 := (clock_reach hr).1 d hd1
    omega

/-- **C130 (closed).** The channel is closed only after the context was cancelled, and then every entry taken from the queue is with the
reader or in the channel. -/
theorem C130_closed {g size : Nat} {cancel reader : Prop} {q0 : State V} {s : ChState V} (hi : q0.pc g = .idle)
    (h0 : ∀ j, ¬ inTake (q0.pc j)) (h : ChFrom g size cancel reader (chInit q0) s) (hc : s.at' = .closed) :
    s.cancelled = true ∧ taken s.q = taken q0 ++ s.received ++ s.buf := by
  have i := chInv_reach hi h0 h
  refine ⟨i.closed hc, ?_⟩
  have := i.fifo
  rw [hc] at this
  simpa [held] using this

/-- **C130 (ahead).** At most `size + 1` entries are out of the queue and not with the reader. -/
theorem C130_ahead {g size : Nat} {cancel reader : Prop} {q0 : State V} {s : ChState V} (hi : q0.pc g = .idle)
    (h0 : ∀ j, ¬ inTake (q0.pc j)) (h : ChFrom g size cancel reader (chInit q0) s) :
    (taken s.q).length ≤ (taken q0).length + s.received.length + size + 1 := by
  have i := chInv_reach hi h0 h
  have hb := i.bound
  have hh : (held s.at').length ≤ 1 := by cases s.at' <;> simp [held]
  rw [i.fifo]
  simp only [List.length_append]
  omega

/-- **C130 (delivers).** If the goroutine sleeps, nobody holds the mutex, something has expired and nothing is cancelled, a reader who
empties the channel can get an entry that is due at least as early, without time going by. -/
theorem C130_delivers {g size : Nat} {t0 : Int} {q0 : State V} {s : ChState V}
    (hq : Reach single t0 q0) (hi : q0.pc g = .idle) (h0 : ∀ j, ¬ inTake (q0.pc j))
    (h : ChFrom g size False True (chInit q0) s) {dl : Option Int} (hj : s.q.pc g = .select dl) (hn : s.q.holder = none)
    {x : Entry V} (hx : x ∈ s.q.heap) (hexp : x.exp < s.q.clock) :
    ∃ s' e, ChFrom g size False True s s' ∧ s'.q.clock = s.q.clock ∧ s'.received = s.received ++ s.buf ++ [e] ∧ e.exp ≤ x.exp := by
  have i := chInv_reach hi h0 h
  have hr : Reach single t0 s.q := hq.trans i.run
  have S := single_reach hr
  obtain ⟨d, rfl, hd⟩ := C53_quiet hr hj hn x hx
  have hsl : s.q.sleeping = true := by
    have no : ∀ i, inside (s.q.pc i) = true → False := by
      intro i hi
      have := (S.cont.hold i).1 hi
      rw [hn] at this
      simp at this
    rcases C53_awake hr hj with ⟨i, hi⟩ | ⟨h1, _⟩ | ⟨h1, _⟩
    · exact (no i (by rw [hi]; rfl)).elim
    · exact h1
    · exact h1
  have hat : s.at' = .taking := by
    have hsp := i.spot
    rw [hj] at hsp
    cases ha : s.at' <;> rw [ha] at hsp <;> simp only [Spot, reduceCtorEq] at hsp ⊢
  have hne : 0 < s.q.heap.length := List.length_pos_of_mem hx
  have hh0 : s.q.heap[0]? = some s.q.heap[0] := List.getElem?_eq_getElem hne
  have hmin := (root_min S.cont.heap hh0).2 x hx
  obtain ⟨h', e1, _⟩ := pop_ok hh0
  -- the reader empties the channel
  have drain : ∀ (b r : List (Entry V)), ChFrom g size False True { s with buf := b, received := r } { s with buf := [], received := r ++ b } := by
    intro b
    induction b with
    | nil => intro r; rw [List.append_nil]; exact .refl
    | cons e b ih =>
      intro r
      have := ih (r ++ [e])
      rw [List.append_assoc, List.singleton_append] at this
      have first : ChFrom g size False True { s with buf := e :: b, received := r } { s with buf := b, received := r ++ [e] } :=
        .step .refl (.recv _ e b trivial rfl)
      exact first.trans this
  have f := drain s.buf s.received
  have al : ∀ {b : Pc V}, ∀ j, j ≠ g → ¬ inTake (put s.q.pc g b j) := alone_put i.alone
  have idle1 : ∀ {a b : Pc V} {f : Nat → Pc V}, f g = a → a ≠ .idle → b ≠ .idle → (f g = .idle ↔ put f g b g = .idle) := by
    intro a b f ha h1 h2
    rw [put_self, ha]
    exact ⟨fun h => absurd h h1, fun h => absurd h h2⟩
  have take1 : ∀ {a b : Pc V} {f : Nat → Pc V}, f g = a → inTake a → inTake b → (inTake (f g) ↔ inTake (put f g b g)) := by
    intro a b f ha h1 h2
    rw [put_self, ha]
    exact ⟨fun _ => h2, fun _ => h1⟩
  have have1 : ∀ {a b : Pc V} {f : Nat → Pc V}, f g = a → a ≠ .takeHave → b ≠ .takeHave →
      (f g = .takeHave ↔ put f g b g = .takeHave) := by
    intro a b f ha h1 h2
    rw [put_self, ha]
    exact ⟨fun h => absurd h h1, fun h => absurd h h2⟩
  have f := f.step (.other _ _ (.timer s.q g d hj (by omega))
    ⟨idle1 hj (by simp) (by simp), take1 hj trivial trivial, have1 hj (by simp) (by simp)⟩ al)
  have al2 : ∀ {b c : Pc V}, ∀ j, j ≠ g → ¬ inTake (put (put s.q.pc g b) g c j) := by
    intro b c j hj
    rw [put_ne _ _ hj]; exact al j hj
  have f := f.step (.other _ _ (.swapWon _ g (put_self _ _ _) hsl)
    ⟨idle1 (put_self _ _ _) (by simp) (by simp), take1 (put_self _ _ _) trivial trivial, have1 (put_self _ _ _) (by simp) (by simp)⟩ al2)
  have al3 : ∀ {b c d : Pc V}, ∀ j, j ≠ g → ¬ inTake (put (put (put s.q.pc g b) g c) g d j) := by
    intro b c d j hj
    rw [put_ne _ _ hj]; exact al2 j hj
  have f := f.step (.other _ _ (.takeLock _ g (put_self _ _ _) hn)
    ⟨idle1 (put_self _ _ _) (by simp) (by simp), take1 (put_self _ _ _) trivial trivial, have1 (put_self _ _ _) (by simp) (by simp)⟩ al3)
  have al4 : ∀ {b c d e : Pc V}, ∀ j, j ≠ g → ¬ inTake (put (put (put (put s.q.pc g b) g c) g d) g e j) := by
    intro b c d e j hj
    rw [put_ne _ _ hj]; exact al3 j hj
  have f := f.step (.other _ _ (.takePeek _ g s.q.heap[0] (put_self _ _ _) (by
    cases he : Heap.empty s.q.heap with
    | false => rfl
    | true => rw [empty_iff.1 he] at hne; simp at hne) (peek_iff.2 hh0))
    ⟨idle1 (put_self _ _ _) (by simp) (by simp), take1 (put_self _ _ _) trivial trivial, have1 (put_self _ _ _) (by simp) (by simp)⟩ al4)
  have f := f.step (.other _ _ (.takeIsDue _ g s.q.heap[0] (put_self _ _ _) (show s.q.clock > s.q.heap[0].exp by omega))
    ⟨idle1 (put_self _ _ _) (by simp) (by simp), take1 (put_self _ _ _) trivial trivial, have1 (put_self _ _ _) (by simp) (by simp)⟩ (by
      intro j hj
      dsimp only
      rw [put_ne _ _ hj]
      exact al4 j hj))
  have f := f.step (.pop _ s.q.heap[0] s.q.clock s.q.heap[0] h' hat (put_self _ _ _) e1)
  have f := f.step (.ret _ s.q.heap[0] rfl (put_self _ _ _))
  have f := f.step (.handoff _ s.q.heap[0] trivial rfl rfl)
  exact ⟨_, s.q.heap[0], f, rfl, rfl, hmin⟩

/-- **C130 (refuted: the goroutine ends with its context).** If the channel is full and the reader has gone, the goroutine stays at its
send forever, whatever happens, and never closes the channel. -/
theorem C130_stuck_refuted {g size : Nat} {cancel : Prop} {s s' : ChState V} {e : Entry V} (ha : s.at' = .holding e)
    (hb : s.buf.length = size) (h : ChFrom g size cancel False s s') : s'.at' = .holding e ∧ s'.buf = s.buf := by
  induction h with
  | refl => exact ⟨ha, rfl⟩
  | step _ hs ih =>
    obtain ⟨h1, h2⟩ := ih
    cases hs with
    | other q' _ _ _ => exact ⟨h1, h2⟩
    | call h _ => rw [h1] at h; cases h
    | pop e now x h' h _ _ => rw [h1] at h; cases h
    | ret e h _ => rw [h1] at h; cases h
    | giveUp dl h _ _ _ => rw [h1] at h; cases h
    | ctxCancel _ => exact ⟨h1, h2⟩
    | send e _ h => rw [h2, hb] at h; omega
    | handoff e h _ _ => exact h.elim
    | recv e b h _ => exact h.elim

/-- A queue with one entry that has expired. -/
theorem one_entry : ∃ q : State Nat, Reach (chClient True) 0 q ∧ (∀ j, q.pc j = .idle) ∧ q.heap = [⟨0, 7, 0⟩] ∧ q.clock = 1 ∧
    q.holder = none ∧ q.sleeping = false := by
  have r : Reach (chClient True) 0 (init 0 : State Nat) := .refl
  have r := r.step (.callPush _ 1 7 0 rfl)
  have r := r.step (.pushLock _ 1 7 0 rfl rfl)
  have r := r.step (.pushAdd _ 1 7 0 [⟨0, 7, 0⟩] rfl (by decide))
  have r := r.step (.pushIsHead _ 1 ⟨0, 7, 0⟩ ⟨0, 7, 0⟩ rfl (by decide) rfl)
  have r := r.step (.pushCasFail _ 1 rfl rfl)
  have r := r.step (.pushUnlock _ 1 rfl)
  have r := r.step (.tick _ 1 (by decide))
  refine ⟨_, r, ?_, rfl, rfl, rfl, rfl⟩
  intro j
  by_cases hj : j = 1
  · subst hj; rfl
  · simp [put, hj, init]

/-- Such a state is reached: the context is cancelled, and the entry is neither in the queue nor with the reader, and never will be. -/
theorem C130_lost_refuted : ∃ (q0 : State Nat) (s : ChState Nat) (e : Entry Nat), Reach (chClient True) 0 q0 ∧
    ChFrom 0 0 True False (chInit q0) s ∧ s.cancelled = true ∧ e ∈ s.q.pushed ∧ e ∉ s.q.heap ∧
    ∀ s', ChFrom 0 0 True False s s' → s'.at' = .holding e ∧ e ∉ s'.received := by
  obtain ⟨q, r, hp, hh, hc, hn, hsl⟩ := one_entry
  have hnt : ∀ j, ¬ inTake (q.pc j) := by intro j; rw [hp]; exact id
  have f : ChFrom 0 0 True False (chInit q) (chInit q) := .refl
  have f := f.step (.call _ rfl (hp 0))
  have f := f.step (.other _ _ (.takeLock _ 0 rfl hn)
    (same_put .takeWait .takeLocked rfl rfl ⟨trivial, by simp⟩ ⟨trivial, by simp⟩) (by
      intro j hj
      dsimp only
      rw [put_ne _ _ hj, put_ne _ _ hj]; exact hnt j))
  have f := f.step (.other _ _ (.takePeek _ 0 ⟨0, 7, 0⟩ rfl (by simp only [chInit]; rw [hh]; rfl) (by simp only [chInit]; rw [hh]; decide))
    (same_put .takeLocked (.takePeeked ⟨0, 7, 0⟩) rfl rfl ⟨trivial, by simp⟩ ⟨trivial, by simp⟩) (by
      intro j hj
      dsimp only
      rw [put_ne _ _ hj, put_ne _ _ hj, put_ne _ _ hj]; exact hnt j))
  have f := f.step (.other _ _ (.takeIsDue _ 0 ⟨0, 7, 0⟩ rfl (by simp only [chInit]; rw [hc]; decide))
    (same_put (.takePeeked ⟨0, 7, 0⟩) (.takeDue ⟨0, 7, 0⟩ q.clock) rfl rfl ⟨trivial, by simp⟩ ⟨trivial, by simp⟩) (by
      intro j hj
      dsimp only
      rw [put_ne _ _ hj, put_ne _ _ hj, put_ne _ _ hj, put_ne _ _ hj]; exact hnt j))
  have f := f.step (.pop _ ⟨0, 7, 0⟩ _ ⟨0, 7, 0⟩ [] rfl rfl (by simp only [chInit]; rw [hh]; decide))
  have f := f.step (.ret _ _ rfl rfl)
  have f := f.step (.ctxCancel _ trivial)
  have hpushed : (⟨0, 7, 0⟩ : Entry Nat) ∈ q.pushed := by
    have := (C52_conserved r).1.mem_iff.2 (List.mem_append_right (q.delivered.map (·.entry)) (show (⟨0, 7, 0⟩ : Entry Nat) ∈ q.heap by rw [hh]; simp))
    exact this
  refine ⟨q, _, ⟨0, 7, 0⟩, r, f, rfl, hpushed, by simp, ?_⟩
  intro s' h'
  have hst := C130_stuck_refuted (e := ⟨0, 7, 0⟩) (by rfl) (by rfl) h'
  refine ⟨hst.1, ?_⟩
  -- without a reader nothing is received
  have : ∀ s s' : ChState Nat, ChFrom 0 0 True False s s' → s'.received = s.received := by
    intro s s' h
    induction h with
    | refl => rfl
    | step _ hs ih =>
      cases hs with
      | handoff e h _ _ => exact h.elim
      | recv e b h _ => exact h.elim
      | _ => exact ih
  rw [this _ _ h']
  simp [chInit]

/-- **C130, the end.** When the context is cancelled while the goroutine sleeps in `Take`, it can wake, close the channel and end, with nothing in its hands. -/
theorem C130_ends {g size : Nat} {cancel reader : Prop} {s : ChState V} {dl : Option Int} (hc : cancel) (h1 : s.at' = .taking) (h2 : s.cancelled = true)
    (h3 : s.q.pc g = .select dl) :
    ∃ s', ChStep g size cancel reader s s' ∧ s'.at' = .closed ∧ s'.q.pc g = .idle ∧ s'.buf = s.buf ∧ s'.received = s.received ∧ s'.q.heap = s.q.heap :=
  ⟨_, .giveUp s dl h1 h2 hc h3, rfl, put_self _ _ _, rfl, rfl, rfl⟩

/-- **C130, the end.** A closed channel stays closed: nothing is sent on it any more, and what is in it only goes to the reader, in order. -/
theorem C130_closed_stays {g size : Nat} {cancel reader : Prop} {s s' : ChState V} (h0 : s.at' = .closed) (h : ChFrom g size cancel reader s s') :
    s'.at' = .closed ∧ s'.received ++ s'.buf = s.received ++ s.buf ∧ s.received <+: s'.received := by
  induction h with
  | refl => exact ⟨h0, rfl, List.prefix_rfl⟩
  | step _ hs ih =>
    obtain ⟨a, b, c⟩ := ih
    cases hs with
    | other q' h1 h2 h3 => exact ⟨a, b, c⟩
    | call h1 h2 => rw [a] at h1; cases h1
    | pop e now x h' h1 h2 h3 => rw [a] at h1; cases h1
    | ret e h1 h2 => rw [a] at h1; cases h1
    | giveUp dl h1 h2 h3 h4 => rw [a] at h1; cases h1
    | ctxCancel h => exact ⟨a, b, c⟩
    | send e h1 h2 => rw [a] at h1; cases h1
    | handoff e h0 h1 h2 => rw [a] at h1; cases h1
    | recv e b' h0 h1 =>
      refine ⟨a, ?_, c.trans (List.prefix_append _ _)⟩
      rw [h1] at b
      simpa using b

/-- **C130, the end.** The goroutine ends in no other way: the step that closes the channel is `Take` giving up in its sleep, after the cancellation. -/
theorem C130_closes_only {g size : Nat} {cancel reader : Prop} {s s' : ChState V} (h : ChStep g size cancel reader s s') (h0 : s.at' ≠ .closed) (h1 : s'.at' = .closed) :
    s.at' = .taking ∧ s.cancelled = true ∧ ∃ dl, s.q.pc g = .select dl := by
  cases h with
  | other q' a b c => exact absurd h1 h0
  | call a b => cases h1
  | pop e now x h' a b c => cases h1
  | ret e a b => cases h1
  | giveUp dl a b c d => exact ⟨a, b, dl, d⟩
  | ctxCancel a => exact absurd h1 h0
  | send e a b => cases h1
  | handoff e a b c => cases h1
  | recv e b' a b => exact absurd h1 h0

/-- A goroutine asleep with one entry in its channel: it ends, and the entry still reaches the reader. -/
example : ∃ s s' : ChState Nat, s.buf = [⟨0, 7, 0⟩] ∧ s.at' = .taking ∧ ChFrom 0 1 True True s s' ∧ s'.at' = .closed ∧ s'.received = [⟨0, 7, 0⟩] ∧ s'.buf = [] := by
  have f : ChFrom 0 1 True True (⟨{ init 0 with pc := put (init (V := Nat) 0).pc 0 (.select none) }, .taking, [⟨0, 7, 0⟩], [], true⟩ : ChState Nat) _ := .refl
  have f := f.step (.giveUp _ none rfl rfl trivial rfl)
  have f := f.step (.recv _ ⟨0, 7, 0⟩ [] trivial rfl)
  exact ⟨_, _, rfl, rfl, f, rfl, rfl, rfl⟩

end Verif.DelayQueue
