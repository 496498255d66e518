import Verif.Proof.DelayQueue

/-! # C51–C55: the delay queue -/

namespace Verif.DelayQueue

open Mutex (put put_self put_ne)

variable {V : Type} {k : Client}

/-! ## Contents -/

/-- **C51 (not early).** Under every interleaving of any number of goroutines, with or without cancellation: what `Take`
delivered had expired strictly before the clock reading, what `Pop` delivered at or before it. -/
theorem C51_not_early {t0 : Int} {s : State V} (h : Reach k t0 s) (d : Delivery V) (hd : d ∈ s.delivered) :
    d.entry.exp ≤ d.now ∧ (d.byTake = true → d.entry.exp < d.now) := (cont_reach h).times d hd

/-- **C51 (least).** A delivered entry is in the queue and has the least expiration there at the moment of the delivery; the
delivery never uses a clock reading from the future. -/
theorem C51_least {t0 : Int} {s s' : State V} (h : Reach k t0 s) (hs : Step k s s') (d : Delivery V)
    (hd : s'.delivered = s.delivered ++ [d]) :
    d.entry ∈ s.heap ∧ (∀ x ∈ s.heap, d.entry.exp ≤ x.exp) ∧ s.heap.Perm (d.entry :: s'.heap) := by
  have c := cont_reach h
  have no : ∀ {l : List (Delivery V)}, l = l ++ [d] → False := by
    intro l hl
    have := congrArg List.length hl
    simp at this
  cases hs with
  | takePop i e now x h' hp he =>
    have hk := c.knows i
    rw [hp] at hk
    have : d = ⟨e, now, true⟩ := by
      have := List.append_cancel_left hd
      simpa using this.symm
    subst this
    obtain ⟨h'', e1, e2⟩ := pop_ok hk.1
    cases he.symm.trans e1
    exact ⟨(root_min c.heap hk.1).1, (root_min c.heap hk.1).2, e2.symm⟩
  | opPop i h' e hp he =>
    have : d = ⟨e, s.clock, false⟩ := by
      have := List.append_cancel_left hd
      simpa using this.symm
    subst this
    rcases popBody_spec c.heap s.clock with ⟨e1, _⟩ | ⟨e', h'', h0, e1, hle, e2, e3⟩
    · rw [e1] at he; simp at he
    · rw [e1] at he
      simp only [Except.ok.injEq, Prod.mk.injEq, Option.some.injEq] at he
      obtain ⟨rfl, rfl⟩ := he
      exact ⟨(root_min c.heap h0).1, (root_min c.heap h0).2, e2.symm⟩
  | _ => exact (no hd).elim

/-- **C52.** Nothing is lost, duplicated or invented: at every moment the entries put in are the delivered ones together with
those in the queue, as multisets; and all entries are different objects. -/
theorem C52_conserved {t0 : Int} {s : State V} (h : Reach k t0 s) :
    s.pushed.Perm (s.delivered.map (·.entry) ++ s.heap) ∧ (s.pushed.map (·.id)).Nodup ∧
      ((s.delivered.map (·.entry)).map (·.id)).Nodup := by
  have c := cont_reach h
  refine ⟨c.perm, c.nodup, ?_⟩
  have := (c.perm.map (·.id)).nodup_iff.1 c.nodup
  rw [List.map_append] at this
  exact (List.nodup_append.1 this).1

/-- The mutex excludes: the fields are only touched by its holder. -/
theorem C52_exclusion {t0 : Int} {s : State V} (h : Reach k t0 s) {i j : Nat} (hi : inside (s.pc i) = true)
    (hj : inside (s.pc j) = true) : i = j := ((cont_reach h).hold.excl hi hj).symm

/-- **C55 (Pop).** In every reachable state `Pop` succeeds without panic; it returns nothing iff no entry in the queue has
expired, otherwise an entry with the least expiration. -/
theorem C55_pop {t0 : Int} {s : State V} (h : Reach k t0 s) (now : Int) :
    ∃ h' r, popBody s.heap now = .ok (h', r) ∧ (r = none ↔ ∀ x ∈ s.heap, now < x.exp) ∧ (r = none → h' = s.heap) ∧
      ∀ e, r = some e → e ∈ s.heap ∧ (∀ x ∈ s.heap, e.exp ≤ x.exp) ∧ s.heap.Perm (e :: h') := by
  have c := cont_reach h
  rcases popBody_spec c.heap now with ⟨e1, e2⟩ | ⟨e, h', h0, e1, hle, e2, _⟩
  · exact ⟨_, _, e1, by simpa using e2, fun _ => rfl, by simp⟩
  · refine ⟨_, _, e1, ?_, by simp, ?_⟩
    · simp only [reduceCtorEq, false_iff]
      intro H
      have := H e (root_min c.heap h0).1
      omega
    · rintro _ ⟨rfl⟩
      exact ⟨(root_min c.heap h0).1, (root_min c.heap h0).2, e2.symm⟩

/-- **C55 (Peek).** `Peek` succeeds; nothing iff the queue is empty, otherwise the value of an entry with the least
expiration. -/
theorem C55_peek {t0 : Int} {s : State V} (h : Reach k t0 s) :
    ∃ r, peekBody s.heap = .ok r ∧ (r = none ↔ s.heap = []) ∧
      ∀ v, r = some v → ∃ e ∈ s.heap, e.value = v ∧ ∀ x ∈ s.heap, e.exp ≤ x.exp := by
  have c := cont_reach h
  unfold peekBody
  by_cases he : Heap.empty s.heap = true
  · rw [if_pos he]
    exact ⟨none, rfl, by simpa using empty_iff.1 he, by simp⟩
  · rw [if_neg he]
    have hne : 0 < s.heap.length := by
      cases hh : s.heap with
      | nil => rw [hh] at he; exact absurd rfl he
      | cons => simp
    have h0 : s.heap[0]? = some s.heap[0] := List.getElem?_eq_getElem hne
    rw [peek_iff.2 h0]
    refine ⟨some s.heap[0].value, rfl, ?_, ?_⟩
    · simp only [reduceCtorEq, false_iff]
      intro H
      rw [H] at hne
      simp at hne
    · rintro _ ⟨rfl⟩
      exact ⟨_, (root_min c.heap h0).1, rfl, (root_min c.heap h0).2⟩

/-- **C55 (Empty).** -/
theorem C55_empty (s : State V) : emptyBody s.heap = true ↔ s.heap = [] := empty_iff

/-! ## A sender always finds a receiver (C54) -/

/-- The goroutine has announced that it sleeps and has not been woken. -/
def resting : Pc V → Bool
  | .takeArmed _ | .select _ | .fired => true
  | _ => false

/-- The goroutine receives from `wakeup`, at once or after the swap. -/
def receiving : Pc V → Bool
  | .select _ | .fired | .drain => true
  | _ => false

structure Wake (s : State V) : Prop where
  hold : Hold s
  sleep : s.sleeping = true → ∃ j, resting (s.pc j) = true
  send : ∀ i, s.pc i = .pushSend → s.sleeping = false ∧ ∃ j, receiving (s.pc j) = true

theorem wake_put {s s' : State V} {i : Nat} {b : Pc V} (w : Wake s) (hh : Hold s') (hp : s'.pc = put s.pc i b)
    (hs : s'.sleeping = s.sleeping) (hb : b ≠ .pushSend) (h1 : resting (s.pc i) = true → resting b = true)
    (h2 : receiving (s.pc i) = true → receiving b = true) : Wake s' := by
  refine ⟨hh, ?_, ?_⟩
  · rw [hs, hp]
    intro h
    obtain ⟨j, hj⟩ := w.sleep h
    refine ⟨j, ?_⟩
    by_cases e : j = i
    · subst e; rw [put_self]; exact h1 hj
    · rw [put_ne _ _ e]; exact hj
  · rw [hs, hp]
    intro a ha
    by_cases e : a = i
    · subst e; rw [put_self] at ha; exact absurd ha hb
    rw [put_ne _ _ e] at ha
    obtain ⟨h3, j, hj⟩ := w.send a ha
    refine ⟨h3, j, ?_⟩
    by_cases e : j = i
    · subst e; rw [put_self]; exact h2 hj
    · rw [put_ne _ _ e]; exact hj

/-- While `i` is inside and not sending, nobody is sending. -/
theorem no_send {s : State V} (h : Hold s) {i : Nat} (hi : inside (s.pc i) = true) (hn : s.pc i ≠ .pushSend) (a : Nat) :
    s.pc a ≠ .pushSend := by
  intro ha
  have := h.excl hi (by rw [ha]; rfl)
  subst this
  exact hn ha

theorem wake_step (hk : ¬ k.cancel) {s s' : State V} (w : Wake s) (hs : Step k s s') : Wake s' := by
  have hh := hold_step w.hold hs
  cases hs with
  | tick d _ => exact ⟨hh, w.sleep, w.send⟩
  | callPush i v delay hp => exact wake_put w hh rfl rfl (by simp) (by rw [hp]; simp [resting]) (by rw [hp]; simp [receiving])
  | pushLock i v delay hp hn =>
    exact wake_put w hh rfl rfl (by simp) (by rw [hp]; simp [resting]) (by rw [hp]; simp [receiving])
  | pushAdd i v delay h' hp he =>
    exact wake_put w hh rfl rfl (by simp) (by rw [hp]; simp [resting]) (by rw [hp]; simp [receiving])
  | pushIsHead i e x hp _ _ =>
    exact wake_put w hh rfl rfl (by simp) (by rw [hp]; simp [resting]) (by rw [hp]; simp [receiving])
  | pushNotHead i e x hp _ _ =>
    exact wake_put w hh rfl rfl (by simp) (by rw [hp]; simp [resting]) (by rw [hp]; simp [receiving])
  | pushCas i hp hsl =>
    refine ⟨hh, by simp, ?_⟩
    intro a ha
    refine ⟨rfl, ?_⟩
    obtain ⟨j, hj⟩ := w.sleep hsl
    have hji : j ≠ i := by
      rintro rfl
      rw [hp] at hj
      simp [resting] at hj
    refine ⟨j, ?_⟩
    show receiving (put s.pc i .pushSend j) = true
    rw [put_ne _ _ hji]
    have hout : inside (s.pc j) = false := by
      cases e : inside (s.pc j) with
      | false => rfl
      | true => exact absurd (w.hold.excl (i := i) (by rw [hp]; rfl) e) hji
    revert hj hout
    cases s.pc j <;> simp [resting, receiving, inside]
  | pushCasFail i hp _ =>
    exact wake_put w hh rfl rfl (by simp) (by rw [hp]; simp [resting]) (by rw [hp]; simp [receiving])
  | wake i j dl hi hj =>
    have hsl := (w.send i hi).1
    refine ⟨hh, fun h => by rw [hsl] at h; simp at h, ?_⟩
    intro a ha
    exfalso
    dsimp only at ha
    have hai : a ≠ i := by
      rintro rfl
      have : a ≠ j := fun h => by subst h; rw [hi] at hj; simp at hj
      rw [put_ne _ _ this, put_self] at ha
      simp at ha
    have haj : a ≠ j := by
      rintro rfl
      rw [put_self] at ha
      simp at ha
    rw [put_ne _ _ haj, put_ne _ _ hai] at ha
    exact hai (w.hold.excl (by rw [hi]; rfl) (by rw [ha]; rfl))
  | wakeDrain i j hi hj =>
    have hsl := (w.send i hi).1
    refine ⟨hh, fun h => by rw [hsl] at h; simp at h, ?_⟩
    intro a ha
    exfalso
    dsimp only at ha
    have hai : a ≠ i := by
      rintro rfl
      have : a ≠ j := fun h => by subst h; rw [hi] at hj; simp at hj
      rw [put_ne _ _ this, put_self] at ha
      simp at ha
    have haj : a ≠ j := by
      rintro rfl
      rw [put_self] at ha
      simp at ha
    rw [put_ne _ _ haj, put_ne _ _ hai] at ha
    exact hai (w.hold.excl (by rw [hi]; rfl) (by rw [ha]; rfl))
  | pushUnlock i hp => exact wake_put w hh rfl rfl (by simp) (by rw [hp]; simp [resting]) (by rw [hp]; simp [receiving])
  | callTake i hp _ => exact wake_put w hh rfl rfl (by simp) (by rw [hp]; simp [resting]) (by rw [hp]; simp [receiving])
  | takeLock i hp hn => exact wake_put w hh rfl rfl (by simp) (by rw [hp]; simp [resting]) (by rw [hp]; simp [receiving])
  | takeEmpty i hp _ => exact wake_put w hh rfl rfl (by simp) (by rw [hp]; simp [resting]) (by rw [hp]; simp [receiving])
  | takePeek i e hp _ he => exact wake_put w hh rfl rfl (by simp) (by rw [hp]; simp [resting]) (by rw [hp]; simp [receiving])
  | takeIsDue i e hp hc => exact wake_put w hh rfl rfl (by simp) (by rw [hp]; simp [resting]) (by rw [hp]; simp [receiving])
  | takeNotDue i e hp _ => exact wake_put w hh rfl rfl (by simp) (by rw [hp]; simp [resting]) (by rw [hp]; simp [receiving])
  | takePop i e now x h' hp he =>
    exact wake_put w hh rfl rfl (by simp) (by rw [hp]; simp [resting]) (by rw [hp]; simp [receiving])
  | takeReturn i hp => exact wake_put w hh rfl rfl (by simp) (by rw [hp]; simp [resting]) (by rw [hp]; simp [receiving])
  | takeStore i dl hp =>
    refine ⟨hh, fun _ => ⟨i, ?_⟩, ?_⟩
    · show resting (put s.pc i (.takeArmed dl) i) = true
      rw [put_self]; rfl
    · intro a ha
      exfalso
      dsimp only at ha
      by_cases e : a = i
      · subst e; rw [put_self] at ha; simp at ha
      rw [put_ne _ _ e] at ha
      exact no_send w.hold (i := i) (by rw [hp]; rfl) (by rw [hp]; simp) a ha
  | takeUnlock i dl hp => exact wake_put w hh rfl rfl (by simp) (fun _ => rfl) (fun _ => rfl)
  | timer i d hp _ => exact wake_put w hh rfl rfl (by simp) (fun _ => rfl) (fun _ => rfl)
  | swapWon i hp hsl =>
    refine ⟨hh, by simp, ?_⟩
    intro a ha
    exfalso
    dsimp only at ha
    by_cases e : a = i
    · subst e; rw [put_self] at ha; simp at ha
    rw [put_ne _ _ e] at ha
    have := (w.send a ha).1
    rw [hsl] at this
    simp at this
  | swapLost i hp hsl =>
    refine ⟨hh, fun h => by rw [hsl] at h; simp at h, ?_⟩
    intro a ha
    refine ⟨hsl, i, ?_⟩
    show receiving (put s.pc i .drain i) = true
    rw [put_self]; rfl
  | cancel i dl hc hp => exact absurd hc hk
  | callOp i b hp => exact wake_put w hh rfl rfl (by simp) (by rw [hp]; simp [resting]) (by rw [hp]; simp [receiving])
  | opLock i b hp hn => exact wake_put w hh rfl rfl (by simp) (by rw [hp]; simp [resting]) (by rw [hp]; simp [receiving])
  | opPop i h' e hp he => exact wake_put w hh rfl rfl (by simp) (by rw [hp]; simp [resting]) (by rw [hp]; simp [receiving])
  | opPopNone i h' hp he => exact wake_put w hh rfl rfl (by simp) (by rw [hp]; simp [resting]) (by rw [hp]; simp [receiving])
  | opRead i hp => exact wake_put w hh rfl rfl (by simp) (by rw [hp]; simp [resting]) (by rw [hp]; simp [receiving])
  | opReturn i hp => exact wake_put w hh rfl rfl (by simp) (by rw [hp]; simp [resting]) (by rw [hp]; simp [receiving])

theorem wake_reach (hk : ¬ k.cancel) {t0 : Int} {s : State V} (h : Reach k t0 s) : Wake s := by
  unfold Reach at h
  induction h with
  | refl => exact ⟨hold_init t0, by simp [init], by simp [init]⟩
  | step _ hs ih => exact wake_step hk ih hs

/-- **C54 (no cancellation).** With any number of goroutines in `Take`, whenever a `Push` is sending its wakeup, some
goroutine is in the `select`, or about to receive in line 104, or has just been woken by its timer and will get there. -/
theorem C54_receiver (hk : ¬ k.cancel) {t0 : Int} {s : State V} (h : Reach k t0 s) {i : Nat} (hi : s.pc i = .pushSend) :
    ∃ j, (∃ dl, s.pc j = .select dl) ∨ s.pc j = .fired ∨ s.pc j = .drain := by
  obtain ⟨_, j, hj⟩ := (wake_reach hk h).send i hi
  refine ⟨j, ?_⟩
  revert hj
  cases s.pc j <;> simp [receiving]

/-- A blocked `Push` gets through by at most two steps of that goroutine, without time passing. -/
theorem C54_gets_through (hk : ¬ k.cancel) {t0 : Int} {s : State V} (h : Reach k t0 s) {i : Nat} (hi : s.pc i = .pushSend) :
    ∃ s', From k s s' ∧ s'.clock = s.clock ∧ s'.pc i = .pushUnlock := by
  have hsl := ((wake_reach hk h).send i hi).1
  obtain ⟨j, ⟨dl, hj⟩ | hj | hj⟩ := C54_receiver hk h hi
  · refine ⟨_, .step .refl (.wake s i j dl hi hj), rfl, ?_⟩
    show put (put s.pc i .pushUnlock) j .takeWait i = _
    rw [put_ne _ _ (fun e => by subst e; rw [hi] at hj; simp at hj), put_self]
  · have hij : i ≠ j := fun e => by subst e; rw [hi] at hj; simp at hj
    refine ⟨_, .step (.step .refl (.swapLost s j hj hsl)) (.wakeDrain _ i j ?_ ?_), rfl, ?_⟩
    · show put s.pc j .drain i = _
      rw [put_ne _ _ hij]; exact hi
    · exact put_self _ _ _
    · show put (put (put s.pc j .drain) i .pushUnlock) j .takeWait i = _
      rw [put_ne _ _ hij, put_self]
  · refine ⟨_, .step .refl (.wakeDrain s i j hi hj), rfl, ?_⟩
    show put (put s.pc i .pushUnlock) j .takeWait i = _
    rw [put_ne _ _ (fun e => by subst e; rw [hi] at hj; simp at hj), put_self]

/-- The queue after the holder of the mutex has got rid of it. -/
def Releases (k : Client) (s : State V) : Prop := ∃ s', From k s s' ∧ s'.clock = s.clock ∧ s'.holder = none

theorem From.trans {s s' s'' : State V} (h1 : From k s s') (h2 : From k s' s'') : From k s s'' := by
  induction h2 with
  | refl => exact h1
  | step _ hs ih => exact .step ih hs

theorem releases_of {s s' : State V} (hs : Step k s s') (hc : s'.clock = s.clock) (h : Releases k s') : Releases k s := by
  obtain ⟨t, h1, h2, h3⟩ := h
  exact ⟨t, (From.step .refl hs).trans h1, h2.trans hc, h3⟩

theorem releases_pushUnlock {s : State V} {i : Nat} (hi : s.pc i = .pushUnlock) : Releases k s :=
  ⟨_, .step .refl (.pushUnlock s i hi), rfl, rfl⟩

theorem releases_opUnlock {s : State V} {i : Nat} (hi : s.pc i = .opUnlock) : Releases k s :=
  ⟨_, .step .refl (.opReturn s i hi), rfl, rfl⟩

theorem releases_takeArm {s : State V} {i : Nat} {dl : Option Int} (hi : s.pc i = .takeArm dl) : Releases k s :=
  releases_of (.takeStore s i dl hi) rfl ⟨_, .step .refl (.takeUnlock _ i dl (put_self _ _ _)), rfl, rfl⟩

theorem releases_pushHead (hk : ¬ k.cancel) {t0 : Int} {s : State V} (h : Reach k t0 s) {i : Nat} (hi : s.pc i = .pushHead) :
    Releases k s := by
  cases hsl : s.sleeping with
  | false => exact releases_of (.pushCasFail s i hi hsl) rfl (releases_pushUnlock (put_self _ _ _))
  | true =>
    refine releases_of (.pushCas s i hi hsl) rfl ?_
    obtain ⟨s', h1, h2, h3⟩ := C54_gets_through (i := i) hk (.step h (.pushCas s i hi hsl)) (put_self _ _ _)
    obtain ⟨t, e1, e2, e3⟩ := releases_pushUnlock (k := k) h3
    exact ⟨t, h1.trans e1, e2.trans h2, e3⟩

theorem releases_pushAdded (hk : ¬ k.cancel) {t0 : Int} {s : State V} (h : Reach k t0 s) {i : Nat} {e : Entry V}
    (hi : s.pc i = .pushAdded e) (hne : s.heap ≠ []) : Releases k s := by
  have h0 : ∃ x, s.heap[0]? = some x := by
    cases hh : s.heap with
    | nil => exact absurd hh hne
    | cons x _ => exact ⟨x, rfl⟩
  obtain ⟨x, h0⟩ := h0
  by_cases hx : x.id = e.id
  · exact releases_of (.pushIsHead s i e x hi (peek_iff.2 h0) hx) rfl
      (releases_pushHead hk (.step h (.pushIsHead s i e x hi (peek_iff.2 h0) hx)) (put_self _ _ _))
  · exact releases_of (.pushNotHead s i e x hi (peek_iff.2 h0) hx) rfl (releases_pushUnlock (put_self _ _ _))

theorem releases_takePeeked {t0 : Int} {s : State V} (h : Reach k t0 s) {i : Nat} {e : Entry V}
    (hi : s.pc i = .takePeeked e) : Releases k s := by
  by_cases hc : s.clock > e.exp
  · refine releases_of (.takeIsDue s i e hi hc) rfl ?_
    have c := cont_reach h
    have hk := c.knows i
    rw [hi] at hk
    obtain ⟨h', e1, _⟩ := pop_ok hk
    refine releases_of (.takePop _ i e s.clock e h' (put_self _ _ _) e1) rfl ?_
    exact ⟨_, .step .refl (.takeReturn _ i (put_self _ _ _)), rfl, rfl⟩
  · exact releases_of (.takeNotDue s i e hi hc) rfl (releases_takeArm (put_self _ _ _))

/-- While a `Push` is between its heap insertion and its look at the head, the heap is not empty. -/
theorem added_nonempty {t0 : Int} {s : State V} (h : Reach k t0 s) : ∀ i e, s.pc i = .pushAdded e → s.heap ≠ [] := by
  unfold Reach at h
  induction h with
  | refl => intro i e hi; simp [init] at hi
  | @step s s' hr hs ih =>
    have c := cont_reach (k := k) (t0 := t0) hr
    have keep : ∀ {i : Nat} {b : Pc V}, (∀ e, b ≠ .pushAdded e) → ∀ a e, put s.pc i b a = .pushAdded e → s.heap ≠ [] := by
      intro i b hb a e ha
      by_cases hai : a = i
      · subst hai; rw [put_self] at ha; exact absurd ha (hb e)
      · rw [put_ne _ _ hai] at ha; exact ih a e ha
    have gone : ∀ {i : Nat} {b : Pc V}, inside (s.pc i) = true → (∀ e, b ≠ .pushAdded e) →
        (∀ e, s.pc i ≠ .pushAdded e) → ∀ a e, put s.pc i b a ≠ .pushAdded e := by
      intro i b hi hb hn a e ha
      by_cases hai : a = i
      · subst hai; rw [put_self] at ha; exact absurd ha (hb e)
      · rw [put_ne _ _ hai] at ha
        exact hai (c.hold.excl hi (by rw [ha]; rfl))
    cases hs with
    | tick d _ => exact ih
    | pushAdd i v delay h' hp he =>
      intro a e ha
      obtain ⟨h'', e1, e2⟩ := push_ok s.heap ⟨s.next, v, s.clock + delay⟩
      cases he.symm.trans e1
      intro hn
      have hn' : h' = [] := hn
      rw [hn'] at e2
      simpa using e2.length_eq
    | wake i j dl hi hj =>
      intro a e ha
      dsimp only at ha
      have := keep (i := i) (b := .pushUnlock) (by simp)
      by_cases haj : a = j
      · subst haj; rw [put_self] at ha; simp at ha
      · rw [put_ne _ _ haj] at ha; exact this a e ha
    | wakeDrain i j hi hj =>
      intro a e ha
      dsimp only at ha
      have := keep (i := i) (b := .pushUnlock) (by simp)
      by_cases haj : a = j
      · subst haj; rw [put_self] at ha; simp at ha
      · rw [put_ne _ _ haj] at ha; exact this a e ha
    | takePop i e now x h' hp he =>
      intro a e' ha
      exact absurd ha (gone (by rw [hp]; rfl) (by simp) (by rw [hp]; simp) a e')
    | opPop i h' e hp he =>
      intro a e' ha
      exact absurd ha (gone (by rw [hp]; rfl) (by simp) (by rw [hp]; simp) a e')
    | opPopNone i h' hp he =>
      intro a e' ha
      exact absurd ha (gone (by rw [hp]; rfl) (by simp) (by rw [hp]; simp) a e')
    | callPush => exact keep (by simp)
    | pushLock => exact keep (by simp)
    | pushIsHead => exact keep (by simp)
    | pushNotHead => exact keep (by simp)
    | pushCas => exact keep (by simp)
    | pushCasFail => exact keep (by simp)
    | pushUnlock => exact keep (by simp)
    | callTake => exact keep (by simp)
    | takeLock => exact keep (by simp)
    | takeEmpty => exact keep (by simp)
    | takePeek => exact keep (by simp)
    | takeIsDue => exact keep (by simp)
    | takeNotDue => exact keep (by simp)
    | takeReturn => exact keep (by simp)
    | takeStore => exact keep (by simp)
    | takeUnlock => exact keep (by simp)
    | timer => exact keep (by simp)
    | swapWon => exact keep (by simp)
    | swapLost => exact keep (by simp)
    | cancel => exact keep (by simp)
    | callOp => exact keep (by simp)
    | opLock => exact keep (by simp)
    | opRead => exact keep (by simp)
    | opReturn => exact keep (by simp)

/-- **C54 (the mutex is released).** Without cancellation, from every reachable state the holder of the mutex can get rid of
it, at once. -/
theorem C54_released (hk : ¬ k.cancel) {t0 : Int} {s : State V} (h : Reach k t0 s) : Releases k s := by
  have c := cont_reach h
  cases hh : s.holder with
  | none => exact ⟨s, .refl, rfl, hh⟩
  | some i =>
    have hi := (c.hold i).2 hh
    cases hp : s.pc i with
    | pushLocked v delay =>
      obtain ⟨h', e1, e2⟩ := push_ok s.heap ⟨s.next, v, s.clock + delay⟩
      have st := Step.pushAdd (k := k) s i v delay h' hp e1
      refine releases_of st rfl (releases_pushAdded hk (.step h st) (put_self _ _ _) ?_)
      intro hn
      have hn' : h' = [] := hn
      rw [hn'] at e2
      simpa using e2.length_eq
    | pushAdded e => exact releases_pushAdded hk h hp (added_nonempty h i e hp)
    | pushHead => exact releases_pushHead hk h hp
    | pushSend =>
      obtain ⟨s', h1, h2, h3⟩ := C54_gets_through hk h hp
      obtain ⟨t, e1, e2, e3⟩ := releases_pushUnlock (k := k) h3
      exact ⟨t, h1.trans e1, e2.trans h2, e3⟩
    | pushUnlock => exact releases_pushUnlock hp
    | takeLocked =>
      cases he : Heap.empty s.heap with
      | true => exact releases_of (.takeEmpty s i hp he) rfl (releases_takeArm (put_self _ _ _))
      | false =>
        have h0 : ∃ x, s.heap[0]? = some x := by
          cases hx : s.heap with
          | nil => rw [hx] at he; simp [Heap.empty, Heap.len] at he
          | cons x _ => exact ⟨x, rfl⟩
        obtain ⟨x, h0⟩ := h0
        have st := Step.takePeek (k := k) s i x hp he (peek_iff.2 h0)
        exact releases_of st rfl (releases_takePeeked (t0 := t0) (.step h st) (put_self _ _ _))
    | takePeeked e => exact releases_takePeeked h hp
    | takeDue e now =>
      have hk := c.knows i
      rw [hp] at hk
      obtain ⟨h', e1, _⟩ := pop_ok hk.1
      refine releases_of (.takePop _ i e now e h' hp e1) rfl ?_
      exact ⟨_, .step .refl (.takeReturn _ i (put_self _ _ _)), rfl, rfl⟩
    | takeHave => exact ⟨_, .step .refl (.takeReturn _ i hp), rfl, rfl⟩
    | takeArm dl => exact releases_takeArm hp
    | takeArmed dl => exact ⟨_, .step .refl (.takeUnlock _ i dl hp), rfl, rfl⟩
    | opLocked b =>
      cases b with
      | false => exact releases_of (.opRead s i hp) rfl (releases_opUnlock (put_self _ _ _))
      | true =>
        obtain ⟨h', r, e1, _⟩ := C55_pop h s.clock
        cases r with
        | none => exact releases_of (.opPopNone s i h' hp e1) rfl (releases_opUnlock (put_self _ _ _))
        | some e => exact releases_of (.opPop s i h' e hp e1) rfl (releases_opUnlock (put_self _ _ _))
    | opUnlock => exact releases_opUnlock hp
    | idle | pushWait _ _ | takeWait | select _ | fired | drain | opWait _ => rw [hp] at hi; simp [inside] at hi

/-! ### With cancellation -/

/-- Nobody is there to receive. -/
structure Stuck (i : Nat) (s : State V) : Prop where
  hold : Hold s
  send : s.pc i = .pushSend
  none : ∀ j, receiving (s.pc j) = false

theorem stuck_put {s s' : State V} {i j : Nat} {b : Pc V} (h : Stuck i s) (hh : Hold s') (hp : s'.pc = put s.pc j b)
    (hji : j ≠ i) (hb : receiving b = false) : Stuck i s' := by
  refine ⟨hh, ?_, ?_⟩
  · rw [hp, put_ne _ _ (Ne.symm hji)]; exact h.send
  · intro a
    rw [hp]
    by_cases e : a = j
    · subst e; rw [put_self]; exact hb
    · rw [put_ne _ _ e]; exact h.none a

theorem stuck_step {s s' : State V} {i : Nat} (h : Stuck i s) (hs : Step k s s') : Stuck i s' := by
  have hh := hold_step h.hold hs
  have out : ∀ j, s.pc j ≠ .pushSend → inside (s.pc j) = true → False := by
    intro j hj hin
    have := h.hold.excl (i := i) (by rw [h.send]; rfl) hin
    subst this
    exact hj h.send
  have ne : ∀ {j : Nat} {a : Pc V}, s.pc j = a → a ≠ .pushSend → j ≠ i := by
    intro j a hj ha e
    subst e
    exact ha (hj.symm.trans h.send)
  have held : s.holder = some i := (h.hold i).1 (by rw [h.send]; rfl)
  cases hs with
  | tick d _ => exact ⟨hh, h.send, h.none⟩
  | callPush j v delay hp => exact stuck_put h hh rfl (ne hp (by simp)) rfl
  | pushLock j v delay hp hn => rw [held] at hn; simp at hn
  | pushAdd j v delay h' hp he => exact (out j (by rw [hp]; simp) (by rw [hp]; rfl)).elim
  | pushIsHead j e x hp _ _ => exact (out j (by rw [hp]; simp) (by rw [hp]; rfl)).elim
  | pushNotHead j e x hp _ _ => exact (out j (by rw [hp]; simp) (by rw [hp]; rfl)).elim
  | pushCas j hp hsl => exact (out j (by rw [hp]; simp) (by rw [hp]; rfl)).elim
  | pushCasFail j hp _ => exact (out j (by rw [hp]; simp) (by rw [hp]; rfl)).elim
  | wake a j dl hi hj => have := h.none j; rw [hj] at this; simp [receiving] at this
  | wakeDrain a j hi hj => have := h.none j; rw [hj] at this; simp [receiving] at this
  | pushUnlock j hp => exact (out j (by rw [hp]; simp) (by rw [hp]; rfl)).elim
  | callTake j hp _ => exact stuck_put h hh rfl (ne hp (by simp)) rfl
  | takeLock j hp hn => rw [held] at hn; simp at hn
  | takeEmpty j hp _ => exact (out j (by rw [hp]; simp) (by rw [hp]; rfl)).elim
  | takePeek j e hp _ he => exact (out j (by rw [hp]; simp) (by rw [hp]; rfl)).elim
  | takeIsDue j e hp hc => exact (out j (by rw [hp]; simp) (by rw [hp]; rfl)).elim
  | takeNotDue j e hp _ => exact (out j (by rw [hp]; simp) (by rw [hp]; rfl)).elim
  | takePop j e now x h' hp he => exact (out j (by rw [hp]; simp) (by rw [hp]; rfl)).elim
  | takeReturn j hp => exact (out j (by rw [hp]; simp) (by rw [hp]; rfl)).elim
  | takeStore j dl hp => exact (out j (by rw [hp]; simp) (by rw [hp]; rfl)).elim
  | takeUnlock j dl hp => exact (out j (by rw [hp]; simp) (by rw [hp]; rfl)).elim
  | timer j d hp _ => have := h.none j; rw [hp] at this; simp [receiving] at this
  | swapWon j hp hsl => have := h.none j; rw [hp] at this; simp [receiving] at this
  | swapLost j hp hsl => have := h.none j; rw [hp] at this; simp [receiving] at this
  | cancel j dl hc hp => have := h.none j; rw [hp] at this; simp [receiving] at this
  | callOp j b hp => exact stuck_put h hh rfl (ne hp (by simp)) rfl
  | opLock j b hp hn => rw [held] at hn; simp at hn
  | opPop j h' e hp he => exact (out j (by rw [hp]; simp) (by rw [hp]; rfl)).elim
  | opPopNone j h' hp he => exact (out j (by rw [hp]; simp) (by rw [hp]; rfl)).elim
  | opRead j hp => exact (out j (by rw [hp]; simp) (by rw [hp]; rfl)).elim
  | opReturn j hp => exact (out j (by rw [hp]; simp) (by rw [hp]; rfl)).elim

/-- One consumer, whose context may be cancelled. -/
def cancelling : Client := ⟨False, True⟩

/-- **C54 fails with cancellation.** A `Take` on an empty queue is cancelled; then a `Push` finds `sleeping = 1`, sends on
`wakeup` and blocks forever, holding the mutex, so that every other operation blocks forever too: whatever the other
goroutines do, it stays that way. -/
theorem C54_cancel_refuted : ∃ s : State Nat, Reach cancelling 0 s ∧ s.pc 1 = .pushSend ∧
    ∀ (k : Client) (s' : State Nat), From k s s' → s'.pc 1 = .pushSend ∧ s'.holder = some 1 := by
  have r : Reach cancelling 0 (init 0 : State Nat) := .refl
  have r := r.step (.callTake _ 0 rfl (.inr fun j h => h))
  have r := r.step (.takeLock _ 0 rfl rfl)
  have r := r.step (.takeEmpty _ 0 rfl rfl)
  have r := r.step (.takeStore _ 0 none rfl)
  have r := r.step (.takeUnlock _ 0 none rfl)
  have r := r.step (.cancel _ 0 none trivial rfl)
  have r := r.step (.callPush _ 1 7 0 rfl)
  have r := r.step (.pushLock _ 1 7 0 rfl rfl)
  have r := r.step (.pushAdd _ 1 7 0 _ rfl rfl)
  have r := r.step (.pushIsHead _ 1 _ _ rfl rfl rfl)
  have r := r.step (.pushCas _ 1 rfl rfl)
  refine ⟨_, r, rfl, ?_⟩
  intro k s' hf
  have hs : Stuck 1 s' := by
    induction hf with
    | refl =>
      refine ⟨(cont_reach (k := cancelling) (t0 := 0) r).hold, rfl, ?_⟩
      intro j
      by_cases h1 : j = 1
      · subst h1; rfl
      · by_cases h0 : j = 0
        · subst h0; rfl
        · simp [put, h0, h1, init, receiving]
    | step _ hs ih => exact stuck_step ih hs
  exact ⟨hs.send, (hs.hold 1).1 (by rw [hs.send]; rfl)⟩

/-! ## Wakeups are not lost (C53) -/

/-- The timer is early enough for everything in the queue. -/
def Covered (dl : Option Int) (h : List (Entry V)) : Prop := ∀ x ∈ h, ∃ d, dl = some d ∧ d ≤ x.exp

/-- A `Push` has put an entry in and not yet decided whether to wake; everything else is covered. -/
def Deciding (s : State V) (dl : Option Int) : Prop :=
  (∃ i e, s.pc i = .pushAdded e ∧ ∀ x ∈ s.heap, x.id ≠ e.id → ∃ d, dl = some d ∧ d ≤ x.exp) ∨ ∃ i, s.pc i = .pushHead

/-- What holds for a goroutine in `Take` that sleeps or is about to. -/
def Rest (s : State V) : Pc V → Prop
  | .takeArm dl => Covered dl s.heap
  | .takeArmed dl => s.sleeping = true ∧ Covered dl s.heap
  | .select dl => (∃ i, s.pc i = .pushSend) ∨ (s.sleeping = true ∧ (Covered dl s.heap ∨ Deciding s dl))
  | .fired => (∃ i, s.pc i = .pushSend) ∨ s.sleeping = true
  | .drain => ∃ i, s.pc i = .pushSend
  | _ => True

structure Single (s : State V) : Prop where
  cont : Cont s
  one : ∀ i j, inTake (s.pc i) → inTake (s.pc j) → i = j
  rest : ∀ j, Rest s (s.pc j)

/-- The client with one consumer and no cancellation. -/
def single : Client := ⟨False, False⟩

theorem one_put {s : State V} {i : Nat} {b : Pc V} (h : ∀ i j, inTake (s.pc i) → inTake (s.pc j) → i = j)
    (hb : inTake b → inTake (s.pc i)) : ∀ x y, inTake (put s.pc i b x) → inTake (put s.pc i b y) → x = y := by
  intro x y hx hy
  have g : ∀ z, inTake (put s.pc i b z) → inTake (s.pc z) := by
    intro z hz
    by_cases e : z = i
    · subst e; rw [put_self] at hz; exact hb hz
    · rwa [put_ne _ _ e] at hz
  exact h x y (g x hx) (g y hy)

/-- A step of a goroutine that is not in the middle of waking anybody, leaving heap and flag alone, disturbs nobody. -/
theorem rest_keep {s s' : State V} {i : Nat} {b : Pc V} (hp : s'.pc = put s.pc i b) (hh : s'.heap = s.heap)
    (hs : s'.sleeping = s.sleeping) (h1 : s.pc i ≠ .pushSend) (h2 : s.pc i ≠ .pushHead) (h3 : ∀ e, s.pc i ≠ .pushAdded e)
    (p : Pc V) (hr : Rest s p) : Rest s' p := by
  have g : ∀ {q : Pc V}, s.pc i ≠ q → (∃ a, s.pc a = q) → ∃ a, s'.pc a = q := by
    rintro q hq ⟨a, ha⟩
    refine ⟨a, ?_⟩
    rw [hp, put_ne _ _ (fun e => hq (by rw [← e]; exact ha))]
    exact ha
  have gd : ∀ dl, Deciding s dl → Deciding s' dl := by
    rintro dl (⟨a, e, ha, hx⟩ | ha)
    · obtain ⟨a', ha'⟩ := g (h3 e) ⟨a, ha⟩
      exact .inl ⟨a', e, ha', by rw [hh]; exact hx⟩
    · exact .inr (g h2 ha)
  cases p <;> simp only [Rest] at hr ⊢
  case takeArm dl => rw [hh]; exact hr
  case takeArmed dl => rw [hh, hs]; exact hr
  case select dl =>
    rcases hr with hr | ⟨hr1, hr2⟩
    · exact .inl (g h1 hr)
    · refine .inr ⟨by rw [hs]; exact hr1, ?_⟩
      rcases hr2 with hr2 | hr2
      · exact .inl (by rw [hh]; exact hr2)
      · exact .inr (gd dl hr2)
  case fired =>
    rcases hr with hr | hr
    · exact .inl (g h1 hr)
    · exact .inr (by rw [hs]; exact hr)
  case drain => exact g h1 hr

/-- As `rest_keep`, for all goroutines. -/
theorem rest_all {s s' : State V} {i : Nat} {b : Pc V} (h : ∀ j, Rest s (s.pc j)) (hp : s'.pc = put s.pc i b)
    (hh : s'.heap = s.heap) (hs : s'.sleeping = s.sleeping) (h1 : s.pc i ≠ .pushSend) (h2 : s.pc i ≠ .pushHead)
    (h3 : ∀ e, s.pc i ≠ .pushAdded e) (hb : Rest s' b) : ∀ j, Rest s' (s'.pc j) := by
  intro j
  by_cases e : j = i
  · subst e
    rw [hp, put_self]
    exact hb
  · have : s'.pc j = s.pc j := by rw [hp, put_ne _ _ e]
    rw [this]
    exact rest_keep hp hh hs h1 h2 h3 _ (h j)

/-- Positions about which `Rest` says something are in `Take`. -/
theorem rest_of_not_take {s : State V} {p : Pc V} (h : ¬ inTake p) : Rest s p := by
  cases p <;> simp [inTake, Rest] at *

theorem single_step {s s' : State V} (h : Single s) (hs : Step single s s') : Single s' := by
  have hc := cont_step h.cont hs
  have hold := h.cont.hold
  /- nobody else is inside -/
  have alone : ∀ {i : Nat}, inside (s.pc i) = true → ∀ a, inside (s.pc a) = true → a = i := fun hi a ha => hold.excl hi ha
  cases hs with
  | tick d _ =>
    refine ⟨hc, h.one, fun j => ?_⟩
    have := h.rest j
    show Rest _ (s.pc j)
    revert this
    cases s.pc j <;> exact id
  | callPush i v delay hp =>
    exact ⟨hc, one_put h.one (by simp [inTake]), rest_all h.rest rfl rfl rfl (by simp [hp]) (by simp [hp]) (by simp [hp]) trivial⟩
  | pushLock i v delay hp hn =>
    exact ⟨hc, one_put h.one (by simp [inTake]), rest_all h.rest rfl rfl rfl (by simp [hp]) (by simp [hp]) (by simp [hp]) trivial⟩
  | pushAdd i v delay h' hp he =>
    obtain ⟨h'', e1, e2⟩ := push_ok s.heap ⟨s.next, v, s.clock + delay⟩
    cases he.symm.trans e1
    have hin : inside (s.pc i) = true := by rw [hp]; rfl
    have no : ∀ a (q : Pc V), s.pc a = q → inside q = true → s.pc i ≠ q → False := by
      intro a q ha hq hn
      have := alone hin a (by rw [ha]; exact hq)
      subst this
      exact hn ha
    refine ⟨hc, one_put h.one (by simp [inTake]), fun j => ?_⟩
    by_cases e : j = i
    · subst e
      show Rest _ (put s.pc j _ j)
      rw [put_self]
      trivial
    · show Rest _ (put s.pc i _ j)
      rw [put_ne _ _ e]
      have hr := h.rest j
      cases hpj : s.pc j <;> rw [hpj] at hr <;> simp only [Rest] at hr ⊢
      case takeArm dl => exact (no j _ hpj rfl (by rw [hp]; simp)).elim
      case takeArmed dl => exact (no j _ hpj rfl (by rw [hp]; simp)).elim
      case select dl =>
        rcases hr with ⟨a, ha⟩ | ⟨hr1, hr2 | ⟨a, e, ha, _⟩ | ⟨a, ha⟩⟩
        · exact (no a _ ha rfl (by rw [hp]; simp)).elim
        · refine .inr ⟨hr1, .inr (.inl ⟨i, _, put_self _ _ _, ?_⟩)⟩
          intro x hx hid
          have := e2.mem_iff.1 hx
          rcases List.mem_cons.1 this with rfl | hx
          · exact absurd rfl hid
          · exact hr2 x hx
        · exact (no a _ ha rfl (by rw [hp]; simp)).elim
        · exact (no a _ ha rfl (by rw [hp]; simp)).elim
      case fired =>
        rcases hr with ⟨a, ha⟩ | hr
        · exact (no a _ ha rfl (by rw [hp]; simp)).elim
        · exact .inr hr
      case drain =>
        obtain ⟨a, ha⟩ := hr
        exact (no a _ ha rfl (by rw [hp]; simp)).elim
  | pushIsHead i e x hp hx hid =>
    refine ⟨hc, one_put h.one (by simp [inTake]), fun j => ?_⟩
    by_cases ej : j = i
    · subst ej
      show Rest _ (put s.pc j _ j)
      rw [put_self]
      trivial
    · show Rest _ (put s.pc i _ j)
      rw [put_ne _ _ ej]
      have hr := h.rest j
      have g : (∃ a, s.pc a = .pushSend) → ∃ a, put s.pc i .pushHead a = .pushSend := by
        rintro ⟨a, ha⟩
        exact ⟨a, by rw [put_ne _ _ (fun e => by subst e; rw [hp] at ha; simp at ha)]; exact ha⟩
      cases hpj : s.pc j <;> rw [hpj] at hr <;> simp only [Rest] at hr ⊢
      case takeArm dl => exact hr
      case takeArmed dl => exact hr
      case select dl =>
        rcases hr with hr | ⟨hr1, _⟩
        · exact .inl (g hr)
        · exact .inr ⟨hr1, .inr (.inr ⟨i, put_self _ _ _⟩)⟩
      case fired =>
        rcases hr with hr | hr
        · exact .inl (g hr)
        · exact .inr hr
      case drain => exact g hr
  | pushNotHead i e x hp hx hid =>
    have hin : inside (s.pc i) = true := by rw [hp]; rfl
    refine ⟨hc, one_put h.one (by simp [inTake]), fun j => ?_⟩
    by_cases ej : j = i
    · subst ej
      show Rest _ (put s.pc j _ j)
      rw [put_self]
      trivial
    · show Rest _ (put s.pc i _ j)
      rw [put_ne _ _ ej]
      have hr := h.rest j
      have g : (∃ a, s.pc a = .pushSend) → ∃ a, put s.pc i .pushUnlock a = .pushSend := by
        rintro ⟨a, ha⟩
        exact ⟨a, by rw [put_ne _ _ (fun e => by subst e; rw [hp] at ha; simp at ha)]; exact ha⟩
      cases hpj : s.pc j <;> rw [hpj] at hr <;> simp only [Rest] at hr ⊢
      case takeArm dl => exact hr
      case takeArmed dl => exact hr
      case select dl =>
        rcases hr with hr | ⟨hr1, hr2 | ⟨a, e', ha, hx'⟩ | ⟨a, ha⟩⟩
        · exact .inl (g hr)
        · exact .inr ⟨hr1, .inl hr2⟩
        · have := alone hin a (by rw [ha]; rfl)
          subst this
          rw [hp] at ha
          cases ha
          refine .inr ⟨hr1, .inl ?_⟩
          have hx0 := peek_iff.1 hx
          obtain ⟨hxm, hxl⟩ := root_min h.cont.heap hx0
          obtain ⟨d, hd, hle⟩ := hx' x hxm hid
          intro y hy
          exact ⟨d, hd, Int.le_trans hle (hxl y hy)⟩
        · have := alone hin a (by rw [ha]; rfl)
          subst this
          rw [hp] at ha
          simp at ha
      case fired =>
        rcases hr with hr | hr
        · exact .inl (g hr)
        · exact .inr hr
      case drain => exact g hr
  | pushCas i hp hsl =>
    have hin : inside (s.pc i) = true := by rw [hp]; rfl
    refine ⟨hc, one_put h.one (by simp [inTake]), fun j => ?_⟩
    by_cases ej : j = i
    · subst ej
      show Rest _ (put s.pc j _ j)
      rw [put_self]
      trivial
    · show Rest _ (put s.pc i _ j)
      rw [put_ne _ _ ej]
      have hr := h.rest j
      have hout : inside (s.pc j) = false := by
        cases e : inside (s.pc j) with
        | false => rfl
        | true => exact absurd (alone hin j e) ej
      cases hpj : s.pc j <;> rw [hpj] at hr hout <;> simp only [Rest] at hr ⊢
      case takeArm dl => simp [inside] at hout
      case takeArmed dl => simp [inside] at hout
      case select dl => exact .inl ⟨i, put_self _ _ _⟩
      case fired => exact .inl ⟨i, put_self _ _ _⟩
      case drain => exact ⟨i, put_self _ _ _⟩
  | pushCasFail i hp hsl =>
    have hin : inside (s.pc i) = true := by rw [hp]; rfl
    refine ⟨hc, one_put h.one (by simp [inTake]), fun j => ?_⟩
    by_cases ej : j = i
    · subst ej
      show Rest _ (put s.pc j _ j)
      rw [put_self]
      trivial
    · show Rest _ (put s.pc i _ j)
      rw [put_ne _ _ ej]
      have hr := h.rest j
      have hout : inside (s.pc j) = false := by
        cases e : inside (s.pc j) with
        | false => rfl
        | true => exact absurd (alone hin j e) ej
      have no : (∃ a, s.pc a = .pushSend) → False := by
        rintro ⟨a, ha⟩
        exact no_send hold hin (by rw [hp]; simp) a ha
      cases hpj : s.pc j <;> rw [hpj] at hr hout <;> simp only [Rest] at hr ⊢
      case takeArm dl => simp [inside] at hout
      case takeArmed dl => simp [inside] at hout
      case select dl =>
        rcases hr with hr | ⟨hr1, _⟩
        · exact (no hr).elim
        · rw [hsl] at hr1; simp at hr1
      case fired =>
        rcases hr with hr | hr1
        · exact (no hr).elim
        · rw [hsl] at hr1; simp at hr1
      case drain => exact (no hr).elim
  | wake i j dl hi hj =>
    refine ⟨hc, ?_, fun a => ?_⟩
    · have h1 : ∀ a b, inTake (put s.pc i .pushUnlock a) → inTake (put s.pc i .pushUnlock b) → a = b :=
        one_put h.one (by simp [inTake])
      refine one_put (s := { s with pc := put s.pc i .pushUnlock }) h1 ?_
      intro _
      show inTake (put s.pc i .pushUnlock j)
      rw [put_ne _ _ (ne_of_pc hi hj (by simp)), hj]
      trivial
    · by_cases ej : a = j
      · subst ej
        show Rest _ (put _ a _ a)
        rw [put_self]
        trivial
      · show Rest _ (put _ j _ a)
        rw [put_ne _ _ ej]
        apply rest_of_not_take
        by_cases ei : a = i
        · subst ei; rw [put_self]; exact id
        · rw [put_ne _ _ ei]
          intro hin
          exact ej (h.one a j hin (by rw [hj]; trivial))
  | wakeDrain i j hi hj =>
    refine ⟨hc, ?_, fun a => ?_⟩
    · have h1 : ∀ a b, inTake (put s.pc i .pushUnlock a) → inTake (put s.pc i .pushUnlock b) → a = b :=
        one_put h.one (by simp [inTake])
      refine one_put (s := { s with pc := put s.pc i .pushUnlock }) h1 ?_
      intro _
      show inTake (put s.pc i .pushUnlock j)
      rw [put_ne _ _ (ne_of_pc hi hj (by simp)), hj]
      trivial
    · by_cases ej : a = j
      · subst ej
        show Rest _ (put _ a _ a)
        rw [put_self]
        trivial
      · show Rest _ (put _ j _ a)
        rw [put_ne _ _ ej]
        apply rest_of_not_take
        by_cases ei : a = i
        · subst ei; rw [put_self]; exact id
        · rw [put_ne _ _ ei]
          intro hin
          exact ej (h.one a j hin (by rw [hj]; trivial))
  | pushUnlock i hp =>
    exact ⟨hc, one_put h.one (by simp [inTake]), rest_all h.rest rfl rfl rfl (by simp [hp]) (by simp [hp]) (by simp [hp]) trivial⟩
  | callTake i hp hcl =>
    refine ⟨hc, ?_, rest_all h.rest rfl rfl rfl (by simp [hp]) (by simp [hp]) (by simp [hp]) trivial⟩
    have hcl : ∀ j, ¬ inTake (s.pc j) := hcl.resolve_left id
    have g : ∀ z, inTake (put s.pc i .takeWait z) → z = i := by
      intro z hz
      by_cases e : z = i
      · exact e
      · rw [put_ne _ _ e] at hz; exact absurd hz (hcl z)
    intro x y hx hy
    rw [g x hx, g y hy]
  | takeLock i hp hn =>
    exact ⟨hc, one_put h.one (by simp [hp, inTake]),
      rest_all h.rest rfl rfl rfl (by simp [hp]) (by simp [hp]) (by simp [hp]) trivial⟩
  | takeEmpty i hp he =>
    refine ⟨hc, one_put h.one (by simp [hp, inTake]),
      rest_all h.rest rfl rfl rfl (by simp [hp]) (by simp [hp]) (by simp [hp]) ?_⟩
    intro x hx
    have : s.heap = [] := empty_iff.1 he
    rw [this] at hx
    simp at hx
  | takePeek i e hp _ he =>
    exact ⟨hc, one_put h.one (by simp [hp, inTake]),
      rest_all h.rest rfl rfl rfl (by simp [hp]) (by simp [hp]) (by simp [hp]) trivial⟩
  | takeIsDue i e hp _ =>
    exact ⟨hc, one_put h.one (by simp [hp, inTake]),
      rest_all h.rest rfl rfl rfl (by simp [hp]) (by simp [hp]) (by simp [hp]) trivial⟩
  | takeNotDue i e hp _ =>
    refine ⟨hc, one_put h.one (by simp [hp, inTake]),
      rest_all h.rest rfl rfl rfl (by simp [hp]) (by simp [hp]) (by simp [hp]) ?_⟩
    have hk := h.cont.knows i
    rw [hp] at hk
    intro x hx
    have := (root_min h.cont.heap hk).2 x hx
    exact ⟨_, rfl, by omega⟩
  | takePop i e now x h' hp he =>
    refine ⟨hc, one_put h.one (by simp [hp, inTake]), fun j => ?_⟩
    by_cases ej : j = i
    · subst ej
      show Rest _ (put s.pc j _ j)
      rw [put_self]
      trivial
    · show Rest _ (put s.pc i _ j)
      rw [put_ne _ _ ej]
      apply rest_of_not_take
      intro hin
      exact ej (h.one j i hin (by rw [hp]; trivial))
  | takeReturn i hp =>
    exact ⟨hc, one_put h.one (by simp [inTake]), rest_all h.rest rfl rfl rfl (by simp [hp]) (by simp [hp]) (by simp [hp]) trivial⟩
  | takeStore i dl hp =>
    refine ⟨hc, one_put h.one (by simp [hp, inTake]), fun j => ?_⟩
    by_cases ej : j = i
    · subst ej
      show Rest _ (put s.pc j _ j)
      rw [put_self]
      have := h.rest j
      rw [hp] at this
      exact ⟨rfl, this⟩
    · show Rest _ (put s.pc i _ j)
      rw [put_ne _ _ ej]
      apply rest_of_not_take
      intro hin
      exact ej (h.one j i hin (by rw [hp]; trivial))
  | takeUnlock i dl hp =>
    refine ⟨hc, one_put h.one (by simp [hp, inTake]),
      rest_all h.rest rfl rfl rfl (by simp [hp]) (by simp [hp]) (by simp [hp]) ?_⟩
    have := h.rest i
    rw [hp] at this
    exact .inr ⟨this.1, .inl this.2⟩
  | timer i d hp _ =>
    refine ⟨hc, one_put h.one (by simp [hp, inTake]),
      rest_all h.rest rfl rfl rfl (by simp [hp]) (by simp [hp]) (by simp [hp]) ?_⟩
    have := h.rest i
    rw [hp] at this
    rcases this with ⟨a, ha⟩ | ⟨h1, _⟩
    · refine .inl ⟨a, ?_⟩
      show put s.pc i _ a = _
      rw [put_ne _ _ (fun e => by subst e; rw [hp] at ha; simp at ha)]
      exact ha
    · exact .inr h1
  | swapWon i hp hsl =>
    refine ⟨hc, one_put h.one (by simp [hp, inTake]), fun j => ?_⟩
    by_cases ej : j = i
    · subst ej
      show Rest _ (put s.pc j _ j)
      rw [put_self]
      trivial
    · show Rest _ (put s.pc i _ j)
      rw [put_ne _ _ ej]
      apply rest_of_not_take
      intro hin
      exact ej (h.one j i hin (by rw [hp]; trivial))
  | swapLost i hp hsl =>
    refine ⟨hc, one_put h.one (by simp [hp, inTake]),
      rest_all h.rest rfl rfl rfl (by simp [hp]) (by simp [hp]) (by simp [hp]) ?_⟩
    have := h.rest i
    rw [hp] at this
    rcases this with ⟨a, ha⟩ | h1
    · refine ⟨a, ?_⟩
      show put s.pc i _ a = _
      rw [put_ne _ _ (fun e => by subst e; rw [hp] at ha; simp at ha)]
      exact ha
    · rw [hsl] at h1; simp at h1
  | cancel i dl hcc hp => exact hcc.elim
  | callOp i b hp =>
    exact ⟨hc, one_put h.one (by simp [inTake]), rest_all h.rest rfl rfl rfl (by simp [hp]) (by simp [hp]) (by simp [hp]) trivial⟩
  | opLock i b hp hn =>
    exact ⟨hc, one_put h.one (by simp [inTake]), rest_all h.rest rfl rfl rfl (by simp [hp]) (by simp [hp]) (by simp [hp]) trivial⟩
  | opPop i h' e hp he =>
    have hin : inside (s.pc i) = true := by rw [hp]; rfl
    have hsub : ∀ x ∈ h', x ∈ s.heap := by
      rcases popBody_spec h.cont.heap s.clock with ⟨e1, _⟩ | ⟨e', h'', h0, e1, hle, e2, e3⟩
      · rw [e1] at he; simp at he
      · rw [e1] at he
        simp only [Except.ok.injEq, Prod.mk.injEq, Option.some.injEq] at he
        obtain ⟨rfl, rfl⟩ := he
        exact fun x hx => e2.mem_iff.1 (List.mem_cons_of_mem _ hx)
    have no : ∀ a (q : Pc V), s.pc a = q → inside q = true → s.pc i ≠ q → False := by
      intro a q ha hq hn
      have := alone hin a (by rw [ha]; exact hq)
      subst this
      exact hn ha
    refine ⟨hc, one_put h.one (by simp [inTake]), fun j => ?_⟩
    by_cases ej : j = i
    · subst ej
      show Rest _ (put s.pc j _ j)
      rw [put_self]
      trivial
    · show Rest _ (put s.pc i _ j)
      rw [put_ne _ _ ej]
      have hr := h.rest j
      cases hpj : s.pc j <;> rw [hpj] at hr <;> simp only [Rest] at hr ⊢
      case takeArm dl => exact (no j _ hpj rfl (by rw [hp]; simp)).elim
      case takeArmed dl => exact (no j _ hpj rfl (by rw [hp]; simp)).elim
      case select dl =>
        rcases hr with ⟨a, ha⟩ | ⟨hr1, hr2 | ⟨a, e, ha, _⟩ | ⟨a, ha⟩⟩
        · exact (no a _ ha rfl (by rw [hp]; simp)).elim
        · exact .inr ⟨hr1, .inl fun x hx => hr2 x (hsub x hx)⟩
        · exact (no a _ ha rfl (by rw [hp]; simp)).elim
        · exact (no a _ ha rfl (by rw [hp]; simp)).elim
      case fired =>
        rcases hr with ⟨a, ha⟩ | hr
        · exact (no a _ ha rfl (by rw [hp]; simp)).elim
        · exact .inr hr
      case drain =>
        obtain ⟨a, ha⟩ := hr
        exact (no a _ ha rfl (by rw [hp]; simp)).elim
  | opPopNone i h' hp he =>
    rcases popBody_spec h.cont.heap s.clock with ⟨e1, _⟩ | ⟨e', h'', h0, e1, hle, e2, e3⟩
    · rw [e1] at he
      simp only [Except.ok.injEq, Prod.mk.injEq, and_true] at he
      subst he
      exact ⟨hc, one_put h.one (by simp [inTake]), rest_all h.rest rfl rfl rfl (by simp [hp]) (by simp [hp]) (by simp [hp]) trivial⟩
    · rw [e1] at he; simp at he
  | opRead i hp =>
    exact ⟨hc, one_put h.one (by simp [inTake]), rest_all h.rest rfl rfl rfl (by simp [hp]) (by simp [hp]) (by simp [hp]) trivial⟩
  | opReturn i hp =>
    exact ⟨hc, one_put h.one (by simp [inTake]), rest_all h.rest rfl rfl rfl (by simp [hp]) (by simp [hp]) (by simp [hp]) trivial⟩

theorem single_reach {t0 : Int} {s : State V} (h : Reach single t0 s) : Single s := by
  unfold Reach at h
  induction h with
  | refl => exact ⟨cont_init t0, fun i j hi => hi.elim, fun j => trivial⟩
  | step _ hs ih => exact single_step ih hs

/-- **C53 (one consumer).** A consumer that sleeps has a timer that fires no later than the earliest expiration in the queue
(and the queue is empty if it has no timer), or some `Push` is about to wake it: it is sending, or it has not yet looked at
the flag, which is set. -/
theorem C53_awake {t0 : Int} {s : State V} (h : Reach single t0 s) {j : Nat} {dl : Option Int} (hj : s.pc j = .select dl) :
    (∃ i, s.pc i = .pushSend) ∨ (s.sleeping = true ∧ ((∃ i e, s.pc i = .pushAdded e) ∨ ∃ i, s.pc i = .pushHead)) ∨
      (s.sleeping = true ∧ ∀ x ∈ s.heap, ∃ d, dl = some d ∧ d ≤ x.exp) := by
  have := (single_reach h).rest j
  rw [hj] at this
  rcases this with h1 | ⟨h1, h2 | ⟨i, e, hi, _⟩ | h2⟩
  · exact .inl h1
  · exact .inr (.inr ⟨h1, h2⟩)
  · exact .inr (.inl ⟨h1, .inl ⟨i, e, hi⟩⟩)
  · exact .inr (.inl ⟨h1, .inr h2⟩)

/-- In particular when nobody holds the mutex. -/
theorem C53_quiet {t0 : Int} {s : State V} (h : Reach single t0 s) {j : Nat} {dl : Option Int} (hj : s.pc j = .select dl)
    (hn : s.holder = none) : ∀ x ∈ s.heap, ∃ d, dl = some d ∧ d ≤ x.exp := by
  have hold := (single_reach h).cont.hold
  have no : ∀ i, inside (s.pc i) = true → False := by
    intro i hi
    have := (hold i).1 hi
    rw [hn] at this
    simp at this
  rcases C53_awake h hj with ⟨i, hi⟩ | ⟨_, ⟨i, e, hi⟩ | ⟨i, hi⟩⟩ | ⟨_, h2⟩
  · exact (no i (by rw [hi]; rfl)).elim
  · exact (no i (by rw [hi]; rfl)).elim
  · exact (no i (by rw [hi]; rfl)).elim
  · exact h2

/-- A sleeping consumer can deliver as soon as something has expired. -/
theorem C53_delivers {t0 : Int} {s : State V} (h : Reach single t0 s) {j : Nat} {dl : Option Int} (hj : s.pc j = .select dl)
    (hn : s.holder = none) {x : Entry V} (hx : x ∈ s.heap) (hexp : x.exp < s.clock) :
    ∃ s' e, From single s s' ∧ s'.clock = s.clock ∧ s'.delivered = s.delivered ++ [⟨e, s.clock, true⟩] ∧ e.exp ≤ x.exp := by
  have S := single_reach h
  obtain ⟨d, rfl, hd⟩ := C53_quiet h hj hn x hx
  have hsl : s.sleeping = true := by
    have no : ∀ i, inside (s.pc i) = true → False := by
      intro i hi
      have := (S.cont.hold i).1 hi
      rw [hn] at this
      simp at this
    rcases C53_awake h hj with ⟨i, hi⟩ | ⟨h1, _⟩ | ⟨h1, _⟩
    · exact (no i (by rw [hi]; rfl)).elim
    · exact h1
    · exact h1
  have hne : 0 < s.heap.length := List.length_pos_of_mem hx
  have h0 : s.heap[0]? = some s.heap[0] := List.getElem?_eq_getElem hne
  have hmin := (root_min S.cont.heap h0).2 x hx
  obtain ⟨h', e1, _⟩ := pop_ok h0
  have f : From single s s := .refl
  have f := f.step (.timer s j d hj (by omega))
  have f := f.step (.swapWon _ j (put_self _ _ _) hsl)
  have f := f.step (.takeLock _ j (put_self _ _ _) hn)
  have f := f.step (.takePeek _ j s.heap[0] (put_self _ _ _) (by
    cases he : Heap.empty s.heap with
    | false => rfl
    | true => rw [empty_iff.1 he] at hne; simp at hne) (peek_iff.2 h0))
  have f := f.step (.takeIsDue _ j s.heap[0] (put_self _ _ _) (show s.clock > s.heap[0].exp by omega))
  have f := f.step (.takePop _ j s.heap[0] s.clock s.heap[0] h' (put_self _ _ _) e1)
  exact ⟨_, s.heap[0], f, rfl, rfl, hmin⟩

/-! ### Several consumers -/

/-- Nobody is going to wake goroutine 1. -/
structure Lost (s : State V) : Prop where
  sleeps : s.pc 1 = .select none
  flag : s.sleeping = false
  nosend : ∀ i, s.pc i ≠ .pushSend
  notake : ∀ i, i ≠ 1 → ¬ inTake (s.pc i)

theorem lost_put {s s' : State V} {i : Nat} {b : Pc V} (h : Lost s) (hp : s'.pc = put s.pc i b) (hs : s'.sleeping = s.sleeping)
    (hi : s.pc i ≠ .select none) (hb : b ≠ .pushSend) (ht : ¬ inTake b) : Lost s' := by
  have h1 : (1 : Nat) ≠ i := fun e => hi (by rw [← e]; exact h.sleeps)
  refine ⟨by rw [hp, put_ne _ _ h1]; exact h.sleeps, by rw [hs]; exact h.flag, ?_, ?_⟩
  · intro a
    rw [hp]
    by_cases e : a = i
    · subst e; rw [put_self]; exact hb
    · rw [put_ne _ _ e]; exact h.nosend a
  · intro a ha
    rw [hp]
    by_cases e : a = i
    · subst e; rw [put_self]; exact ht
    · rw [put_ne _ _ e]; exact h.notake a ha

theorem lost_step {s s' : State V} (h : Lost s) (hs : Step single s s') : Lost s' := by
  have nt : ∀ {i : Nat} {q : Pc V}, s.pc i = q → inTake q → q ≠ .select none → False := by
    intro i q hq hin hne
    by_cases e : i = 1
    · subst e; exact hne (hq.symm.trans h.sleeps)
    · exact h.notake i e (by rw [hq]; exact hin)
  cases hs with
  | tick d _ => exact ⟨h.sleeps, h.flag, h.nosend, h.notake⟩
  | callPush i v delay hp => exact lost_put h rfl rfl (by simp [hp]) (by simp) id
  | pushLock i v delay hp hn => exact lost_put h rfl rfl (by simp [hp]) (by simp) id
  | pushAdd i v delay h' hp he => exact lost_put h rfl rfl (by simp [hp]) (by simp) id
  | pushIsHead i e x hp _ _ => exact lost_put h rfl rfl (by simp [hp]) (by simp) id
  | pushNotHead i e x hp _ _ => exact lost_put h rfl rfl (by simp [hp]) (by simp) id
  | pushCas i hp hsl => rw [h.flag] at hsl; simp at hsl
  | pushCasFail i hp _ => exact lost_put h rfl rfl (by simp [hp]) (by simp) id
  | wake i j dl hi hj => exact absurd hi (h.nosend i)
  | wakeDrain i j hi hj => exact absurd hi (h.nosend i)
  | pushUnlock i hp => exact lost_put h rfl rfl (by simp [hp]) (by simp) id
  | callTake i hp hcl => exact absurd (show inTake (s.pc 1) by rw [h.sleeps]; trivial) (hcl.resolve_left id 1)
  | takeLock i hp hn => exact (nt hp trivial (by simp)).elim
  | takeEmpty i hp _ => exact (nt hp trivial (by simp)).elim
  | takePeek i e hp _ he => exact (nt hp trivial (by simp)).elim
  | takeIsDue i e hp hc => exact (nt hp trivial (by simp)).elim
  | takeNotDue i e hp _ => exact (nt hp trivial (by simp)).elim
  | takePop i e now x h' hp he => exact (nt hp trivial (by simp)).elim
  | takeReturn i hp => exact (nt hp trivial (by simp)).elim
  | takeStore i dl hp => exact (nt hp trivial (by simp)).elim
  | takeUnlock i dl hp => exact (nt hp trivial (by simp)).elim
  | timer i d hp _ => exact (nt hp trivial (by simp)).elim
  | swapWon i hp hsl => exact (nt hp trivial (by simp)).elim
  | swapLost i hp hsl => exact (nt hp trivial (by simp)).elim
  | cancel i dl hc hp => exact hc.elim
  | callOp i b hp => exact lost_put h rfl rfl (by simp [hp]) (by simp) id
  | opLock i b hp hn => exact lost_put h rfl rfl (by simp [hp]) (by simp) id
  | opPop i h' e hp he => exact lost_put h rfl rfl (by simp [hp]) (by simp) id
  | opPopNone i h' hp he => exact lost_put h rfl rfl (by simp [hp]) (by simp) id
  | opRead i hp => exact lost_put h rfl rfl (by simp [hp]) (by simp) id
  | opReturn i hp => exact lost_put h rfl rfl (by simp [hp]) (by simp) id

/-- Several consumers, no cancellation. -/
def several : Client := ⟨True, False⟩

/-- **C53 fails with two consumers.** Both sleep on an empty queue; a `Push` wakes the first, which sleeps again, is woken by
its timer (clearing the flag that also stood for the second), takes the entry and goes away. Then the second sleeps
without a timer although there is an expired entry, and whatever is pushed or popped later, it is never woken. -/
theorem C53_several_refuted : ∃ s : State Nat, Reach several 0 s ∧ (∃ x ∈ s.heap, x.exp < s.clock) ∧ s.holder = none ∧
    ∀ s', From single s s' → s'.pc 1 = .select none := by
  have r : Reach several 0 (init 0 : State Nat) := .refl
  have r := r.step (.callTake _ 0 rfl (.inl trivial))
  have r := r.step (.takeLock _ 0 rfl rfl)
  have r := r.step (.takeEmpty _ 0 rfl rfl)
  have r := r.step (.takeStore _ 0 none rfl)
  have r := r.step (.takeUnlock _ 0 none rfl)
  have r := r.step (.callTake _ 1 rfl (.inl trivial))
  have r := r.step (.takeLock _ 1 rfl rfl)
  have r := r.step (.takeEmpty _ 1 rfl rfl)
  have r := r.step (.takeStore _ 1 none rfl)
  have r := r.step (.takeUnlock _ 1 none rfl)
  have r := r.step (.callPush _ 2 7 0 rfl)
  have r := r.step (.pushLock _ 2 7 0 rfl rfl)
  have r := r.step (.pushAdd _ 2 7 0 _ rfl rfl)
  have r := r.step (.pushIsHead _ 2 _ _ rfl rfl rfl)
  have r := r.step (.pushCas _ 2 rfl rfl)
  have r := r.step (.wake _ 2 0 none rfl rfl)
  have r := r.step (.pushUnlock _ 2 rfl)
  have r := r.step (.takeLock _ 0 rfl rfl)
  have r := r.step (.takePeek _ 0 _ rfl rfl rfl)
  have r := r.step (.takeNotDue _ 0 _ rfl (by decide))
  have r := r.step (.takeStore _ 0 _ rfl)
  have r := r.step (.takeUnlock _ 0 _ rfl)
  have r := r.step (.tick _ 1 (by decide))
  have r := r.step (.timer _ 0 _ rfl (by decide))
  have r := r.step (.swapWon _ 0 rfl rfl)
  have r := r.step (.takeLock _ 0 rfl rfl)
  have r := r.step (.takePeek _ 0 _ rfl rfl rfl)
  have r := r.step (.takeIsDue _ 0 _ rfl (by decide))
  have r := r.step (.takePop _ 0 _ _ _ _ rfl rfl)
  have r := r.step (.takeReturn _ 0 rfl)
  have r := r.step (.callPush _ 2 8 0 rfl)
  have r := r.step (.pushLock _ 2 8 0 rfl rfl)
  have r := r.step (.pushAdd _ 2 8 0 _ rfl rfl)
  have r := r.step (.pushIsHead _ 2 _ _ rfl rfl rfl)
  have r := r.step (.pushCasFail _ 2 rfl rfl)
  have r := r.step (.pushUnlock _ 2 rfl)
  have r := r.step (.tick _ 1 (by decide))
  refine ⟨_, r, ⟨_, List.mem_cons_self .., by decide⟩, rfl, ?_⟩
  intro s' hf
  have hl : Lost s' := by
    induction hf with
    | refl =>
      refine ⟨rfl, rfl, ?_, ?_⟩
      · intro i
        by_cases h0 : i = 0
        · subst h0; simp [put]
        by_cases h1 : i = 1
        · subst h1; simp [put]
        by_cases h2 : i = 2
        · subst h2; simp [put]
        simp [put, h0, h1, h2, init]
      · intro i h1
        by_cases h0 : i = 0
        · subst h0; exact id
        by_cases h2 : i = 2
        · subst h2; exact id
        simp [put, h0, h1, h2, init, inTake]
    | step _ hs ih => exact lost_step ih hs
  exact hl.sleeps

/-! ## A run with deliveries -/

/-- Two entries pushed, the one that expires first is delivered first. -/
example : ∃ s : State Nat, Reach single 0 s ∧ s.delivered.map (·.entry.value) = [8, 7] := by
  have r : Reach single 0 (init 0 : State Nat) := .refl
  have r := r.step (.callPush _ 2 7 5 rfl)
  have r := r.step (.pushLock _ 2 7 5 rfl rfl)
  have r := r.step (.pushAdd _ 2 7 5 _ rfl rfl)
  have r := r.step (.pushIsHead _ 2 _ _ rfl rfl rfl)
  have r := r.step (.pushCasFail _ 2 rfl rfl)
  have r := r.step (.pushUnlock _ 2 rfl)
  have r := r.step (.callPush _ 2 8 3 rfl)
  have r := r.step (.pushLock _ 2 8 3 rfl rfl)
  have r := r.step (.pushAdd _ 2 8 3 _ rfl rfl)
  have r := r.step (.pushIsHead _ 2 _ _ rfl rfl rfl)
  have r := r.step (.pushCasFail _ 2 rfl rfl)
  have r := r.step (.pushUnlock _ 2 rfl)
  have r := r.step (.tick _ 4 (by decide))
  have r := r.step (.callTake _ 0 rfl (.inr fun j h => by
    by_cases h2 : j = 2
    · subst h2; exact h
    · simp [put, h2, init, inTake] at h))
  have r := r.step (.takeLock _ 0 rfl rfl)
  have r := r.step (.takePeek _ 0 _ rfl rfl rfl)
  have r := r.step (.takeIsDue _ 0 _ rfl (by decide))
  have r := r.step (.takePop _ 0 _ _ _ _ rfl rfl)
  have r := r.step (.takeReturn _ 0 rfl)
  have r := r.step (.tick _ 1 (by decide))
  have r := r.step (.callOp _ 0 true rfl)
  have r := r.step (.opLock _ 0 true rfl rfl)
  have r := r.step (.opPop _ 0 _ _ rfl rfl)
  exact ⟨_, r, rfl⟩

end Verif.DelayQueue
