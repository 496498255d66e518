import Verif.Model.HandleMem
import Verif.Props.Reap
import Verif.Props.Meap

/-!
# Property C187: what the arrays behind `Reap` and `Meap` keep alive
-/

namespace Verif

namespace Spec

/-- How the cells behind a slice change: not at all; an element is cut off and stays in its cell; `append` uses the first cell; `append` finds none and moves everything to a
new array. -/
inductive Cells {C : Type} : List (Option C) → Option (Option C) → List (Option C) → Prop where
  | same (st : List (Option C)) : Cells st none st
  | cut (c : C) (st : List (Option C)) : Cells st (some (some c)) (some c :: st)
  | reuse (c : Option C) (st : List (Option C)) : Cells (c :: st) (some none) st
  | move (n : Nat) : Cells [] (some none) (List.replicate n none)

/-- One call on the handle heap, with the cells: the handle that stops being live is the one that stays in a cell. -/
inductive HeldStep {T : Type} : HandleBag T × List (Option Nat) → HandleOp T → HandleOut T → HandleBag T × List (Option Nat) → Prop where
  | push (b : HandleBag T) (st st' : List (Option Nat)) (v : T) (h : Cells st (some none) st') :
      HeldStep (b, st) (.push v) (.handle b.next) ({ (b.set b.next (some v)) with next := b.next + 1 }, st')
  | pop (b : HandleBag T) (st : List (Option Nat)) (e : Nat) (v : T) (h : b.live e = some v) :
      HeldStep (b, st) .pop (.val v) (b.set e none, some e :: st)
  | peek (b : HandleBag T) (st : List (Option Nat)) (e : Nat) (v : T) (h : b.live e = some v) : HeldStep (b, st) .peek (.val v) (b, st)
  | remove (b : HandleBag T) (st : List (Option Nat)) (e : Nat) (h : (b.live e).isSome) :
      HeldStep (b, st) (.remove e) (.flag true) (b.set e none, some e :: st)
  | removeDead (b : HandleBag T) (st : List (Option Nat)) (e : Nat) (h : b.live e = none) : HeldStep (b, st) (.remove e) (.flag false) (b, st)
  | set (b : HandleBag T) (st : List (Option Nat)) (e : Nat) (v : T) (h : (b.live e).isSome) :
      HeldStep (b, st) (.setValue e v) (.flag true) (b.set e (some v), st)
  | setDead (b : HandleBag T) (st : List (Option Nat)) (e : Nat) (v : T) (h : b.live e = none) : HeldStep (b, st) (.setValue e v) (.flag false) (b, st)

/-- One call on the map heap, with the cells: what stays is the key with the value it had. -/
inductive MapHeldStep {K V : Type} [DecidableEq K] :
    (K → Option V) × List (Option (K × V)) → MapHeapOp K V → MapHeapOut K V → (K → Option V) × List (Option (K × V)) → Prop where
  | push (f : K → Option V) (st st' : List (Option (K × V))) (k : K) (v : V) (h : f k = none) (hc : Cells st (some none) st') :
      MapHeldStep (f, st) (.push k v) .unit (mapSet f k (some v), st')
  | pushOver (f : K → Option V) (st : List (Option (K × V))) (k : K) (v : V) (h : (f k).isSome) :
      MapHeldStep (f, st) (.push k v) .unit (mapSet f k (some v), st)
  | pop (f : K → Option V) (st : List (Option (K × V))) (e : K × V) (h : f e.1 = some e.2) :
      MapHeldStep (f, st) .pop (.entry e) (mapSet f e.1 none, some e :: st)
  | peek (f : K → Option V) (st : List (Option (K × V))) (e : K × V) (h : f e.1 = some e.2) : MapHeldStep (f, st) .peek (.entry e) (f, st)
  | remove (f : K → Option V) (st : List (Option (K × V))) (k : K) (v : V) (h : f k = some v) :
      MapHeldStep (f, st) (.remove k) .unit (mapSet f k none, some (k, v) :: st)
  | removeNot (f : K → Option V) (st : List (Option (K × V))) (k : K) (h : f k = none) : MapHeldStep (f, st) (.remove k) .unit (f, st)
  | look (f : K → Option V) (st : List (Option (K × V))) (op : MapHeapOp K V) (out : MapHeapOut K V)
      (h : (∃ k, op = .get k) ∨ (∃ k, op = .contains k) ∨ op = .len) : MapHeldStep (f, st) op out (f, st)

end Spec

namespace Reap

variable {T : Type}

theorem pushM_eq (lt : T → T → Bool) (room : Nat → Nat) {m : Mem T} {v : T} {s' : State T} {e : Nat} (h : push lt m.s v = .ok (s', e)) :
    ∃ t, pushM lt room m v = .ok (⟨s', t⟩, e) ∧ Spec.Cells m.tail (some none) t := by
  unfold push at h
  dsimp only at h
  unfold pushM pushRawM
  dsimp only
  cases hu : Heap.up (ops lt) (pushRaw m.s v).1 ((pushRaw m.s v).1.h.length - 1) with
  | error x => rw [hu] at h; cases h
  | ok s1 =>
    rw [hu] at h
    cases h
    refine ⟨_, rfl, ?_⟩
    cases m.tail with
    | nil => exact .move _
    | cons c t => exact .reuse c t

theorem popRawM_eq {s : State T} (w : WF s) (t : List (Option Nat)) {h' : List Nat} {p : Nat} (hh : s.h = h' ++ [p]) :
    ∃ s' v, popRaw s = .ok (s', v) ∧ popRawM ⟨s, t⟩ = .ok (⟨s', some p :: t⟩, v) := by
  obtain ⟨s', v, e, -⟩ := popRaw_spec w hh
  have hlast : Go.idx s.h (s.h.length - 1) = .ok p := by simp [Go.idx, hh]
  refine ⟨s', v, e, ?_⟩
  unfold popRawM
  dsimp only
  rw [hlast, Go.bind_ok, e]
  rfl

theorem popM_eq (lt : T → T → Bool) {m : Mem T} (w : WF m.s) (hne : 0 < m.s.h.length) :
    ∃ s' v, pop lt m.s = .ok (s', v) ∧ popM lt m = .ok (⟨s', some m.s.h[0] :: m.tail⟩, v) := by
  obtain ⟨h', e, p, -⟩ := Heap.popPrep_spec (cmp lt (vals m.s)) m.s.h hne
  obtain ⟨s1, e1, ⟨w1, hv1⟩, hφ⟩ := (Heap.popPrep_sim (opsSim lt (vals m.s)) m.s (m.s.h.length - 1) ⟨w, rfl⟩).of_ok e
  obtain ⟨s', v, e2, e3⟩ := popRawM_eq w1 m.tail hφ
  have h1 : pop lt m.s = (Heap.popPrep (ops lt) m.s (m.s.h.length - 1) >>= popRaw) := by
    unfold pop Heap.popPrep
    simp only [ops]
    cases swap m.s 0 (m.s.h.length - 1) with
    | error e => rfl
    | ok s2 =>
      simp only [Go.bind_ok]
      cases Heap.down (⟨less lt, swap⟩ : Heap.Ops (State T)) s2 0 (m.s.h.length - 1) <;> rfl
  have h2 : popM lt m = (Heap.popPrep (ops lt) m.s (m.s.h.length - 1) >>= fun s => popRawM ⟨s, m.tail⟩) := by
    unfold popM Heap.popPrep
    simp only [ops]
    cases swap m.s 0 (m.s.h.length - 1) with
    | error e => rfl
    | ok s2 =>
      simp only [Go.bind_ok]
      cases Heap.down (⟨less lt, swap⟩ : Heap.Ops (State T)) s2 0 (m.s.h.length - 1) <;> rfl
  exact ⟨s', v, by rw [h1, e1]; exact e2, by rw [h2, e1]; exact e3⟩

theorem removeM_eq (lt : T → T → Bool) {m : Mem T} (w : WF m.s) {p : Nat} (hp : p ∈ m.s.h) :
    ∃ s', remove lt m.s p = .ok (s', true) ∧ removeM lt m p = .ok (⟨s', some p :: m.tail⟩, true) := by
  obtain ⟨k, hk⟩ := List.getElem?_of_mem hp
  obtain ⟨e, he, hidx⟩ := w.fwd k _ hk
  have hkl : k < m.s.h.length := by rw [List.getElem?_eq_some_iff] at hk; exact hk.1
  have hkp : m.s.h[k] = p := by rw [List.getElem?_eq_getElem hkl] at hk; exact Option.some.inj hk
  obtain ⟨h', e0, pm, -⟩ := Heap.removeAt_spec (cmp lt (vals m.s)) m.s.h k hkl
  obtain ⟨s1, e1, ⟨w1, hv1⟩, hφ⟩ := (Heap.removeAt_sim (opsSim lt (vals m.s)) m.s m.s.h.length k ⟨w, rfl⟩).of_ok e0
  obtain ⟨s', v, e2, e3⟩ := popRawM_eq w1 m.tail hφ
  refine ⟨s', ?_, ?_⟩
  · unfold remove
    rw [deref_ok he]
    simp only [Go.bind_ok]
    rw [if_neg (by omega), hidx, Int.toNat_natCast, e1]
    simp only [Go.bind_ok, e2]; rfl
  · unfold removeM
    rw [deref_ok he]
    simp only [Go.bind_ok]
    rw [if_neg (by omega), hidx, Int.toNat_natCast, e1]
    simp only [Go.bind_ok, e3, hkp]; rfl

theorem mem_iff {s : State T} (w : WF s) (p : Nat) : p ∈ s.h ↔ ((abs s).live p).isSome := by
  refine ⟨fun h => ?_, mem_of_live⟩
  obtain ⟨v, -, hl⟩ := live_of_mem w h
  simp [hl]

/-- One call with its cells. -/
theorem stepM_held (lt : T → T → Bool) (room : Nat → Nat) {m m' : Mem T} (w : WF m.s) {op : HandleOp T} {out : HandleOut T}
    (e : stepM lt room m op = .ok (m', out)) :
    step lt m.s op = .ok (m'.s, out) ∧ WF m'.s ∧ Spec.HeldStep (abs m.s, m.tail) op out (abs m'.s, m'.tail) := by
  cases op with
  | push v =>
    obtain ⟨s1, e1, w1, ha, -⟩ := push_spec lt w v
    obtain ⟨t, e2, ht⟩ := pushM_eq lt room e1
    simp only [stepM, e2, Go.bind_ok, Go.pure_eq, Except.ok.injEq, Prod.mk.injEq] at e
    obtain ⟨rfl, rfl⟩ := e
    refine ⟨by simp only [step, e1]; rfl, w1, ?_⟩
    dsimp only
    rw [ha]
    exact .push (abs m.s) _ _ v ht
  | pop =>
    by_cases hne : 0 < m.s.h.length
    · obtain ⟨s1, v, e1, w1, hv, ha, -⟩ := pop_spec lt w hne
      obtain ⟨s2, v2, e2, e3⟩ := popM_eq lt w hne
      rw [e1] at e2
      cases e2
      simp only [stepM, e3, Go.bind_ok, Go.pure_eq, Except.ok.injEq, Prod.mk.injEq] at e
      obtain ⟨rfl, rfl⟩ := e
      refine ⟨by simp only [step, e1]; rfl, w1, ?_⟩
      dsimp only
      rw [ha]
      exact .pop _ _ _ v (by simp [abs, hv])
    · have : m.s.h = [] := List.length_eq_zero_iff.1 (by omega)
      simp [stepM, popM, swap, Heap.swap, this, Go.idx] at e
  | peek =>
    by_cases hne : 0 < m.s.h.length
    · obtain ⟨v, e1, hv⟩ := peek_spec w hne
      simp only [stepM, e1, Go.bind_ok, Go.pure_eq, Except.ok.injEq, Prod.mk.injEq] at e
      obtain ⟨rfl, rfl⟩ := e
      exact ⟨by simp only [step, e1]; rfl, w, .peek _ _ _ v hv⟩
    · have : m.s.h = [] := List.length_eq_zero_iff.1 (by omega)
      simp [stepM, peek, this, Go.idx] at e
  | remove p =>
    by_cases hp : p ∈ m.s.h
    · obtain ⟨s1, e1, w1, ha, -⟩ := remove_spec lt w hp
      obtain ⟨s2, e2, e3⟩ := removeM_eq lt w hp
      rw [e1] at e2
      cases e2
      simp only [stepM, e3, Go.bind_ok, Go.pure_eq, Except.ok.injEq, Prod.mk.injEq] at e
      obtain ⟨rfl, rfl⟩ := e
      refine ⟨by simp only [step, e1]; rfl, w1, ?_⟩
      dsimp only
      rw [ha]
      exact .remove _ _ p ((mem_iff w p).1 hp)
    · simp only [stepM, removeM] at e
      cases he : m.s.ents[p]? with
      | none => simp [deref, he] at e
      | some ent =>
        simp only [deref_ok he, Go.bind_ok, dead_index w he hp, if_true, Go.pure_eq, Except.ok.injEq, Prod.mk.injEq] at e
        obtain ⟨rfl, rfl⟩ := e
        exact ⟨by simp [step, remove, deref_ok he, dead_index w he hp], w, .removeDead _ _ p (by simp [abs, hp])⟩
  | setValue p v =>
    by_cases hp : p ∈ m.s.h
    · obtain ⟨s1, e1, w1, ha, -⟩ := setValue_spec lt w v hp
      simp only [stepM, e1, Go.bind_ok, Go.pure_eq, Except.ok.injEq, Prod.mk.injEq] at e
      obtain ⟨rfl, rfl⟩ := e
      refine ⟨by simp only [step, e1]; rfl, w1, ?_⟩
      dsimp only
      rw [ha]
      exact .set _ _ p v ((mem_iff w p).1 hp)
    · simp only [stepM, setValue] at e
      cases he : m.s.ents[p]? with
      | none => simp [deref, he] at e
      | some ent =>
        simp only [deref_ok he, Go.bind_ok, dead_index w he hp, if_true, Go.pure_eq, Except.ok.injEq, Prod.mk.injEq] at e
        obtain ⟨rfl, rfl⟩ := e
        exact ⟨by simp [step, setValue, deref_ok he, dead_index w he hp], w, .setDead _ _ p v (by simp [abs, hp])⟩

theorem runM_cons {lt : T → T → Bool} {room : Nat → Nat} {m m' : Mem T} {op : HandleOp T} {ops : List (HandleOp T)} {outs : List (HandleOut T)}
    (e : runM lt room m (op :: ops) = .ok (m', outs)) :
    ∃ m1 out outs', stepM lt room m op = .ok (m1, out) ∧ runM lt room m1 ops = .ok (m', outs') ∧ outs = out :: outs' := by
  unfold runM at e
  cases hs : stepM lt room m op with
  | error x => rw [hs] at e; cases e
  | ok r =>
    obtain ⟨m1, out⟩ := r
    rw [hs, Go.bind_ok] at e
    dsimp only at e
    cases hr : runM lt room m1 ops with
    | error x => rw [hr] at e; cases e
    | ok r =>
      obtain ⟨m2, outs'⟩ := r
      rw [hr] at e
      cases e
      exact ⟨m1, out, outs', rfl, hr, rfl⟩

theorem runM_held (lt : T → T → Bool) (room : Nat → Nat) : ∀ (ops : List (HandleOp T)) (m m' : Mem T) (outs : List (HandleOut T)), WF m.s →
    runM lt room m ops = .ok (m', outs) →
    run lt m.s ops = .ok (m'.s, outs) ∧ WF m'.s ∧ Hist Spec.HeldStep (abs m.s, m.tail) ops outs (abs m'.s, m'.tail)
  | [], m, m', outs, w, e => by
    unfold runM at e
    cases e
    exact ⟨rfl, w, .nil _⟩
  | op :: ops, m, m', outs, w, e => by
    obtain ⟨m1, out, outs', h1, h2, rfl⟩ := runM_cons e
    obtain ⟨a1, a2, a3⟩ := stepM_held lt room w h1
    obtain ⟨b1, b2, b3⟩ := runM_held lt room ops m1 m' outs' a2 h2
    refine ⟨?_, b2, .cons a3 b3⟩
    unfold run
    rw [a1, Go.bind_ok]
    dsimp only
    rw [b1]
    rfl

/-- **C187** For every comparator, growth policy and history on a new `Reap`, the calls give what they give without memory, and the cells of the array behind the heap hold the handles that were
popped or removed and whose cells no push has used since, the last one first. -/
theorem C187_reap_cells (lt : T → T → Bool) (room : Nat → Nat) {ops : List (HandleOp T)} {m : Mem T} {outs : List (HandleOut T)}
    (e : runM lt room (newM T) ops = .ok (m, outs)) :
    run lt (new T) ops = .ok (m.s, outs) ∧ Hist Spec.HeldStep (⟨0, fun _ => none⟩, []) ops outs (abs m.s, m.tail) := by
  obtain ⟨a, -, c⟩ := runM_held lt room ops (newM T) m outs (wf_new T) e
  refine ⟨a, ?_⟩
  have h := c
  rw [show abs (newM T).s = ⟨0, fun _ => none⟩ from abs_new] at h
  exact h

/-- The memory never changes whether a call succeeds. -/
theorem C187_reap_goes_on (lt : T → T → Bool) (room : Nat → Nat) {m : Mem T} (w : WF m.s) {op : HandleOp T} {s' : State T} {out : HandleOut T}
    (e : step lt m.s op = .ok (s', out)) : ∃ t, stepM lt room m op = .ok (⟨s', t⟩, out) := by
  cases op with
  | push v =>
    obtain ⟨s1, e1, -⟩ := push_spec lt w v
    obtain ⟨t, e2, -⟩ := pushM_eq lt room e1
    simp only [step, e1, Go.bind_ok, Go.pure_eq, Except.ok.injEq, Prod.mk.injEq] at e
    obtain ⟨rfl, rfl⟩ := e
    exact ⟨t, by simp only [stepM, e2]; rfl⟩
  | pop =>
    by_cases hne : 0 < m.s.h.length
    · obtain ⟨s2, v2, e2, e3⟩ := popM_eq lt w hne
      simp only [step, e2, Go.bind_ok, Go.pure_eq, Except.ok.injEq, Prod.mk.injEq] at e
      obtain ⟨rfl, rfl⟩ := e
      exact ⟨_, by simp only [stepM, e3]; rfl⟩
    · have : m.s.h = [] := List.length_eq_zero_iff.1 (by omega)
      simp [step, pop, swap, Heap.swap, this, Go.idx] at e
  | peek =>
    simp only [step] at e
    cases hp : peek m.s with
    | error x => rw [hp] at e; cases e
    | ok v =>
      rw [hp] at e
      cases e
      exact ⟨m.tail, by simp only [stepM, hp]; rfl⟩
  | remove p =>
    by_cases hp : p ∈ m.s.h
    · obtain ⟨s2, e2, e3⟩ := removeM_eq lt w hp
      simp only [step, e2, Go.bind_ok, Go.pure_eq, Except.ok.injEq, Prod.mk.injEq] at e
      obtain ⟨rfl, rfl⟩ := e
      exact ⟨_, by simp only [stepM, e3]; rfl⟩
    · simp only [step, remove] at e
      cases he : m.s.ents[p]? with
      | none => simp [deref, he] at e
      | some ent =>
        simp only [deref_ok he, Go.bind_ok, dead_index w he hp, if_true, Go.pure_eq, Except.ok.injEq, Prod.mk.injEq] at e
        obtain ⟨rfl, rfl⟩ := e
        exact ⟨m.tail, by simp [stepM, removeM, deref_ok he, dead_index w he hp]⟩
  | setValue p v =>
    simp only [step] at e
    cases hp : setValue lt m.s p v with
    | error x => rw [hp] at e; cases e
    | ok r =>
      rw [hp] at e
      cases e
      exact ⟨m.tail, by simp only [stepM, hp]; rfl⟩

/-- Handles in cells are dead and were given out, and no handle is in two cells. -/
structure Kept (x : HandleBag T × List (Option Nat)) : Prop where
  dead : ∀ p, some p ∈ x.2 → x.1.live p = none ∧ p < x.1.next
  out : ∀ p, (x.1.live p).isSome → p < x.1.next
  nodup : (x.2.filterMap fun c => c).Nodup

theorem mem_kept {st : List (Option Nat)} {p : Nat} : p ∈ (st.filterMap fun c => c) ↔ some p ∈ st := by
  rw [List.mem_filterMap]
  exact ⟨fun ⟨a, h, e⟩ => e ▸ h, fun h => ⟨_, h, rfl⟩⟩

theorem Kept.cut {b : HandleBag T} {st : List (Option Nat)} (k : Kept (b, st)) {e : Nat} (h : (b.live e).isSome) : Kept (b.set e none, some e :: st) := by
  refine ⟨fun p hp => ?_, fun p hp => ?_, ?_⟩
  · rcases List.mem_cons.1 hp with hp | hp
    · cases hp
      exact ⟨if_pos rfl, k.out e h⟩
    · obtain ⟨a, c⟩ := k.dead p hp
      refine ⟨?_, c⟩
      show (if p = e then none else b.live p) = none
      split
      · rfl
      · exact a
  · by_cases hpe : p = e
    · subst hpe; exact k.out p h
    · refine k.out p ?_
      have : (b.set e none).live p = b.live p := if_neg hpe
      rw [this] at hp
      exact hp
  · show (e :: st.filterMap fun c => c).Nodup
    refine List.nodup_cons.2 ⟨fun hm => ?_, k.nodup⟩
    have := (k.dead e (mem_kept.1 hm)).1
    dsimp only at this
    rw [this] at h
    cases h

theorem Kept.step {x y : HandleBag T × List (Option Nat)} {op : HandleOp T} {out : HandleOut T} (k : Kept x) (h : Spec.HeldStep x op out y) : Kept y := by
  cases h with
  | push b st st' v hc =>
    have sub : st'.filterMap (fun c => c) <:+ st.filterMap (fun c => c) := by
      cases hc with
      | reuse c => cases c with
        | none => exact List.suffix_refl _
        | some c => exact List.suffix_cons _ _
      | move n =>
        have : (List.replicate n (none : Option Nat)).filterMap (fun c => c) = [] := by
          rw [List.filterMap_eq_nil_iff]
          intro a ha
          exact List.eq_of_mem_replicate ha
        rw [this]
        exact List.nil_suffix
    refine ⟨fun p hp => ?_, fun p hp => ?_, k.nodup.sublist sub.sublist⟩
    · obtain ⟨a, c⟩ := k.dead p (mem_kept.1 (sub.subset (mem_kept.2 hp)))
      dsimp only at a c
      refine ⟨?_, Nat.lt_succ_of_lt c⟩
      show (if p = b.next then some v else b.live p) = none
      rw [if_neg (by omega)]
      exact a
    · show p < b.next + 1
      by_cases hpe : p = b.next
      · omega
      · have h1 : ((if p = b.next then some v else b.live p)).isSome := hp
        rw [if_neg hpe] at h1
        exact Nat.lt_succ_of_lt (k.out p h1)
  | pop b st e v h => exact k.cut (by rw [h]; rfl)
  | peek b st e v h => exact k
  | remove b st e h => exact k.cut h
  | removeDead b st e h => exact k
  | set b st e v h =>
    refine ⟨fun p hp => ?_, fun p hp => ?_, k.nodup⟩
    · obtain ⟨a, c⟩ := k.dead p hp
      dsimp only at a
      refine ⟨?_, c⟩
      show (if p = e then some v else b.live p) = none
      rw [if_neg]
      · exact a
      · rintro rfl
        rw [a] at h
        cases h
    · by_cases hpe : p = e
      · subst hpe; exact k.out p h
      · have h1 : ((if p = e then some v else b.live p)).isSome := hp
        rw [if_neg hpe] at h1
        exact k.out p h1
  | setDead b st e v h => exact k

theorem Kept.hist {x y : HandleBag T × List (Option Nat)} {ops : List (HandleOp T)} {outs : List (HandleOut T)} (h : Hist Spec.HeldStep x ops outs y) :
    Kept x → Kept y := by
  induction h with
  | nil => exact id
  | cons h1 _ ih => exact fun k => ih (k.step h1)

/-- **C187** Whatever is called, a cell behind the heap holds nothing, or a handle that was given out and is not in the heap any more; no handle is there twice, and the handles in the heap are not
among them. -/
theorem C187_reap_only (lt : T → T → Bool) (room : Nat → Nat) {ops : List (HandleOp T)} {m : Mem T} {outs : List (HandleOut T)}
    (e : runM lt room (newM T) ops = .ok (m, outs)) :
    (∀ p, some p ∈ m.tail → (abs m.s).live p = none ∧ p < (abs m.s).next ∧ p ∉ m.s.h) ∧ (m.tail.filterMap fun c => c).Nodup := by
  have h := (C187_reap_cells lt room e).2
  have k : Kept (abs m.s, m.tail) := Kept.hist h ⟨(fun p hp => by cases hp), (fun p hp => by cases hp), List.nodup_nil⟩
  have w := (runM_held lt room ops (newM T) m outs (wf_new T) e).2.1
  refine ⟨fun p hp => ?_, k.nodup⟩
  obtain ⟨a, b⟩ := k.dead p hp
  refine ⟨a, b, fun hm => ?_⟩
  have := (mem_iff w p).1 hm
  dsimp only at a
  rw [a] at this
  cases this

/-- The heap never has more than `j` elements more than at the start, read off the calls and their results. -/
def low : Nat → List (HandleOp T × HandleOut T) → Prop
  | _, [] => True
  | j, (.push _, _) :: l => 0 < j ∧ low (j - 1) l
  | j, (.pop, _) :: l => low (j + 1) l
  | j, (.remove _, .flag true) :: l => low (j + 1) l
  | j, _ :: l => low j l

theorem low_hist {x y : HandleBag T × List (Option Nat)} {ops : List (HandleOp T)} {outs : List (HandleOut T)} {e : Nat}
    (h : Hist Spec.HeldStep x ops outs y) : ∀ {j : Nat}, x.2[j]? = some (some e) → low j (ops.zip outs) → some e ∈ y.2 := by
  induction h with
  | nil => exact fun hx _ => List.mem_of_getElem? hx
  | cons h1 _ ih =>
    intro j hx hl
    cases h1 with
    | push b st st' v hc =>
      obtain ⟨hj, hl⟩ : 0 < j ∧ low (j - 1) _ := hl
      refine ih ?_ hl
      cases hc with
      | reuse c =>
        obtain ⟨i, rfl⟩ : ∃ i, j = i + 1 := ⟨j - 1, by omega⟩
        rw [Nat.add_sub_cancel]
        rwa [List.getElem?_cons_succ] at hx
      | move n => cases hx
    | pop b st e' v h => exact ih (j := j + 1) (by rw [List.getElem?_cons_succ]; exact hx) hl
    | peek b st e' v h => exact ih hx hl
    | remove b st e' h => exact ih (j := j + 1) (by rw [List.getElem?_cons_succ]; exact hx) hl
    | removeDead b st e' h => exact ih hx hl
    | set b st e' v h => exact ih hx hl
    | setDead b st e' v h => exact ih hx hl

/-- **C187** The natural statement is false: a handle that `Remove` has taken out of the heap stays in the array, with its value, whatever is called later, for as long as the heap does not
get longer than it was then. -/
theorem C187_reap_removed_refuted (lt : T → T → Bool) (room : Nat → Nat) {m m1 m2 : Mem T} {e : Nat} {ops : List (HandleOp T)} {outs : List (HandleOut T)}
    (w : WF m.s) (e1 : stepM lt room m (.remove e) = .ok (m1, .flag true)) (e2 : runM lt room m1 ops = .ok (m2, outs)) (hl : low 0 (ops.zip outs)) :
    some e ∈ m2.tail := by
  obtain ⟨-, w1, h1⟩ := stepM_held lt room w e1
  have h2 := (runM_held lt room ops m1 m2 outs w1 e2).2.2
  refine low_hist h2 (j := 0) ?_ hl
  generalize hx : (abs m.s, m.tail) = x at h1
  generalize hy : (abs m1.s, m1.tail) = y at h1
  cases h1 with
  | remove b st e' h =>
    rfl

/-- **C187** The same for `Pop`: what it returned is still referred to. -/
theorem C187_reap_popped_refuted (lt : T → T → Bool) (room : Nat → Nat) {m m1 m2 : Mem T} {v : T} {ops : List (HandleOp T)} {outs : List (HandleOut T)}
    (w : WF m.s) (e1 : stepM lt room m .pop = .ok (m1, .val v)) (e2 : runM lt room m1 ops = .ok (m2, outs)) (hl : low 0 (ops.zip outs)) :
    ∃ p, (abs m.s).live p = some v ∧ some p ∈ m2.tail := by
  obtain ⟨-, w1, h1⟩ := stepM_held lt room w e1
  have h2 := (runM_held lt room ops m1 m2 outs w1 e2).2.2
  generalize hx : (abs m.s, m.tail) = x at h1
  generalize hy : (abs m1.s, m1.tail) = y at h1
  cases h1 with
  | pop b st p v h =>
    cases hx
    refine ⟨p, h, low_hist h2 (j := 0) ?_ hl⟩
    show m1.tail[0]? = _
    rw [show m1.tail = some p :: m.tail from congrArg Prod.snd hy]
    rfl

/-- Three handles; the middle one is removed, another one popped and one pushed: handle 1 stays in the array of three cells. -/
example : (match runM (fun a b : Nat => decide (a < b)) (fun n => n) (newM Nat) [.push 5, .push 3, .push 4, .remove 1, .pop, .push 9] with
    | .ok (m, outs) => some (m.s.h, m.tail, outs)
    | .error _ => none) =
    some ([0, 3], [some 1], [.handle 0, .handle 1, .handle 2, .flag true, .val 4, .handle 3]) := by decide +kernel

end Reap

namespace Meap

variable {K V : Type} [DecidableEq K]

theorem popRawM_eq {s : State K V} (w : WF s) (t : List (Option (K × V))) {h' : List (K × V)} {x : K × V} (hh : s.h = h' ++ [x]) :
    ∃ s', popRaw s = .ok (s', x) ∧ popRawM ⟨s, t⟩ = .ok (⟨s', some x :: t⟩, x) := by
  obtain ⟨s', e, -⟩ := popRaw_spec w hh
  have hlast : Go.idx s.h (s.h.length - 1) = .ok x := by simp [Go.idx, hh]
  refine ⟨s', e, ?_⟩
  unfold popRawM
  dsimp only
  rw [hlast, Go.bind_ok, e]
  rfl

theorem popM_eq (lt : K × V → K × V → Bool) {m : Mem K V} (w : WF m.s) (hne : 0 < m.s.h.length) :
    ∃ s', pop lt m.s = .ok (s', m.s.h[0]) ∧ popM lt m = .ok (⟨s', some m.s.h[0] :: m.tail⟩, m.s.h[0]) := by
  obtain ⟨h', e, p, -⟩ := Heap.popPrep_spec lt m.s.h hne
  obtain ⟨s1, e1, w1, hφ⟩ := (Heap.popPrep_sim (opsSim lt) m.s (m.s.h.length - 1) w).of_ok e
  obtain ⟨s', e2, e3⟩ := popRawM_eq w1 m.tail hφ
  have h1 : pop lt m.s = (Heap.popPrep (ops lt) m.s (m.s.h.length - 1) >>= popRaw) := by
    unfold pop Heap.popPrep
    simp only [ops]
    cases swap m.s 0 (m.s.h.length - 1) with
    | error e => rfl
    | ok s2 =>
      simp only [Go.bind_ok]
      cases Heap.down (⟨less lt, swap⟩ : Heap.Ops (State K V)) s2 0 (m.s.h.length - 1) <;> rfl
  have h2 : popM lt m = (Heap.popPrep (ops lt) m.s (m.s.h.length - 1) >>= fun s => popRawM ⟨s, m.tail⟩) := by
    unfold popM Heap.popPrep
    simp only [ops]
    cases swap m.s 0 (m.s.h.length - 1) with
    | error e => rfl
    | ok s2 =>
      simp only [Go.bind_ok]
      cases Heap.down (⟨less lt, swap⟩ : Heap.Ops (State K V)) s2 0 (m.s.h.length - 1) <;> rfl
  exact ⟨s', by rw [h1, e1]; exact e2, by rw [h2, e1]; exact e3⟩

theorem abs_none_iff {s : State K V} (w : WF s) (k : K) : abs s k = none ↔ s.m k = none := by
  unfold abs
  cases hm : s.m k with
  | none => simp
  | some i => obtain ⟨v, hv⟩ := w.bwd k i hm; simp [hv]

theorem stepM_held (lt : K × V → K × V → Bool) (room : Nat → Nat) {m m' : Mem K V} (w : WF m.s) {op : MapHeapOp K V} {out : MapHeapOut K V}
    (e : stepM lt room m op = .ok (m', out)) :
    step lt m.s op = .ok (m'.s, out) ∧ WF m'.s ∧ Spec.MapHeldStep (abs m.s, m.tail) op out (abs m'.s, m'.tail) := by
  cases op with
  | push k v =>
    obtain ⟨s1, e1, w1, ha, -⟩ := push_spec lt w k v
    simp only [stepM] at e
    have e0 := e1
    unfold push at e1
    unfold pushM at e
    cases hm : m.s.m k with
    | some i =>
      rw [hm] at e1 e
      dsimp only at e1 e
      cases hi : Go.idx m.s.h i with
      | error x => rw [hi] at e1; cases e1
      | ok a =>
        rw [hi, Go.bind_ok] at e1 e
        rw [e1] at e
        cases e
        refine ⟨by simp only [step, e0]; rfl, w1, ?_⟩
        dsimp only
        rw [ha]
        refine .pushOver _ _ k v ?_
        cases hn : abs m.s k with
        | none => rw [abs_none_iff w, hm] at hn; cases hn
        | some v => rfl
    | none =>
      rw [hm] at e1 e
      dsimp only at e1 e
      unfold pushRawM at e
      dsimp only at e
      rw [e1] at e
      cases e
      refine ⟨by simp only [step, e0]; rfl, w1, ?_⟩
      dsimp only
      rw [ha]
      refine .push _ _ _ k v ((abs_none_iff w k).2 hm) ?_
      cases m.tail with
      | nil => exact .move _
      | cons c t => exact .reuse c t
  | pop =>
    by_cases hne : 0 < m.s.h.length
    · obtain ⟨s1, e1, w1, ha, -⟩ := pop_spec lt w hne
      obtain ⟨s2, e2, e3⟩ := popM_eq lt w hne
      rw [e1] at e2
      cases e2
      simp only [stepM, e3, Go.bind_ok, Go.pure_eq, Except.ok.injEq, Prod.mk.injEq] at e
      obtain ⟨rfl, rfl⟩ := e
      refine ⟨by simp only [step, e1]; rfl, w1, ?_⟩
      dsimp only
      rw [ha]
      exact .pop _ _ _ ((abs_some_iff w _ _).2 (by simp))
    · have : m.s.h = [] := List.length_eq_zero_iff.1 (by omega)
      simp [stepM, popM, swap, Heap.swap, this, Go.idx] at e
  | peek =>
    by_cases hne : 0 < m.s.h.length
    · have e1 : peek m.s = .ok m.s.h[0] := by simp [peek, Go.idx, hne]
      simp only [stepM, e1, Go.bind_ok, Go.pure_eq, Except.ok.injEq, Prod.mk.injEq] at e
      obtain ⟨rfl, rfl⟩ := e
      exact ⟨by simp only [step, e1]; rfl, w, .peek _ _ _ ((abs_some_iff w _ _).2 (by simp))⟩
    · have : m.s.h = [] := List.length_eq_zero_iff.1 (by omega)
      simp [stepM, peek, this, Go.idx] at e
  | remove k =>
    obtain ⟨s1, e1, w1, ha, -⟩ := remove_spec lt w k
    have e00 := e1
    simp only [stepM] at e
    unfold remove at e1
    unfold removeM at e
    cases hm : m.s.m k with
    | none =>
      rw [hm] at e1 e
      cases e1
      cases e
      exact ⟨by simp only [step, e00]; rfl, w, .removeNot _ _ k ((abs_none_iff w k).2 hm)⟩
    | some i =>
      rw [hm] at e1 e
      dsimp only at e1 e
      obtain ⟨v, hv⟩ := w.bwd k i hm
      have hi : i < m.s.h.length := by rw [List.getElem?_eq_some_iff] at hv; exact hv.1
      have hiv : m.s.h[i] = (k, v) := by rw [List.getElem?_eq_getElem hi] at hv; exact Option.some.inj hv
      obtain ⟨h', e0, pm, -⟩ := Heap.removeAt_spec lt m.s.h i hi
      obtain ⟨s2, e2, w2, hφ⟩ := (Heap.removeAt_sim (opsSim lt) m.s m.s.h.length i w).of_ok e0
      obtain ⟨s', e3, e4⟩ := popRawM_eq w2 m.tail hφ
      rw [e2, Go.bind_ok] at e1 e
      rw [e3] at e1
      rw [e4] at e
      cases e1
      cases e
      refine ⟨by simp only [step, e00]; rfl, w1, ?_⟩
      dsimp only
      rw [ha, hiv]
      exact .remove _ _ k v ((abs_some_iff w _ _).2 (by rw [← hiv]; exact List.getElem_mem hi))
  | get k =>
    have e1 := get_spec w k
    simp only [stepM, e1, Go.bind_ok, Go.pure_eq, Except.ok.injEq, Prod.mk.injEq] at e
    obtain ⟨rfl, rfl⟩ := e
    exact ⟨by simp only [step, e1]; rfl, w, .look _ _ _ _ (.inl ⟨k, rfl⟩)⟩
  | contains k => cases e; exact ⟨rfl, w, .look _ _ _ _ (.inr (.inl ⟨k, rfl⟩))⟩
  | len => cases e; exact ⟨rfl, w, .look _ _ _ _ (.inr (.inr rfl))⟩

theorem runM_held (lt : K × V → K × V → Bool) (room : Nat → Nat) : ∀ (ops : List (MapHeapOp K V)) (m m' : Mem K V) (outs : List (MapHeapOut K V)), WF m.s →
    runM lt room m ops = .ok (m', outs) →
    run lt m.s ops = .ok (m'.s, outs) ∧ WF m'.s ∧ Hist Spec.MapHeldStep (abs m.s, m.tail) ops outs (abs m'.s, m'.tail)
  | [], m, m', outs, w, e => by
    unfold runM at e
    cases e
    exact ⟨rfl, w, .nil _⟩
  | op :: ops, m, m', outs, w, e => by
    unfold runM at e
    cases hs : stepM lt room m op with
    | error x => rw [hs] at e; cases e
    | ok r =>
      obtain ⟨m1, out⟩ := r
      rw [hs, Go.bind_ok] at e
      dsimp only at e
      cases hr : runM lt room m1 ops with
      | error x => rw [hr] at e; cases e
      | ok r =>
        obtain ⟨m2, outs'⟩ := r
        rw [hr] at e
        cases e
        obtain ⟨a1, a2, a3⟩ := stepM_held lt room w hs
        obtain ⟨b1, b2, b3⟩ := runM_held lt room ops m1 m2 outs' a2 hr
        refine ⟨?_, b2, .cons a3 b3⟩
        unfold run
        rw [a1, Go.bind_ok]
        dsimp only
        rw [b1]
        rfl

/-- **C187** The same for `Meap`: the cells hold the entries that were popped or removed, with the values they had, and whose cells no push of a new key has used since. -/
theorem C187_meap_cells (lt : K × V → K × V → Bool) (room : Nat → Nat) {ops : List (MapHeapOp K V)} {m : Mem K V} {outs : List (MapHeapOut K V)}
    (e : runM lt room (newM K V) ops = .ok (m, outs)) :
    run lt (new K V) ops = .ok (m.s, outs) ∧ Hist Spec.MapHeldStep (fun _ => none, []) ops outs (abs m.s, m.tail) := by
  obtain ⟨a, -, c⟩ := runM_held lt room ops (newM K V) m outs wf_new e
  refine ⟨a, ?_⟩
  have h := c
  rw [show abs (newM K V).s = fun _ => none from abs_new] at h
  exact h

theorem pushed_hist {x y : (K → Option V) × List (Option (K × V))} {ops : List (MapHeapOp K V)} {outs : List (MapHeapOut K V)}
    (h : Hist Spec.MapHeldStep x ops outs y) {k : K} {v : V} : (x.1 k = some v ∨ some (k, v) ∈ x.2 ∨ .push k v ∈ ops) ∨ ¬ (y.1 k = some v ∨ some (k, v) ∈ y.2) := by
  induction h with
  | nil s => by_cases h : s.1 k = some v ∨ some (k, v) ∈ s.2
             · exact .inl (h.elim .inl fun h => .inr (.inl h))
             · exact .inr h
  | @cons x z y op out ops outs h1 _ ih =>
    rcases ih with ih | ih
    · refine .inl ?_
      rcases ih with ih | ih | ih
      · -- live after the call
        have key : ∀ {f : K → Option V} {k' : K} {o : Option V}, mapSet f k' o k = some v → (k' = k ∧ o = some v) ∨ f k = some v := by
          intro f k' o hm
          unfold mapSet at hm
          split at hm
          · rename_i h; exact .inl ⟨h.symm, hm⟩
          · exact .inr hm
        cases h1 with
        | push f st st' k' v' h hc =>
          rcases key ih with ⟨rfl, h2⟩ | h2
          · cases h2; exact .inr (.inr (List.mem_cons_self ..))
          · exact .inl h2
        | pushOver f st k' v' h =>
          rcases key ih with ⟨rfl, h2⟩ | h2
          · cases h2; exact .inr (.inr (List.mem_cons_self ..))
          · exact .inl h2
        | pop f st e' h =>
          rcases key ih with ⟨rfl, h2⟩ | h2
          · cases h2
          · exact .inl h2
        | peek f st e' h => exact .inl ih
        | remove f st k' v' h =>
          rcases key ih with ⟨rfl, h2⟩ | h2
          · cases h2
          · exact .inl h2
        | removeNot f st k' h => exact .inl ih
        | look f st op out h => exact .inl ih
      · cases h1 with
        | push f st st' k' v' h hc =>
          cases hc with
          | reuse c => exact .inr (.inl (List.mem_cons_of_mem _ ih))
          | move n => cases List.eq_of_mem_replicate ih
        | pushOver f st k' v' h => exact .inr (.inl ih)
        | pop f st e' h =>
          rcases List.mem_cons.1 ih with h2 | h2
          · cases h2; exact .inl h
          · exact .inr (.inl h2)
        | peek f st e' h => exact .inr (.inl ih)
        | remove f st k' v' h =>
          rcases List.mem_cons.1 ih with h2 | h2
          · cases h2; exact .inl h
          · exact .inr (.inl h2)
        | removeNot f st k' h => exact .inr (.inl ih)
        | look f st op out h => exact .inr (.inl ih)
      · exact .inr (.inr (List.mem_cons_of_mem _ ih))
    · exact .inr ih

/-- **C187** Nothing else is kept: an entry in a cell, with its value, was pushed. -/
theorem C187_meap_only (lt : K × V → K × V → Bool) (room : Nat → Nat) {ops : List (MapHeapOp K V)} {m : Mem K V} {outs : List (MapHeapOut K V)}
    (e : runM lt room (newM K V) ops = .ok (m, outs)) {k : K} {v : V} (h : some (k, v) ∈ m.tail) : .push k v ∈ ops := by
  rcases pushed_hist (C187_meap_cells lt room e).2 (k := k) (v := v) with (h1 | h1 | h1) | h1
  · cases h1
  · cases h1
  · exact h1
  · exact absurd (.inr h) h1

theorem stay_hist {x y : (K → Option V) × List (Option (K × V))} {ops : List (MapHeapOp K V)} {outs : List (MapHeapOut K V)} {c : K × V}
    (h : Hist Spec.MapHeldStep x ops outs y) : some c ∈ x.2 → (∀ k v, .push k v ∉ ops) → some c ∈ y.2 := by
  induction h with
  | nil => exact fun h _ => h
  | cons h1 _ ih =>
    intro hc hp
    refine ih ?_ (fun k v hm => hp k v (List.mem_cons_of_mem _ hm))
    cases h1 with
    | push f st st' k' v' h hc' => exact absurd (List.mem_cons_self ..) (hp k' v')
    | pushOver f st k' v' h => exact hc
    | pop f st e' h => exact List.mem_cons_of_mem _ hc
    | peek f st e' h => exact hc
    | remove f st k' v' h => exact List.mem_cons_of_mem _ hc
    | removeNot f st k' h => exact hc
    | look f st op out h => exact hc

/-- **C187** The natural statement is false: the entry of a key that `Remove` has deleted stays in the array with its value, whatever is called later, until something is pushed. -/
theorem C187_meap_removed_refuted (lt : K × V → K × V → Bool) (room : Nat → Nat) {m m1 m2 : Mem K V} {k : K} {v : V} {out : MapHeapOut K V}
    {ops : List (MapHeapOp K V)} {outs : List (MapHeapOut K V)} (w : WF m.s) (hk : abs m.s k = some v) (e1 : stepM lt room m (.remove k) = .ok (m1, out))
    (e2 : runM lt room m1 ops = .ok (m2, outs)) (hp : ∀ k v, .push k v ∉ ops) : some (k, v) ∈ m2.tail := by
  obtain ⟨-, w1, h1⟩ := stepM_held lt room w e1
  have h2 := (runM_held lt room ops m1 m2 outs w1 e2).2.2
  refine stay_hist h2 (show some (k, v) ∈ m1.tail from ?_) hp
  generalize hx : (abs m.s, m.tail) = x at h1
  generalize hy : (abs m1.s, m1.tail) = y at h1
  cases h1 with
  | remove f st k' v' h =>
    cases hx
    rw [hk] at h
    cases h
    show some (k, v) ∈ m1.tail
    rw [show m1.tail = some (k, v) :: m.tail from congrArg Prod.snd hy]
    exact List.mem_cons_self ..
  | removeNot f st k' h =>
    cases hx
    rw [hk] at h
    cases h
  | look f st op out h =>
    rcases h with ⟨k, h⟩ | ⟨k, h⟩ | h <;> cases h

/-- Key 1 is pushed, set anew, removed and pushed again: the array of the heap keeps the value 8 of the removed entry next to the new one, and the value 7 that was overwritten in place is gone. -/
example : (match runM (fun a b : Nat × Nat => decide (a.2 < b.2)) (fun n => n) (newM Nat Nat) [.push 1 7, .push 2 5, .push 3 6, .push 1 8, .remove 1, .remove 2, .push 1 9] with
    | .ok (m, _) => some (m.s.h, m.tail)
    | .error _ => none) = some ([(3, 6), (1, 9)], [some (1, 8)]) := by decide +kernel

end Meap

end Verif
