import Verif.Proof.Heap

/-!
# C07–C12, C17: `Heap`, `HeapN`, `PriorityQueue`
-/

namespace Verif.Heap

variable {T : Type} {lt : T → T → Bool}

theorem isMin_of_heap (o : StrictWeakOrder lt) {d : Nat} {h : List T} (hh : HeapN lt d h.length h) (hne : 0 < h.length) :
    IsMin lt h[0] (h : Multiset T) := by
  refine ⟨by simp, fun y hy => ?_⟩
  have hy' : y ∈ h := by simpa using hy
  obtain ⟨j, hj, rfl⟩ := List.getElem_of_mem hy'
  exact hh.root_min o le_rfl j hj _ _ (by simp) (by simp)

theorem peek_inv {h : List T} {x : T} (e : Go.idx h 0 = .ok x) : ∃ hne : 0 < h.length, h[0] = x := by
  by_cases hne : 0 < h.length
  · rw [Go.idx_of_lt h 0 hne] at e; cases e; exact ⟨hne, rfl⟩
  · rw [Go.idx_of_ge h 0 (by omega)] at e; cases e

/-- The order every element of which is minimal: with it, `PQStep`/`PQRun` only express conservation of elements. -/
def noOrder (T : Type) : T → T → Bool := fun _ _ => false

theorem pqstep_pop {lt' : T → T → Bool} {h h' : List T} {x : T} (p : (x :: h').Perm h) (m : IsMin lt' x (h : Multiset T)) :
    PQStep lt' (h : Multiset T) .pop (some x) (h' : Multiset T) := by
  have e : (h : Multiset T) = x ::ₘ (h' : Multiset T) := by rw [Multiset.cons_coe]; exact (Multiset.coe_eq_coe.2 p).symm
  rw [e] at m ⊢
  exact PQStep.pop x _ m

theorem pqstep_remove {lt' : T → T → Bool} {h h' : List T} {x : T} {i : Nat} (hi : i < h.length) (p : (x :: h').Perm h) :
    PQStep lt' (h : Multiset T) (.remove i) (some x) (h' : Multiset T) := by
  have e : (h : Multiset T) = x ::ₘ (h' : Multiset T) := by rw [Multiset.cons_coe]; exact (Multiset.coe_eq_coe.2 p).symm
  rw [e]
  refine PQStep.remove i x _ ?_
  rw [← e]; simpa using hi

theorem pqstep_update {lt' : T → T → Bool} {h h' : List T} {y : T} {i : Nat} (hi : i < h.length) (p : h'.Perm (h.set i y)) :
    PQStep lt' (h : Multiset T) (.update i y) none (h' : Multiset T) := by
  have p1 : h.Perm (h[i] :: h.eraseIdx i) := (List.getElem_cons_eraseIdx_perm hi).symm
  have p2 : (h.set i y).Perm (y :: h.eraseIdx i) := List.set_perm_cons_eraseIdx hi y
  have e : (h : Multiset T) = h[i] ::ₘ (h.eraseIdx i : Multiset T) := by
    rw [Multiset.cons_coe]; exact Multiset.coe_eq_coe.2 p1
  have e' : (h' : Multiset T) = y ::ₘ (h.eraseIdx i : Multiset T) := by
    rw [Multiset.cons_coe]; exact Multiset.coe_eq_coe.2 (p.trans p2)
  rw [e, e']
  refine PQStep.update i _ y _ ?_
  rw [← e]; simpa using hi

theorem pqstep_push {lt' : T → T → Bool} {h h' : List T} {x : T} (p : h'.Perm (x :: h)) :
    PQStep lt' (h : Multiset T) (.push x) none (h' : Multiset T) := by
  rw [show (h' : Multiset T) = x ::ₘ (h : Multiset T) by rw [Multiset.cons_coe]; exact Multiset.coe_eq_coe.2 p]
  exact PQStep.push _ x

/-- Generic step lemma: what one client operation does, for any arity `d` and window `w`. -/
theorem update_inv {h h' : List T} {d w i : Nat} {y : T} (hd : 0 < d)
    (e : (do let h ← Go.set h i y; fixG lt d w h h.length i : Go (List T)) = .ok h') :
    ∃ _ : i < h.length, h'.Perm (h.set i y) ∧ fixG lt d w (h.set i y) (h.set i y).length i = .ok h' := by
  by_cases hi : i < h.length
  · rw [Go.set_of_lt h i y hi] at e
    simp only [Go.bind_ok] at e
    obtain ⟨h2, e2, r⟩ := fixG_total lt d w (h.set i y).length hd (h.set i y) i (by simpa using hi) le_rfl
    rw [e] at e2; cases e2
    exact ⟨hi, r.perm, e⟩
  · simp [Go.set, hi] at e

theorem update_heap (o : StrictWeakOrder lt) {h h' : List T} {d i : Nat} {y : T} (hd : 0 < d)
    (hh : HeapN lt d h.length h) (hi : i < h.length)
    (e : fixG lt d d (h.set i y) (h.set i y).length i = .ok h') : HeapN lt d h'.length h' := by
  obtain ⟨h2, e2, r⟩ := fixG_total lt d d (h.set i y).length hd (h.set i y) i (by simpa using hi) le_rfl
  rw [e] at e2; cases e2
  have hl : h'.length = h.length := by rw [r.length]; simp
  rw [List.length_set] at e
  rw [hl]
  exact fixG_heap o d h.length hd hi (by simp) le_rfl hh (fun k hk hki => by simp [Ne.symm hki]) e

/-- One step of the binary heap, in terms of the generic operations. -/
theorem step_update_eq (lt : T → T → Bool) (h : List T) (i : Nat) (y : T) :
    step lt h (.update i y) =
      ((do let h ← Go.set h i y; fixG lt 2 2 h h.length i : Go (List T)) >>= fun h => .ok (h, none)) := by
  unfold step fix
  by_cases hi : i < h.length
  · simp only [Go.set_of_lt h i y hi, Go.bind_ok]
    rw [if_neg (by omega), if_neg (by omega), Int.toNat_natCast, fixAt_eq lt _ _ _ le_rfl]
    rfl
  · simp [Go.set, hi]

/-- Every successful step is a legal priority-queue step for the minimal order, conserving elements. -/
theorem step_conserves (lt : T → T → Bool) (h h' : List T) (op : HeapOp T) (out : Option T)
    (e : step lt h op = .ok (h', out)) : PQStep (noOrder T) (h : Multiset T) op out (h' : Multiset T) := by
  cases op with
  | push x =>
    obtain ⟨h1, e1, p⟩ := pushN_total lt 2 (by omega) h x
    simp only [step, push_eq, e1, Go.bind_ok, Go.pure_eq, Except.ok.injEq, Prod.mk.injEq] at e
    obtain ⟨rfl, rfl⟩ := e
    exact pqstep_push p
  | pop =>
    by_cases hne : 0 < h.length
    · obtain ⟨h1, e1, p⟩ := popG_total lt 2 2 (by omega) h hne
      simp only [step, pop_eq, e1, Go.bind_ok, Go.pure_eq, Except.ok.injEq, Prod.mk.injEq] at e
      obtain ⟨rfl, rfl⟩ := e
      exact pqstep_pop p ⟨by simp, fun _ _ => rfl⟩
    · have : h = [] := List.length_eq_zero_iff.1 (by omega)
      subst this
      simp [step, pop, swap, Go.idx] at e
  | peek =>
    simp only [step, peek] at e
    cases hx : Go.idx h 0 with
    | error _ => rw [hx] at e; cases e
    | ok x =>
      rw [hx] at e
      simp only [Go.bind_ok, Go.pure_eq, Except.ok.injEq, Prod.mk.injEq] at e
      obtain ⟨rfl, rfl⟩ := e
      obtain ⟨hne, rfl⟩ := peek_inv hx
      exact PQStep.peek _ _ ⟨by simp, fun _ _ => rfl⟩
  | remove i =>
    simp only [step, remove_eq] at e
    by_cases hi : i < h.length
    · obtain ⟨h1, e1, p⟩ := removeG_total lt 2 2 (by omega) h i hi
      simp only [e1, Go.bind_ok, Go.pure_eq, Except.ok.injEq, Prod.mk.injEq] at e
      obtain ⟨rfl, rfl⟩ := e
      exact pqstep_remove hi p
    · rw [removeG_oob lt 2 2 h i (by omega)] at e; cases e
  | update i y =>
    rw [step_update_eq] at e
    cases hs : (do let h ← Go.set h i y; fixG lt 2 2 h h.length i : Go (List T)) with
    | error _ => rw [hs] at e; cases e
    | ok h1 =>
      rw [hs] at e
      simp only [Go.bind_ok, Except.ok.injEq, Prod.mk.injEq] at e
      obtain ⟨rfl, rfl⟩ := e
      obtain ⟨hi, p, _⟩ := update_inv (by omega) hs
      exact pqstep_update hi p

/-- The heap invariant is preserved by every successful step, and the step is a legal priority-queue step. -/
theorem step_refines (o : StrictWeakOrder lt) (h h' : List T) (op : HeapOp T) (out : Option T)
    (hh : HeapN lt 2 h.length h) (e : step lt h op = .ok (h', out)) :
    HeapN lt 2 h'.length h' ∧ PQStep lt (h : Multiset T) op out (h' : Multiset T) := by
  have hc := step_conserves lt h h' op out e
  cases op with
  | push x =>
    obtain ⟨h1, e1, p⟩ := pushN_total lt 2 (by omega) h x
    simp only [step, push_eq, e1, Go.bind_ok, Go.pure_eq, Except.ok.injEq, Prod.mk.injEq] at e
    obtain ⟨rfl, rfl⟩ := e
    exact ⟨pushN_heap o 2 (by omega) hh e1, pqstep_push p⟩
  | pop =>
    by_cases hne : 0 < h.length
    · obtain ⟨h1, e1, p⟩ := popG_total lt 2 2 (by omega) h hne
      simp only [step, pop_eq, e1, Go.bind_ok, Go.pure_eq, Except.ok.injEq, Prod.mk.injEq] at e
      obtain ⟨rfl, rfl⟩ := e
      exact ⟨popG_heap o 2 2 ⟨by omega, Or.inl rfl⟩ hh e1, pqstep_pop p (isMin_of_heap o hh hne)⟩
    · have : h = [] := List.length_eq_zero_iff.1 (by omega)
      subst this
      simp [step, pop, swap, Go.idx] at e
  | peek =>
    simp only [step, peek] at e
    cases hx : Go.idx h 0 with
    | error _ => rw [hx] at e; cases e
    | ok x =>
      rw [hx] at e
      simp only [Go.bind_ok, Go.pure_eq, Except.ok.injEq, Prod.mk.injEq] at e
      obtain ⟨rfl, rfl⟩ := e
      obtain ⟨hne, rfl⟩ := peek_inv hx
      exact ⟨hh, PQStep.peek _ _ (isMin_of_heap o hh hne)⟩
  | remove i =>
    simp only [step, remove_eq] at e
    by_cases hi : i < h.length
    · obtain ⟨h1, e1, p⟩ := removeG_total lt 2 2 (by omega) h i hi
      simp only [e1, Go.bind_ok, Go.pure_eq, Except.ok.injEq, Prod.mk.injEq] at e
      obtain ⟨rfl, rfl⟩ := e
      exact ⟨removeG_heap o 2 (by omega) hh e1, pqstep_remove hi p⟩
    · rw [removeG_oob lt 2 2 h i (by omega)] at e; cases e
  | update i y =>
    rw [step_update_eq] at e
    cases hs : (do let h ← Go.set h i y; fixG lt 2 2 h h.length i : Go (List T)) with
    | error _ => rw [hs] at e; cases e
    | ok h1 =>
      rw [hs] at e
      simp only [Go.bind_ok, Except.ok.injEq, Prod.mk.injEq] at e
      obtain ⟨rfl, rfl⟩ := e
      obtain ⟨hi, p, ef⟩ := update_inv (by omega) hs
      exact ⟨update_heap o (by omega) hh hi ef, pqstep_update hi p⟩

theorem run_refines (o : StrictWeakOrder lt) : ∀ (ops : List (HeapOp T)) (h h' : List T) (outs : List (Option T)),
    HeapN lt 2 h.length h → run lt h ops = .ok (h', outs) →
    HeapN lt 2 h'.length h' ∧ PQRun lt (h : Multiset T) ops outs (h' : Multiset T)
  | [], h, h', outs, hh, e => by
    simp only [run, Except.ok.injEq, Prod.mk.injEq] at e
    obtain ⟨rfl, rfl⟩ := e
    exact ⟨hh, PQRun.nil _⟩
  | op :: ops, h, h', outs, hh, e => by
    unfold run at e
    cases hs : step lt h op with
    | error _ => rw [hs] at e; cases e
    | ok r =>
      obtain ⟨h1, out⟩ := r
      rw [hs] at e
      simp only [Go.bind_ok] at e
      cases hr : run lt h1 ops with
      | error _ => rw [hr] at e; cases e
      | ok r =>
        obtain ⟨h2, outs'⟩ := r
        rw [hr] at e
        simp only [Go.bind_ok, Go.pure_eq, Except.ok.injEq, Prod.mk.injEq] at e
        obtain ⟨rfl, rfl⟩ := e
        obtain ⟨a, b⟩ := step_refines o h h1 op out hh hs
        obtain ⟨c, d⟩ := run_refines o ops h1 h2 outs' a hr
        exact ⟨c, PQRun.cons b d⟩

theorem run_conserves (lt : T → T → Bool) : ∀ (ops : List (HeapOp T)) (h h' : List T) (outs : List (Option T)),
    run lt h ops = .ok (h', outs) → PQRun (noOrder T) (h : Multiset T) ops outs (h' : Multiset T)
  | [], h, h', outs, e => by
    simp only [run, Except.ok.injEq, Prod.mk.injEq] at e
    obtain ⟨rfl, rfl⟩ := e
    exact PQRun.nil _
  | op :: ops, h, h', outs, e => by
    unfold run at e
    cases hs : step lt h op with
    | error _ => rw [hs] at e; cases e
    | ok r =>
      obtain ⟨h1, out⟩ := r
      rw [hs] at e
      simp only [Go.bind_ok] at e
      cases hr : run lt h1 ops with
      | error _ => rw [hr] at e; cases e
      | ok r =>
        obtain ⟨h2, outs'⟩ := r
        rw [hr] at e
        simp only [Go.bind_ok, Go.pure_eq, Except.ok.injEq, Prod.mk.injEq] at e
        obtain ⟨rfl, rfl⟩ := e
        exact PQRun.cons (step_conserves lt h h1 op out hs) (run_conserves lt ops h1 h2 outs' hr)

/-! ## C07 -/

/-- **C07.** Built from any slice by `New`, under any history of Push, Pop, Peek, Remove(i) and change-then-Fix(i), the
heap behaves as a priority queue on the multiset of its elements: in particular each Peek and Pop returns a minimum. -/
theorem C07_heap_refines_priority_queue (o : StrictWeakOrder lt) (xs h0 h : List T) (ops : List (HeapOp T))
    (outs : List (Option T)) (hnew : new lt xs = .ok h0) (hrun : run lt h0 ops = .ok (h, outs)) :
    PQRun lt (xs : Multiset T) ops outs (h : Multiset T) := by
  obtain ⟨h1, e1, p⟩ := new_total lt xs
  rw [hnew] at e1; cases e1
  rw [show (xs : Multiset T) = (h0 : Multiset T) from Multiset.coe_eq_coe.2 p.symm]
  exact (run_refines o ops h0 h outs (new_heap o hnew) hrun).2

/-- **C07**, the headline: after any such history, whatever `Peek` returns is stored and nothing stored is less. -/
theorem C07_peek_is_minimum (o : StrictWeakOrder lt) (xs h0 h : List T) (ops : List (HeapOp T))
    (outs : List (Option T)) (hnew : new lt xs = .ok h0) (hrun : run lt h0 ops = .ok (h, outs)) (x : T)
    (hpeek : peek h = .ok x) : x ∈ h ∧ ∀ y ∈ h, lt y x = false := by
  have hh := (run_refines o ops h0 h outs (new_heap o hnew) hrun).1
  obtain ⟨hne, rfl⟩ := peek_inv hpeek
  have := isMin_of_heap o hh hne
  exact ⟨by simp, fun y hy => this.2 y (by simpa using hy)⟩

/-- The usual order on `Nat` as a `less` function, for concrete cases. -/
def natLt (a b : Nat) : Bool := decide (a < b)

theorem natLt_swo : StrictWeakOrder natLt where
  irrefl a := by simp [natLt]
  trans a b c h1 h2 := by simp only [natLt, decide_eq_true_eq] at *; omega
  incomp_trans a b c h1 h2 := by simp only [natLt, decide_eq_false_iff_not] at *; omega

/-- A concrete history meeting the hypotheses of C07: heapify, push, remove, change-and-fix, pop. -/
example : new natLt [5, 3, 8, 1, 9, 2] = .ok [1, 3, 2, 5, 9, 8] ∧
    run natLt [1, 3, 2, 5, 9, 8] [.push 0, .remove 1, .update 4 1, .pop, .peek] =
      .ok ([1, 2, 1, 5, 8], [none, some 3, none, some 0, some 1]) := by decide

/-! ## C08 -/

/-- **C08.** For every comparator, even an inconsistent one, each operation adds, returns and removes exactly the
elements it should; `noOrder` makes the priority-queue specification say only that. -/
theorem C08_heap_conserves (lt : T → T → Bool) (xs h0 h : List T) (ops : List (HeapOp T))
    (outs : List (Option T)) (hnew : new lt xs = .ok h0) (hrun : run lt h0 ops = .ok (h, outs)) :
    PQRun (noOrder T) (xs : Multiset T) ops outs (h : Multiset T) := by
  obtain ⟨h1, e1, p⟩ := new_total lt xs
  rw [hnew] at e1; cases e1
  rw [show (xs : Multiset T) = (h0 : Multiset T) from Multiset.coe_eq_coe.2 p.symm]
  exact run_conserves lt ops h0 h outs hrun

/-- **C08.** `Remove(i)` returns exactly the element that was at index `i`, and keeps all the others. -/
theorem C08_remove_returns_index (lt : T → T → Bool) (h : List T) (i : Nat) (hi : i < h.length) :
    ∃ h', remove lt h i = .ok (h[i], h') ∧ h'.Perm (h.eraseIdx i) := by
  rw [remove_eq]
  obtain ⟨h', e, p⟩ := removeG_total lt 2 2 (by omega) h i hi
  refine ⟨h', e, ?_⟩
  exact List.Perm.cons_inv (p.trans (List.getElem_cons_eraseIdx_perm hi).symm)

/-- **C08.** `Len` is the size of the stored multiset and `Empty` says whether it is empty. -/
theorem C08_len (h : List T) : len h = (h : Multiset T).card ∧ (empty h = true ↔ (h : Multiset T) = 0) := by
  simp [len, empty]

/-- An inconsistent comparator (always true) on a concrete history: nothing is lost. -/
example : run (fun _ _ : Nat => true) [1, 2, 3] [.push 4, .pop, .remove 1] = .ok ([2, 3], [none, some 4, some 1]) := by
  decide

/-! ## C09 -/

/-- Client code `for !h.Empty() { out = append(out, h.Pop()) }`. -/
def drain (lt : T → T → Bool) : Nat → List T → Go (List T)
  | 0, h => if empty h then .ok [] else .error .diverge
  | fuel + 1, h =>
    if empty h then .ok [] else do
    let (x, h) ← pop lt h
    let xs ← drain lt fuel h
    pure (x :: xs)

theorem drain_spec (o : StrictWeakOrder lt) : ∀ (fuel : Nat) (h : List T), h.length ≤ fuel → HeapN lt 2 h.length h →
    ∃ ys, drain lt fuel h = .ok ys ∧ ys.Perm h ∧ ys.Pairwise (fun a b => lt b a = false)
  | 0, h, hf, _ => by
    have : h = [] := List.length_eq_zero_iff.1 (by omega)
    subst this; exact ⟨[], rfl, List.Perm.refl _, List.Pairwise.nil⟩
  | fuel + 1, h, hf, hh => by
    unfold drain
    by_cases hne : 0 < h.length
    · rw [if_neg (by simp [empty, len]; exact List.ne_nil_of_length_pos hne), pop_eq]
      obtain ⟨h', e, p⟩ := popG_total lt 2 2 (by omega) h hne
      rw [e]
      simp only [Go.bind_ok]
      have hl := p.length_eq
      simp only [List.length_cons] at hl
      obtain ⟨ys, ey, py, sy⟩ := drain_spec o fuel h' (by omega) (popG_heap o 2 2 ⟨by omega, Or.inl rfl⟩ hh e)
      rw [ey]
      refine ⟨_, rfl, (py.cons _).trans p, List.Pairwise.cons (fun b hb => ?_) sy⟩
      exact (isMin_of_heap o hh hne).2 b (by simpa using p.subset (List.mem_cons_of_mem _ (py.subset hb)))
    · have : h = [] := List.length_eq_zero_iff.1 (by omega)
      subst this; exact ⟨[], rfl, List.Perm.refl _, List.Pairwise.nil⟩

/-- **C09.** `New(xs)` then popping until empty succeeds and returns a permutation of `xs` in non-decreasing order. -/
theorem C09_drain_sorts (o : StrictWeakOrder lt) (xs : List T) :
    ∃ h ys, new lt xs = .ok h ∧ drain lt xs.length h = .ok ys ∧ ys.Perm xs ∧ ys.Pairwise (fun a b => lt b a = false) := by
  obtain ⟨h, e, p⟩ := new_total lt xs
  obtain ⟨ys, ey, py, sy⟩ := drain_spec o xs.length h (by rw [p.length_eq]) (new_heap o e)
  exact ⟨h, ys, e, ey, py.trans p, sy⟩

example : (new natLt [5, 3, 8, 1, 9, 2] >>= drain natLt 6) = .ok [1, 2, 3, 5, 8, 9] := by decide

/-! ## C10 -/

/-- **C10.** `New` and `Push` always succeed. -/
theorem C10_new_push_never_panic (lt : T → T → Bool) (xs h : List T) (x : T) :
    (∃ h', new lt xs = .ok h') ∧ (∃ h', push lt h x = .ok h') := by
  obtain ⟨h1, e1, _⟩ := new_total lt xs
  obtain ⟨h2, e2, _⟩ := pushN_total lt 2 (by omega) h x
  exact ⟨⟨h1, e1⟩, ⟨h2, by rw [push_eq]; exact e2⟩⟩

/-- **C10.** `Pop` and `Peek` return normally exactly on a non-empty heap, and otherwise panic with an index error. -/
theorem C10_pop_peek_panic_iff_empty (lt : T → T → Bool) (h : List T) :
    (h ≠ [] → (∃ r, pop lt h = .ok r) ∧ (∃ r, peek h = .ok r)) ∧
    (h = [] → pop lt h = .error .index ∧ peek h = .error .index) := by
  refine ⟨fun hne => ?_, fun he => ?_⟩
  · have hl : 0 < h.length := List.length_pos_iff.2 hne
    obtain ⟨h', e, _⟩ := popG_total lt 2 2 (by omega) h hl
    exact ⟨⟨_, by rw [pop_eq]; exact e⟩, ⟨_, Go.idx_of_lt h 0 hl⟩⟩
  · subst he; exact ⟨rfl, rfl⟩

/-- **C10.** `Remove(i)` returns normally exactly for an index in range, and otherwise panics with an index error. -/
theorem C10_remove_panic_iff_out_of_range (lt : T → T → Bool) (h : List T) (i : Int) :
    (0 ≤ i ∧ i < h.length → ∃ r, remove lt h i = .ok r) ∧
    (¬ (0 ≤ i ∧ i < h.length) → remove lt h i = .error .index) := by
  by_cases h0 : 0 ≤ i
  · obtain ⟨k, rfl⟩ := Int.eq_ofNat_of_zero_le h0
    rw [remove_eq]
    refine ⟨fun hi => ?_, fun hi => removeG_oob lt 2 2 h k (by omega)⟩
    obtain ⟨h', e, _⟩ := removeG_total lt 2 2 (by omega) h k (by omega)
    exact ⟨_, e⟩
  · refine ⟨fun hi => absurd hi.1 h0, fun _ => ?_⟩
    unfold remove; rw [if_pos (by omega)]

/-- **C10.** `Fix(i)` returns normally for every index in range; out of range it panics, except that `Fix(-1)` and
`Fix(0)` on an empty heap silently do nothing. -/
theorem C10_fix_panic_iff (lt : T → T → Bool) (h : List T) (i : Int) :
    (0 ≤ i ∧ i < h.length → ∃ h', fix lt h i = .ok h' ∧ h'.Perm h) ∧
    (i = -1 ∨ (i = 0 ∧ h = []) → fix lt h i = .ok h) ∧
    (¬ (0 ≤ i ∧ i < h.length) → ¬ (i = -1 ∨ (i = 0 ∧ h = [])) → fix lt h i = .error .index) := by
  refine ⟨fun hi => ?_, fun hi => ?_, fun hi hne => ?_⟩
  · unfold fix
    rw [if_neg (by omega), if_neg (by omega), fixAt_eq lt _ _ _ le_rfl]
    obtain ⟨h', e, r⟩ := fixG_total lt 2 2 h.length (by omega) h i.toNat (by omega) le_rfl
    exact ⟨h', e, r.perm⟩
  · rcases hi with rfl | ⟨rfl, rfl⟩
    · rfl
    · rfl
  · unfold fix
    by_cases hneg : i < 0
    · rw [if_neg (fun hc => hne (Or.inl hc)), if_pos hneg]
    · rw [if_neg (by omega), if_neg hneg]
      obtain ⟨k, rfl⟩ := Int.eq_ofNat_of_zero_le (by omega : 0 ≤ i)
      simp only [Int.toNat_natCast] at *
      have hk : h.length ≤ k := by omega
      unfold fixAt down downLoop
      simp only
      rw [if_pos (by omega)]
      simp only [Go.bind_ok, Go.pure_eq, gt_iff_lt, lt_self_iff_false, decide_false, Bool.not_false, if_true]
      unfold up upLoop
      simp only
      by_cases hk0 : k = 0
      · exfalso
        apply hne; right
        exact ⟨by omega, List.length_eq_zero_iff.1 (by omega)⟩
      · have : (k - 1) / 2 ≤ k - 1 := Nat.div_le_self _ _
        rw [if_neg (by omega)]
        simp [listOps, less, Go.idx_of_ge h k hk]

example : remove natLt [1, 3, 2] 3 = .error .index ∧ fix natLt [1, 3, 2] 5 = .error .index ∧
    fix natLt [1, 3, 2] (-2) = .error .index := by decide

/-! ## C11 -/

/-- Operations that never touch an inner index: all but Remove and change-then-Fix. -/
def isPushPop : HeapOp T → Bool
  | .push _ | .pop | .peek => true
  | _ => false

theorem stepN_update_eq (lt : T → T → Bool) (d : Nat) (hd : 0 < d) (h : List T) (i : Nat) (y : T) :
    stepN lt d h (.update i y) =
      ((do let h ← Go.set h i y; fixG lt d 4 h h.length i : Go (List T)) >>= fun h => .ok (h, none)) := by
  unfold stepN
  by_cases hi : i < h.length
  · simp only [Go.set_of_lt h i y hi, Go.bind_ok]
    rw [fixN_eq lt d hd]
    rfl
  · simp [Go.set, hi]

theorem stepN_conserves (lt : T → T → Bool) (d : Nat) (hd : 0 < d) (h h' : List T) (op : HeapOp T) (out : Option T)
    (e : stepN lt d h op = .ok (h', out)) : PQStep (noOrder T) (h : Multiset T) op out (h' : Multiset T) := by
  cases op with
  | push x =>
    obtain ⟨h1, e1, p⟩ := pushN_total lt d hd h x
    simp only [stepN, e1, Go.bind_ok, Go.pure_eq, Except.ok.injEq, Prod.mk.injEq] at e
    obtain ⟨rfl, rfl⟩ := e
    exact pqstep_push p
  | pop =>
    by_cases hne : 0 < h.length
    · obtain ⟨h1, e1, p⟩ := popG_total lt d 4 hd h hne
      simp only [stepN, popN_eq, e1, Go.bind_ok, Go.pure_eq, Except.ok.injEq, Prod.mk.injEq] at e
      obtain ⟨rfl, rfl⟩ := e
      exact pqstep_pop p ⟨by simp, fun _ _ => rfl⟩
    · have : h = [] := List.length_eq_zero_iff.1 (by omega)
      subst this
      simp [stepN, popN, swap, Go.idx] at e
  | peek =>
    simp only [stepN, peekN] at e
    cases hx : Go.idx h 0 with
    | error _ => rw [hx] at e; cases e
    | ok x =>
      rw [hx] at e
      simp only [Go.bind_ok, Go.pure_eq, Except.ok.injEq, Prod.mk.injEq] at e
      obtain ⟨rfl, rfl⟩ := e
      obtain ⟨hne, rfl⟩ := peek_inv hx
      exact PQStep.peek _ _ ⟨by simp, fun _ _ => rfl⟩
  | remove i =>
    simp only [stepN, removeN_eq lt d hd] at e
    by_cases hi : i < h.length
    · obtain ⟨h1, e1, p⟩ := removeG_total lt d 4 hd h i hi
      simp only [e1, Go.bind_ok, Go.pure_eq, Except.ok.injEq, Prod.mk.injEq] at e
      obtain ⟨rfl, rfl⟩ := e
      exact pqstep_remove hi p
    · rw [removeG_oob lt d 4 h i (by omega)] at e; cases e
  | update i y =>
    rw [stepN_update_eq lt d hd] at e
    cases hs : (do let h ← Go.set h i y; fixG lt d 4 h h.length i : Go (List T)) with
    | error _ => rw [hs] at e; cases e
    | ok h1 =>
      rw [hs] at e
      simp only [Go.bind_ok, Except.ok.injEq, Prod.mk.injEq] at e
      obtain ⟨rfl, rfl⟩ := e
      obtain ⟨hi, p, _⟩ := update_inv hd hs
      exact pqstep_update hi p

theorem stepN_refines (o : StrictWeakOrder lt) (d : Nat) (h h' : List T) (op : HeapOp T) (out : Option T)
    (hd : d = 4 ∨ (d = 3 ∧ isPushPop op = true))
    (hh : HeapN lt d h.length h) (e : stepN lt d h op = .ok (h', out)) :
    HeapN lt d h'.length h' ∧ PQStep lt (h : Multiset T) op out (h' : Multiset T) := by
  have hd0 : 0 < d := by omega
  have had : Adequate d 4 0 := ⟨hd0, by omega⟩
  cases op with
  | push x =>
    obtain ⟨h1, e1, p⟩ := pushN_total lt d hd0 h x
    simp only [stepN, e1, Go.bind_ok, Go.pure_eq, Except.ok.injEq, Prod.mk.injEq] at e
    obtain ⟨rfl, rfl⟩ := e
    exact ⟨pushN_heap o d hd0 hh e1, pqstep_push p⟩
  | pop =>
    by_cases hne : 0 < h.length
    · obtain ⟨h1, e1, p⟩ := popG_total lt d 4 hd0 h hne
      simp only [stepN, popN_eq, e1, Go.bind_ok, Go.pure_eq, Except.ok.injEq, Prod.mk.injEq] at e
      obtain ⟨rfl, rfl⟩ := e
      exact ⟨popG_heap o d 4 had hh e1, pqstep_pop p (isMin_of_heap o hh hne)⟩
    · have : h = [] := List.length_eq_zero_iff.1 (by omega)
      subst this
      simp [stepN, popN, swap, Go.idx] at e
  | peek =>
    simp only [stepN, peekN] at e
    cases hx : Go.idx h 0 with
    | error _ => rw [hx] at e; cases e
    | ok x =>
      rw [hx] at e
      simp only [Go.bind_ok, Go.pure_eq, Except.ok.injEq, Prod.mk.injEq] at e
      obtain ⟨rfl, rfl⟩ := e
      obtain ⟨hne, rfl⟩ := peek_inv hx
      exact ⟨hh, PQStep.peek _ _ (isMin_of_heap o hh hne)⟩
  | remove i =>
    have hd4 : d = 4 := by simpa [isPushPop] using hd
    subst hd4
    simp only [stepN, removeN_eq lt 4 hd0] at e
    by_cases hi : i < h.length
    · obtain ⟨h1, e1, p⟩ := removeG_total lt 4 4 (by omega) h i hi
      simp only [e1, Go.bind_ok, Go.pure_eq, Except.ok.injEq, Prod.mk.injEq] at e
      obtain ⟨rfl, rfl⟩ := e
      exact ⟨removeG_heap o 4 (by omega) hh e1, pqstep_remove hi p⟩
    · rw [removeG_oob lt 4 4 h i (by omega)] at e; cases e
  | update i y =>
    have hd4 : d = 4 := by simpa [isPushPop] using hd
    subst hd4
    rw [stepN_update_eq lt 4 hd0] at e
    cases hs : (do let h ← Go.set h i y; fixG lt 4 4 h h.length i : Go (List T)) with
    | error _ => rw [hs] at e; cases e
    | ok h1 =>
      rw [hs] at e
      simp only [Go.bind_ok, Except.ok.injEq, Prod.mk.injEq] at e
      obtain ⟨rfl, rfl⟩ := e
      obtain ⟨hi, p, ef⟩ := update_inv (by omega) hs
      exact ⟨update_heap o (by omega) hh hi ef, pqstep_update hi p⟩

theorem runN_refines (o : StrictWeakOrder lt) (d : Nat) : ∀ (ops : List (HeapOp T)) (h h' : List T) (outs : List (Option T)),
    (d = 4 ∨ (d = 3 ∧ ∀ op ∈ ops, isPushPop op = true)) → HeapN lt d h.length h → runN lt d h ops = .ok (h', outs) →
    HeapN lt d h'.length h' ∧ PQRun lt (h : Multiset T) ops outs (h' : Multiset T)
  | [], h, h', outs, _, hh, e => by
    simp only [runN, Except.ok.injEq, Prod.mk.injEq] at e
    obtain ⟨rfl, rfl⟩ := e
    exact ⟨hh, PQRun.nil _⟩
  | op :: ops, h, h', outs, hd, hh, e => by
    unfold runN at e
    cases hs : stepN lt d h op with
    | error _ => rw [hs] at e; cases e
    | ok r =>
      obtain ⟨h1, out⟩ := r
      rw [hs] at e
      simp only [Go.bind_ok] at e
      cases hr : runN lt d h1 ops with
      | error _ => rw [hr] at e; cases e
      | ok r =>
        obtain ⟨h2, outs'⟩ := r
        rw [hr] at e
        simp only [Go.bind_ok, Go.pure_eq, Except.ok.injEq, Prod.mk.injEq] at e
        obtain ⟨rfl, rfl⟩ := e
        obtain ⟨a, b⟩ := stepN_refines o d h h1 op out
          (hd.imp id (fun x => ⟨x.1, x.2 op (by simp)⟩)) hh hs
        obtain ⟨c, f⟩ := runN_refines o d ops h1 h2 outs'
          (hd.imp id (fun x => ⟨x.1, fun op' h' => x.2 op' (List.mem_cons_of_mem _ h')⟩)) a hr
        exact ⟨c, PQRun.cons b f⟩

theorem heapN_nil (lt : T → T → Bool) (d : Nat) : HeapN lt d ([] : List T).length [] := fun j _ hj => absurd hj (by simp)

/-- **C11 (partial).** A `HeapN` of arity 4 is a priority queue under every history. The full statement asks this for
every arity `n >= 2`; it is false for every other arity (see the refutations below), because `down` always
inspects four candidates. -/
theorem C11_arity4_partial (o : StrictWeakOrder lt) (ops : List (HeapOp T)) (h : List T) (outs : List (Option T))
    (hrun : runN lt 4 [] ops = .ok (h, outs)) : PQRun lt 0 ops outs (h : Multiset T) :=
  (runN_refines o 4 ops [] h outs (Or.inl rfl) (heapN_nil lt 4) hrun).2

/-- **C11 (partial).** A `HeapN` of arity 3 is a priority queue under every history of Push, Pop and Peek (but not
with Remove or Fix, see below). -/
theorem C11_arity3_pushPop_partial (o : StrictWeakOrder lt) (ops : List (HeapOp T)) (h : List T) (outs : List (Option T))
    (hops : ∀ op ∈ ops, isPushPop op = true)
    (hrun : runN lt 3 [] ops = .ok (h, outs)) : PQRun lt 0 ops outs (h : Multiset T) :=
  (runN_refines o 3 ops [] h outs (Or.inr ⟨rfl, hops⟩) (heapN_nil lt 3) hrun).2

example : runN natLt 4 [] [.push 5, .push 3, .push 8, .push 1, .push 9, .push 2, .remove 2, .update 1 0, .pop] =
    .ok ([1, 9, 5, 3], [none, none, none, none, none, none, some 8, none, some 0]) := by decide

/-- Evaluates to true on a run that ends with a non-minimal root. -/
def badRoot : Go (List Nat × List (Option Nat)) → Bool
  | .ok (x :: t, _) => t.any (natLt · x)
  | _ => false

theorem badRoot_spec {r : Go (List Nat × List (Option Nat))} (hr : badRoot r = true) :
    ∃ h outs x y, r = .ok (h, outs) ∧ peekN h = .ok x ∧ y ∈ h ∧ natLt y x = true := by
  unfold badRoot at hr
  split at hr
  · rename_i x t outs
    obtain ⟨y, hy, hl⟩ := List.any_eq_true.1 hr
    exact ⟨x :: t, outs, x, y, rfl, rfl, List.mem_cons_of_mem _ hy, hl⟩
  · cases hr

/-- **C11 refuted for arity 2**: a history of pushes and pops after which `Peek` is not a minimum. -/
theorem C11_arity2_refuted :
    ∃ (ops : List (HeapOp Nat)) (h : List Nat) (outs : List (Option Nat)) (x y : Nat),
      (∀ op ∈ ops, isPushPop op = true) ∧ runN natLt 2 [] ops = .ok (h, outs) ∧ peekN h = .ok x ∧ y ∈ h ∧
      natLt y x = true := by
  obtain ⟨h, outs, x, y, H⟩ := badRoot_spec (r := runN natLt 2 [] ([15, 17, 29, 24, 25, 14, 8, 16, 27, 24, 6, 25, 14,
    24, 15, 17, 6, 7, 5, 21, 23, 22, 16, 5, 12, 26, 19, 17, 5].map .push ++ List.replicate 9 .pop)) (by decide +kernel)
  exact ⟨_, h, outs, x, y, by decide, H⟩

/-- **C11 refuted for arity 3**: with a `Remove`. -/
theorem C11_arity3_refuted :
    ∃ (ops : List (HeapOp Nat)) (h : List Nat) (outs : List (Option Nat)) (x y : Nat),
      runN natLt 3 [] ops = .ok (h, outs) ∧ peekN h = .ok x ∧ y ∈ h ∧ natLt y x = true := by
  obtain ⟨h, outs, x, y, H⟩ := badRoot_spec (r := runN natLt 3 [] ([1, 28, 3, 17, 8, 13, 12, 1, 2, 22, 1, 13, 27, 13,
    15, 22, 18, 15, 16, 16, 22, 17, 1, 21, 25, 20, 21, 24].map .push ++ [.remove 6] ++ List.replicate 5 .pop))
    (by decide +kernel)
  exact ⟨_, h, outs, x, y, H⟩

/-- **C11 refuted for every arity from 5 on**: push 0,2,2,2,2,1,3 and pop once; `Peek` then shows 2 while 1 is stored. -/
theorem C11_arity_ge5_refuted (n : Nat) (hn : 5 ≤ n) :
    ∃ (ops : List (HeapOp Nat)) (h : List Nat) (outs : List (Option Nat)) (x y : Nat),
      (∀ op ∈ ops, isPushPop op = true) ∧ runN natLt n [] ops = .ok (h, outs) ∧ peekN h = .ok x ∧ y ∈ h ∧
      natLt y x = true := by
  have d0 : 0 / n = 0 := Nat.zero_div _
  have d1 : 1 / n = 0 := Nat.div_eq_of_lt (by omega)
  have d2 : 2 / n = 0 := Nat.div_eq_of_lt (by omega)
  have d3 : 3 / n = 0 := Nat.div_eq_of_lt (by omega)
  have d4 : 4 / n = 0 := Nat.div_eq_of_lt (by omega)
  have d5 : 5 / n = 0 ∨ 5 / n = 1 := by
    by_cases h5 : n = 5
    · subst h5; right; rfl
    · left; exact Nat.div_eq_of_lt (by omega)
  have p0 : pushN natLt n [] 0 = .ok [0] := by simp [pushN, upN, pushRaw, upLoopN, d0]
  have p1 : pushN natLt n [0] 2 = .ok [0, 2] := by simp [pushN, upN, pushRaw, upLoopN, d0, less, Go.idx, natLt]
  have p2 : pushN natLt n [0, 2] 2 = .ok [0, 2, 2] := by simp [pushN, upN, pushRaw, upLoopN, d1, less, Go.idx, natLt]
  have p3 : pushN natLt n [0, 2, 2] 2 = .ok [0, 2, 2, 2] := by
    simp [pushN, upN, pushRaw, upLoopN, d2, less, Go.idx, natLt]
  have p4 : pushN natLt n [0, 2, 2, 2] 2 = .ok [0, 2, 2, 2, 2] := by
    simp [pushN, upN, pushRaw, upLoopN, d3, less, Go.idx, natLt]
  have p5 : pushN natLt n [0, 2, 2, 2, 2] 1 = .ok [0, 2, 2, 2, 2, 1] := by
    simp [pushN, upN, pushRaw, upLoopN, d4, less, Go.idx, natLt]
  have p6 : pushN natLt n [0, 2, 2, 2, 2, 1] 3 = .ok [0, 2, 2, 2, 2, 1, 3] := by
    rcases d5 with d5 | d5 <;> simp [pushN, upN, pushRaw, upLoopN, d5, less, Go.idx, natLt]
  have dl : downLoopN natLt n 4 6 7 [3, 2, 2, 2, 2, 1, 0] 0 = .ok ([2, 3, 2, 2, 2, 1, 0], 1) := by
    have hs : scan natLt 6 3 [3, 2, 2, 2, 2, 1, 0] 2 1 = .ok 1 := rfl
    have h2 : downLoopN natLt n 4 6 6 [2, 3, 2, 2, 2, 1, 0] 1 = .ok ([2, 3, 2, 2, 2, 1, 0], 1) := by
      unfold downLoopN; simp only; rw [if_pos (by omega)]
    unfold downLoopN
    simp [hs, less, swap, Go.idx, natLt, h2]
  have pp : popN natLt n [0, 2, 2, 2, 2, 1, 3] = .ok (0, [2, 3, 2, 2, 2, 1]) := by
    have hsw : swap [0, 2, 2, 2, 2, 1, 3] 0 6 = .ok [3, 2, 2, 2, 2, 1, 0] := rfl
    simp [popN, hsw, downN, dl, popRaw, Go.idx]
  refine ⟨[.push 0, .push 2, .push 2, .push 2, .push 2, .push 1, .push 3, .pop], [2, 3, 2, 2, 2, 1],
    [none, none, none, none, none, none, none, some 0], 2, 1, by decide, ?_, rfl, by decide, by decide⟩
  simp [runN, stepN, p0, p1, p2, p3, p4, p5, p6, pp]

/-! ## C12 -/

/-- **C12.** For every arity `d >= 1` (in particular all `n >= 2` accepted by `NewN`) and every comparator, a history conserves elements. -/
theorem C12_heapN_conserves (lt : T → T → Bool) (d : Nat) (hd : 2 ≤ d) :
    ∀ (ops : List (HeapOp T)) (h h' : List T) (outs : List (Option T)),
    runN lt d h ops = .ok (h', outs) → PQRun (noOrder T) (h : Multiset T) ops outs (h' : Multiset T)
  | [], h, h', outs, e => by
    simp only [runN, Except.ok.injEq, Prod.mk.injEq] at e
    obtain ⟨rfl, rfl⟩ := e
    exact PQRun.nil _
  | op :: ops, h, h', outs, e => by
    unfold runN at e
    cases hs : stepN lt d h op with
    | error _ => rw [hs] at e; cases e
    | ok r =>
      obtain ⟨h1, out⟩ := r
      rw [hs] at e
      simp only [Go.bind_ok] at e
      cases hr : runN lt d h1 ops with
      | error _ => rw [hr] at e; cases e
      | ok r =>
        obtain ⟨h2, outs'⟩ := r
        rw [hr] at e
        simp only [Go.bind_ok, Go.pure_eq, Except.ok.injEq, Prod.mk.injEq] at e
        obtain ⟨rfl, rfl⟩ := e
        exact PQRun.cons (stepN_conserves lt d (by omega) h h1 op out hs) (C12_heapN_conserves lt d hd ops h1 h2 outs' hr)

/-- Which operations are legal on a heap of size `n`. -/
def legal (n : Nat) : HeapOp T → Prop
  | .push _ => True
  | .pop | .peek => 0 < n
  | .remove i | .update i _ => i < n

/-- **C12.** Every legal operation terminates normally, for every arity and comparator. -/
theorem C12_heapN_never_panics (lt : T → T → Bool) (d : Nat) (hd : 2 ≤ d) (h : List T) (op : HeapOp T)
    (hl : legal h.length op) : ∃ r, stepN lt d h op = .ok r := by
  have hd0 : 0 < d := by omega
  cases op with
  | push x => obtain ⟨h1, e, _⟩ := pushN_total lt d hd0 h x; exact ⟨_, by simp only [stepN, e]; rfl⟩
  | pop => obtain ⟨h1, e, _⟩ := popG_total lt d 4 hd0 h hl; exact ⟨_, by simp only [stepN, popN_eq, e]; rfl⟩
  | peek => exact ⟨_, by simp only [stepN, peekN]; rw [Go.idx_of_lt h 0 hl]; rfl⟩
  | remove i =>
    obtain ⟨h1, e, _⟩ := removeG_total lt d 4 hd0 h i hl
    exact ⟨_, by simp only [stepN, removeN_eq lt d hd0, e]; rfl⟩
  | update i y =>
    have hl' : i < h.length := hl
    obtain ⟨h1, e, _⟩ := fixG_total lt d 4 (h.set i y).length hd0 (h.set i y) i (by simpa using hl') le_rfl
    refine ⟨(h1, none), ?_⟩
    rw [stepN_update_eq lt d hd0, Go.set_of_lt h i y hl']
    simp only [Go.bind_ok, e]

/-- **C12.** `NewN` panics exactly for arities below 2. -/
theorem C12_newN_panics_iff (T : Type) (n : Int) :
    (n < 2 → ∃ msg, newN T n = .error (.explicit msg)) ∧ (2 ≤ n → newN T n = .ok []) := by
  unfold newN
  exact ⟨fun h => ⟨_, if_pos h⟩, fun h => if_neg (by omega)⟩

example : runN natLt 7 [3, 4, 5] [.push 1, .update 2 9, .pop] = .ok ([3, 4, 9], [none, none, some 1]) := by decide

/-! ## C17 -/

/-- Histories of a `PriorityQueue`: Push (`some x`) and Pop (`none`). -/
def PQueue.run (lt : T → T → Bool) (h : List T) : List (Option T) → Go (List T × List (Option T))
  | [] => .ok (h, [])
  | some x :: ops => do
    let h ← PQueue.push lt h x
    let (h, outs) ← PQueue.run lt h ops
    pure (h, none :: outs)
  | none :: ops => do
    let (x, h) ← PQueue.pop lt h
    let (h, outs) ← PQueue.run lt h ops
    pure (h, some x :: outs)

/-- The `HeapOp` a queue operation stands for. -/
def PQueue.toOp : Option T → HeapOp T
  | some x => .push x
  | none => .pop

theorem PQueue.run_eq (lt : T → T → Bool) : ∀ (ops : List (Option T)) (h : List T),
    PQueue.run lt h ops = Heap.run lt h (ops.map PQueue.toOp)
  | [], _ => rfl
  | some x :: ops, h => by
    simp only [PQueue.run, PQueue.push, List.map_cons, PQueue.toOp, Heap.run, step]
    cases Heap.push lt h x with
    | error _ => rfl
    | ok h1 => simp only [Go.bind_ok, Go.pure_eq]; rw [PQueue.run_eq lt ops h1]
  | none :: ops, h => by
    simp only [PQueue.run, PQueue.pop, List.map_cons, PQueue.toOp, Heap.run, step]
    cases Heap.pop lt h with
    | error _ => rfl
    | ok r => simp only [Go.bind_ok, Go.pure_eq]; rw [PQueue.run_eq lt ops r.2]

/-- **C17.** A `PriorityQueue` built from any slice behaves, under any history of Push and Pop, like a multiset from which each Pop
takes a minimum; Peek shows a minimum. -/
theorem C17_pqueue (o : StrictWeakOrder lt) (xs h0 h : List T) (ops : List (Option T)) (outs : List (Option T))
    (hnew : PQueue.new lt xs = .ok h0) (hrun : PQueue.run lt h0 ops = .ok (h, outs)) :
    PQRun lt (xs : Multiset T) (ops.map PQueue.toOp) outs (h : Multiset T) ∧
    (∀ x, PQueue.peek h = .ok x → IsMin lt x (h : Multiset T)) ∧
    PQueue.len h = (h : Multiset T).card ∧ (PQueue.empty h = true ↔ (h : Multiset T) = 0) := by
  rw [PQueue.run_eq] at hrun
  refine ⟨C07_heap_refines_priority_queue o xs h0 h _ outs hnew hrun, fun x hx => ?_, rfl, ?_⟩
  · have := C07_peek_is_minimum o xs h0 h _ outs hnew hrun x hx
    exact ⟨by simpa using this.1, fun y hy => this.2 y (by simpa using hy)⟩
  · simp [PQueue.empty, PQueue.len, len]

/-- **C17.** Push always succeeds, and Pop and Peek succeed exactly on a non-empty queue. -/
theorem C17_pqueue_total (lt : T → T → Bool) (h : List T) (x : T) :
    (∃ h', PQueue.push lt h x = .ok h') ∧
    (h ≠ [] ↔ ∃ r, PQueue.pop lt h = .ok r) ∧ (h ≠ [] ↔ ∃ r, PQueue.peek h = .ok r) := by
  have a := C10_pop_peek_panic_iff_empty lt h
  refine ⟨(C10_new_push_never_panic lt [] h x).2, ⟨fun hne => (a.1 hne).1, ?_⟩, ⟨fun hne => (a.1 hne).2, ?_⟩⟩
  · rintro ⟨r, hr⟩ he
    have := (a.2 he).1
    rw [show Heap.pop lt h = PQueue.pop lt h from rfl, hr] at this; cases this
  · rintro ⟨r, hr⟩ he
    have := (a.2 he).2
    rw [show Heap.peek h = PQueue.peek h from rfl, hr] at this; cases this

example : PQueue.new natLt [4, 2] = .ok [2, 4] ∧
    PQueue.run natLt [2, 4] [some 1, none, none] = .ok ([4], [none, some 1, some 2]) := by decide

end Verif.Heap
