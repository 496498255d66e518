import Verif.Props.HeapShared

/-!
# Property C179: what the memory of a heap holds

`Heap` (and with it `PriorityQueue` and both delay queues) does not clear the cell of an element that is taken out, so whatever it refers to stays alive.
-/

namespace Verif.HeapShared

namespace Spec

variable {T : Type}

/-- The cells behind the heap, next one first, after one call that returned `out`, with `n` elements in the heap before: an element taken out is put in front of them, and a push
uses up the first one. -/
def behind1 (room : Nat → List T) (n : Nat) (st : List T) : HeapOp T → Option T → List T
  | .push _, _ =>
    match st with
    | [] => room n
    | _ :: st => st
  | .pop, some x => x :: st
  | .remove _, some x => x :: st
  | _, _ => st

/-- The number of elements after one call. -/
def count1 (n : Nat) : HeapOp T → Nat
  | .push _ => n + 1
  | .pop => n - 1
  | .remove _ => n - 1
  | _ => n

/-- The cells behind the heap after a history with its results. -/
def behind (room : Nat → List T) : Nat → List T → List (HeapOp T × Option T) → List T
  | _, st, [] => st
  | n, st, (op, out) :: l => behind room (count1 n op) (behind1 room n st op out) l

/-- The number of elements after a history. -/
def count : Nat → List (HeapOp T) → Nat
  | n, [] => n
  | n, op :: ops => count (count1 n op) ops

end Spec

variable {T : Type}

theorem step_behind (lt : T → T → Bool) (room : Nat → List T) {s s' : State T} {out : Option T} (h : s.n ≤ s.arr.length) {op : HeapOp T}
    (hop : plain op = true) (e : step lt room s op = .ok (s', out)) :
    s'.n ≤ s'.arr.length ∧ s'.n = Spec.count1 s.n op ∧ s'.arr.drop s'.n = Spec.behind1 room s.n (s.arr.drop s.n) op out := by
  have hl := view_length h
  cases op with
  | push x =>
    obtain ⟨h', tail, left, e1, -, p, k1, k2⟩ := push_spec lt room h x
    have hl' : h'.length = s.n + 1 := by have := p.length_eq; rw [List.length_cons, hl] at this; exact this
    unfold step at e
    dsimp only at e
    rw [e1] at e
    cases e
    refine ⟨by simp only [List.length_append]; omega, rfl, ?_⟩
    dsimp only
    rw [← hl', List.drop_left]
    rcases Nat.lt_or_eq_of_le h with hc | hc
    · rw [(k1 hc).1]
      rw [List.drop_eq_getElem_cons hc]
      rfl
    · rw [(k2 hc).1, hc, List.drop_length]
      rfl
  | pop =>
    unfold step at e
    dsimp only at e
    by_cases hne : 0 < s.n
    · obtain ⟨x, h', e1, -, -, -, hl'⟩ := pop_spec lt h hne
      rw [e1] at e
      cases e
      refine ⟨by simp only [List.length_append, List.length_cons]; omega, rfl, ?_⟩
      dsimp only
      rw [← hl', List.drop_left]
      rfl
    · have h0 : view s = [] := List.length_eq_zero_iff.1 (by omega)
      unfold pop swap at e
      rw [h0] at e
      cases e
  | peek =>
    unfold step peek at e
    dsimp only at e
    cases hq : Go.idx (view s) 0 with
    | error y => rw [hq] at e; cases e
    | ok x => rw [hq] at e; cases e; exact ⟨h, rfl, rfl⟩
  | remove i =>
    by_cases hi : i < s.n
    · unfold step at e
      dsimp only at e
      obtain ⟨x, h', e1, -, -, -, hl'⟩ := remove_spec lt h hi
      rw [e1] at e
      cases e
      refine ⟨by simp only [List.length_append, List.length_cons]; omega, rfl, ?_⟩
      dsimp only
      rw [← hl', List.drop_left]
      rfl
    · have h1 := step_same lt room h (.remove i) rfl
      rw [e] at h1
      have e2 : Heap.remove lt (view s) i = .error .index := by
        rw [Heap.remove_eq]; exact Heap.removeG_oob lt 2 2 (view s) i (by omega)
      unfold Heap.step at h1
      dsimp only at h1
      rw [e2] at h1
      cases h1.2
  | update i y => cases hop

/-- **C179** After every history of calls, the array behind the heap holds exactly the elements that were taken out and whose cells no push has used since, the last one first, and then what was there before;
when `append` moves the heap, the cells it adds. -/
theorem C179_cells (lt : T → T → Bool) (room : Nat → List T) : ∀ (ops : List (HeapOp T)) (s s' : State T) (outs : List (Option T)), s.n ≤ s.arr.length →
    (∀ op ∈ ops, plain op = true) → run lt room s ops = .ok (s', outs) →
    s'.n = Spec.count s.n ops ∧ s'.arr = view s' ++ Spec.behind room s.n (s.arr.drop s.n) (ops.zip outs) ∧ s'.n ≤ s'.arr.length
  | [], s, s', outs, h, _, e => by
    unfold run at e
    cases e
    exact ⟨rfl, arr_eq _, h⟩
  | op :: ops, s, s', outs, h, hp, e => by
    unfold run at e
    cases h1 : step lt room s op with
    | error y => rw [h1] at e; cases e
    | ok r =>
      rw [h1, Go.bind_ok] at e
      obtain ⟨r1, r2⟩ := r
      dsimp only at e
      cases h2 : run lt room r1 ops with
      | error y => rw [h2] at e; cases e
      | ok q =>
        rw [h2] at e
        cases e
        obtain ⟨a1, a2, a3⟩ := step_behind lt room h (hp op (List.mem_cons_self ..)) h1
        obtain ⟨b1, b2, b3⟩ := C179_cells lt room ops r1 q.1 q.2 a1 (fun o ho => hp o (List.mem_cons_of_mem _ ho)) h2
        rw [a3] at b2
        rw [a2] at b1 b2
        exact ⟨b1, b2, b3⟩

/-- The numbers of elements along a history, with the first one. -/
def counts : Nat → List (HeapOp T) → List Nat
  | n, [] => [n]
  | n, op :: ops => n :: counts (Spec.count1 n op) ops

theorem counts_head (n : Nat) (ops : List (HeapOp T)) : n ∈ counts n ops := by
  cases ops <;> simp [counts]

/-- A cell that is behind the heap before and after a call is not touched by it. -/
theorem step_cell (lt : T → T → Bool) (room : Nat → List T) {s s' : State T} {out : Option T} (h : s.n ≤ s.arr.length) {op : HeapOp T}
    (hop : plain op = true) (e : step lt room s op = .ok (s', out)) {m : Nat} (hm : m < s.arr.length) (h1 : s.n ≤ m) (h2 : s'.n ≤ m) :
    s'.arr[m]? = s.arr[m]? := by
  obtain ⟨a1, a2, a3⟩ := step_behind lt room h hop e
  have key : s'.arr[m]? = (s'.arr.drop s'.n)[m - s'.n]? := by rw [List.getElem?_drop]; congr 1; omega
  have key0 : s.arr[m]? = (s.arr.drop s.n)[m - s.n]? := by rw [List.getElem?_drop]; congr 1; omega
  rw [key, a3]
  cases op with
  | push x =>
    rw [List.drop_eq_getElem_cons (show s.n < s.arr.length by omega)]
    show (s.arr.drop (s.n + 1))[m - s'.n]? = _
    rw [List.getElem?_drop, a2]
    show s.arr[s.n + 1 + (m - (s.n + 1))]? = _
    congr 1
    rw [a2] at h2
    change s.n + 1 ≤ m at h2
    omega
  | pop =>
    have hne : 0 < s.n := by
      by_contra hne
      have h0 : view s = [] := List.length_eq_zero_iff.1 (by rw [view_length h]; omega)
      unfold step pop swap at e
      rw [h0] at e
      cases e
    have ho : ∃ x, out = some x := by
      obtain ⟨x, h', e1, -⟩ := pop_spec lt h hne
      unfold step at e
      dsimp only at e
      rw [e1] at e
      cases e
      exact ⟨x, rfl⟩
    obtain ⟨x, rfl⟩ := ho
    show (x :: s.arr.drop s.n)[m - s'.n]? = _
    rw [a2, show m - Spec.count1 s.n (.pop : HeapOp T) = (m - s.n) + 1 by show m - (s.n - 1) = _; omega, List.getElem?_cons_succ, ← key0]
  | peek =>
    show (s.arr.drop s.n)[m - s'.n]? = _
    rw [a2, key0]
    rfl
  | remove i =>
    have hi : i < s.n := by
      by_contra hi
      have h1 := step_same lt room h (.remove i) rfl
      rw [e] at h1
      have e2 : Heap.remove lt (view s) i = .error .index := by
        rw [Heap.remove_eq]; exact Heap.removeG_oob lt 2 2 (view s) i (by rw [view_length h]; omega)
      unfold Heap.step at h1
      dsimp only at h1
      rw [e2] at h1
      cases h1.2
    have ho : ∃ x, out = some x := by
      obtain ⟨x, h', e1, -⟩ := remove_spec lt h hi
      unfold step at e
      dsimp only at e
      rw [e1] at e
      cases e
      exact ⟨x, rfl⟩
    obtain ⟨x, rfl⟩ := ho
    show (x :: s.arr.drop s.n)[m - s'.n]? = _
    rw [a2, show m - Spec.count1 s.n (.remove i : HeapOp T) = (m - s.n) + 1 by show m - (s.n - 1) = _; omega, List.getElem?_cons_succ, ← key0]
  | update i y => cases hop

theorem run_cell (lt : T → T → Bool) (room : Nat → List T) {x : T} : ∀ (ops : List (HeapOp T)) {s s' : State T} {outs : List (Option T)}, s.n ≤ s.arr.length →
    (∀ op ∈ ops, plain op = true) → run lt room s ops = .ok (s', outs) → ∀ {m : Nat}, s.arr[m]? = some x → (∀ k ∈ counts s.n ops, k ≤ m) →
    s'.arr[m]? = some x
  | [], s, s', outs, _, _, e, m, hx, _ => by
    unfold run at e
    cases e
    exact hx
  | op :: ops, s, s', outs, h, hp, e, m, hx, hc => by
    unfold run at e
    cases h1 : step lt room s op with
    | error y => rw [h1] at e; cases e
    | ok r =>
      rw [h1, Go.bind_ok] at e
      obtain ⟨r1, r2⟩ := r
      dsimp only at e
      cases h2 : run lt room r1 ops with
      | error y => rw [h2] at e; cases e
      | ok q =>
        rw [h2] at e
        cases e
        obtain ⟨a1, a2, -⟩ := step_behind lt room h (hp op (List.mem_cons_self ..)) h1
        have hc' : ∀ k ∈ counts r1.n ops, k ≤ m := by
          intro k hk
          rw [a2] at hk
          exact hc k (List.mem_cons_of_mem _ hk)
        have hm : m < s.arr.length := by
          by_contra hm
          rw [List.getElem?_eq_none (by omega)] at hx
          cases hx
        have hs := step_cell lt room h (hp op (List.mem_cons_self ..)) h1 hm (hc _ (List.mem_cons_self ..)) (hc' _ (counts_head _ _))
        exact run_cell lt room ops a1 (fun o ho => hp o (List.mem_cons_of_mem _ ho)) h2 (hs.trans hx) hc'

/-- **C179** The natural statement is false: an element that `Pop` has returned stays in the array of the heap, whatever is called later, for as long as the heap does not get longer than it was
after that `Pop`; if nothing is pushed any more, for as long as the heap lives. -/
theorem C179_popped_refuted (lt : T → T → Bool) (room : Nat → List T) {s s1 s2 : State T} {x : T} {ops : List (HeapOp T)} {outs : List (Option T)}
    (h : s.n ≤ s.arr.length) (e1 : step lt room s .pop = .ok (s1, some x)) (hp : ∀ op ∈ ops, plain op = true)
    (e2 : run lt room s1 ops = .ok (s2, outs)) (hc : ∀ k ∈ counts s1.n ops, k ≤ s1.n) : x ∈ s2.arr := by
  obtain ⟨a1, -, a3⟩ := step_behind lt room h rfl e1
  have hx : s1.arr[s1.n]? = some x := by
    rw [← Nat.add_zero s1.n, ← List.getElem?_drop, a3]
    rfl
  exact List.mem_of_getElem? (run_cell lt room ops a1 hp e2 hx hc)

theorem behind_mem (room : Nat → List T) {x : T} : ∀ (l : List (HeapOp T × Option T)) (n : Nat) (st : List T), x ∈ Spec.behind room n st l →
    x ∈ st ∨ (∃ op, (op, some x) ∈ l ∧ op ≠ .peek) ∨ ∃ k, x ∈ room k
  | [], n, st, h => .inl h
  | (op, out) :: l, n, st, h => by
    rcases behind_mem room l _ _ h with h1 | ⟨op', h1, h2⟩ | h1
    · cases op with
      | push y =>
        cases st with
        | nil => exact .inr (.inr ⟨n, h1⟩)
        | cons z st => exact .inl (List.mem_cons_of_mem _ h1)
      | pop =>
        cases out with
        | none => exact .inl h1
        | some y =>
          rcases List.mem_cons.1 h1 with rfl | h1
          · exact .inr (.inl ⟨.pop, List.mem_cons_self .., by simp⟩)
          · exact .inl h1
      | peek => exact .inl h1
      | remove i =>
        cases out with
        | none => exact .inl h1
        | some y =>
          rcases List.mem_cons.1 h1 with rfl | h1
          · exact .inr (.inl ⟨.remove i, List.mem_cons_self .., by simp⟩)
          · exact .inl h1
      | update i y => exact .inl h1
    · exact .inr (.inl ⟨op', List.mem_cons_of_mem _ h1, h2⟩)
    · exact .inr (.inr h1)

/-- **C179** Nothing else is kept: what the array holds is in the heap, was taken out of it by this history, or was behind it at the start (or is in the cells that `append` adds); and a heap as long as its array
holds its elements and nothing else. -/
theorem C179_only (lt : T → T → Bool) (room : Nat → List T) {ops : List (HeapOp T)} {s s' : State T} {outs : List (Option T)} (h : s.n ≤ s.arr.length)
    (hp : ∀ op ∈ ops, plain op = true) (e : run lt room s ops = .ok (s', outs)) :
    (∀ x ∈ s'.arr, x ∈ view s' ∨ some x ∈ outs ∨ x ∈ s.arr.drop s.n ∨ ∃ k, x ∈ room k) ∧ (s'.n = s'.arr.length → s'.arr = view s') := by
  obtain ⟨-, a2, -⟩ := C179_cells lt room ops s s' outs h hp e
  refine ⟨fun x hx => ?_, fun hn => ?_⟩
  · rw [a2] at hx
    rcases List.mem_append.1 hx with hx | hx
    · exact .inl hx
    · rcases behind_mem room _ _ _ hx with h1 | ⟨op, h1, -⟩ | h1
      · exact .inr (.inr (.inl h1))
      · exact .inr (.inl (List.of_mem_zip h1).2)
      · exact .inr (.inr (.inr h1))
  · unfold view
    rw [hn, List.take_length]

/-- A heap of 5, 3, 4 in an array of four cells: two pops and a push. -/
example : (match new (fun a b : Nat => decide (a < b)) [5, 3, 4, 0] 3 with
    | .ok s => run (fun a b => decide (a < b)) (fun n => List.replicate n 0) s [.pop, .pop, .push 7]
    | .error e => .error e) = .ok (⟨[5, 7, 3, 0], 2, none⟩, [some 3, some 4, none]) := by decide +kernel

/-- A heap that is emptied and used no more keeps its last element. -/
example : (match new (fun a b : Nat => decide (a < b)) [9] 1 with
    | .ok s => run (fun a b => decide (a < b)) (fun n => List.replicate n 0) s [.pop]
    | .error e => .error e) = .ok (⟨[9], 0, none⟩, [some 9]) := by decide +kernel

end Verif.HeapShared
