import Verif.Model.HeapShared
import Verif.Proof.HeapSim

/-!
# Property C136: a heap and the slice it was made of
-/

namespace Verif.HeapShared

open Heap

variable {T : Type} {lt : T → T → Bool}

/-- The heap works on the first `n` cells; the others are `tail`. -/
structure Inv (n : Nat) (tail : List T) (left : Option (List T)) (s : State T) : Prop where
  n : s.n = n
  le : s.n ≤ s.arr.length
  tail : s.arr.drop s.n = tail
  left : s.left = left

theorem Inv.self {s : State T} (h : s.n ≤ s.arr.length) : Inv s.n (s.arr.drop s.n) s.left s := ⟨rfl, h, rfl, rfl⟩

theorem view_length {s : State T} (h : s.n ≤ s.arr.length) : (view s).length = s.n := by
  unfold view; rw [List.length_take]; omega

theorem arr_eq (s : State T) : s.arr = view s ++ s.arr.drop s.n := (List.take_append_drop _ _).symm

theorem opsSim (lt : T → T → Bool) (n : Nat) (tail : List T) (left : Option (List T)) :
    OpsSim (ops lt) (listOps lt) (Inv n tail left) view where
  less := fun _ _ _ _ => rfl
  swap := by
    intro s i j hs
    show SimG _ _ (swap s i j) (Heap.swap (view s) i j)
    unfold swap
    cases h : Heap.swap (view s) i j with
    | error e => rfl
    | ok v =>
      simp only [Go.bind_ok, Go.pure_eq]
      have hl : v.length = s.n := by
        have : v.length = (view s).length := by
          unfold Heap.swap at h
          cases h1 : Go.idx (view s) i with
          | error e => rw [h1] at h; cases h
          | ok a =>
            rw [h1] at h
            cases h2 : Go.idx (view s) j with
            | error e => rw [h2] at h; cases h
            | ok b =>
              rw [h2] at h
              simp only [Go.bind_ok, Go.pure_eq, Except.ok.injEq] at h
              rw [← h]; simp
        rw [this, view_length hs.le]
      refine ⟨⟨hs.n, ?_, ?_, hs.left⟩, ?_⟩
      · simp only [List.length_append]; omega
      · simp only
        rw [← hl, List.drop_left, hl]; exact hs.tail
      · unfold view; simp only
        rw [← hl, List.take_left]

/-- The state is known from the elements. -/
theorem Inv.arr {n : Nat} {tail : List T} {left : Option (List T)} {s : State T} (h : Inv n tail left s) : s.arr = view s ++ tail := by
  rw [← h.tail]; exact arr_eq s

theorem Inv.eq {n : Nat} {tail : List T} {left : Option (List T)} {s : State T} (h : Inv n tail left s) {v : List T} (hv : view s = v) :
    s = ⟨v ++ tail, n, left⟩ := by
  obtain ⟨a, m, l⟩ := s
  have h1 := h.arr
  have h2 := h.n
  have h3 := h.left
  simp only at h1 h2 h3
  rw [hv] at h1
  rw [h1, h2, h3]

theorem down_view (lt : T → T → Bool) {n : Nat} {tail : List T} {left : Option (List T)} {s : State T} (h : Inv n tail left s) (i k : Nat) :
    SimP (Inv n tail left) view (down (ops lt) s i k) (down (listOps lt) (view s) i k) := down_sim (opsSim lt n tail left) s i k h

/-! ## The single operations -/

theorem initLoop_view (lt : T → T → Bool) {n : Nat} {tail : List T} {left : Option (List T)} (m : Nat) : ∀ (k : Nat) (s : State T),
    Inv n tail left s → SimG (Inv n tail left) view (initLoop lt m k s) (Heap.initLoop lt m k (view s))
  | 0, s, h => ⟨h, rfl⟩
  | k + 1, s, h => by
    unfold initLoop Heap.initLoop
    have h2 := down_view lt h k m
    cases hd : down (ops lt) s k m with
    | error e => rw [hd] at h2; simp only [SimP] at h2; rw [h2]; rfl
    | ok r =>
      rw [hd] at h2; simp only [SimP] at h2; rw [h2.2]
      exact initLoop_view lt m k r.1 h2.1

theorem new_spec (lt : T → T → Bool) (arr : List T) (n : Nat) (hn : n ≤ arr.length) :
    ∃ h, new lt arr n = .ok ⟨h ++ arr.drop n, n, none⟩ ∧ Heap.new lt (arr.take n) = .ok h ∧ h.Perm (arr.take n) := by
  obtain ⟨h, e, p⟩ := Heap.new_total lt (arr.take n)
  have hi : Inv n (arr.drop n) none (⟨arr, n, none⟩ : State T) := ⟨rfl, hn, rfl, rfl⟩
  have hs := initLoop_view lt n (n / 2) _ hi
  have hl : (arr.take n).length = n := by rw [List.length_take]; omega
  have e' : Heap.initLoop lt n (n / 2) (view (⟨arr, n, none⟩ : State T)) = .ok h := by
    have := e
    unfold Heap.new at this
    rw [hl] at this
    exact this
  obtain ⟨s, h1, h2, h3⟩ := hs.of_ok e'
  refine ⟨h, ?_, e, p⟩
  unfold new
  rw [h1, h2.eq h3]

theorem popRaw_view {s : State T} (h : s.n ≤ s.arr.length) {v : List T} {x : T} (hv : view s = v ++ [x]) :
    popRaw s = .ok (x, { s with n := s.n - 1 }) ∧ view { s with n := s.n - 1 } = v := by
  have hl : v.length + 1 = s.n := by
    have := view_length h
    rw [hv, List.length_append] at this
    exact this
  have hx : Go.idx (view s) (s.n - 1) = .ok x := by
    rw [hv, ← hl]
    simp [Go.idx]
  constructor
  · unfold popRaw
    rw [hx]; rfl
  · unfold view at hv ⊢
    simp only
    have : s.arr.take (s.n - 1) = (s.arr.take s.n).take (s.n - 1) := by rw [List.take_take]; congr 1; omega
    rw [this, hv, ← hl]
    simp

/-- `Pop` moves the least element behind the heap. -/
theorem pop_spec (lt : T → T → Bool) {s : State T} (h : s.n ≤ s.arr.length) (hne : 0 < s.n) :
    ∃ x h', pop lt s = .ok (x, ⟨h' ++ x :: s.arr.drop s.n, s.n - 1, s.left⟩) ∧ Heap.pop lt (view s) = .ok (x, h') ∧
      s.arr[0]? = some x ∧ (x :: h').Perm (view s) ∧ h'.length = s.n - 1 := by
  have hl := view_length h
  obtain ⟨h', e, p, -⟩ := popPrep_spec lt (view s) (by omega)
  have hs := popPrep_sim (opsSim lt s.n (s.arr.drop s.n) s.left) s ((view s).length - 1) (Inv.self h)
  obtain ⟨s', e1, hi, hv⟩ := hs.of_ok e
  have hlen : h'.length = s.n - 1 := by
    have := p.length_eq
    rw [List.length_cons, hl] at this
    omega
  have hp : pop lt s = popRaw s' := by
    rw [hl] at e1
    unfold popPrep at e1
    unfold pop
    simp only
    cases h1 : swap s 0 (s.n - 1) with
    | error y => rw [show (ops lt).swap s 0 (s.n - 1) = _ from h1] at e1; cases e1
    | ok s1 =>
      rw [show (ops lt).swap s 0 (s.n - 1) = _ from h1] at e1
      simp only [Go.bind_ok] at e1 ⊢
      cases h2 : down (ops lt) s1 0 (s.n - 1) with
      | error y => rw [h2] at e1; cases e1
      | ok r =>
        rw [h2] at e1
        simp only [Go.bind_ok, Go.pure_eq, Except.ok.injEq] at e1 ⊢
        rw [e1]
  obtain ⟨r1, r2⟩ := popRaw_view hi.le hv
  refine ⟨(view s)[0], h', ?_, ?_, ?_, p, hlen⟩
  · rw [hp, r1]
    have := hi.eq hv
    rw [this]
    simp
  · rw [pop_prep, e, Go.bind_ok, popRaw_ok _ (by simp)]
    simp
  · have : (view s)[0]? = s.arr[0]? := by unfold view; rw [List.getElem?_take, if_pos hne]
    rw [← this, List.getElem?_eq_getElem]

theorem remove_spec (lt : T → T → Bool) {s : State T} (h : s.n ≤ s.arr.length) {i : Nat} (hi : i < s.n) :
    ∃ x h', remove lt s i = .ok (x, ⟨h' ++ x :: s.arr.drop s.n, s.n - 1, s.left⟩) ∧ Heap.remove lt (view s) i = .ok (x, h') ∧
      s.arr[i]? = some x ∧ (x :: h').Perm (view s) ∧ h'.length = s.n - 1 := by
  have hl := view_length h
  obtain ⟨h', e, p, -⟩ := removeAt_spec lt (view s) i (by omega)
  have hs := removeAt_sim (opsSim lt s.n (s.arr.drop s.n) s.left) s (view s).length i (Inv.self h)
  obtain ⟨s', e1, hinv, hv⟩ := hs.of_ok e
  have hlen : h'.length = s.n - 1 := by
    have := p.length_eq
    rw [List.length_cons, hl] at this
    omega
  obtain ⟨r1, r2⟩ := popRaw_view hinv.le hv
  refine ⟨(view s)[i], h', ?_, ?_, ?_, p, hlen⟩
  · unfold remove
    rw [hl] at e1
    rw [e1, Go.bind_ok, r1]
    have := hinv.eq hv
    rw [this]
    simp
  · unfold Heap.remove
    rw [if_neg (by omega), Int.toNat_natCast, e, Go.bind_ok, popRaw_ok _ (by simp)]
    simp
  · have : (view s)[i]? = s.arr[i]? := by unfold view; rw [List.getElem?_take, if_pos hi]
    rw [← this, List.getElem?_eq_getElem]

theorem fix_spec (lt : T → T → Bool) {s : State T} (h : s.n ≤ s.arr.length) {i : Nat} (hi : i < s.n) :
    ∃ h', fix lt s i = .ok ⟨h' ++ s.arr.drop s.n, s.n, s.left⟩ ∧ Heap.fix lt (view s) i = .ok h' ∧ h'.Perm (view s) := by
  have hl := view_length h
  obtain ⟨h', e, p, -⟩ := fixAt_spec lt (view s) i (by omega)
  have hs := fixAt_sim (opsSim lt s.n (s.arr.drop s.n) s.left) s (view s).length i (Inv.self h)
  obtain ⟨s', e1, hinv, hv⟩ := hs.of_ok e
  refine ⟨h', ?_, ?_, p⟩
  · unfold fix
    rw [hl] at e1
    rw [e1, hinv.eq hv]
  · unfold Heap.fix
    rw [if_neg (by omega), if_neg (by omega), Int.toNat_natCast, e]

/-- The raw `push`: the cell behind the heap is overwritten, or the heap moves. -/
theorem pushRaw_inv (room : Nat → List T) {s : State T} (h : s.n ≤ s.arr.length) (x : T) :
    ∃ tail left, Inv (s.n + 1) tail left (pushRaw room s x) ∧ view (pushRaw room s x) = view s ++ [x] ∧
      (s.n < s.arr.length → tail = s.arr.drop (s.n + 1) ∧ left = s.left) ∧
      (s.n = s.arr.length → tail = room s.n ∧ left = some (caller s)) := by
  unfold pushRaw
  by_cases hc : s.n < s.arr.length
  · rw [if_pos hc]
    refine ⟨s.arr.drop (s.n + 1), s.left, ⟨rfl, ?_, ?_, rfl⟩, ?_, fun _ => ⟨rfl, rfl⟩, fun he => absurd he (by omega)⟩
    · simp only [List.length_set]; omega
    · simp only
      rw [List.drop_set_of_lt (by omega)]
    · unfold view
      simp only
      rw [List.take_succ, List.getElem?_set_self hc, List.take_set_of_le (le_refl _)]
      rfl
  · rw [if_neg hc]
    have hl := view_length h
    have hl1 : (view s ++ [x]).length = s.n + 1 := by rw [List.length_append, hl]; rfl
    refine ⟨room s.n, some (caller s), ⟨rfl, ?_, ?_, rfl⟩, ?_, fun he => absurd he hc, fun _ => ⟨rfl, rfl⟩⟩
    · simp only [List.length_append, List.length_cons]; omega
    · simp only
      rw [List.append_cons, ← hl1, List.drop_left]
    · unfold view
      simp only
      rw [← view, List.append_cons, ← hl1, List.take_left]

theorem push_spec (lt : T → T → Bool) (room : Nat → List T) {s : State T} (h : s.n ≤ s.arr.length) (x : T) :
    ∃ h' tail left, push lt room s x = .ok ⟨h' ++ tail, s.n + 1, left⟩ ∧ Heap.push lt (view s) x = .ok h' ∧ h'.Perm (x :: view s) ∧
      (s.n < s.arr.length → tail = s.arr.drop (s.n + 1) ∧ left = s.left) ∧
      (s.n = s.arr.length → tail = room s.n ∧ left = some (caller s)) := by
  obtain ⟨tail, left, hi, hv, h1, h2⟩ := pushRaw_inv room h x
  obtain ⟨h', e, p, -⟩ := Heap.push_spec lt (view s) x
  have hs := up_sim (opsSim lt (s.n + 1) tail left) (pushRaw room s x) (view s).length hi
  rw [hv] at hs
  obtain ⟨s', e1, hinv, hv'⟩ := hs.of_ok e
  refine ⟨h', tail, left, ?_, ?_, p, h1, h2⟩
  · unfold push
    simp only
    rw [hi.n, show s.n + 1 - 1 = (view s).length by rw [view_length h]; omega, e1, hinv.eq hv']
  · unfold Heap.push Heap.pushRaw
    simpa using e

/-! ## C136 -/

/-- The operations other than assignments of the caller. -/
def plain : HeapOp T → Bool
  | .update _ _ => false
  | _ => true

/-- A step and the step of the heap of Model/Heap agree. -/
theorem step_same (lt : T → T → Bool) (room : Nat → List T) {s : State T} (h : s.n ≤ s.arr.length) (op : HeapOp T) (hop : plain op = true) :
    SimP (fun s' => s'.n ≤ s'.arr.length) view (step lt room s op) (Heap.step lt (view s) op) := by
  have hl := view_length h
  cases op with
  | push x =>
    obtain ⟨h', tail, left, e1, e2, p, -⟩ := push_spec lt room h x
    have hl' : h'.length = s.n + 1 := by have := p.length_eq; rw [List.length_cons, hl] at this; exact this
    unfold step Heap.step
    dsimp only
    rw [e1, e2]
    refine ⟨?_, ?_⟩
    · simp only [List.length_append]; omega
    · simp only [view, Go.bind_ok, Go.pure_eq]
      rw [← hl', List.take_left]
  | pop =>
    unfold step Heap.step
    dsimp only
    by_cases hne : 0 < s.n
    · obtain ⟨x, h', e1, e2, -, -, hl'⟩ := pop_spec lt h hne
      rw [e1, e2]
      refine ⟨?_, ?_⟩
      · simp only [List.length_append]; omega
      · simp only [view, Go.bind_ok, Go.pure_eq]
        rw [← hl', List.take_left]
    · have h0 : view s = [] := List.length_eq_zero_iff.1 (by omega)
      unfold pop swap Heap.pop
      rw [h0]
      rfl
  | peek =>
    unfold step Heap.step peek Heap.peek
    dsimp only
    cases Go.idx (view s) 0 with
    | error e => rfl
    | ok x => exact ⟨h, rfl⟩
  | remove i =>
    unfold step Heap.step
    dsimp only
    by_cases hi : i < s.n
    · obtain ⟨x, h', e1, e2, -, -, hl'⟩ := remove_spec lt h hi
      rw [e1, e2]
      refine ⟨?_, ?_⟩
      · simp only [List.length_append]; omega
      · simp only [view, Go.bind_ok, Go.pure_eq]
        rw [← hl', List.take_left]
    · have e2 : Heap.remove lt (view s) i = .error .index := by
        rw [remove_eq]; exact removeG_oob lt 2 2 (view s) i (by omega)
      rw [e2]
      have e1 : remove lt s i = .error .index := by
        unfold remove
        by_cases hin : s.n - 1 = i
        · have h0 : view s = [] := List.length_eq_zero_iff.1 (by omega)
          unfold removeAt
          simp only [hin, ne_eq, not_true_eq_false, if_false]
          simp only [Go.pure_eq, Go.bind_ok]
          unfold popRaw
          rw [h0]
          rfl
        · unfold removeAt
          simp only [ne_eq, hin, not_false_eq_true, if_true]
          have : (ops lt).swap s i (s.n - 1) = .error .index := by
            show swap s i (s.n - 1) = _
            unfold swap Heap.swap
            rw [Go.idx_of_ge _ _ (by omega)]
            rfl
          rw [this]
          rfl
      rw [e1]
      rfl
  | update i y => cases hop

/-- **C136.** A heap behaves the same wherever its cells are: the results of every history of calls are those of the heap of its elements. -/
theorem C136_same (lt : T → T → Bool) (room : Nat → List T) : ∀ (ops : List (HeapOp T)) (s : State T), s.n ≤ s.arr.length →
    (∀ op ∈ ops, plain op = true) →
    SimP (fun s' => s'.n ≤ s'.arr.length) view (run lt room s ops) (Heap.run lt (view s) ops)
  | [], s, h, _ => ⟨h, rfl⟩
  | op :: ops, s, h, hp => by
    unfold run Heap.run
    have h1 := step_same lt room h op (hp op (List.mem_cons_self ..))
    cases hd : step lt room s op with
    | error e => rw [hd] at h1; simp only [SimP] at h1; rw [h1]; rfl
    | ok r =>
      rw [hd] at h1; simp only [SimP] at h1; rw [h1.2]
      simp only [Go.bind_ok]
      have h2 := C136_same lt room ops r.1 h1.1 (fun o ho => hp o (List.mem_cons_of_mem _ ho))
      cases hr : run lt room r.1 ops with
      | error e => rw [hr] at h2; simp only [SimP] at h2; rw [h2]; rfl
      | ok q => rw [hr] at h2; simp only [SimP] at h2; rw [h2.2]; exact ⟨h2.1, rfl⟩

/-- **C136.** `New` puts the caller's elements into another order; it loses none and does not touch the rest of the array. -/
theorem C136_new (lt : T → T → Bool) (arr : List T) (n : Nat) (hn : n ≤ arr.length) :
    ∃ s, new lt arr n = .ok s ∧ s.n = n ∧ ((caller s).take n).Perm (arr.take n) ∧ (caller s).drop n = arr.drop n := by
  obtain ⟨h, e, -, p⟩ := new_spec lt arr n hn
  have hl : h.length = n := by have := p.length_eq; rw [List.length_take] at this; omega
  refine ⟨_, e, rfl, ?_, ?_⟩
  · show ((h ++ arr.drop n).take n).Perm _
    rw [← hl, List.take_left, hl]; exact p
  · show (h ++ arr.drop n).drop n = _
    rw [← hl, List.drop_left, hl]

/-- The operations that add nothing. -/
def shrinking : HeapOp T → Bool
  | .pop => true
  | .peek => true
  | .remove _ => true
  | _ => false

/-- **C136.** As long as nothing is pushed, the caller's array keeps all its elements, in another order, and the part behind the heap. -/
theorem C136_keeps (lt : T → T → Bool) (room : Nat → List T) : ∀ (ops : List (HeapOp T)) (s s' : State T) (outs : List (Option T)),
    s.n ≤ s.arr.length → s.left = none → (∀ op ∈ ops, shrinking op = true) → run lt room s ops = .ok (s', outs) →
    ((caller s').take s.n).Perm ((caller s).take s.n) ∧ (caller s').drop s.n = (caller s).drop s.n ∧ s'.n ≤ s.n
  | [], s, s', outs, _, _, _, e => by
    unfold run at e
    cases e
    exact ⟨List.Perm.refl _, rfl, le_refl _⟩
  | op :: ops, s, s', outs, h, hleft, hp, e => by
    unfold run at e
    -- one step
    have hstep : ∀ s1 out, step lt room s op = .ok (s1, out) → s1.left = none ∧ s1.n ≤ s.n ∧ s1.arr.length = s.arr.length ∧
        (s1.arr.take s.n).Perm (s.arr.take s.n) ∧ s1.arr.drop s.n = s.arr.drop s.n := by
      intro s1 out e1
      have hshr := hp op (List.mem_cons_self ..)
      have hgone : ∀ x h', (x :: h').Perm (view s) → h'.length = s.n - 1 → 0 < s.n →
          s1 = ⟨h' ++ x :: s.arr.drop s.n, s.n - 1, s.left⟩ → s1.left = none ∧ s1.n ≤ s.n ∧ s1.arr.length = s.arr.length ∧
          (s1.arr.take s.n).Perm (s.arr.take s.n) ∧ s1.arr.drop s.n = s.arr.drop s.n := by
        intro x h' p hl hne hs1
        subst hs1
        have hlx : (h' ++ [x]).length = s.n := by rw [List.length_append, hl]; simp; omega
        refine ⟨hleft, Nat.sub_le _ _, ?_, ?_, ?_⟩
        · simp only [List.length_append, List.length_cons, List.length_drop]; omega
        · simp only
          rw [List.append_cons]
          conv_lhs => rw [← hlx, List.take_left]
          exact (List.perm_append_singleton _ _).trans p
        · simp only
          rw [List.append_cons]
          conv_lhs => rw [← hlx, List.drop_left]
          rw [hlx]
      cases op with
      | push x => cases hshr
      | update i y => cases hshr
      | peek =>
        unfold step peek at e1
        dsimp only at e1
        cases hq : Go.idx (view s) 0 with
        | error q => rw [hq] at e1; cases e1
        | ok x =>
          rw [hq] at e1
          simp only [Go.bind_ok, Go.pure_eq, Except.ok.injEq, Prod.mk.injEq] at e1
          rw [← e1.1]
          exact ⟨hleft, le_refl _, rfl, List.Perm.refl _, rfl⟩
      | pop =>
        by_cases hne : 0 < s.n
        · obtain ⟨x, h', e2, -, -, p, hl⟩ := pop_spec lt h hne
          unfold step at e1
          dsimp only at e1
          rw [e2] at e1
          simp only [Go.bind_ok, Go.pure_eq, Except.ok.injEq, Prod.mk.injEq] at e1
          exact hgone x h' p hl hne e1.1.symm
        · have h1 := step_same lt room h .pop rfl
          rw [e1] at h1
          have h0 : view s = [] := List.length_eq_zero_iff.1 (by have := view_length h; omega)
          simp only [SimP, h0] at h1
          cases h1.2
      | remove i =>
        by_cases hi : i < s.n
        · obtain ⟨x, h', e2, -, -, p, hl⟩ := remove_spec lt h hi
          unfold step at e1
          dsimp only at e1
          rw [e2] at e1
          simp only [Go.bind_ok, Go.pure_eq, Except.ok.injEq, Prod.mk.injEq] at e1
          exact hgone x h' p hl (by omega) e1.1.symm
        · have h1 := step_same lt room h (.remove i) rfl
          rw [e1] at h1
          simp only [SimP] at h1
          have e2 : Heap.remove lt (view s) i = .error .index := by
            rw [remove_eq]; exact removeG_oob lt 2 2 (view s) i (by have := view_length h; omega)
          have := h1.2
          unfold Heap.step at this
          dsimp only at this
          rw [e2] at this
          cases this
    cases hd : step lt room s op with
    | error q => rw [hd] at e; cases e
    | ok r =>
      rw [hd] at e
      simp only [Go.bind_ok] at e
      obtain ⟨a1, a2, a3, a4, a5⟩ := hstep r.1 r.2 hd
      cases hr : run lt room r.1 ops with
      | error q => rw [hr] at e; cases e
      | ok q =>
        rw [hr] at e
        simp only [Go.bind_ok, Go.pure_eq, Except.ok.injEq, Prod.mk.injEq] at e
        obtain ⟨rfl, -⟩ := e
        obtain ⟨b1, b2, b3⟩ := C136_keeps lt room ops r.1 q.1 q.2 (by omega) a1 (fun o ho => hp o (List.mem_cons_of_mem _ ho)) hr
        have c0 : caller s = s.arr := by unfold caller; rw [hleft]; rfl
        have c1 : caller r.1 = r.1.arr := by unfold caller; rw [a1]; rfl
        rw [c1] at b1 b2
        rw [c0]
        have hlen : (caller q.1).length = r.1.arr.length := by
          have h1 := b1.length_eq
          have h2 := congrArg List.length b2
          simp only [List.length_take, List.length_drop] at h1 h2
          omega
        -- the part between the two lengths does not change either
        have hsplit : ∀ a : List T, a.take s.n = a.take r.1.n ++ (a.drop r.1.n).take (s.n - r.1.n) := by
          intro a
          conv_lhs => rw [show s.n = r.1.n + (s.n - r.1.n) by omega, List.take_add]
        refine ⟨?_, ?_, by omega⟩
        · refine List.Perm.trans ?_ a4
          rw [hsplit (caller q.1), hsplit r.1.arr, b2]
          exact b1.append_right _
        · rw [← a5]
          have : ∀ a : List T, a.drop s.n = (a.drop r.1.n).drop (s.n - r.1.n) := by
            intro a; rw [List.drop_drop]; congr 1; omega
          rw [this, this r.1.arr, b2]

theorem popAll (o : StrictWeakOrder lt) (room : Nat → List T) : ∀ (k : Nat) (s : State T), s.n = k → s.n ≤ s.arr.length →
    HeapN lt 2 (view s).length (view s) →
    ∃ outs : List T, run lt room s (List.replicate k .pop) = .ok (⟨outs.reverse ++ s.arr.drop k, 0, s.left⟩, outs.map some) ∧
      outs.Perm (view s) ∧ outs.Pairwise (fun a b => lt b a = false)
  | 0, s, hk, h, _ => by
    refine ⟨[], ?_, ?_, List.Pairwise.nil⟩
    · obtain ⟨a, n, l⟩ := s
      simp only at hk
      subst hk
      rfl
    · unfold view
      rw [hk, List.take_zero]
  | k + 1, s, hk, h, hh => by
    obtain ⟨x, h', e, e2, hx, p, hl⟩ := pop_spec lt h (by omega)
    have hl' : h'.length = k := by omega
    have hv : view (⟨h' ++ x :: s.arr.drop s.n, s.n - 1, s.left⟩ : State T) = h' := by
      show (h' ++ x :: s.arr.drop s.n).take (s.n - 1) = h'
      rw [← hl, List.take_left]
    have hheap : HeapN lt 2 h'.length h' := by
      rw [pop_eq] at e2
      exact popG_heap o 2 2 ⟨by omega, Or.inl rfl⟩ hh e2
    obtain ⟨outs, r, rp, rs⟩ := popAll o room k ⟨h' ++ x :: s.arr.drop s.n, s.n - 1, s.left⟩ (by simp only; omega)
      (by simp only [List.length_append]; omega) (by rw [hv]; exact hheap)
    rw [hv] at rp
    have hmin : ∀ y ∈ view s, lt y x = false := by
      intro y hy
      obtain ⟨i, hi, rfl⟩ := List.getElem_of_mem hy
      have h0 : 0 < (view s).length := by omega
      have hx0 : (view s)[0] = x := by
        have : (view s)[0]? = some x := by
          rw [← hx]; unfold view; rw [List.getElem?_take, if_pos (by omega)]
        rw [List.getElem?_eq_getElem h0] at this
        exact Option.some.inj this
      have := HeapN.root_min o hh (le_refl _) i hi
      unfold NotLess at this
      exact this _ _ (List.getElem?_eq_getElem hi) (by rw [List.getElem?_eq_getElem h0, hx0])
    refine ⟨x :: outs, ?_, (rp.cons x).trans p, List.pairwise_cons.2 ⟨fun y hy => ?_, rs⟩⟩
    · rw [List.replicate_succ]
      unfold run
      have hst : step lt room s .pop = .ok (⟨h' ++ x :: s.arr.drop s.n, s.n - 1, s.left⟩, some x) := by
        unfold step
        dsimp only
        rw [e]; rfl
      rw [hst, Go.bind_ok]
      simp only
      rw [r]
      simp only [Go.bind_ok, Go.pure_eq, List.map_cons]
      rw [show (h' ++ x :: s.arr.drop s.n).drop k = x :: s.arr.drop s.n by rw [← hl', List.drop_left], hk]
      simp
    · exact hmin y (p.subset (List.mem_cons_of_mem _ (rp.subset hy)))

/-- **C136.** Making a heap of a slice and popping everything sorts the slice of the caller, the largest first. -/
theorem C136_sorts (o : StrictWeakOrder lt) (room : Nat → List T) (arr : List T) (n : Nat) (hn : n ≤ arr.length) :
    ∃ s s' outs, new lt arr n = .ok s ∧ run lt room s (List.replicate n .pop) = .ok (s', outs) ∧ s'.n = 0 ∧
      ((caller s').take n).Perm (arr.take n) ∧ ((caller s').take n).Pairwise (fun a b => lt a b = false) ∧
      (caller s').drop n = arr.drop n := by
  obtain ⟨h, e, e2, p⟩ := new_spec lt arr n hn
  have hl : h.length = n := by have := p.length_eq; rw [List.length_take] at this; omega
  have hv : view (⟨h ++ arr.drop n, n, none⟩ : State T) = h := by
    show (h ++ arr.drop n).take n = h
    rw [← hl, List.take_left]
  obtain ⟨outs, r, rp, rs⟩ := popAll o room n ⟨h ++ arr.drop n, n, none⟩ rfl (by simp only [List.length_append]; omega)
    (by rw [hv]; exact new_heap o e2)
  rw [hv] at rp
  have hlo : outs.reverse.length = n := by rw [List.length_reverse, rp.length_eq, hl]
  refine ⟨_, _, _, e, r, rfl, ?_⟩
  show ((outs.reverse ++ (h ++ arr.drop n).drop n).take n).Perm _ ∧ ((outs.reverse ++ (h ++ arr.drop n).drop n).take n).Pairwise _ ∧
    (outs.reverse ++ (h ++ arr.drop n).drop n).drop n = _
  have h1 : (outs.reverse ++ (h ++ arr.drop n).drop n).take n = outs.reverse := by
    conv_lhs => rw [← hlo]
    rw [List.take_left]
  have h2 : (outs.reverse ++ (h ++ arr.drop n).drop n).drop n = (h ++ arr.drop n).drop n := by
    conv_lhs => rw [← hlo]
    rw [List.drop_left, hlo]
  rw [h1, h2]
  refine ⟨(List.reverse_perm _).trans (rp.trans p), List.pairwise_reverse.2 rs, ?_⟩
  rw [← hl, List.drop_left]

/-- **C136 (what happens).** The array keeps the element that was popped, in the cell behind the heap. -/
theorem C136_popped_stays (lt : T → T → Bool) {s : State T} (h : s.n ≤ s.arr.length) (hne : 0 < s.n) :
    ∃ x s', pop lt s = .ok (x, s') ∧ s'.arr[s'.n]? = some x := by
  obtain ⟨x, h', e, -, -, -, hl⟩ := pop_spec lt h hne
  refine ⟨x, _, e, ?_⟩
  show (h' ++ x :: s.arr.drop s.n)[s.n - 1]? = some x
  rw [← hl, List.getElem?_append_right (le_refl _)]
  simp

/-- **C136 (what happens).** `Push` overwrites the cell of the caller behind the heap if there is one: the element there is lost, the cells behind stay. If
there is none, it leaves the caller's array as it is. -/
theorem C136_push_exact (lt : T → T → Bool) (room : Nat → List T) {s : State T} (h : s.n ≤ s.arr.length) (hleft : s.left = none) (x : T) :
    ∃ s', push lt room s x = .ok s' ∧ s'.n = s.n + 1 ∧
      (s.n < s.arr.length → s'.left = none ∧ ((caller s').take (s.n + 1)).Perm (x :: (caller s).take s.n) ∧
        (caller s').drop (s.n + 1) = (caller s).drop (s.n + 1)) ∧
      (s.n = s.arr.length → caller s' = caller s ∧ s'.left ≠ none) := by
  obtain ⟨h', tail, left, e, -, p, h1, h2⟩ := push_spec lt room h x
  have hl' : h'.length = s.n + 1 := by have := p.length_eq; rw [List.length_cons, view_length h] at this; exact this
  refine ⟨_, e, rfl, fun hc => ?_, fun hc => ?_⟩
  · obtain ⟨rfl, rfl⟩ := h1 hc
    have hc1 : caller (⟨h' ++ s.arr.drop (s.n + 1), s.n + 1, s.left⟩ : State T) = h' ++ s.arr.drop (s.n + 1) := by
      unfold caller; rw [hleft]; rfl
    have hc2 : caller s = s.arr := by unfold caller; rw [hleft]; rfl
    rw [hc1, hc2]
    refine ⟨hleft, ?_, ?_⟩
    · rw [← hl', List.take_left]; exact p
    · rw [← hl', List.drop_left]
  · obtain ⟨rfl, rfl⟩ := h2 hc
    exact ⟨rfl, by simp⟩

theorem step_moved (lt : T → T → Bool) (room : Nat → List T) {s s1 : State T} {a : List T} (h : s.n ≤ s.arr.length) (hleft : s.left = some a)
    (op : HeapOp T) (hop : plain op = true) (out : Option T) (e : step lt room s op = .ok (s1, out)) : s1.left = some a := by
  cases op with
  | push x =>
    obtain ⟨h', tail, left, e2, -, -, h1, h2⟩ := push_spec lt room h x
    unfold step at e
    dsimp only at e
    rw [e2] at e
    simp only [Go.bind_ok, Go.pure_eq, Except.ok.injEq, Prod.mk.injEq] at e
    rw [← e.1]
    rcases Nat.lt_or_ge s.n s.arr.length with hc | hc
    · rw [(h1 hc).2]; exact hleft
    · rw [(h2 (by omega)).2]
      unfold caller; rw [hleft]; rfl
  | pop =>
    unfold step at e
    dsimp only at e
    by_cases hne : 0 < s.n
    · obtain ⟨x, h', e2, -⟩ := pop_spec lt h hne
      rw [e2] at e
      simp only [Go.bind_ok, Go.pure_eq, Except.ok.injEq, Prod.mk.injEq] at e
      rw [← e.1]; exact hleft
    · have h1 := step_same lt room h .pop rfl
      unfold step at h1
      dsimp only at h1
      rw [e] at h1
      have h0 : view s = [] := List.length_eq_zero_iff.1 (by have := view_length h; omega)
      simp only [SimP, h0] at h1
      cases h1.2
  | peek =>
    unfold step peek at e
    dsimp only at e
    cases hq : Go.idx (view s) 0 with
    | error q => rw [hq] at e; cases e
    | ok x =>
      rw [hq] at e
      simp only [Go.bind_ok, Go.pure_eq, Except.ok.injEq, Prod.mk.injEq] at e
      rw [← e.1]; exact hleft
  | remove i =>
    by_cases hi : i < s.n
    · obtain ⟨x, h', e2, -⟩ := remove_spec lt h hi
      unfold step at e
      dsimp only at e
      rw [e2] at e
      simp only [Go.bind_ok, Go.pure_eq, Except.ok.injEq, Prod.mk.injEq] at e
      rw [← e.1]; exact hleft
    · have h1 := step_same lt room h (.remove i) rfl
      rw [e] at h1
      simp only [SimP] at h1
      have h2 := h1.2
      unfold Heap.step at h2
      dsimp only at h2
      rw [show Heap.remove lt (view s) i = .error .index by
        rw [remove_eq]; exact removeG_oob lt 2 2 (view s) i (by have := view_length h; omega)] at h2
      cases h2
  | update i y => cases hop

/-- **C136.** Once `Push` has moved the heap, no call changes the caller's array, however often the heap moves again. -/
theorem C136_moved (lt : T → T → Bool) (room : Nat → List T) : ∀ (ops : List (HeapOp T)) (s s' : State T) (outs : List (Option T)),
    s.n ≤ s.arr.length → s.left ≠ none → (∀ op ∈ ops, plain op = true) → run lt room s ops = .ok (s', outs) →
    s'.left ≠ none ∧ caller s' = caller s
  | [], s, s', outs, _, hl, _, e => by
    unfold run at e
    cases e
    exact ⟨hl, rfl⟩
  | op :: ops, s, s', outs, h, hl, hp, e => by
    unfold run at e
    obtain ⟨a, ha⟩ := Option.ne_none_iff_exists'.1 hl
    cases hd : step lt room s op with
    | error q => rw [hd] at e; cases e
    | ok r =>
      rw [hd] at e
      have h1 := step_moved lt room h ha op (hp op (List.mem_cons_self ..)) r.2 hd
      have h2 := step_same lt room h op (hp op (List.mem_cons_self ..))
      rw [hd] at h2
      cases hr : run lt room r.1 ops with
      | error q => simp only [Go.bind_ok] at e; rw [hr] at e; cases e
      | ok q =>
        simp only [Go.bind_ok] at e
        rw [hr] at e
        simp only [Go.bind_ok, Go.pure_eq, Except.ok.injEq, Prod.mk.injEq] at e
        rw [← e.1]
        obtain ⟨c1, c2⟩ := C136_moved lt room ops r.1 q.1 q.2 h2.1 (by rw [h1]; simp) (fun o ho => hp o (List.mem_cons_of_mem _ ho)) hr
        refine ⟨c1, c2.trans ?_⟩
        unfold caller; rw [h1, ha]; rfl

/-- **C136 (refuted).** A heap made of a part of a slice writes outside of that part. -/
theorem C136_overwrites_refuted : ∃ s s' : State Nat, new (fun a b => decide (a < b)) [3, 1, 7] 2 = .ok s ∧
    push (fun a b => decide (a < b)) (fun _ => []) s 5 = .ok s' ∧ 7 ∉ caller s' :=
  ⟨⟨[1, 3, 7], 2, none⟩, ⟨[1, 3, 5], 3, none⟩, by decide, by decide, by decide⟩

/-- **C136.** While the heap is on the caller's array, assigning to a cell of it and calling `Fix` is the update of Model/Heap. -/
theorem C136_update (lt : T → T → Bool) (room : Nat → List T) {s : State T} (h : s.n ≤ s.arr.length) (hleft : s.left = none) {i : Nat} (hi : i < s.n) (y : T) :
    SimP (fun s' => s'.n ≤ s'.arr.length) view (step lt room s (.update i y)) (Heap.step lt (view s) (.update i y)) := by
  unfold step Heap.step write
  dsimp only
  rw [hleft]
  dsimp only
  rw [Go.set_of_lt _ _ _ (by omega), Go.set_of_lt _ _ _ (by rw [view_length h]; exact hi)]
  simp only [Go.bind_ok, Go.pure_eq]
  have hv : view ({ s with arr := s.arr.set i y } : State T) = (view s).set i y := by
    unfold view
    simp only
    rw [List.take_set]
  obtain ⟨h', e1, e2, p⟩ := fix_spec lt (s := ⟨s.arr.set i y, s.n, s.left⟩) (by simpa using h) (i := i) hi
  rw [hv] at e2 p
  rw [hleft] at e1
  rw [e1, e2]
  have hl : h'.length = s.n := by have := p.length_eq; rw [List.length_set, view_length h] at this; exact this
  refine ⟨?_, ?_⟩
  · simp only [List.length_append]; omega
  · simp only [view, Go.bind_ok, Go.pure_eq]
    rw [← hl, List.take_left]

/-- **C136 (refuted).** Once `Push` has moved the heap, assignments of the caller do not reach it. -/
theorem C136_update_refuted {s : State T} (hleft : s.left ≠ none) (i : Nat) (y : T) (s' : State T) (e : write s i y = .ok s') :
    view s' = view s ∧ s'.arr = s.arr := by
  unfold write at e
  cases hl : s.left with
  | none => exact absurd hl hleft
  | some a =>
    rw [hl] at e
    dsimp only at e
    cases hs : Go.set a i y with
    | error q => rw [hs] at e; cases e
    | ok a' =>
      rw [hs] at e
      simp only [Go.bind_ok, Go.pure_eq, Except.ok.injEq] at e
      rw [← e]
      exact ⟨rfl, rfl⟩

/-- The heap moves away and the assignment is lost: the update of the least element to 9 has no effect. -/
example : (do
    let s ← new (fun a b => decide (a < b)) [3, 1] 2
    run (fun a b => decide (a < b)) (fun _ => [0]) s [.push 5, .update 0 9, .pop]) =
    .ok (⟨[3, 5, 1, 0], 2, some [9, 3]⟩, [none, none, some 1]) := by decide

/-- Popping everything sorts. -/
example : (do
    let s ← new (fun a b => decide (a < b)) [3, 1, 2, 8] 3
    run (fun a b => decide (a < b)) (fun _ => []) s [.pop, .pop, .pop]) = .ok (⟨[3, 2, 1, 8], 0, none⟩, [some 1, some 2, some 3]) := by decide

end Verif.HeapShared
