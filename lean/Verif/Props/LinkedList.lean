import Verif.Proof.LinkedListStep

/-! # C25–C30: lists, deque, stack -/

namespace Verif.LinkedList

open Addr

variable {T : Type}

/-- Running the model and the sequences side by side. -/
theorem run_spec : ∀ (ops : List (Op T)) {m : Mem T} {s : Spec.Seqs T}, Rel m s → Spec.LegalRun s ops →
    (run m ops).2 = (Spec.run s ops).2 ∧ Rel (run m ops).1 (Spec.run s ops).1
  | [], _, _, h, _ => ⟨rfl, h⟩
  | op :: ops, m, s, h, hl => by
    obtain ⟨h1, h2⟩ := step_spec h op hl.1
    obtain ⟨h3, h4⟩ := run_spec ops h2 hl.2
    have e1 : (run m (op :: ops)) = ((run (outcome m (step m op)).1 ops).1,
        (outcome m (step m op)).2 :: (run (outcome m (step m op)).1 ops).2) := rfl
    have e2 : (Spec.run s (op :: ops)) = ((Spec.run (Spec.step s op).1 ops).1,
        (Spec.step s op).2 :: (Spec.run (Spec.step s op).1 ops).2) := rfl
    rw [e1, e2]
    exact ⟨by simp only [h1, h3], h4⟩

theorem walkForward_from {m : Mem T} {s : Spec.Seqs T} (h : Rel m s) {l : Nat} :
    ∀ (xs ys : List Nat), s.seq l = ys ++ xs → ∀ fuel, xs.length ≤ fuel →
      walkForward m fuel (xs.head?.map elem) = .ok (xs.map elem)
  | [], _, _, fuel, _ => by cases fuel <;> rfl
  | x :: xs, ys, hs, 0, hf => by simp at hf
  | x :: xs, ys, hs, fuel + 1, hf => by
    have hx : x ∈ s.seq l := by rw [hs]; simp
    have hnd := h.nodup l
    rw [hs, List.nodup_middle, List.nodup_cons] at hnd
    have hn := next_spec h (h.old l x hx)
    rw [owner_some h hx _ (h.lt_lists hx)] at hn
    simp only [hs, succ_split x xs ys (by intro hc; exact hnd.1 (by simp [hc]))] at hn
    have ih := walkForward_from h xs (ys ++ [x]) (by rw [hs]; simp) fuel (by simp at hf; omega)
    simp only [List.head?_cons, Option.map_some, walkForward, hn, Go.bind_ok, ih, Go.pure_eq, List.map_cons]

theorem walkBackward_from {m : Mem T} {s : Spec.Seqs T} (h : Rel m s) {l : Nat} :
    ∀ (xs ys : List Nat), (s.seq l).reverse = ys ++ xs → ∀ fuel, xs.length ≤ fuel →
      walkBackward m fuel (xs.head?.map elem) = .ok (xs.map elem)
  | [], _, _, fuel, _ => by cases fuel <;> rfl
  | x :: xs, ys, hs, 0, hf => by simp at hf
  | x :: xs, ys, hs, fuel + 1, hf => by
    have hx : x ∈ s.seq l := by rw [← List.mem_reverse, hs]; simp
    have hnd : (s.seq l).reverse.Nodup := List.nodup_reverse.2 (h.nodup l)
    rw [hs, List.nodup_middle, List.nodup_cons] at hnd
    have hn := prev_spec h (h.old l x hx)
    rw [owner_some h hx _ (h.lt_lists hx)] at hn
    simp only [hs, succ_split x xs ys (by intro hc; exact hnd.1 (by simp [hc]))] at hn
    have ih := walkBackward_from h xs (ys ++ [x]) (by rw [hs]; simp) fuel (by simp at hf; omega)
    simp only [List.head?_cons, Option.map_some, walkBackward, hn, Go.bind_ok, ih, Go.pure_eq, List.map_cons]

theorem walks {m : Mem T} {s : Spec.Seqs T} (h : Rel m s) {l : Nat} (hl : l < s.nLists) (fuel : Nat)
    (hf : (s.seq l).length ≤ fuel) :
    walkForward m fuel (front m l) = .ok ((s.seq l).map elem) ∧
    walkBackward m fuel (back m l) = .ok ((s.seq l).map elem).reverse := by
  constructor
  · rw [front_spec h hl]
    exact walkForward_from h (s.seq l) [] rfl fuel hf
  · rw [back_spec h hl, ← List.head?_reverse, ← List.map_reverse]
    exact walkBackward_from h (s.seq l).reverse [] rfl fuel (by simpa using hf)

/-- **C25.** After every legal history of all operations on any number of lists: every result the client has seen is
that of the sequences, every list is traversed forwards and backwards as its sequence, its elements hold the values
given to them, and `Len` is its length.  (Legal: only lists and elements that exist, and no element that was in a list
when it was cleared.) -/
theorem C25_refines_sequences (zero : T) (ops : List (Op T)) (hl : Spec.LegalRun (Spec.init zero) ops) :
    let m := (run (empty zero) ops).1
    let s := (Spec.run (Spec.init zero) ops).1
    (run (empty zero) ops).2 = (Spec.run (Spec.init zero) ops).2 ∧
    ∀ l < s.nLists, length m l = (s.seq l).length ∧
      (∀ e ∈ s.seq l, m.val (elem e) = s.val e) ∧
      ∀ fuel, (s.seq l).length ≤ fuel →
        walkForward m fuel (front m l) = .ok ((s.seq l).map elem) ∧
        walkBackward m fuel (back m l) = .ok ((s.seq l).map elem).reverse := by
  intro m s
  obtain ⟨h1, h2⟩ := run_spec ops (rel_init zero) hl
  exact ⟨h1, fun l hl' => ⟨h2.len l hl', fun e _ => h2.val e, fun fuel hf => walks h2 hl' fuel hf⟩⟩

/-- The sequence operations are what one expects of them (`e` and `mark` occur once). -/
theorem C25_spec_meaning (n e k : Nat) (ys zs : List Nat) (hk : k ∉ ys) :
    Spec.before n k (ys ++ k :: zs) = ys ++ n :: k :: zs ∧ Spec.after n k (ys ++ k :: zs) = ys ++ k :: n :: zs ∧
    (e ∉ ys → (ys ++ e :: zs).erase e = ys ++ zs) ∧ Spec.succ k (ys ++ k :: zs) = zs.head? :=
  ⟨before_split n k zs ys hk, after_split n k zs ys hk, erase_split e zs ys, succ_split k zs ys hk⟩

/-- A legal history with two lists, every kind of operation and a foreign element. -/
def demo : List (Op Nat) :=
  [.new, .new, .pushBack 0 10, .pushFront 0 11, .insertBefore 0 12 0, .insertAfter 0 13 0, .pushBack 1 20,
   .moveToFront 0 3, .moveToBack 0 1, .moveBefore 0 0 3, .moveAfter 0 3 2, .remove 1 2, .insertBefore 1 14 0,
   .remove 0 2, .pushBackList 1 0, .pushFrontList 0 0, .len 0, .next 0, .prev 0, .removeFront 0, .clear 0,
   .removeBack 0, .isEmpty 0, .pushBack 0 30, .front 0, .back 0]

instance (s : Spec.Seqs T) (op : Op T) : Decidable (Spec.Legal s op) := by
  unfold Spec.Legal; infer_instance

instance decLegalRun (s : Spec.Seqs T) : (ops : List (Op T)) → Decidable (Spec.LegalRun s ops)
  | [] => isTrue trivial
  | op :: ops => @instDecidableAnd _ _ _ (decLegalRun (Spec.step s op).1 ops)

example : Spec.LegalRun (Spec.init 0) demo ∧
    (run (empty 0) demo).2 =
      [.list 0, .list 1, .handle (some (elem 0)), .handle (some (elem 1)), .handle (some (elem 2)),
       .handle (some (elem 3)), .handle (some (elem 4)), .unit, .unit, .unit, .unit, .val 12, .handle none,
       .val 12, .unit, .unit, .num 6, .handle (some (elem 3)), .handle (some (elem 8)), .val 10, .unit,
       .panic .nilDeref, .flag true, .handle (some (elem 11)), .handle (some (elem 11)),
       .handle (some (elem 11))] := by decide +kernel

/-- **C26.** After every legal history, `Remove`, `InsertBefore`, `InsertAfter` and the `Move` operations of a list `l`,
given an element (or a mark) that is not in `l` — because it is in another list or was removed — change nothing at all
in memory; `Insert*` return nil, `Remove` returns the value. -/
theorem C26_non_member (zero : T) (ops : List (Op T)) (hl : Spec.LegalRun (Spec.init zero) ops) :
    let m := (run (empty zero) ops).1
    let s := (Spec.run (Spec.init zero) ops).1
    ∀ l e k, e < s.nElems → e ∉ s.old → e ∉ s.seq l → k < s.nElems → k ∉ s.old → ∀ v,
      remove m l (some (elem e)) = .ok (m, s.val e) ∧
      insertBefore m l v (some (elem e)) = .ok (m, none) ∧ insertAfter m l v (some (elem e)) = .ok (m, none) ∧
      moveToFront m l (some (elem e)) = .ok m ∧ moveToBack m l (some (elem e)) = .ok m ∧
      moveBefore m l (some (elem e)) (some (elem k)) = .ok m ∧
      moveAfter m l (some (elem e)) (some (elem k)) = .ok m ∧
      moveBefore m l (some (elem k)) (some (elem e)) = .ok m ∧
      moveAfter m l (some (elem k)) (some (elem e)) = .ok m := by
  intro m s l e k _ ho hn _ hk v
  obtain ⟨_, h⟩ := run_spec ops (rel_init zero) hl
  have he : m.list (elem e) ≠ some l := by rw [ne_eq, h.mem_iff ho]; exact hn
  have hr : ∃ m', remove m l (some (elem e)) = .ok (m', s.val e) ∧ m' = m := by
    obtain ⟨m', h1, _, h3⟩ := remove_spec h (l := l) ho
    exact ⟨m', h1, h3 hn⟩
  obtain ⟨m', hr1, rfl⟩ := hr
  refine ⟨hr1, ?_, ?_, ?_, ?_, ?_, ?_, ?_, ?_⟩
  all_goals
    simp only [insertBefore, insertAfter, moveToFront, moveToBack, moveBefore, moveAfter, deref, Go.bind_ok, he, ne_eq,
      not_false_eq_true, true_or, if_true, Go.pure_eq, ite_self]

/-- Element 2 was removed, element 4 is in the other list: both are foreign to list 0. -/
example : let s := (Spec.run (Spec.init 0) (demo.take 14)).1
    2 < s.nElems ∧ 2 ∉ s.old ∧ 2 ∉ s.seq 0 ∧ 4 ∉ s.seq 0 ∧ 4 ∈ s.seq 1 ∧ s.seq 0 = [0, 3, 1] := by decide +kernel

/-! ## Copying lists -/

theorem appendVals_spec (l : Nat) : ∀ (vs : List T) (s : Spec.Seqs T),
    (s.appendVals l vs).seq l = s.seq l ++ List.range' s.nElems vs.length ∧
    (∀ k, k ≠ l → (s.appendVals l vs).seq k = s.seq k) ∧
    (∀ e < s.nElems, (s.appendVals l vs).val e = s.val e) ∧
    (List.range' s.nElems vs.length).map (s.appendVals l vs).val = vs
  | [], s => by simp [Spec.Seqs.appendVals]
  | v :: vs, s => by
    obtain ⟨h1, h2, h3, h4⟩ := appendVals_spec l vs ((s.alloc v).setSeq l (s.seq l ++ [s.nElems]))
    have hn : ((s.alloc v).setSeq l (s.seq l ++ [s.nElems])).nElems = s.nElems + 1 := rfl
    rw [hn] at h1 h3 h4
    simp only [Spec.Seqs.appendVals]
    refine ⟨?_, ?_, ?_, ?_⟩
    · rw [h1, setSeq_same, List.length_cons, List.range'_succ]; simp
    · intro k hk
      rw [h2 k hk, setSeq_ne _ _ _ _ hk]; rfl
    · intro e he
      rw [h3 e (by omega)]
      simp only [Spec.Seqs.setSeq, Spec.Seqs.alloc]
      rw [if_neg (by omega)]
    · rw [List.length_cons, List.range'_succ, List.map_cons, h4, h3 _ (by omega)]
      simp [Spec.Seqs.setSeq, Spec.Seqs.alloc]

theorem prependVals_spec (l : Nat) : ∀ (vs : List T) (s : Spec.Seqs T),
    (s.prependVals l vs).seq l = (List.range' s.nElems vs.length).reverse ++ s.seq l ∧
    (∀ k, k ≠ l → (s.prependVals l vs).seq k = s.seq k) ∧
    (∀ e < s.nElems, (s.prependVals l vs).val e = s.val e) ∧
    (List.range' s.nElems vs.length).map (s.prependVals l vs).val = vs
  | [], s => by simp [Spec.Seqs.prependVals]
  | v :: vs, s => by
    obtain ⟨h1, h2, h3, h4⟩ := prependVals_spec l vs ((s.alloc v).setSeq l (s.nElems :: s.seq l))
    have hn : ((s.alloc v).setSeq l (s.nElems :: s.seq l)).nElems = s.nElems + 1 := rfl
    rw [hn] at h1 h3 h4
    simp only [Spec.Seqs.prependVals]
    refine ⟨?_, ?_, ?_, ?_⟩
    · rw [h1, setSeq_same, List.length_cons, List.range'_succ]; simp
    · intro k hk
      rw [h2 k hk, setSeq_ne _ _ _ _ hk]; rfl
    · intro e he
      rw [h3 e (by omega)]
      simp only [Spec.Seqs.setSeq, Spec.Seqs.alloc]
      rw [if_neg (by omega)]
    · rw [List.length_cons, List.range'_succ, List.map_cons, h4, h3 _ (by omega)]
      simp [Spec.Seqs.setSeq, Spec.Seqs.alloc]

theorem push_list_aux {m : Mem T} {s : Spec.Seqs T} (h : Rel m s) :
    ∀ l o, l < s.nLists → o < s.nLists →
      (∃ m' copies, pushBackList m l o = .ok m' ∧
        copies.map m'.val = (s.seq o).map s.val ∧ (∀ c ∈ copies, ∃ n, c = elem n ∧ s.nElems ≤ n) ∧
        (∀ e < s.nElems, m'.val (elem e) = s.val e) ∧
        ∀ fuel, (s.seq l).length + (s.seq o).length ≤ fuel →
          walkForward m' fuel (front m' l) = .ok ((s.seq l).map elem ++ copies) ∧
          ∀ k < s.nLists, k ≠ l → (s.seq k).length ≤ fuel →
            walkForward m' fuel (front m' k) = .ok ((s.seq k).map elem)) ∧
      (∃ m' copies, pushFrontList m l o = .ok m' ∧
        copies.map m'.val = (s.seq o).map s.val ∧ (∀ c ∈ copies, ∃ n, c = elem n ∧ s.nElems ≤ n) ∧
        (∀ e < s.nElems, m'.val (elem e) = s.val e) ∧
        ∀ fuel, (s.seq l).length + (s.seq o).length ≤ fuel →
          walkForward m' fuel (front m' l) = .ok (copies ++ (s.seq l).map elem) ∧
          ∀ k < s.nLists, k ≠ l → (s.seq k).length ≤ fuel →
            walkForward m' fuel (front m' k) = .ok ((s.seq k).map elem)) := by
  intro l o hll hoo
  have happ : ∀ (vs : List T) (s : Spec.Seqs T), (s.appendVals l vs).nLists = s.nLists := by
    intro vs
    induction vs with
    | nil => intro s; rfl
    | cons v vs ih => intro s; exact ih _
  have hpre : ∀ (vs : List T) (s : Spec.Seqs T), (s.prependVals l vs).nLists = s.nLists := by
    intro vs
    induction vs with
    | nil => intro s; rfl
    | cons v vs ih => intro s; exact ih _
  constructor
  · obtain ⟨m', h1, hr⟩ := pushBackList_spec (l := l) (o := o) (s.seq o) (front m o) [] [] h hll hoo (by simp) (by
      intro x xs hx
      rw [front_spec h hoo, hx]; rfl)
    have h1 : pushBackList m l o = .ok m' := by
      simp only [pushBackList, length, h.len o hoo, Int.toNat_natCast]; exact h1
    obtain ⟨g1, g2, g3, g4⟩ := appendVals_spec l ((s.seq o).map s.val) s
    refine ⟨m', (List.range' s.nElems (s.seq o).length).map elem, h1, ?_, ?_, ?_, ?_⟩
    · rw [List.length_map] at g4
      rw [List.map_map]
      refine Eq.trans ?_ g4
      apply List.map_congr_left
      intro x _
      exact hr.val x
    · intro c hc
      simp only [List.mem_map, List.mem_range'_1] at hc
      obtain ⟨n, hn, rfl⟩ := hc
      exact ⟨n, rfl, hn.1⟩
    · intro e he
      rw [hr.val e, g3 e he]
    · intro fuel hf
      refine ⟨?_, ?_⟩
      · have hs : (s.appendVals l ((s.seq o).map s.val)).seq l = s.seq l ++ List.range' s.nElems (s.seq o).length := by
          rw [g1, List.length_map]
        have := (walks hr (l := l) (by rw [happ]; exact hll) fuel (by
          rw [hs]; simp only [List.length_append, List.length_range']; exact hf)).1
        rw [this, hs, List.map_append]
      · intro k hk hkl hf'
        have := (walks hr (l := k) (by rw [happ]; exact hk) fuel (by rw [g2 k hkl]; exact hf')).1
        rw [this, g2 k hkl]
  · obtain ⟨m', h1, hr⟩ := pushFrontList_spec (l := l) (o := o) (s.seq o).reverse (back m o) [] [] h hll hoo
      (by simp) (by
        intro x xs hx
        rw [back_spec h hoo, ← List.head?_reverse, hx]; rfl)
    have h1 : pushFrontList m l o = .ok m' := by
      rw [List.length_reverse] at h1
      simp only [pushFrontList, length, h.len o hoo, Int.toNat_natCast]; exact h1
    obtain ⟨g1, g2, g3, g4⟩ := prependVals_spec l ((s.seq o).reverse.map s.val) s
    have hlen : ((s.seq o).reverse.map s.val).length = (s.seq o).length := by simp
    rw [hlen] at g1 g4
    refine ⟨m', (List.range' s.nElems (s.seq o).length).reverse.map elem, h1, ?_, ?_, ?_, ?_⟩
    · rw [List.map_map]
      have : (List.range' s.nElems (s.seq o).length).reverse.map (m'.val ∘ elem) =
          ((List.range' s.nElems (s.seq o).length).map (s.prependVals l ((s.seq o).reverse.map s.val)).val).reverse := by
        rw [← List.map_reverse]
        apply List.map_congr_left
        intro x _
        exact hr.val x
      rw [this, g4]
      simp
    · intro c hc
      simp only [List.mem_map, List.mem_reverse, List.mem_range'_1] at hc
      obtain ⟨n, hn, rfl⟩ := hc
      exact ⟨n, rfl, hn.1⟩
    · intro e he
      rw [hr.val e, g3 e he]
    · intro fuel hf
      refine ⟨?_, ?_⟩
      · have := (walks hr (l := l) (by rw [hpre]; exact hll) fuel (by
          rw [g1]; simp only [List.length_append, List.length_reverse, List.length_range']; omega)).1
        rw [this, g1, List.map_append]
      · intro k hk hkl hf'
        have := (walks hr (l := k) (by rw [hpre]; exact hk) fuel (by rw [g2 k hkl]; exact hf')).1
        rw [this, g2 k hkl]

/-- **C27.** After every legal history, for all lists `l` and `o` (also `o = l`): `l.PushBackList(o)` succeeds, `l` is
then its old elements followed by new elements (never allocated before) carrying the values of `o` in order, every
other list — in particular `o ≠ l` — has the same elements, and all old elements keep their values.  Symmetrically for
`PushFrontList`. -/
theorem C27_push_list (zero : T) (ops : List (Op T)) (hl : Spec.LegalRun (Spec.init zero) ops) :
    let m := (run (empty zero) ops).1
    let s := (Spec.run (Spec.init zero) ops).1
    ∀ l o, l < s.nLists → o < s.nLists →
      (∃ m' copies, pushBackList m l o = .ok m' ∧
        copies.map m'.val = (s.seq o).map s.val ∧ (∀ c ∈ copies, ∃ n, c = elem n ∧ s.nElems ≤ n) ∧
        (∀ e < s.nElems, m'.val (elem e) = s.val e) ∧
        ∀ fuel, (s.seq l).length + (s.seq o).length ≤ fuel →
          walkForward m' fuel (front m' l) = .ok ((s.seq l).map elem ++ copies) ∧
          ∀ k < s.nLists, k ≠ l → (s.seq k).length ≤ fuel →
            walkForward m' fuel (front m' k) = .ok ((s.seq k).map elem)) ∧
      (∃ m' copies, pushFrontList m l o = .ok m' ∧
        copies.map m'.val = (s.seq o).map s.val ∧ (∀ c ∈ copies, ∃ n, c = elem n ∧ s.nElems ≤ n) ∧
        (∀ e < s.nElems, m'.val (elem e) = s.val e) ∧
        ∀ fuel, (s.seq l).length + (s.seq o).length ≤ fuel →
          walkForward m' fuel (front m' l) = .ok (copies ++ (s.seq l).map elem) ∧
          ∀ k < s.nLists, k ≠ l → (s.seq k).length ≤ fuel →
            walkForward m' fuel (front m' k) = .ok ((s.seq k).map elem)) := by
  intro m s
  exact push_list_aux (run_spec ops (rel_init zero) hl).2

/-- Doubling a list of three elements by itself, both ways. -/
example : let m := (run (empty 0) [.new, .pushBack 0 7, .pushBack 0 8, .pushBack 0 9]).1
    (do let m' ← pushBackList m 0 0; let w ← walkForward m' 9 (front m' 0); pure (w.map m'.val)) =
      (.ok [7, 8, 9, 7, 8, 9] : Go (List Nat)) ∧
    (do let m' ← pushFrontList m 0 0; let w ← walkForward m' 9 (front m' 0); pure (w.map m'.val)) =
      (.ok [7, 8, 9, 7, 8, 9] : Go (List Nat)) := by decide +kernel

/-! ## Clear -/

theorem mem_before {n k x : Nat} : ∀ {xs : List Nat}, x ∈ Spec.before n k xs → x = n ∨ x ∈ xs
  | [], h => by simp [Spec.before] at h
  | y :: ys, h => by
    simp only [Spec.before] at h
    split at h
    · simpa using h
    · rcases List.mem_cons.1 h with h | h
      · exact .inr (by simp [h])
      · rcases mem_before h with h | h
        · exact .inl h
        · exact .inr (by simp [h])

theorem mem_after {n k x : Nat} : ∀ {xs : List Nat}, x ∈ Spec.after n k xs → x = n ∨ x ∈ xs
  | [], h => by simp [Spec.after] at h
  | y :: ys, h => by
    simp only [Spec.after] at h
    split at h
    · simp only [List.mem_cons] at h ⊢; tauto
    · rcases List.mem_cons.1 h with h | h
      · exact .inr (by simp [h])
      · rcases mem_after h with h | h
        · exact .inl h
        · exact .inr (by simp [h])

theorem nElems_append (l : Nat) : ∀ (vs : List T) (s : Spec.Seqs T), (s.appendVals l vs).nElems = s.nElems + vs.length
  | [], s => rfl
  | v :: vs, s => by
    simp only [Spec.Seqs.appendVals, nElems_append l vs, Spec.Seqs.setSeq, Spec.Seqs.alloc, List.length_cons]; omega

theorem nElems_prepend (l : Nat) : ∀ (vs : List T) (s : Spec.Seqs T),
    (s.prependVals l vs).nElems = s.nElems + vs.length
  | [], s => rfl
  | v :: vs, s => by
    simp only [Spec.Seqs.prependVals, nElems_prepend l vs, Spec.Seqs.setSeq, Spec.Seqs.alloc, List.length_cons]; omega

/-- No call brings an existing element into a list. -/
theorem step_mem (s : Spec.Seqs T) (op : Op T) :
    s.nElems ≤ (Spec.step s op).1.nElems ∧
    ∀ l e, e ∈ (Spec.step s op).1.seq l → e ∈ s.seq l ∨ s.nElems ≤ e := by
  have key : ∀ (s' : Spec.Seqs T) (k : Nat) (xs : List Nat), s'.seq = s.seq →
      (∀ e ∈ xs, e ∈ s.seq k ∨ s.nElems ≤ e) → ∀ l e, e ∈ (s'.setSeq k xs).seq l → e ∈ s.seq l ∨ s.nElems ≤ e := by
    intro s' k xs hs hx l e he
    by_cases hkl : l = k
    · subst hkl
      rw [setSeq_same] at he; exact hx e he
    · rw [setSeq_ne _ _ _ _ hkl, hs] at he; exact .inl he
  cases op with
  | new =>
    refine ⟨Nat.le_refl _, ?_⟩
    intro l e he
    simp only [Spec.step] at he
    split at he
    · simp at he
    · exact .inl he
  | pushFront l v =>
    exact ⟨Nat.le_succ _, key _ _ _ rfl (by intro e he; simp at he; rcases he with h | h <;> [right; left] <;> [omega; exact h])⟩
  | pushBack l v =>
    exact ⟨Nat.le_succ _, key _ _ _ rfl (by intro e he; simp at he; rcases he with h | h <;> [left; right] <;> [exact h; omega])⟩
  | insertBefore l v k =>
    simp only [Spec.step]
    split
    · refine ⟨Nat.le_succ _, key _ _ _ rfl ?_⟩
      intro e he
      rcases mem_before he with h | h
      · right; omega
      · exact .inl h
    · exact ⟨Nat.le_refl _, fun l e he => .inl he⟩
  | insertAfter l v k =>
    simp only [Spec.step]
    split
    · refine ⟨Nat.le_succ _, key _ _ _ rfl ?_⟩
      intro e he
      rcases mem_after he with h | h
      · right; omega
      · exact .inl h
    · exact ⟨Nat.le_refl _, fun l e he => .inl he⟩
  | remove l e =>
    exact ⟨Nat.le_refl _, key _ _ _ rfl fun x hx => .inl (List.mem_of_mem_erase hx)⟩
  | removeFront l =>
    simp only [Spec.step]
    split
    · exact ⟨Nat.le_refl _, fun l e he => .inl he⟩
    · rename_i x xs hs
      exact ⟨Nat.le_refl _, key _ _ _ rfl fun y hy => .inl (by rw [hs]; simp [hy])⟩
  | removeBack l =>
    simp only [Spec.step]
    split
    · exact ⟨Nat.le_refl _, fun l e he => .inl he⟩
    · exact ⟨Nat.le_refl _, key _ _ _ rfl fun y hy => .inl (List.dropLast_subset _ hy)⟩
  | moveToFront l e =>
    simp only [Spec.step]
    split
    · rename_i hin
      refine ⟨Nat.le_refl _, key _ _ _ rfl fun y hy => .inl ?_⟩
      rcases List.mem_cons.1 hy with h | h
      · rw [h]; exact hin
      · exact List.mem_of_mem_erase h
    · exact ⟨Nat.le_refl _, fun l e he => .inl he⟩
  | moveToBack l e =>
    simp only [Spec.step]
    split
    · rename_i hin
      refine ⟨Nat.le_refl _, key _ _ _ rfl fun y hy => .inl ?_⟩
      rcases List.mem_append.1 hy with h | h
      · exact List.mem_of_mem_erase h
      · rw [List.mem_singleton.1 h]; exact hin
    · exact ⟨Nat.le_refl _, fun l e he => .inl he⟩
  | moveBefore l e k =>
    simp only [Spec.step]
    split
    · rename_i hin
      refine ⟨Nat.le_refl _, key _ _ _ rfl fun y hy => .inl ?_⟩
      rcases mem_before hy with h | h
      · rw [h]; exact hin.1
      · exact List.mem_of_mem_erase h
    · exact ⟨Nat.le_refl _, fun l e he => .inl he⟩
  | moveAfter l e k =>
    simp only [Spec.step]
    split
    · rename_i hin
      refine ⟨Nat.le_refl _, key _ _ _ rfl fun y hy => .inl ?_⟩
      rcases mem_after hy with h | h
      · rw [h]; exact hin.1
      · exact List.mem_of_mem_erase h
    · exact ⟨Nat.le_refl _, fun l e he => .inl he⟩
  | pushBackList l o =>
    simp only [Spec.step]
    obtain ⟨g1, g2, _, _⟩ := appendVals_spec l (s.vals (s.seq o)) s
    refine ⟨by rw [nElems_append]; omega, fun k e he => ?_⟩
    by_cases hkl : k = l
    · subst hkl
      rw [g1, List.mem_append, List.mem_range'_1] at he
      rcases he with h | h
      · exact .inl h
      · exact .inr h.1
    · rw [g2 k hkl] at he; exact .inl he
  | pushFrontList l o =>
    simp only [Spec.step]
    obtain ⟨g1, g2, _, _⟩ := prependVals_spec l (s.vals (s.seq o)).reverse s
    refine ⟨by rw [nElems_prepend]; omega, fun k e he => ?_⟩
    by_cases hkl : k = l
    · subst hkl
      rw [g1, List.mem_append, List.mem_reverse, List.mem_range'_1] at he
      rcases he with h | h
      · exact .inr h.1
      · exact .inl h
    · rw [g2 k hkl] at he; exact .inl he
  | clear l =>
    refine ⟨Nat.le_refl _, fun k e he => ?_⟩
    have he' : e ∈ (s.setSeq l []).seq k := he
    exact key s l [] rfl (by simp) k e he'
  | len l | isEmpty l | front l | back l | next l | prev l => exact ⟨Nat.le_refl _, fun l e he => .inl he⟩

theorem run_mem : ∀ (ops : List (Op T)) (s : Spec.Seqs T),
    s.nElems ≤ (Spec.run s ops).1.nElems ∧
    ∀ l e, e ∈ (Spec.run s ops).1.seq l → e ∈ s.seq l ∨ s.nElems ≤ e
  | [], s => ⟨Nat.le_refl _, fun _ _ h => .inl h⟩
  | op :: ops, s => by
    obtain ⟨h1, h2⟩ := step_mem s op
    obtain ⟨h3, h4⟩ := run_mem ops (Spec.step s op).1
    have e : (Spec.run s (op :: ops)).1 = (Spec.run (Spec.step s op).1 ops).1 := rfl
    rw [e]
    refine ⟨by omega, fun l e he => ?_⟩
    rcases h4 l e he with h | h
    · exact h2 l e h
    · exact .inr (by omega)

theorem run_append : ∀ (ops ops' : List (Op T)) (m : Mem T),
    (run m (ops ++ ops')).1 = (run (run m ops).1 ops').1
  | [], _, _ => rfl
  | op :: ops, ops', m => by
    have e : ∀ os, (run m (op :: os)).1 = (run (outcome m (step m op)).1 os).1 := fun _ => rfl
    rw [List.cons_append, e, e, run_append ops ops']

theorem legal_append : ∀ (ops ops' : List (Op T)) (s : Spec.Seqs T), Spec.LegalRun s (ops ++ ops') →
    Spec.LegalRun s ops ∧ Spec.LegalRun (Spec.run s ops).1 ops'
  | [], _, _, h => ⟨trivial, h⟩
  | op :: ops, ops', s, h => by
    obtain ⟨h1, h2⟩ := legal_append ops ops' _ h.2
    exact ⟨⟨h.1, h1⟩, h2⟩

theorem spec_run_append : ∀ (ops ops' : List (Op T)) (s : Spec.Seqs T),
    (Spec.run s (ops ++ ops')).1 = (Spec.run (Spec.run s ops).1 ops').1
  | [], _, _ => rfl
  | op :: ops, ops', s => by
    have e : ∀ os, (Spec.run s (op :: os)).1 = (Spec.run (Spec.step s op).1 os).1 := fun _ => rfl
    rw [List.cons_append, e, e, spec_run_append ops ops']

/-- **C28, as far as it holds.** After `Clear` the list is empty, and whatever is done afterwards — as long as the
elements that were in it are left alone — it only ever contains elements allocated after the `Clear` (and still behaves
as a sequence, C25).  Missing: the elements it contained before may not be passed to it again, see
`C28_stale_handle_refuted`. -/
theorem C28_clear_partial (zero : T) (ops ops' : List (Op T)) (l : Nat)
    (hl : Spec.LegalRun (Spec.init zero) (ops ++ .clear l :: ops')) :
    let m := (run (empty zero) (ops ++ [.clear l])).1
    let n := (run (empty zero) ops).1.nElems
    let m' := (run (empty zero) (ops ++ .clear l :: ops')).1
    (front m l = none ∧ back m l = none ∧ length m l = 0) ∧
    ∃ w, (∀ fuel, (length m' l).toNat ≤ fuel → walkForward m' fuel (front m' l) = .ok w) ∧
      ∀ a ∈ w, ∃ e, a = elem e ∧ n ≤ e := by
  intro m n m'
  have happ : ops ++ .clear l :: ops' = (ops ++ [.clear l]) ++ ops' := by simp
  have hl0 := hl
  rw [happ] at hl
  obtain ⟨hl1, hl2⟩ := legal_append _ _ _ hl
  obtain ⟨hl3, hl4⟩ := legal_append _ _ _ hl1
  obtain ⟨_, hr⟩ := run_spec _ (rel_init zero) hl1
  obtain ⟨_, hr0⟩ := run_spec _ (rel_init zero) hl3
  obtain ⟨_, hr'⟩ := run_spec _ (rel_init zero) hl0
  have hll : l < (Spec.run (Spec.init zero) ops).1.nLists := hl4.1.1 l (by simp [Spec.lists])
  have hst : (Spec.run (Spec.init zero) (ops ++ [.clear l])).1 =
      (Spec.step (Spec.run (Spec.init zero) ops).1 (.clear l)).1 := by rw [spec_run_append]; rfl
  have hseq : (Spec.run (Spec.init zero) (ops ++ [.clear l])).1.seq l = [] := by
    rw [hst]; simp [Spec.step, Spec.Seqs.setSeq]
  have hll1 : l < (Spec.run (Spec.init zero) (ops ++ [.clear l])).1.nLists := by rw [hst]; exact hll
  have hnl : ∀ (s : Spec.Seqs T) (op : Op T), s.nLists ≤ (Spec.step s op).1.nLists := by
    have ha : ∀ l (vs : List T) (s : Spec.Seqs T), (s.appendVals l vs).nLists = s.nLists := by
      intro l vs
      induction vs with
      | nil => intro s; rfl
      | cons v vs ih => intro s; exact ih _
    have hp : ∀ l (vs : List T) (s : Spec.Seqs T), (s.prependVals l vs).nLists = s.nLists := by
      intro l vs
      induction vs with
      | nil => intro s; rfl
      | cons v vs ih => intro s; exact ih _
    intro s op
    cases op <;> simp only [Spec.step, ha, hp] <;> (try split) <;>
      simp [Spec.Seqs.setSeq, Spec.Seqs.alloc]
  have hnlr : ∀ (ops : List (Op T)) (s : Spec.Seqs T), s.nLists ≤ (Spec.run s ops).1.nLists := by
    intro ops
    induction ops with
    | nil => intro s; exact Nat.le_refl _
    | cons op ops ih => intro s; exact Nat.le_trans (hnl s op) (ih _)
  refine ⟨⟨?_, ?_, ?_⟩, ?_⟩
  · show front (run (empty zero) (ops ++ [.clear l])).1 l = none
    rw [front_spec hr hll1, hseq]; rfl
  · show back (run (empty zero) (ops ++ [.clear l])).1 l = none
    rw [back_spec hr hll1, hseq]; rfl
  · show (run (empty zero) (ops ++ [.clear l])).1.len l = 0
    rw [hr.len l hll1, hseq]; rfl
  · have hll2 : l < (Spec.run (Spec.init zero) (ops ++ .clear l :: ops')).1.nLists := by
      rw [happ, spec_run_append]
      exact Nat.lt_of_lt_of_le hll1 (hnlr _ _)
    refine ⟨((Spec.run (Spec.init zero) (ops ++ .clear l :: ops')).1.seq l).map elem, ?_, ?_⟩
    · intro fuel hf
      refine (walks hr' hll2 fuel ?_).1
      have hf' : ((run (empty zero) (ops ++ .clear l :: ops')).1.len l).toNat ≤ fuel := hf
      rw [hr'.len l hll2] at hf'
      simpa using hf'
    · intro a ha
      obtain ⟨e, he, rfl⟩ := List.mem_map.1 ha
      refine ⟨e, rfl, ?_⟩
      rw [happ, spec_run_append] at he
      rcases (run_mem ops' _).2 l e he with h | h
      · rw [hseq] at h; simp at h
      · have : n = (Spec.run (Spec.init zero) ops).1.nElems := hr0.nElems
        rw [hst] at h
        rw [this]; exact h

example : Spec.LegalRun (Spec.init 0) ([.new, .pushBack 0 1, .pushBack 0 2] ++ .clear 0 :: [.pushBack 0 3, .front 0]) ∧
    (run (empty 0) ([.new, .pushBack 0 1, .pushBack 0 2] ++ .clear 0 :: [.pushBack 0 3, .front 0])).2 =
      [.list 0, .handle (some (elem 0)), .handle (some (elem 1)), .unit, .handle (some (elem 2)),
       .handle (some (elem 2))] := by decide +kernel

/-- **C28 is false for handles obtained before `Clear`.** `Clear` does not reset `e.list`: removing the old first element
of a cleared list gives it length −1, and `Front` then returns the sentinel or an old element; removing it after a new
`PushBack` makes `Len` 0 although the list has an element — `Front` returns nil, and the element is lost. -/
theorem C28_stale_handle_refuted :
    (run (empty 0) [.new, .pushBack 0 5, .clear 0, .remove 0 0, .len 0, .front 0]).2 =
      [.list 0, .handle (some (elem 0)), .unit, .val 5, .num (-1), .handle (some (root 0))] ∧
    (run (empty 0) [.new, .pushBack 0 5, .clear 0, .pushBack 0 6, .remove 0 0, .len 0, .front 0]).2 =
      [.list 0, .handle (some (elem 0)), .unit, .handle (some (elem 1)), .val 5, .num 0, .handle none] := by
  decide +kernel

/-- **C98, refuted.** `List`'s comment says "The zero value for List is an empty list ready to use"; it can be read, but
every insertion into it panics. -/
theorem C98_zero_list_refuted (m : Mem T) (v : T) (h : m.next (root m.nLists) = none ∧ m.prev (root m.nLists) = none ∧
    m.len m.nLists = 0) :
    let (z, l) := zeroList m
    front z l = none ∧ length z l = 0 ∧ pushFront z l v = .error .nilDeref ∧ pushBack z l v = .error .nilDeref := by
  obtain ⟨h1, h2, h3⟩ := h
  simp [zeroList, front, length, h3, pushFront, pushBack, h2, insertValue, insert, setPrev, setNext, deref, put, h1]

example : (empty 0).next (root 0) = none ∧ (empty 0).prev (root 0) = none ∧ (empty 0).len 0 = 0 := by decide

/-! ## Deque and stack -/

/-- A deque, seen from outside: the sequence of its values. -/
def dequeSpec (q : List T) : DOp T → List T × Obs T
  | .pushFront v => (v :: q, .unit)
  | .pushBack v => (q ++ [v], .unit)
  | .popFront => match q with
    | [] => ([], .panic .nilDeref)
    | v :: q' => (q', .val v)
  | .popBack => match q.getLast? with
    | none => (q, .panic .nilDeref)
    | some v => (q.dropLast, .val v)
  | .len => (q, .num q.length)
  | .empty => (q, .flag q.isEmpty)

/-- A stack, top first. -/
def stackSpec (q : List T) : SOp T → List T × Obs T
  | .push v => (v :: q, .unit)
  | .pop => match q with
    | [] => ([], .panic .nilDeref)
    | v :: q' => (q', .val v)
  | .peek => match q with
    | [] => (q, .panic .nilDeref)
    | v :: _ => (q, .val v)
  | .len => (q, .num q.length)
  | .empty => (q, .flag q.isEmpty)

/-- A history of the abstract object. -/
def runSpec {O : Type} (st : List T → O → List T × Obs T) (q : List T) : List O → List T × List (Obs T)
  | [] => (q, [])
  | op :: ops =>
    let (q', o) := st q op
    let (q'', os) := runSpec st q' ops
    (q'', o :: os)

/-- The values of a list. -/
def Holds (m : Mem T) (l : Nat) (q : List T) : Prop :=
  ∃ s : Spec.Seqs T, Rel m s ∧ l < s.nLists ∧ q = (s.seq l).map s.val

theorem map_alloc {m : Mem T} {s : Spec.Seqs T} (h : Rel m s) (l : Nat) (v : T) (ys : List Nat) :
    (s.seq l).map ((s.alloc v).setSeq l ys).val = (s.seq l).map s.val := vals_alloc h (o := l) (by simp)

theorem val_alloc (s : Spec.Seqs T) (l : Nat) (v : T) (ys : List Nat) : ((s.alloc v).setSeq l ys).val s.nElems = v := by
  simp [Spec.Seqs.setSeq, Spec.Seqs.alloc]

theorem holds_pushBack {m : Mem T} {l : Nat} {q : List T} (h : Holds m l q) (v : T) :
    ∃ m' e, pushBack m l v = .ok (m', e) ∧ Holds m' l (q ++ [v]) := by
  obtain ⟨s, hr, hl, rfl⟩ := h
  obtain ⟨m', h1, h2⟩ := pushBack_at hr hl v
  refine ⟨m', _, h1, _, h2, hl, ?_⟩
  rw [setSeq_same, List.map_append, map_alloc hr]
  simp [val_alloc]

theorem holds_pushFront {m : Mem T} {l : Nat} {q : List T} (h : Holds m l q) (v : T) :
    ∃ m' e, pushFront m l v = .ok (m', e) ∧ Holds m' l (v :: q) := by
  obtain ⟨s, hr, hl, rfl⟩ := h
  obtain ⟨m', h1, h2⟩ := pushFront_at hr hl v
  refine ⟨m', _, h1, _, h2, hl, ?_⟩
  rw [setSeq_same, List.map_cons, map_alloc hr]
  simp [val_alloc]

theorem holds_removeFront {m : Mem T} {l : Nat} {q : List T} (h : Holds m l q) :
    match (generalizing := false) q with
    | [] => removeFront m l = .error .nilDeref
    | v :: q' => ∃ m', removeFront m l = .ok (m', v) ∧ Holds m' l q' := by
  obtain ⟨s, hr, hl, rfl⟩ := h
  simp only [removeFront, front_spec hr hl]
  cases hs : s.seq l with
  | nil => rfl
  | cons x xs =>
    obtain ⟨m', h1, h2, _⟩ := remove_spec hr (l := l) (e := x) (hr.old l x (by rw [hs]; simp))
    rw [hs, List.erase_cons_head] at h2
    refine ⟨m', h1, _, h2, hl, ?_⟩
    rw [setSeq_same]; rfl

theorem holds_removeBack {m : Mem T} {l : Nat} {q : List T} (h : Holds m l q) :
    match (generalizing := false) q.getLast? with
    | none => removeBack m l = .error .nilDeref
    | some v => ∃ m', removeBack m l = .ok (m', v) ∧ Holds m' l q.dropLast := by
  obtain ⟨s, hr, hl, rfl⟩ := h
  simp only [removeBack, back_spec hr hl]
  rcases List.eq_nil_or_concat (s.seq l) with hs | ⟨ys, x, hs⟩
  · simp [hs, remove, deref]
  · rw [List.concat_eq_append] at hs
    have hnd := hr.nodup l
    rw [hs] at hnd
    have hn : x ∉ ys := by
      rw [List.nodup_append] at hnd
      intro hc; exact hnd.2.2 x hc x (by simp) rfl
    obtain ⟨m', h1, h2, _⟩ := remove_spec hr (l := l) (e := x) (hr.old l x (by rw [hs]; simp))
    rw [hs, erase_split x [] ys hn, List.append_nil] at h2
    rw [hs]
    simp only [List.map_append, List.map_cons, List.map_nil, List.getLast?_concat, Option.map_some, h1,
      List.dropLast_concat]
    refine ⟨m', rfl, _, h2, hl, ?_⟩
    rw [setSeq_same]; rfl

theorem holds_len {m : Mem T} {l : Nat} {q : List T} (h : Holds m l q) : length m l = q.length := by
  obtain ⟨s, hr, hl, rfl⟩ := h
  rw [length, hr.len l hl, List.length_map]

theorem holds_empty {m : Mem T} {l : Nat} {q : List T} (h : Holds m l q) : isEmpty m l = q.isEmpty := by
  rw [isEmpty, holds_len h]
  cases q with
  | nil => rfl
  | cons x xs =>
    have : (((x :: xs).length : Int) == 0) = false := by
      simp only [List.length_cons, beq_eq_false_iff_ne]; omega
    rw [this]; rfl

theorem runWith_eq {O : Type} {st : Mem T → O → Go (Mem T × Obs T)} {sp : List T → O → List T × Obs T}
    {P : Mem T → List T → Prop}
    (hst : ∀ m q op, P m q → (outcome m (st m op)).2 = (sp q op).2 ∧ P (outcome m (st m op)).1 (sp q op).1) :
    ∀ (ops : List O) (m : Mem T) (q : List T), P m q → (runWith st m ops).2 = (runSpec sp q ops).2
  | [], _, _, _ => rfl
  | op :: ops, m, q, h => by
    obtain ⟨h1, h2⟩ := hst m q op h
    have ih := runWith_eq hst ops _ _ h2
    have e1 : (runWith st m (op :: ops)).2 =
        (outcome m (st m op)).2 :: (runWith st (outcome m (st m op)).1 ops).2 := rfl
    have e2 : (runSpec sp q (op :: ops)).2 = (sp q op).2 :: (runSpec sp (sp q op).1 ops).2 := rfl
    rw [e1, e2, h1, ih]

theorem holds_new (zero : T) (ops : List (Op T)) (hl : Spec.LegalRun (Spec.init zero) ops) :
    Holds (new (run (empty zero) ops).1).1 (new (run (empty zero) ops).1).2 [] := by
  obtain ⟨_, h⟩ := run_spec ops (rel_init zero) hl
  obtain ⟨h1, h2⟩ := new_spec h
  refine ⟨_, h1, ?_, ?_⟩
  · rw [h2]; simp [Spec.step]
  · rw [h2]; simp [Spec.step]

theorem deque_step {l : Nat} (m : Mem T) (q : List T) (op : DOp T) (h : Holds m l q) :
    (outcome m (dequeStep m l op)).2 = (dequeSpec q op).2 ∧ Holds (outcome m (dequeStep m l op)).1 l (dequeSpec q op).1 := by
  cases op with
  | pushFront v =>
    obtain ⟨m', e, h1, h2⟩ := holds_pushFront h v
    simp only [dequeStep, h1, Go.bind_ok, outcome, dequeSpec]; exact ⟨rfl, h2⟩
  | pushBack v =>
    obtain ⟨m', e, h1, h2⟩ := holds_pushBack h v
    simp only [dequeStep, h1, Go.bind_ok, outcome, dequeSpec]; exact ⟨rfl, h2⟩
  | popFront =>
    have hp := holds_removeFront h
    cases q with
    | nil => simp only at hp; simp only [dequeStep, hp, Go.bind_error, outcome, dequeSpec]; exact ⟨trivial, h⟩
    | cons v q' =>
      obtain ⟨m', h1, h2⟩ := hp
      simp only [dequeStep, h1, Go.bind_ok, outcome, dequeSpec]; exact ⟨rfl, h2⟩
  | popBack =>
    have hp := holds_removeBack h
    simp only [dequeSpec]
    cases hg : q.getLast? with
    | none => rw [hg] at hp; simp only at hp; simp only [dequeStep, hp, Go.bind_error, outcome]; exact ⟨trivial, h⟩
    | some v =>
      rw [hg] at hp
      obtain ⟨m', h1, h2⟩ := hp
      simp only [dequeStep, h1, Go.bind_ok, outcome]; exact ⟨rfl, h2⟩
  | len => exact ⟨by simp [dequeStep, outcome, dequeSpec, holds_len h], h⟩
  | empty => exact ⟨by simp [dequeStep, outcome, dequeSpec, holds_empty h], h⟩

/-- **C29.** A deque created at any time (after any legal history `before` of list operations) behaves, for every
history of `PushFront`, `PushBack`, `PopFront`, `PopBack`, `Len`, `Empty`, as the sequence of its values; popping an
empty deque panics. -/
theorem C29_deque (zero : T) (before : List (Op T)) (hb : Spec.LegalRun (Spec.init zero) before) (ops : List (DOp T)) :
    let (m, l) := new (run (empty zero) before).1
    (runWith (fun m op => dequeStep m l op) m ops).2 = (runSpec dequeSpec [] ops).2 := by
  exact runWith_eq (P := fun m q => Holds m _ q) deque_step ops _ _ (holds_new zero before hb)

example : (runWith (fun m op => dequeStep m 0 op) (new (empty 0)).1
      [.pushBack 1, .pushFront 2, .pushBack 3, .popFront, .popBack, .len, .popBack, .popFront, .empty]).2 =
    [.unit, .unit, .unit, .val 2, .val 3, .num 1, .val 1, .panic .nilDeref, .flag true] := by decide

theorem stack_step {l : Nat} (m : Mem T) (q : List T) (op : SOp T) (h : Holds m l q.reverse) :
    (outcome m (stackStep m l op)).2 = (stackSpec q op).2 ∧
    Holds (outcome m (stackStep m l op)).1 l (stackSpec q op).1.reverse := by
  cases op with
  | push v =>
    obtain ⟨m', e, h1, h2⟩ := holds_pushBack h v
    simp only [stackStep, h1, Go.bind_ok, outcome, stackSpec]
    exact ⟨rfl, by simpa using h2⟩
  | pop =>
    have hp := holds_removeBack h
    rw [List.getLast?_reverse] at hp
    cases q with
    | nil =>
      simp only [List.head?_nil] at hp
      simp only [stackStep, hp, Go.bind_error, outcome, stackSpec]; exact ⟨trivial, h⟩
    | cons v q' =>
      simp only [List.head?_cons] at hp
      obtain ⟨m', h1, h2⟩ := hp
      simp only [stackStep, h1, Go.bind_ok, outcome, stackSpec]
      exact ⟨rfl, by simpa using h2⟩
  | peek =>
    obtain ⟨s, hr, hl, hq⟩ := id h
    have hq' : q = ((s.seq l).map s.val).reverse := by rw [← hq, List.reverse_reverse]
    simp only [stackStep, back_spec hr hl, stackSpec]
    rcases List.eq_nil_or_concat (s.seq l) with hs | ⟨ys, x, hs⟩
    · rw [hs] at hq'
      subst hq'
      rw [hs]
      exact ⟨rfl, h⟩
    · rw [List.concat_eq_append] at hs
      rw [hs] at hq'
      simp only [List.map_append, List.map_cons, List.map_nil, List.reverse_append, List.reverse_cons,
        List.reverse_nil, List.nil_append, List.singleton_append] at hq'
      rw [hs]
      subst hq'
      simp only [List.getLast?_concat, Option.map_some, deref, Go.bind_ok, outcome, hr.val]
      exact ⟨rfl, h⟩
  | len => exact ⟨by simp [stackStep, outcome, stackSpec, holds_len h], h⟩
  | empty => exact ⟨by simp [stackStep, outcome, stackSpec, holds_empty h], h⟩

/-- **C30.** A stack created at any time behaves, for every history of `Push`, `Pop`, `Peek`, `Len`, `Empty`, as a LIFO
stack; `Pop` and `Peek` on an empty stack panic. -/
theorem C30_stack (zero : T) (before : List (Op T)) (hb : Spec.LegalRun (Spec.init zero) before) (ops : List (SOp T)) :
    let (m, l) := new (run (empty zero) before).1
    (runWith (fun m op => stackStep m l op) m ops).2 = (runSpec stackSpec [] ops).2 := by
  exact runWith_eq (P := fun m q => Holds m _ q.reverse) stack_step ops _ _ (holds_new zero before hb)

example : (runWith (fun m op => stackStep m 0 op) (new (empty 0)).1
      [.push 1, .push 2, .peek, .pop, .push 3, .len, .pop, .pop, .pop, .peek, .empty]).2 =
    [.unit, .unit, .val 2, .val 2, .unit, .num 2, .val 3, .val 1, .panic .nilDeref, .panic .nilDeref, .flag true] := by
  decide

end Verif.LinkedList
