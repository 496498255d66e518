import Verif.Proof.LinkedList

/-! # Every list operation refines its sequence operation -/

namespace Verif.LinkedList

open Addr

variable {T : Type}

theorem split_mem {k : Nat} {xs : List Nat} (h : k ∈ xs) : ∃ ys zs, xs = ys ++ k :: zs ∧ k ∉ ys := by
  obtain ⟨ys, zs, h1, h2⟩ := List.eq_append_cons_of_mem h
  exact ⟨ys, zs, h1, h2⟩

theorem before_split (n k : Nat) (zs : List Nat) : ∀ ys, k ∉ ys → Spec.before n k (ys ++ k :: zs) = ys ++ n :: k :: zs
  | [], _ => by simp [Spec.before]
  | y :: ys, h => by
    simp only [List.mem_cons, not_or] at h
    simp [Spec.before, Ne.symm h.1, before_split n k zs ys h.2]

theorem after_split (n k : Nat) (zs : List Nat) : ∀ ys, k ∉ ys → Spec.after n k (ys ++ k :: zs) = ys ++ k :: n :: zs
  | [], _ => by simp [Spec.after]
  | y :: ys, h => by
    simp only [List.mem_cons, not_or] at h
    simp [Spec.after, Ne.symm h.1, after_split n k zs ys h.2]

theorem succ_split (k : Nat) (zs : List Nat) : ∀ ys, k ∉ ys → Spec.succ k (ys ++ k :: zs) = zs.head?
  | [], _ => by simp [Spec.succ]
  | y :: ys, h => by
    simp only [List.mem_cons, not_or] at h
    simp [Spec.succ, Ne.symm h.1, succ_split k zs ys h.2]

theorem erase_split (k : Nat) (zs ys : List Nat) (h : k ∉ ys) : (ys ++ k :: zs).erase k = ys ++ zs := by
  rw [List.erase_append_right _ h, List.erase_cons_head]

theorem lastA_concat (a : Addr) (ys : List Nat) (y : Nat) : lastA a (ys ++ [y]) = elem y := by
  rw [lastA_append]; rfl

theorem lastA_eq (l : Nat) (ys : List Nat) :
    lastA (root l) ys = match ys.getLast? with | none => root l | some y => elem y := by
  rcases List.eq_nil_or_concat ys with h | ⟨ys, y, h⟩
  · subst h; rfl
  · rw [List.concat_eq_append] at h
    subst h
    rw [lastA_concat]; simp

theorem headA_eq (l : Nat) (zs : List Nat) :
    headA zs (root l) = match zs.head? with | none => root l | some z => elem z := by
  cases zs <;> rfl

theorem setSeq_self (s : Spec.Seqs T) (l : Nat) : s.setSeq l (s.seq l) = s := by
  have : (fun k => if k = l then s.seq l else s.seq k) = s.seq := by
    funext k; split
    · subst_vars; rfl
    · rfl
  simp [Spec.Seqs.setSeq, this]

theorem front_spec {m : Mem T} {s : Spec.Seqs T} (h : Rel m s) {l : Nat} (hl : l < s.nLists) :
    front m l = (s.seq l).head?.map elem := by
  simp only [front, h.len l hl]
  have := (h.seg l hl).next_eq
  rw [this]
  cases hs : s.seq l with
  | nil => simp
  | cons x xs =>
    rw [if_neg (by simp only [List.length_cons]; omega)]; simp [headA]

theorem back_spec {m : Mem T} {s : Spec.Seqs T} (h : Rel m s) {l : Nat} (hl : l < s.nLists) :
    back m l = (s.seq l).getLast?.map elem := by
  simp only [back, h.len l hl]
  have := (h.seg l hl).prev_eq
  rw [this, lastA_eq]
  rcases List.eq_nil_or_concat (s.seq l) with hs | ⟨ys, y, hs⟩
  · simp [hs]
  · rw [List.concat_eq_append] at hs
    rw [hs, if_neg (by simp only [List.length_append, List.length_singleton]; omega)]; simp

theorem owner_some {m : Mem T} {s : Spec.Seqs T} (h : Rel m s) {l e : Nat} (he : e ∈ s.seq l) :
    ∀ n, l < n → s.owner e n = some l
  | 0, hn => by omega
  | n + 1, hn => by
    simp only [Spec.Seqs.owner]
    split
    · rename_i h2; rw [h.disj he h2]
    · rename_i h2
      refine owner_some h he n ?_
      have : l ≠ n := by rintro rfl; exact h2 he
      omega

theorem owner_none {s : Spec.Seqs T} {e : Nat} (he : ∀ l, e ∉ s.seq l) : ∀ n, s.owner e n = none
  | 0 => rfl
  | n + 1 => by simp [Spec.Seqs.owner, he n, owner_none he n]

theorem next_spec {m : Mem T} {s : Spec.Seqs T} (h : Rel m s) {e : Nat} (he : e ∉ s.old) :
    next m (some (elem e)) = .ok (match s.owner e s.nLists with
      | none => none
      | some l => (Spec.succ e (s.seq l)).map elem) := by
  simp only [next, deref, Go.bind_ok]
  cases hm : m.list (elem e) with
  | none =>
    rw [owner_none]
    · rfl
    · intro l hl
      rw [h.list l e hl] at hm; simp at hm
  | some l =>
    have hin := h.list' l e he hm
    rw [owner_some h hin _ (h.lt_lists hin)]
    obtain ⟨ys, zs, hs, hn⟩ := split_mem hin
    have := (neighbours h hs).2.1
    simp only [this, hs, succ_split e zs ys hn, Go.pure_eq, Except.ok.injEq]
    cases zs <;> simp [headA]

theorem prev_spec {m : Mem T} {s : Spec.Seqs T} (h : Rel m s) {e : Nat} (he : e ∉ s.old) :
    prev m (some (elem e)) = .ok (match s.owner e s.nLists with
      | none => none
      | some l => (Spec.succ e (s.seq l).reverse).map elem) := by
  simp only [prev, deref, Go.bind_ok]
  cases hm : m.list (elem e) with
  | none =>
    rw [owner_none]
    · rfl
    · intro l hl
      rw [h.list l e hl] at hm; simp at hm
  | some l =>
    have hin := h.list' l e he hm
    rw [owner_some h hin _ (h.lt_lists hin)]
    obtain ⟨ys, zs, hs, hn⟩ := split_mem hin
    have hnd := h.nodup l
    rw [hs, List.nodup_middle, List.nodup_cons] at hnd
    have := (neighbours h hs).1
    have hrev : (ys ++ e :: zs).reverse = zs.reverse ++ e :: ys.reverse := by simp
    simp only [this, hs, hrev]
    rw [succ_split e ys.reverse zs.reverse (by
      intro hc; exact hnd.1 (by simp at hc; simp [hc])), lastA_eq]
    simp only [Go.pure_eq, Except.ok.injEq, List.head?_reverse]
    cases ys.getLast? <;> simp

/-- `PushBack`. -/
theorem pushBack_at {m : Mem T} {s : Spec.Seqs T} (h : Rel m s) {l : Nat} (hl : l < s.nLists) (v : T) :
    ∃ m', insertValue m l v (m.prev (root l)) = .ok (m', some (elem s.nElems)) ∧
      Rel m' ((s.alloc v).setSeq l (s.seq l ++ [s.nElems])) := by
  rw [(h.seg l hl).prev_eq]
  exact insertValue_spec h hl v (ys := s.seq l) (zs := []) (by simp)

/-- `PushFront`. -/
theorem pushFront_at {m : Mem T} {s : Spec.Seqs T} (h : Rel m s) {l : Nat} (hl : l < s.nLists) (v : T) :
    ∃ m', insertValue m l v (some (root l)) = .ok (m', some (elem s.nElems)) ∧
      Rel m' ((s.alloc v).setSeq l (s.nElems :: s.seq l)) :=
  insertValue_spec h hl v (ys := []) (zs := s.seq l) (by simp)

theorem vals_alloc {m : Mem T} {s : Spec.Seqs T} (h : Rel m s) {l o : Nat} {v : T} {ys xs : List Nat}
    (hx : ∀ x ∈ xs, x ∈ s.seq o) : xs.map ((s.alloc v).setSeq l ys).val = xs.map s.val := by
  apply List.map_congr_left
  intro x hxm
  have := h.lt o x (hx x hxm)
  simp only [Spec.Seqs.setSeq, Spec.Seqs.alloc]
  rw [if_neg (by omega)]

theorem pushBackList_spec {l o : Nat} : ∀ (xs : List Nat) {m : Mem T} {s : Spec.Seqs T} (e : Option Addr)
    (pre extra : List Nat), Rel m s → l < s.nLists → o < s.nLists →
    s.seq o = pre ++ xs ++ extra → (∀ x xs', xs = x :: xs' → e = some (elem x)) →
    ∃ m', pushBackListLoop l xs.length m e = .ok m' ∧ Rel m' (s.appendVals l (xs.map s.val))
  | [], m, s, e, pre, extra, h, _, _, _, _ => ⟨m, rfl, h⟩
  | x :: xs, m, s, e, pre, extra, h, hl, ho, hs, he => by
    obtain rfl := he x xs rfl
    obtain ⟨m1, h1, hr1⟩ := pushBack_at h hl (s.val x)
    have hxo : x ∈ s.seq o := by rw [hs]; simp
    have hseq : ∃ extra', ((s.alloc (s.val x)).setSeq l (s.seq l ++ [s.nElems])).seq o = pre ++ x :: (xs ++ extra') := by
      by_cases hol : o = l
      · subst hol
        refine ⟨extra ++ [s.nElems], ?_⟩
        rw [setSeq_same, hs]; simp
      · refine ⟨extra, ?_⟩
        rw [setSeq_ne _ _ _ _ hol]
        show s.seq o = _
        rw [hs]; simp
    obtain ⟨extra', hseq⟩ := hseq
    have hxold : x ∉ ((s.alloc (s.val x)).setSeq l (s.seq l ++ [s.nElems])).old := h.old o x hxo
    have hnx := next_spec hr1 hxold
    have hown := owner_some hr1 (l := o) (e := x) (by rw [hseq]; simp)
      ((s.alloc (s.val x)).setSeq l (s.seq l ++ [s.nElems])).nLists ho
    have hnd := hr1.nodup o
    rw [hseq, List.nodup_middle, List.nodup_cons] at hnd
    rw [hown] at hnx
    simp only [hseq, succ_split x (xs ++ extra') pre (by intro hc; exact hnd.1 (by simp [hc]))] at hnx
    obtain ⟨m2, h2, hr2⟩ := pushBackList_spec xs (((xs ++ extra').head?).map elem) (pre ++ [x]) extra' hr1 hl ho
      (by rw [hseq]; simp) (by intro y ys hy; subst hy; simp)
    refine ⟨m2, ?_, ?_⟩
    · simp only [List.length_cons, pushBackListLoop, deref, Go.bind_ok, h.val, h1, hnx]
      exact h2
    · rw [vals_alloc h (o := o) (by intro y hy; rw [hs]; simp [hy])] at hr2
      exact hr2

theorem pushFrontList_spec {l o : Nat} : ∀ (xs : List Nat) {m : Mem T} {s : Spec.Seqs T} (e : Option Addr)
    (pre extra : List Nat), Rel m s → l < s.nLists → o < s.nLists →
    s.seq o = extra ++ xs.reverse ++ pre → (∀ x xs', xs = x :: xs' → e = some (elem x)) →
    ∃ m', pushFrontListLoop l xs.length m e = .ok m' ∧ Rel m' (s.prependVals l (xs.map s.val))
  | [], m, s, e, pre, extra, h, _, _, _, _ => ⟨m, rfl, h⟩
  | x :: xs, m, s, e, pre, extra, h, hl, ho, hs, he => by
    obtain rfl := he x xs rfl
    obtain ⟨m1, h1, hr1⟩ := pushFront_at h hl (s.val x)
    have hxo : x ∈ s.seq o := by rw [hs]; simp
    have hseq : ∃ extra', ((s.alloc (s.val x)).setSeq l (s.nElems :: s.seq l)).seq o =
        (extra' ++ xs.reverse) ++ x :: pre := by
      by_cases hol : o = l
      · subst hol
        refine ⟨s.nElems :: extra, ?_⟩
        rw [setSeq_same, hs]; simp
      · refine ⟨extra, ?_⟩
        rw [setSeq_ne _ _ _ _ hol]
        show s.seq o = _
        rw [hs]; simp
    obtain ⟨extra', hseq⟩ := hseq
    have hxold : x ∉ ((s.alloc (s.val x)).setSeq l (s.nElems :: s.seq l)).old := h.old o x hxo
    have hnx := prev_spec hr1 hxold
    have hown := owner_some hr1 (l := o) (e := x) (by rw [hseq]; simp)
      ((s.alloc (s.val x)).setSeq l (s.nElems :: s.seq l)).nLists ho
    have hnd := hr1.nodup o
    rw [hseq, List.nodup_middle, List.nodup_cons] at hnd
    rw [hown] at hnx
    have hrev : ((extra' ++ xs.reverse) ++ x :: pre).reverse = pre.reverse ++ x :: (xs ++ extra'.reverse) := by simp
    simp only [hseq, hrev, succ_split x (xs ++ extra'.reverse) pre.reverse
      (by intro hc; exact hnd.1 (by simp at hc; simp [hc]))] at hnx
    obtain ⟨m2, h2, hr2⟩ := pushFrontList_spec xs (((xs ++ extra'.reverse).head?).map elem) (x :: pre) extra' hr1 hl ho
      (by rw [hseq]) (by intro y ys hy; subst hy; simp)
    refine ⟨m2, ?_, ?_⟩
    · simp only [List.length_cons, pushFrontListLoop, deref, Go.bind_ok, h.val, h1, hnx]
      exact h2
    · rw [vals_alloc h (o := o) (by intro y hy; rw [hs]; simp [hy])] at hr2
      exact hr2

theorem new_spec {m : Mem T} {s : Spec.Seqs T} (h : Rel m s) :
    Rel (new m).1 (Spec.step s .new).1 ∧ (new m).2 = s.nLists := by
  refine ⟨?_, h.nLists⟩
  simp only [new, zeroList, clear, Spec.step, h.nLists]
  refine ⟨h.nElems, rfl, h.val, ?_, ?_, ?_, ?_, ?_, ?_, ?_, ?_, h.oldLt⟩
  · intro l hl
    have hl' : s.nLists + 1 ≤ l := hl
    show (if l = s.nLists then [] else s.seq l) = []
    split
    · rfl
    · exact h.fresh l (by omega)
  · intro l hl
    have hl' : l < s.nLists + 1 := hl
    show Seg _ _ _ (if l = s.nLists then [] else s.seq l) _
    by_cases hn : l = s.nLists
    · subst hn
      rw [if_pos rfl]
      exact ⟨put_same .., put_same ..⟩
    · rw [if_neg hn]
      refine (h.seg l (by omega)).frame ?_ ?_ ?_ ?_ <;> intros <;> dsimp only <;> rw [put_ne]
      all_goals simp [hn]
  · intro l hl
    have hl' : l < s.nLists + 1 := hl
    show put m.len s.nLists 0 l = ((if l = s.nLists then [] else s.seq l : List Nat).length : Int)
    by_cases hn : l = s.nLists
    · subst hn; simp [put]
    · rw [if_neg hn, put_ne _ _ _ _ hn]; exact h.len l (by omega)
  · intro l
    show (if l = s.nLists then [] else s.seq l).Nodup
    split
    · simp
    · exact h.nodup l
  · intro l e he
    have he' : e ∈ (if l = s.nLists then [] else s.seq l) := he
    split at he'
    · simp at he'
    · exact h.lt l e he'
  · intro l e he
    have he' : e ∈ (if l = s.nLists then [] else s.seq l) := he
    split at he'
    · simp at he'
    · exact h.list l e he'
  · intro l e ho he
    show e ∈ (if l = s.nLists then [] else s.seq l)
    have := h.list' l e ho he
    rw [if_neg]
    · exact this
    · have := h.lt_lists this; omega
  · intro l e he
    have he' : e ∈ (if l = s.nLists then [] else s.seq l) := he
    split at he'
    · simp at he'
    · exact h.old l e he'

theorem clear_spec {m : Mem T} {s : Spec.Seqs T} (h : Rel m s) {l : Nat} (hl : l < s.nLists) :
    Rel (clear m l) (Spec.step s (.clear l)).1 := by
  simp only [clear, Spec.step, Spec.Seqs.setSeq]
  refine ⟨h.nElems, h.nLists, h.val, ?_, ?_, ?_, ?_, ?_, ?_, ?_, ?_, ?_⟩
  · intro k hk
    have hk' : s.nLists ≤ k := hk
    show (if k = l then [] else s.seq k) = []
    split
    · rfl
    · exact h.fresh k hk'
  · intro k hk
    show Seg _ _ _ (if k = l then [] else s.seq k) _
    by_cases hn : k = l
    · subst hn
      rw [if_pos rfl]
      exact ⟨put_same .., put_same ..⟩
    · rw [if_neg hn]
      refine (h.seg k hk).frame ?_ ?_ ?_ ?_ <;> intros <;> dsimp only <;> rw [put_ne]
      all_goals simp [hn]
  · intro k hk
    show put m.len l 0 k = ((if k = l then [] else s.seq k : List Nat).length : Int)
    by_cases hn : k = l
    · subst hn; simp [put]
    · rw [if_neg hn, put_ne _ _ _ _ hn]; exact h.len k hk
  · intro k
    show (if k = l then [] else s.seq k).Nodup
    split
    · simp
    · exact h.nodup k
  · intro k e he
    have he' : e ∈ (if k = l then [] else s.seq k) := he
    split at he'
    · simp at he'
    · exact h.lt k e he'
  · intro k e he
    have he' : e ∈ (if k = l then [] else s.seq k) := he
    split at he'
    · simp at he'
    · exact h.list k e he'
  · intro k e ho he
    have ho' : e ∉ s.seq l ++ s.old := ho
    simp only [List.mem_append, not_or] at ho'
    show e ∈ (if k = l then [] else s.seq k)
    have := h.list' k e ho'.2 he
    rw [if_neg]
    · exact this
    · rintro rfl; exact ho'.1 this
  · intro k e he
    have he' : e ∈ (if k = l then [] else s.seq k) := he
    show e ∉ s.seq l ++ s.old
    split at he'
    · simp at he'
    · rename_i hkl
      simp only [List.mem_append, not_or]
      refine ⟨?_, h.old k e he'⟩
      intro hc
      exact hkl (h.disj he' hc)
  · intro e he
    have he' : e ∈ s.seq l ++ s.old := he
    simp only [List.mem_append] at he'
    rcases he' with he' | he'
    · exact h.lt l e he'
    · exact h.oldLt e he'

theorem remove_spec {m : Mem T} {s : Spec.Seqs T} (h : Rel m s) {l e : Nat} (he : e ∉ s.old) :
    ∃ m', remove m l (some (elem e)) = .ok (m', s.val e) ∧ Rel m' (s.setSeq l ((s.seq l).erase e)) ∧
      (e ∉ s.seq l → m' = m) := by
  simp only [remove, deref, Go.bind_ok]
  by_cases hin : e ∈ s.seq l
  · rw [if_pos (h.list l e hin)]
    obtain ⟨ys, zs, hs, hn⟩ := split_mem hin
    obtain ⟨m', h1, h2, h3⟩ := removeRaw_spec h hs
    refine ⟨m', ?_, ?_, fun hc => absurd hin hc⟩
    · simp [h1, h3, h.val]
    · rw [hs, erase_split e zs ys hn]; exact h2
  · rw [if_neg (by rw [h.mem_iff he]; exact hin)]
    refine ⟨m, by simp [h.val], ?_, fun _ => rfl⟩
    rw [List.erase_of_not_mem hin, setSeq_self]; exact h

/-- What a call does, a panic leaving the memory as it is. -/
def outcome (m : Mem T) (r : Go (Mem T × Obs T)) : Mem T × Obs T :=
  match r with
  | .ok x => x
  | .error p => (m, .panic p)

theorem step_spec {m : Mem T} {s : Spec.Seqs T} (h : Rel m s) (op : Op T) (hl : Spec.Legal s op) :
    (outcome m (step m op)).2 = (Spec.step s op).2 ∧ Rel (outcome m (step m op)).1 (Spec.step s op).1 := by
  obtain ⟨hlist, helem⟩ := hl
  cases op with
  | new =>
    have := new_spec h
    exact ⟨by simp [step, outcome, Spec.step, this.2], this.1⟩
  | pushFront l v =>
    obtain ⟨m', h1, h2⟩ := pushFront_at h (hlist l (by simp [Spec.lists])) v
    simp only [step, pushFront, h1, outcome, Go.bind_ok, Spec.step]
    exact ⟨rfl, h2⟩
  | pushBack l v =>
    obtain ⟨m', h1, h2⟩ := pushBack_at h (hlist l (by simp [Spec.lists])) v
    simp only [step, pushBack, h1, outcome, Go.bind_ok, Spec.step]
    exact ⟨rfl, h2⟩
  | insertBefore l v k =>
    have hk := helem k (by simp [Spec.elems])
    simp only [step, insertBefore, deref, Go.bind_ok, Spec.step]
    by_cases hin : k ∈ s.seq l
    · obtain ⟨ys, zs, hs, hn⟩ := split_mem hin
      rw [if_pos hin, if_neg (by rw [ne_eq, not_not]; exact h.list l k hin), (neighbours h hs).1]
      obtain ⟨m', h1, h2⟩ := insertValue_spec h (hlist l (by simp [Spec.lists])) v (ys := ys) (zs := k :: zs) hs
      rw [hs, before_split _ _ _ _ hn]
      simp only [h1, outcome, Go.bind_ok]
      exact ⟨rfl, h2⟩
    · rw [if_neg hin, if_pos (by rw [ne_eq, h.mem_iff hk.2]; exact hin)]
      exact ⟨rfl, h⟩
  | insertAfter l v k =>
    have hk := helem k (by simp [Spec.elems])
    simp only [step, insertAfter, deref, Go.bind_ok, Spec.step]
    by_cases hin : k ∈ s.seq l
    · obtain ⟨ys, zs, hs, hn⟩ := split_mem hin
      rw [if_pos hin, if_neg (by rw [ne_eq, not_not]; exact h.list l k hin)]
      obtain ⟨m', h1, h2⟩ := insertValue_spec h (hlist l (by simp [Spec.lists])) v (ys := ys ++ [k]) (zs := zs)
        (by rw [hs]; simp)
      rw [lastA_concat] at h1
      rw [hs, after_split _ _ _ _ hn]
      simp only [h1, outcome, Go.bind_ok]
      refine ⟨rfl, ?_⟩
      simpa using h2
    · rw [if_neg hin, if_pos (by rw [ne_eq, h.mem_iff hk.2]; exact hin)]
      exact ⟨rfl, h⟩
  | remove l e =>
    have hk := helem e (by simp [Spec.elems])
    obtain ⟨m', h1, h2, _⟩ := remove_spec h (l := l) hk.2
    simp only [step, h1, outcome, Go.bind_ok, Spec.step]
    exact ⟨rfl, h2⟩
  | removeFront l =>
    simp only [step, removeFront, front_spec h (hlist l (by simp [Spec.lists])), Spec.step]
    cases hs : s.seq l with
    | nil => exact ⟨rfl, h⟩
    | cons x xs =>
      obtain ⟨m', h1, h2, _⟩ := remove_spec h (l := l) (e := x) (h.old l x (by rw [hs]; simp))
      rw [hs, List.erase_cons_head] at h2
      simp only [List.head?_cons, Option.map_some, h1, outcome, Go.bind_ok]
      exact ⟨rfl, h2⟩
  | removeBack l =>
    simp only [step, removeBack, back_spec h (hlist l (by simp [Spec.lists])), Spec.step]
    cases hs : (s.seq l).getLast? with
    | none => exact ⟨rfl, h⟩
    | some x =>
      obtain ⟨ys, hys⟩ := List.getLast?_eq_some_iff.1 hs
      have hnd := h.nodup l
      rw [hys] at hnd
      have hn : x ∉ ys := by
        rw [List.nodup_append] at hnd
        intro hc; exact hnd.2.2 x hc x (by simp) rfl
      obtain ⟨m', h1, h2, _⟩ := remove_spec h (l := l) (e := x) (h.old l x (by rw [hys]; simp))
      rw [hys, erase_split x [] ys hn, List.append_nil] at h2
      simp only [Option.map_some, h1, outcome, Go.bind_ok]
      refine ⟨rfl, ?_⟩
      rw [hys, List.dropLast_concat]
      exact h2
  | moveToFront l e =>
    have hk := helem e (by simp [Spec.elems])
    simp only [step, moveToFront, deref, Go.bind_ok, Spec.step]
    by_cases hin : e ∈ s.seq l
    · obtain ⟨ys, zs, hs, hn⟩ := split_mem hin
      rw [if_pos hin, (h.seg l (hlist l (by simp [Spec.lists]))).next_eq]
      by_cases hh : headA (s.seq l) (root l) = elem e
      · rw [if_pos (.inr (by rw [hh]))]
        cases hq : s.seq l with
        | nil => rw [hq] at hin; simp at hin
        | cons x xs =>
          rw [hq] at hh
          simp only [headA, elem.injEq] at hh
          subst hh
          refine ⟨rfl, ?_⟩
          rw [List.erase_cons_head, ← hq, setSeq_self]
          exact h
      · rw [if_neg (by
          rw [not_or, ne_eq, not_not]
          exact ⟨h.list l e hin, by simpa using hh⟩)]
        obtain ⟨m', h1, h2⟩ := move_spec h hs (ys' := []) (zs' := ys ++ zs) rfl
        simp only [lastA] at h1
        simp only [h1, outcome, Go.bind_ok]
        rw [hs, erase_split e zs ys hn]
        exact ⟨rfl, h2⟩
    · rw [if_neg hin, if_pos (.inl (by rw [ne_eq, h.mem_iff hk.2]; exact hin))]
      exact ⟨rfl, h⟩
  | moveToBack l e =>
    have hk := helem e (by simp [Spec.elems])
    have hll := hlist l (by simp [Spec.lists])
    simp only [step, moveToBack, deref, Go.bind_ok, Spec.step]
    by_cases hin : e ∈ s.seq l
    · obtain ⟨ys, zs, hs, hn⟩ := split_mem hin
      rw [if_pos hin, (h.seg l hll).prev_eq]
      rcases List.eq_nil_or_concat zs with hz | ⟨zs', z, hz⟩
      · subst hz
        have hh : lastA (root l) (s.seq l) = elem e := by rw [hs, lastA_concat]
        rw [if_pos (.inr (by rw [hh]))]
        refine ⟨rfl, ?_⟩
        rw [hs, erase_split e [] ys hn, List.append_nil, ← hs, setSeq_self]
        exact h
      · rw [List.concat_eq_append] at hz
        subst hz
        have hh : lastA (root l) (s.seq l) = elem z := by
          rw [hs, lastA_append, lastA_concat]
        have hez : e ≠ z := by
          rintro rfl
          have hnd := h.nodup l
          rw [hs, List.nodup_middle, List.nodup_cons] at hnd
          exact hnd.1 (by simp)
        rw [if_neg (by
          rw [not_or, ne_eq, not_not, hh]
          exact ⟨h.list l e hin, by simpa using Ne.symm hez⟩)]
        obtain ⟨m', h1, h2⟩ := move_spec h hs (ys' := ys ++ (zs' ++ [z])) (zs' := []) (by simp)
        have hh' : lastA (root l) (ys ++ (zs' ++ [z])) = elem z := by rw [← List.append_assoc, lastA_concat]
        rw [hh'] at h1
        simp only [hh, h1, outcome, Go.bind_ok]
        rw [hs, erase_split e _ ys hn]
        exact ⟨rfl, h2⟩
    · rw [if_neg hin, if_pos (.inl (by rw [ne_eq, h.mem_iff hk.2]; exact hin))]
      exact ⟨rfl, h⟩
  | moveBefore l e k =>
    have he := helem e (by simp [Spec.elems])
    have hk := helem k (by simp [Spec.elems])
    have hll := hlist l (by simp [Spec.lists])
    simp only [step, moveBefore, deref, Go.bind_ok, Spec.step]
    by_cases hin : e ∈ s.seq l
    · by_cases hek : e = k
      · rw [if_neg (show ¬(e ∈ s.seq l ∧ k ∈ s.seq l ∧ e ≠ k) from by tauto), if_pos (show m.list (elem e) ≠ some l ∨ some (elem e) = some (elem k) from .inr (by rw [hek]))]
        exact ⟨rfl, h⟩
      · rw [if_neg (show ¬(m.list (elem e) ≠ some l ∨ some (elem e) = some (elem k)) from by
          rw [not_or, ne_eq, not_not]
          exact ⟨h.list l e hin, by simpa using hek⟩)]
        by_cases hkin : k ∈ s.seq l
        · rw [if_pos (show e ∈ s.seq l ∧ k ∈ s.seq l ∧ e ≠ k from ⟨hin, hkin, hek⟩), if_neg (show ¬ m.list (elem k) ≠ some l from by rw [ne_eq, not_not]; exact h.list l k hkin)]
          obtain ⟨ys, zs, hs, hn⟩ := split_mem hin
          have hnd := h.nodup l
          rw [hs, List.nodup_middle, List.nodup_cons] at hnd
          have hkm : k ∈ ys ++ zs := by
            rw [hs] at hkin; simp only [List.mem_append, List.mem_cons] at hkin ⊢
            rcases hkin with h' | h' | h'
            · exact .inl h'
            · exact absurd h'.symm hek
            · exact .inr h'
          obtain ⟨ys', zs', hs', hn'⟩ := split_mem hkm
          rw [hs, erase_split e zs ys hn, hs', before_split _ _ _ _ hn']
          -- the predecessor of k
          by_cases hadj : m.prev (elem k) = some (elem e)
          · -- e sits directly before k: nothing happens
            have hzs : ∃ zs0, zs = k :: zs0 := by
              have hke := congrArg (fun x => x) (neighbours h hs).2.1
              have : m.next (elem e) = some (elem k) := by
                obtain ⟨yk, zk, hsk, hnk⟩ := split_mem hkin
                have h3 := (neighbours h hsk).1
                rw [hadj, lastA_eq] at h3
                cases hg : yk.getLast? with
                | none => rw [hg] at h3; simp at h3
                | some w =>
                  rw [hg] at h3
                  simp only [Option.some.injEq, elem.injEq] at h3
                  subst h3
                  obtain ⟨y0, hy0⟩ := List.getLast?_eq_some_iff.1 hg
                  subst hy0
                  have := (neighbours h (ys := y0) (e := e) (zs := k :: zk) (by rw [hsk]; simp)).2.1
                  exact this
              rw [hke] at this
              cases zs with
              | nil => simp [headA] at this
              | cons z zs0 =>
                simp only [headA, Option.some.injEq, elem.injEq] at this
                exact ⟨zs0, by rw [this]⟩
            obtain ⟨zs0, hz0⟩ := hzs
            subst hz0
            have hnk : k ∉ ys := by
              have := hnd.2
              rw [List.nodup_middle, List.nodup_cons] at this
              intro hc; exact this.1 (by simp [hc])
            have heq : ys' = ys ∧ zs' = zs0 := by
              have h5 := before_split e k zs0 ys hnk
              rw [hs', before_split e k zs' ys' hn'] at h5
              have h6 := erase_split k zs0 ys hnk
              rw [hs', erase_split k zs' ys' hn'] at h6
              have hl1 := congrArg List.length h6
              -- compare positions of k
              have h7 := congrArg (List.idxOf k) hs'
              rw [List.idxOf_append_of_notMem hnk, List.idxOf_append_of_notMem hn'] at h7
              simp only [List.idxOf_cons_self, Nat.add_zero] at h7
              have := List.append_inj hs' h7
              exact ⟨this.1.symm, by simpa using this.2.symm⟩
            rw [heq.1, heq.2]
            simp only [hadj, move, if_true, outcome, Go.bind_ok, Go.pure_eq]
            refine ⟨trivial, ?_⟩
            rw [← hs, setSeq_self]
            exact h
          · have hp : m.prev (elem k) = some (lastA (root l) ys') := by
              have hseg := h.seg l hll
              rw [hs] at hseg
              have hul := hseg.unlink (by rw [← hs]; exact h.nodup l) (by simp)
              rw [hs', seg_append] at hul
              have h4 := hul.1.prev_eq
              rw [put_ne] at h4
              · exact h4
              · intro hc
                obtain ⟨_, h5, _, _⟩ := neighbours h hs
                apply hadj
                cases zs with
                | nil => simp [headA] at hc
                | cons z zs0 =>
                  simp only [headA, elem.injEq] at hc
                  subst hc
                  have := (neighbours h (ys := ys ++ [e]) (e := k) (zs := zs0) (by rw [hs]; simp)).1
                  rw [this, lastA_concat]
            obtain ⟨m', h1, h2⟩ := move_spec h hs (ys' := ys') (zs' := k :: zs') hs'
            simp only [hp, h1, outcome, Go.bind_ok]
            exact ⟨rfl, h2⟩
        · rw [if_neg (show ¬(e ∈ s.seq l ∧ k ∈ s.seq l ∧ e ≠ k) from by tauto), if_pos (show m.list (elem k) ≠ some l from by rw [ne_eq, h.mem_iff hk.2]; exact hkin)]
          exact ⟨rfl, h⟩
    · rw [if_neg (show ¬(e ∈ s.seq l ∧ k ∈ s.seq l ∧ e ≠ k) from by tauto), if_pos (show m.list (elem e) ≠ some l ∨ some (elem e) = some (elem k) from .inl (by rw [ne_eq, h.mem_iff he.2]; exact hin))]
      exact ⟨rfl, h⟩
  | moveAfter l e k =>
    have he := helem e (by simp [Spec.elems])
    have hk := helem k (by simp [Spec.elems])
    simp only [step, moveAfter, deref, Go.bind_ok, Spec.step]
    by_cases hin : e ∈ s.seq l
    · by_cases hek : e = k
      · rw [if_neg (show ¬(e ∈ s.seq l ∧ k ∈ s.seq l ∧ e ≠ k) from by tauto), if_pos (show m.list (elem e) ≠ some l ∨ some (elem e) = some (elem k) from .inr (by rw [hek]))]
        exact ⟨rfl, h⟩
      · rw [if_neg (show ¬(m.list (elem e) ≠ some l ∨ some (elem e) = some (elem k)) from by
          rw [not_or, ne_eq, not_not]
          exact ⟨h.list l e hin, by simpa using hek⟩)]
        by_cases hkin : k ∈ s.seq l
        · rw [if_pos (show e ∈ s.seq l ∧ k ∈ s.seq l ∧ e ≠ k from ⟨hin, hkin, hek⟩), if_neg (show ¬ m.list (elem k) ≠ some l from by rw [ne_eq, not_not]; exact h.list l k hkin)]
          obtain ⟨ys, zs, hs, hn⟩ := split_mem hin
          have hkm : k ∈ ys ++ zs := by
            rw [hs] at hkin; simp only [List.mem_append, List.mem_cons] at hkin ⊢
            rcases hkin with h' | h' | h'
            · exact .inl h'
            · exact absurd h'.symm hek
            · exact .inr h'
          obtain ⟨ys', zs', hs', hn'⟩ := split_mem hkm
          obtain ⟨m', h1, h2⟩ := move_spec h hs (ys' := ys' ++ [k]) (zs' := zs') (by rw [hs']; simp)
          rw [lastA_concat] at h1
          rw [hs, erase_split e zs ys hn, hs', after_split _ _ _ _ hn']
          simp only [h1, outcome, Go.bind_ok]
          refine ⟨rfl, ?_⟩
          simpa using h2
        · rw [if_neg (show ¬(e ∈ s.seq l ∧ k ∈ s.seq l ∧ e ≠ k) from by tauto), if_pos (show m.list (elem k) ≠ some l from by rw [ne_eq, h.mem_iff hk.2]; exact hkin)]
          exact ⟨rfl, h⟩
    · rw [if_neg (show ¬(e ∈ s.seq l ∧ k ∈ s.seq l ∧ e ≠ k) from by tauto), if_pos (show m.list (elem e) ≠ some l ∨ some (elem e) = some (elem k) from .inl (by rw [ne_eq, h.mem_iff he.2]; exact hin))]
      exact ⟨rfl, h⟩
  | pushBackList l o =>
    have hll := hlist l (by simp [Spec.lists])
    have hoo := hlist o (by simp [Spec.lists])
    obtain ⟨m', h1, h2⟩ := pushBackList_spec (l := l) (o := o) (s.seq o) (front m o) [] [] h hll hoo (by simp) (by
      intro x xs hx
      rw [front_spec h hoo, hx]; rfl)
    simp only [step, pushBackList, length, h.len o hoo, Int.toNat_natCast, h1, outcome, Go.bind_ok, Spec.step]
    exact ⟨rfl, h2⟩
  | pushFrontList l o =>
    have hll := hlist l (by simp [Spec.lists])
    have hoo := hlist o (by simp [Spec.lists])
    obtain ⟨m', h1, h2⟩ := pushFrontList_spec (l := l) (o := o) (s.seq o).reverse (back m o) [] [] h hll hoo
      (by simp) (by
        intro x xs hx
        rw [back_spec h hoo, ← List.head?_reverse, hx]; rfl)
    rw [List.length_reverse] at h1
    simp only [step, pushFrontList, length, h.len o hoo, Int.toNat_natCast, h1, outcome, Go.bind_ok, Spec.step]
    refine ⟨rfl, ?_⟩
    simpa [Spec.Seqs.vals, List.map_reverse] using h2
  | clear l =>
    exact ⟨rfl, clear_spec h (hlist l (by simp [Spec.lists]))⟩
  | len l =>
    exact ⟨by simp [step, outcome, Spec.step, length, h.len l (hlist l (by simp [Spec.lists]))], h⟩
  | isEmpty l =>
    refine ⟨?_, h⟩
    simp only [step, outcome, Spec.step, isEmpty, length, h.len l (hlist l (by simp [Spec.lists]))]
    cases s.seq l with
    | nil => rfl
    | cons x xs =>
      have : (((x :: xs).length : Int) == 0) = false := by
        simp only [List.length_cons, beq_eq_false_iff_ne]; omega
      rw [this]; rfl
  | front l =>
    exact ⟨by simp [step, outcome, Spec.step, front_spec h (hlist l (by simp [Spec.lists]))], h⟩
  | back l =>
    exact ⟨by simp [step, outcome, Spec.step, back_spec h (hlist l (by simp [Spec.lists]))], h⟩
  | next e =>
    have he := helem e (by simp [Spec.elems])
    simp only [step, next_spec h he.2, outcome, Spec.step, Go.bind_ok]
    exact ⟨rfl, h⟩
  | prev e =>
    have he := helem e (by simp [Spec.elems])
    simp only [step, prev_spec h he.2, outcome, Spec.step, Go.bind_ok]
    exact ⟨rfl, h⟩

end Verif.LinkedList
