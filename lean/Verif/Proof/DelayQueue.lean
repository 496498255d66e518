import Verif.Model.DelayQueue
import Verif.Proof.Heap
import Verif.Proof.Mutex
import Verif.Props.Heap

/-! # Invariants of the delay queue machine -/

namespace Verif.DelayQueue

open Mutex (put put_self put_ne)
open Heap (HeapN)

variable {V : Type} {k : Client}

/-- The goroutine is between lock and unlock. -/
def inside : Pc V → Bool
  | .pushLocked _ _ | .pushAdded _ | .pushHead | .pushSend | .pushUnlock | .takeLocked | .takePeeked _ | .takeDue _ _
  | .takeHave | .takeArm _ | .takeArmed _ | .opLocked _ | .opUnlock => true
  | _ => false

/-! ## Mutual exclusion -/

/-- The holder of the mutex is the goroutine between lock and unlock. -/
def Hold (s : State V) : Prop := ∀ j, inside (s.pc j) = true ↔ s.holder = some j

theorem hold_same {s s' : State V} {i : Nat} {b : Pc V} (h : Hold s) (hi : inside (s.pc i) = inside b)
    (hp : s'.pc = put s.pc i b) (hh : s'.holder = s.holder) : Hold s' := by
  intro j
  rw [hp, hh]
  by_cases hj : j = i
  · subst hj; rw [put_self, ← hi]; exact h j
  · rw [put_ne _ _ hj]; exact h j

theorem hold_acq {s s' : State V} {i : Nat} {b : Pc V} (h : Hold s) (hn : s.holder = none) (hb : inside b = true)
    (hp : s'.pc = put s.pc i b) (hh : s'.holder = some i) : Hold s' := by
  intro j
  rw [hp, hh]
  by_cases hj : j = i
  · subst hj; rw [put_self, hb]; simp
  · rw [put_ne _ _ hj, h j, hn]
    simp only [Option.some.injEq]
    exact ⟨fun h => by simp at h, fun h => absurd h.symm hj⟩

theorem hold_rel {s s' : State V} {i : Nat} {b : Pc V} (h : Hold s) (hi : inside (s.pc i) = true) (hb : inside b = false)
    (hp : s'.pc = put s.pc i b) (hh : s'.holder = none) : Hold s' := by
  intro j
  rw [hp, hh]
  by_cases hj : j = i
  · subst hj; rw [put_self, hb]; simp
  · rw [put_ne _ _ hj, h j, (h i).1 hi]
    simp only [Option.some.injEq]
    exact ⟨fun h => absurd h.symm hj, fun h => by simp at h⟩

theorem hold_two {s s' : State V} {i j : Nat} {b c : Pc V} (h : Hold s) (hi : inside (s.pc i) = inside b)
    (hij : j ≠ i) (hj : inside (s.pc j) = inside c) (hp : s'.pc = put (put s.pc i b) j c) (hh : s'.holder = s.holder) : Hold s' := by
  have h1 : Hold { s with pc := put s.pc i b } := hold_same h hi rfl rfl
  refine hold_same h1 (i := j) (b := c) ?_ hp hh
  show inside (put s.pc i b j) = inside c
  rw [put_ne _ _ hij]; exact hj

theorem hold_init (t0 : Int) : Hold (init t0 : State V) := by
  intro j
  simp [init, inside]

theorem ne_of_pc {s : State V} {i j : Nat} {a b : Pc V} (hi : s.pc i = a) (hj : s.pc j = b) (h : a ≠ b) : j ≠ i := by
  intro e
  subst e
  exact h (hi.symm.trans hj)

theorem hold_step {s s' : State V} (h : Hold s) (hs : Step k s s') : Hold s' := by
  cases hs with
  | tick d _ => exact h
  | callPush i v delay hp => exact hold_same h (by rw [hp]; rfl) rfl rfl
  | pushLock i v delay hp hn => exact hold_acq h hn rfl rfl rfl
  | pushAdd i v delay h' hp he => exact hold_same h (by rw [hp]; rfl) rfl rfl
  | pushIsHead i e x hp _ _ => exact hold_same h (by rw [hp]; rfl) rfl rfl
  | pushNotHead i e x hp _ _ => exact hold_same h (by rw [hp]; rfl) rfl rfl
  | pushCas i hp _ => exact hold_same h (by rw [hp]; rfl) rfl rfl
  | pushCasFail i hp _ => exact hold_same h (by rw [hp]; rfl) rfl rfl
  | wake i j dl hi hj => exact hold_two h (by rw [hi]; rfl) (ne_of_pc hi hj (by simp)) (by rw [hj]; rfl) rfl rfl
  | wakeDrain i j hi hj => exact hold_two h (by rw [hi]; rfl) (ne_of_pc hi hj (by simp)) (by rw [hj]; rfl) rfl rfl
  | pushUnlock i hp => exact hold_rel h (by rw [hp]; rfl) rfl rfl rfl
  | callTake i hp _ => exact hold_same h (by rw [hp]; rfl) rfl rfl
  | takeLock i hp hn => exact hold_acq h hn rfl rfl rfl
  | takeEmpty i hp _ => exact hold_same h (by rw [hp]; rfl) rfl rfl
  | takePeek i e hp _ _ => exact hold_same h (by rw [hp]; rfl) rfl rfl
  | takeIsDue i e hp _ => exact hold_same h (by rw [hp]; rfl) rfl rfl
  | takeNotDue i e hp _ => exact hold_same h (by rw [hp]; rfl) rfl rfl
  | takePop i e now x h' hp _ => exact hold_same h (by rw [hp]; rfl) rfl rfl
  | takeReturn i hp => exact hold_rel h (by rw [hp]; rfl) rfl rfl rfl
  | takeStore i dl hp => exact hold_same h (by rw [hp]; rfl) rfl rfl
  | takeUnlock i dl hp => exact hold_rel h (by rw [hp]; rfl) rfl rfl rfl
  | timer i d hp _ => exact hold_same h (by rw [hp]; rfl) rfl rfl
  | swapWon i hp _ => exact hold_same h (by rw [hp]; rfl) rfl rfl
  | swapLost i hp _ => exact hold_same h (by rw [hp]; rfl) rfl rfl
  | cancel i dl _ hp => exact hold_same h (by rw [hp]; rfl) rfl rfl
  | callOp i b hp => exact hold_same h (by rw [hp]; rfl) rfl rfl
  | opLock i b hp hn => exact hold_acq h hn rfl rfl rfl
  | opPop i h' e hp _ => exact hold_same h (by rw [hp]; rfl) rfl rfl
  | opPopNone i h' hp _ => exact hold_same h (by rw [hp]; rfl) rfl rfl
  | opRead i hp => exact hold_same h (by rw [hp]; rfl) rfl rfl
  | opReturn i hp => exact hold_rel h (by rw [hp]; rfl) rfl rfl rfl

/-- Two goroutines are never inside together. -/
theorem Hold.excl {s : State V} (h : Hold s) {i j : Nat} (hi : inside (s.pc i) = true) (hj : inside (s.pc j) = true) : j = i := by
  have h1 := (h i).1 hi
  have h2 := (h j).1 hj
  rw [h1] at h2
  simpa using h2.symm

/-! ## The heap -/

theorem before_swo : StrictWeakOrder (before : Entry V → Entry V → Bool) where
  irrefl a := by simp [before]
  trans a b c h1 h2 := by simp only [before, decide_eq_true_eq] at *; omega
  incomp_trans a b c h1 h2 := by simp only [before, decide_eq_false_iff_not] at *; omega

theorem push_ok (h : List (Entry V)) (e : Entry V) : ∃ h', Heap.push before h e = .ok h' ∧ h'.Perm (e :: h) := by
  rw [Heap.push_eq]
  exact Heap.pushN_total before 2 (by omega) h e

theorem push_heap {h h' : List (Entry V)} {e : Entry V} (hh : HeapN before 2 h.length h)
    (he : Heap.push before h e = .ok h') : HeapN before 2 h'.length h' := by
  rw [Heap.push_eq] at he
  exact Heap.pushN_heap before_swo 2 (by omega) hh he

theorem pop_ok {h : List (Entry V)} {e : Entry V} (h0 : h[0]? = some e) :
    ∃ h', Heap.pop before h = .ok (e, h') ∧ (e :: h').Perm h := by
  have hne : 0 < h.length := by
    cases h with
    | nil => simp at h0
    | cons => simp
  obtain ⟨h', e1, e2⟩ := Heap.popG_total (before : Entry V → Entry V → Bool) 2 2 (by omega) h hne
  have : h[0] = e := by
    rw [List.getElem?_eq_getElem hne] at h0
    exact Option.some.inj h0
  rw [this] at e1 e2
  exact ⟨h', by rw [Heap.pop_eq]; exact e1, e2⟩

theorem pop_heap {h h' : List (Entry V)} {x : Entry V} (hh : HeapN before 2 h.length h)
    (he : Heap.pop before h = .ok (x, h')) : HeapN before 2 h'.length h' := by
  rw [Heap.pop_eq] at he
  exact Heap.popG_heap before_swo 2 2 ⟨by omega, .inl (by omega)⟩ hh he

theorem peek_iff {h : List (Entry V)} {e : Entry V} : Heap.peek h = .ok e ↔ h[0]? = some e := by
  unfold Heap.peek Go.idx
  split <;> simp_all

theorem root_min {h : List (Entry V)} {e : Entry V} (hh : HeapN before 2 h.length h) (h0 : h[0]? = some e) :
    e ∈ h ∧ ∀ x ∈ h, e.exp ≤ x.exp := by
  have hne : 0 < h.length := by
    cases h with
    | nil => simp at h0
    | cons => simp
  have he : h[0] = e := by
    rw [List.getElem?_eq_getElem hne] at h0
    exact Option.some.inj h0
  have := Heap.isMin_of_heap before_swo hh hne
  rw [he] at this
  refine ⟨by simpa using this.1, fun x hx => ?_⟩
  have := this.2 x (by simpa using hx)
  simp only [before, decide_eq_false_iff_not] at this
  omega

theorem empty_iff {h : List (Entry V)} : Heap.empty h = true ↔ h = [] := by
  simp [Heap.empty, Heap.len]

/-- What `Pop` does to a well-formed heap. -/
theorem popBody_spec {h : List (Entry V)} (hh : HeapN before 2 h.length h) (now : Int) :
    (popBody h now = .ok (h, none) ∧ ∀ x ∈ h, now < x.exp) ∨
    (∃ e h', h[0]? = some e ∧ popBody h now = .ok (h', some e) ∧ e.exp ≤ now ∧ (e :: h').Perm h ∧
      HeapN before 2 h'.length h') := by
  unfold popBody
  by_cases he : Heap.empty h = true
  · rw [if_pos he]
    rw [empty_iff] at he
    subst he
    exact .inl ⟨rfl, by simp⟩
  · rw [if_neg he]
    have hne : 0 < h.length := by
      cases h with
      | nil => simp [Heap.empty, Heap.len] at he
      | cons => simp
    have h0 : h[0]? = some h[0] := List.getElem?_eq_getElem hne
    rw [peek_iff.2 h0]
    simp only [Go.bind_ok]
    by_cases hn : now < h[0].exp
    · rw [if_pos hn]
      refine .inl ⟨rfl, fun x hx => ?_⟩
      have := (root_min hh h0).2 x hx
      omega
    · rw [if_neg hn]
      obtain ⟨h', e1, e2⟩ := pop_ok h0
      refine .inr ⟨h[0], h', h0, ?_, by omega, e2, pop_heap hh e1⟩
      rw [e1]
      rfl

/-! ## Contents -/

/-- What a goroutine in the middle of `Take` knows. -/
def Knows (h : List (Entry V)) : Pc V → Prop
  | .takePeeked e => h[0]? = some e
  | .takeDue e now => h[0]? = some e ∧ e.exp < now
  | _ => True

theorem knows_of_outside {h h' : List (Entry V)} {p : Pc V} (hp : inside p = false) (hk : Knows h p) : Knows h' p := by
  cases p <;> simp [inside, Knows] at *

structure Cont (s : State V) : Prop where
  hold : Hold s
  heap : HeapN before 2 s.heap.length s.heap
  ids : ∀ x ∈ s.pushed, x.id < s.next
  nodup : (s.pushed.map (·.id)).Nodup
  perm : s.pushed.Perm (s.delivered.map (·.entry) ++ s.heap)
  times : ∀ d ∈ s.delivered, d.entry.exp ≤ d.now ∧ (d.byTake = true → d.entry.exp < d.now)
  knows : ∀ j, Knows s.heap (s.pc j)

theorem cont_init (t0 : Int) : Cont (init t0 : State V) := by
  refine ⟨hold_init t0, ?_, by simp [init], by simp [init], by simp [init], by simp [init], fun j => trivial⟩
  intro j _ hj
  simp [init] at hj

/-- A step of goroutine `i` that leaves the heap alone. -/
theorem knows_put {s : State V} {i : Nat} {b : Pc V} (h : ∀ j, Knows s.heap (s.pc j)) (hb : Knows s.heap b) :
    ∀ j, Knows s.heap (put s.pc i b j) := by
  intro j
  by_cases hj : j = i
  · subst hj; rw [put_self]; exact hb
  · rw [put_ne _ _ hj]; exact h j

/-- A step of goroutine `i`, inside, that changes the heap. -/
theorem knows_heap {s : State V} {i : Nat} {b : Pc V} {h' : List (Entry V)} (hh : Hold s) (h : ∀ j, Knows s.heap (s.pc j))
    (hi : inside (s.pc i) = true) (hb : Knows h' b) : ∀ j, Knows h' (put s.pc i b j) := by
  intro j
  by_cases hj : j = i
  · subst hj; rw [put_self]; exact hb
  · rw [put_ne _ _ hj]
    refine knows_of_outside ?_ (h j)
    cases e : inside (s.pc j) with
    | false => rfl
    | true => exact absurd (hh.excl hi e) hj

theorem cont_step {s s' : State V} (h : Cont s) (hs : Step k s s') : Cont s' := by
  have hh := hold_step h.hold hs
  have trivialStep : ∀ {t : State V} {i : Nat} {b : Pc V}, Hold t → t.heap = s.heap → t.pushed = s.pushed → t.next = s.next →
      t.delivered = s.delivered → t.pc = put s.pc i b → Knows s.heap b → Cont t := by
    intro t i b h1 h2 h3 h4 h5 h6 h7
    refine ⟨h1, ?_, ?_, ?_, ?_, ?_, ?_⟩
    · rw [h2]; exact h.heap
    · rw [h3, h4]; exact h.ids
    · rw [h3]; exact h.nodup
    · rw [h2, h3, h5]; exact h.perm
    · rw [h5]; exact h.times
    · rw [h6, h2]; exact knows_put h.knows h7
  cases hs with
  | tick d _ => exact ⟨hh, h.heap, h.ids, h.nodup, h.perm, h.times, h.knows⟩
  | callPush i v delay hp => exact trivialStep hh rfl rfl rfl rfl rfl trivial
  | pushLock i v delay hp hn => exact trivialStep hh rfl rfl rfl rfl rfl trivial
  | pushAdd i v delay h' hp he =>
    obtain ⟨h'', e1, e2⟩ := push_ok s.heap ⟨s.next, v, s.clock + delay⟩
    cases he.symm.trans e1
    refine ⟨hh, push_heap h.heap he, ?_, ?_, ?_, h.times, knows_heap h.hold h.knows (by rw [hp]; rfl) trivial⟩
    · intro x hx
      simp only [List.mem_append, List.mem_singleton] at hx
      rcases hx with hx | rfl
      · have := h.ids x hx
        show x.id < s.next + 1
        omega
      · exact Nat.lt_succ_self _
    · simp only [List.map_append, List.map_cons, List.map_nil]
      rw [List.nodup_append]
      refine ⟨h.nodup, by simp, ?_⟩
      intro a ha b hb
      simp only [List.mem_map, List.mem_singleton] at ha hb
      obtain ⟨x, hx, rfl⟩ := ha
      have := h.ids x hx
      omega
    · refine (List.perm_append_singleton _ _).trans (.trans (.cons _ h.perm) ?_)
      refine (List.perm_middle.symm).trans ?_
      exact List.Perm.append_left _ e2.symm
  | pushIsHead i e x hp _ _ => exact trivialStep hh rfl rfl rfl rfl rfl trivial
  | pushNotHead i e x hp _ _ => exact trivialStep hh rfl rfl rfl rfl rfl trivial
  | pushCas i hp _ => exact trivialStep hh rfl rfl rfl rfl rfl trivial
  | pushCasFail i hp _ => exact trivialStep hh rfl rfl rfl rfl rfl trivial
  | wake i j dl hi hj =>
    exact ⟨hh, h.heap, h.ids, h.nodup, h.perm, h.times,
      knows_put (s := { s with pc := put s.pc i .pushUnlock }) (knows_put h.knows trivial) trivial⟩
  | wakeDrain i j hi hj =>
    exact ⟨hh, h.heap, h.ids, h.nodup, h.perm, h.times,
      knows_put (s := { s with pc := put s.pc i .pushUnlock }) (knows_put h.knows trivial) trivial⟩
  | pushUnlock i hp => exact trivialStep hh rfl rfl rfl rfl rfl trivial
  | callTake i hp _ => exact trivialStep hh rfl rfl rfl rfl rfl trivial
  | takeLock i hp hn => exact trivialStep hh rfl rfl rfl rfl rfl trivial
  | takeEmpty i hp _ => exact trivialStep hh rfl rfl rfl rfl rfl trivial
  | takePeek i e hp _ he => exact trivialStep hh rfl rfl rfl rfl rfl (peek_iff.1 he)
  | takeIsDue i e hp hc =>
    have := h.knows i
    rw [hp] at this
    exact trivialStep hh rfl rfl rfl rfl rfl ⟨this, hc⟩
  | takeNotDue i e hp _ => exact trivialStep hh rfl rfl rfl rfl rfl trivial
  | takePop i e now x h' hp he =>
    have hk := h.knows i
    rw [hp] at hk
    obtain ⟨h'', e1, e2⟩ := pop_ok hk.1
    cases he.symm.trans e1
    refine ⟨hh, pop_heap h.heap he, h.ids, h.nodup, ?_, ?_, knows_heap h.hold h.knows (by rw [hp]; rfl) trivial⟩
    · refine h.perm.trans ?_
      simp only [List.map_append, List.map_cons, List.map_nil, List.append_assoc]
      exact List.Perm.append_left _ e2.symm
    · intro d hd
      simp only [List.mem_append, List.mem_singleton] at hd
      rcases hd with hd | rfl
      · exact h.times d hd
      · exact ⟨Int.le_of_lt hk.2, fun _ => hk.2⟩
  | takeReturn i hp => exact trivialStep hh rfl rfl rfl rfl rfl trivial
  | takeStore i dl hp => exact trivialStep hh rfl rfl rfl rfl rfl trivial
  | takeUnlock i dl hp => exact trivialStep hh rfl rfl rfl rfl rfl trivial
  | timer i d hp _ => exact trivialStep hh rfl rfl rfl rfl rfl trivial
  | swapWon i hp _ => exact trivialStep hh rfl rfl rfl rfl rfl trivial
  | swapLost i hp _ => exact trivialStep hh rfl rfl rfl rfl rfl trivial
  | cancel i dl _ hp => exact trivialStep hh rfl rfl rfl rfl rfl trivial
  | callOp i b hp => exact trivialStep hh rfl rfl rfl rfl rfl trivial
  | opLock i b hp hn => exact trivialStep hh rfl rfl rfl rfl rfl trivial
  | opPop i h' e hp he =>
    rcases popBody_spec h.heap s.clock with ⟨e1, _⟩ | ⟨e', h'', h0, e1, hle, e2, e3⟩
    · rw [e1] at he; simp at he
    · rw [e1] at he
      simp only [Except.ok.injEq, Prod.mk.injEq, Option.some.injEq] at he
      obtain ⟨rfl, rfl⟩ := he
      refine ⟨hh, e3, h.ids, h.nodup, ?_, ?_, knows_heap h.hold h.knows (by rw [hp]; rfl) trivial⟩
      · refine h.perm.trans ?_
        simp only [List.map_append, List.map_cons, List.map_nil, List.append_assoc]
        exact List.Perm.append_left _ e2.symm
      · intro d hd
        simp only [List.mem_append, List.mem_singleton] at hd
        rcases hd with hd | rfl
        · exact h.times d hd
        · exact ⟨hle, fun h => by simp at h⟩
  | opPopNone i h' hp he =>
    rcases popBody_spec h.heap s.clock with ⟨e1, _⟩ | ⟨e', h'', h0, e1, hle, e2, e3⟩
    · rw [e1] at he
      simp only [Except.ok.injEq, Prod.mk.injEq, and_true] at he
      subst he
      exact trivialStep hh rfl rfl rfl rfl rfl trivial
    · rw [e1] at he; simp at he
  | opRead i hp => exact trivialStep hh rfl rfl rfl rfl rfl trivial
  | opReturn i hp => exact trivialStep hh rfl rfl rfl rfl rfl trivial

theorem cont_reach {t0 : Int} {s : State V} (h : Reach k t0 s) : Cont s := by
  unfold Reach at h
  induction h with
  | refl => exact cont_init t0
  | step _ hs ih => exact cont_step ih hs

end Verif.DelayQueue
