import Verif.Props.LinkedList
import Mathlib.Logic.Relation

/-!
# Property C167: what a linked list keeps alive

The garbage collector keeps what can be reached through pointers.  `Points` are the pointers stored in an element of
`common/container/list/list.go` (lines 15-28: `next`, `prev` and `list`) and in the list itself (its sentinel `root`, whose
own field `list` is never assigned).
-/

namespace Verif.LinkedList

open Addr

variable {T : Type}

/-- The element at `a` holds a pointer to `b` (list.go:15-28); a pointer to a list leads to its sentinel. -/
def Points (m : Mem T) (a b : Addr) : Prop :=
  m.next a = some b ∨ m.prev a = some b ∨ ∃ e l, a = elem e ∧ m.list a = some l ∧ b = root l

/-- Following pointers from `a` one comes to `b`. -/
def Reach (m : Mem T) : Addr → Addr → Prop := Relation.ReflTransGen (Points m)

theorem Seg.next_in {nx pv : Addr → Option Addr} {b : Addr} : ∀ {xs : List Nat} {a : Addr}, Seg nx pv a xs b →
    ∀ c, (c = a ∨ ∃ x ∈ xs, c = elem x) → ∀ d, nx c = some d → d = b ∨ ∃ x ∈ xs, d = elem x
  | [], a, h, c, hc, d, hd => by
    rcases hc with rfl | ⟨x, hx, _⟩
    · rw [h.1] at hd; exact .inl (Option.some.inj hd).symm
    · simp at hx
  | x :: xs, a, h, c, hc, d, hd => by
    have hrec := h.2.2.next_in c
    rcases hc with rfl | ⟨y, hy, rfl⟩
    · rw [h.1] at hd; exact .inr ⟨x, by simp, (Option.some.inj hd).symm⟩
    · have hc' : elem y = elem x ∨ ∃ z ∈ xs, elem y = elem z := by
        rcases List.mem_cons.1 hy with rfl | hy
        · exact .inl rfl
        · exact .inr ⟨y, hy, rfl⟩
      rcases hrec hc' d hd with h' | ⟨z, hz, h'⟩
      · exact .inl h'
      · exact .inr ⟨z, by simp [hz], h'⟩

theorem Seg.prev_in {nx pv : Addr → Option Addr} {b : Addr} : ∀ {xs : List Nat} {a : Addr}, Seg nx pv a xs b →
    ∀ c, (c = b ∨ ∃ x ∈ xs, c = elem x) → ∀ d, pv c = some d → d = a ∨ ∃ x ∈ xs, d = elem x
  | [], a, h, c, hc, d, hd => by
    rcases hc with rfl | ⟨x, hx, _⟩
    · rw [h.2] at hd; exact .inl (Option.some.inj hd).symm
    · simp at hx
  | x :: xs, a, h, c, hc, d, hd => by
    have key : (c = b ∨ ∃ z ∈ xs, c = elem z) → d = a ∨ ∃ z ∈ x :: xs, d = elem z := fun hc' => by
      rcases h.2.2.prev_in c hc' d hd with h' | ⟨z, hz, h'⟩
      · exact .inr ⟨x, by simp, h'⟩
      · exact .inr ⟨z, by simp [hz], h'⟩
    rcases hc with hc | ⟨y, hy, rfl⟩
    · exact key (.inl hc)
    · rcases List.mem_cons.1 hy with rfl | hy
      · rw [h.2.1] at hd; exact .inl (Option.some.inj hd).symm
      · exact key (.inr ⟨y, hy, rfl⟩)

theorem Seg.reach {m : Mem T} {b : Addr} : ∀ {xs : List Nat} {a : Addr}, Seg m.next m.prev a xs b →
    ∀ x ∈ xs, Reach m a (elem x)
  | [], _, _, x, hx => by simp at hx
  | y :: ys, a, h, x, hx => by
    have h1 : Reach m a (elem y) := .single (.inl h.1)
    rcases List.mem_cons.1 hx with rfl | hx
    · exact h1
    · exact h1.trans (h.2.2.reach x hx)

theorem reach_aux {m : Mem T} {s : Spec.Seqs T} (h : Rel m s) {l : Nat} (hl : l < s.nLists) (a : Addr) :
    Reach m (root l) a ↔ a = root l ∨ ∃ e ∈ s.seq l, a = elem e := by
  constructor
  · intro hr
    induction hr with
    | refl => exact .inl rfl
    | tail _ hp ih =>
      rcases hp with hp | hp | ⟨e, k, rfl, hk, rfl⟩
      · exact (h.seg l hl).next_in _ ih _ hp
      · exact (h.seg l hl).prev_in _ ih _ hp
      · rcases ih with ih | ⟨x, hx, ih⟩
        · exact absurd ih (by simp)
        · rw [Addr.elem.inj ih, h.list l x hx] at hk
          exact .inl (by rw [Option.some.inj hk])
  · rintro (rfl | ⟨e, he, rfl⟩)
    · exact .refl
    · exact (h.seg l hl).reach e he

/-- **C167.**  After any legal history, what can be reached from a list is the list itself and exactly its elements:
an element that was removed, cleared away or belongs to another list is not kept alive by it. -/
theorem C167_list_keeps_its_elements (zero : T) (ops : List (Op T)) (hl : Spec.LegalRun (Spec.init zero) ops) :
    let m := (run (empty zero) ops).1
    let s := (Spec.run (Spec.init zero) ops).1
    ∀ l < s.nLists, ∀ a, Reach m (root l) a ↔ a = root l ∨ ∃ e ∈ s.seq l, a = elem e :=
  fun _ hk a => reach_aux (run_spec ops (rel_init zero) hl).2 hk a

theorem removeRaw_clears {m m' : Mem T} {l e : Nat} (h : removeRaw m l (elem e) = .ok m') :
    m'.next (elem e) = none ∧ m'.prev (elem e) = none ∧ m'.list (elem e) = none := by
  simp only [removeRaw, setNext, setPrev, deref] at h
  cases hp : m.prev (elem e) with
  | none => rw [hp] at h; cases h
  | some p =>
    rw [hp] at h
    simp only [Go.bind_ok, pure, Except.pure] at h
    split at h
    · cases h
    · simp only [Go.bind_ok] at h
      cases h
      simp [put]

/-- **C167, the other direction.**  An element that a call of `Remove` has taken out of its list points to nothing: a
client who keeps it keeps neither the list nor any other element. -/
theorem C167_removed_points_to_nothing (zero : T) (ops : List (Op T)) (hl : Spec.LegalRun (Spec.init zero) ops)
    (l e : Nat) :
    let m := (run (empty zero) ops).1
    let s := (Spec.run (Spec.init zero) ops).1
    e ∈ s.seq l → ∃ m', remove m l (some (elem e)) = .ok (m', s.val e) ∧
      (∀ a, Reach m' (elem e) a → a = elem e) ∧
      ∀ k < s.nLists, ¬ Reach m' (root k) (elem e) := by
  intro m s he
  have hR : Rel m s := (run_spec ops (rel_init zero) hl).2
  obtain ⟨m', h1, h2, _⟩ := remove_spec (l := l) hR (hR.old l e he)
  have h0 := h1
  simp only [remove, deref, Go.bind_ok] at h0
  rw [if_pos (hR.list l e he)] at h0
  cases hr : removeRaw m l (elem e) with
  | error p => rw [hr] at h0; cases h0
  | ok m2 =>
    rw [hr] at h0
    have hm : m2 = m' := by
      simp only [Go.bind_ok, pure, Except.pure] at h0
      exact (Prod.mk.inj (Except.ok.inj h0)).1
    subst hm
    obtain ⟨c1, c2, c3⟩ := removeRaw_clears hr
    refine ⟨_, h1, fun a ha => ?_, fun k hk hx => ?_⟩
    · induction ha with
      | refl => rfl
      | tail _ hp ih =>
        subst ih
        rcases hp with hp | hp | ⟨_, _, _, hp, _⟩
        · rw [c1] at hp; cases hp
        · rw [c2] at hp; cases hp
        · rw [c3] at hp; cases hp
    · rcases (reach_aux h2 (l := k) hk _).1 hx with hx | ⟨x, hx, hxe⟩
      · cases hx
      · cases hxe
        by_cases hkl : k = l
        · subst hkl
          simp only [Spec.Seqs.setSeq, if_true] at hx
          exact (hR.nodup k).not_mem_erase hx
        · simp only [Spec.Seqs.setSeq, if_neg hkl] at hx
          exact hkl (hR.disj hx he)

/-- **`Clear` does not separate the old elements.**  A client who keeps one element of a list that was cleared keeps
all elements it was cleared of, and the list with everything pushed since. -/
theorem C167_cleared_refuted :
    let m := (run (empty 0) [.new, .pushBack 0 5, .pushBack 0 6, .clear 0, .pushBack 0 7]).1
    Spec.LegalRun (Spec.init 0) [.new, .pushBack 0 5, .pushBack 0 6, .clear 0, .pushBack 0 7] ∧
    Reach m (elem 0) (elem 1) ∧ Reach m (elem 0) (elem 2) ∧ ¬ Reach m (root 0) (elem 0) := by
  intro m
  have hl : Spec.LegalRun (Spec.init 0) [.new, .pushBack 0 5, .pushBack 0 6, .clear 0, .pushBack 0 7] := by
    decide +kernel
  refine ⟨hl, .single (.inl (by decide +kernel)), ?_, fun h => ?_⟩
  · exact .head (b := root 0) (.inr (.inl (by decide +kernel))) (.single (.inl (by decide +kernel)))
  · have := ((C167_list_keeps_its_elements 0 _ hl) 0 (by decide +kernel) (elem 0)).1 h
    rcases this with h | ⟨e, he, hx⟩
    · cases h
    · cases hx
      revert he
      decide +kernel

/-- A list of three elements of which the second was removed. -/
example : let m := (run (empty 0) [.new, .pushBack 0 5, .pushBack 0 6, .pushBack 0 7, .remove 0 1]).1
    m.next (elem 1) = none ∧ m.next (elem 0) = some (elem 2) ∧ m.prev (elem 2) = some (elem 0) := by decide +kernel

end Verif.LinkedList
