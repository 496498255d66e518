import Verif.Model.Set
import Mathlib.Data.Finset.Card
import Mathlib.Data.List.Basic

/-! # C31: sets -/

namespace Verif.GoSet

variable {T : Type}

/-- The element a call is about. -/
def key : Op T → T
  | .add x => x
  | .remove x => x

/-- Is the call an `Add`? -/
def isAdd : Op T → Bool
  | .add _ => true
  | .remove _ => false

/-- The last call about an element equal to `x` was an `Add`. -/
def LastAdd (eq : T → T → Bool) (ops : List (Op T)) (x : T) : Prop :=
  ∃ before op after, ops = before ++ op :: after ∧ eq x (key op) = true ∧ isAdd op = true ∧
    ∀ o ∈ after, eq x (key o) = false

/-- `==` is an equivalence. -/
structure Equiv (eq : T → T → Bool) : Prop where
  refl : ∀ x, eq x x = true
  symm : ∀ x y, eq x y = true → eq y x = true
  trans : ∀ x y z, eq x y = true → eq y z = true → eq x z = true

theorem Equiv.congr {eq : T → T → Bool} (h : Equiv eq) {x y z : T} (hxy : eq x y = true) : eq x z = eq y z := by
  cases h1 : eq x z
  · cases h2 : eq y z
    · rfl
    · rw [h.trans x y z hxy h2] at h1; simp at h1
  · rw [h.trans y x z (h.symm _ _ hxy) h1]

theorem contains_add {eq : T → T → Bool} (h : Equiv eq) (m : List T) (x y : T) :
    contains eq (add eq m y) x = (eq x y || contains eq m x) := by
  simp only [contains, add]
  split
  · rename_i hm
    cases hxy : eq x y
    · simp
    · rw [Bool.true_or]
      obtain ⟨z, hz, hyz⟩ := List.any_eq_true.1 hm
      exact List.any_eq_true.2 ⟨z, hz, h.trans x y z hxy hyz⟩
  · simp [List.any_append, Bool.or_comm]

theorem contains_remove {eq : T → T → Bool} (h : Equiv eq) (m : List T) (x y : T) :
    contains eq (remove eq m y) x = (!eq x y && contains eq m x) := by
  simp only [contains, remove]
  cases hxy : eq x y
  · simp only [Bool.not_false, Bool.true_and]
    rw [Bool.eq_iff_iff, List.any_eq_true, List.any_eq_true]
    constructor
    · rintro ⟨z, hz, hxz⟩
      exact ⟨z, (List.mem_filter.1 hz).1, hxz⟩
    · rintro ⟨z, hz, hxz⟩
      refine ⟨z, List.mem_filter.2 ⟨hz, ?_⟩, hxz⟩
      cases hyz : eq y z
      · rfl
      · rw [h.trans x z y hxz (h.symm _ _ hyz)] at hxy; simp at hxy
  · simp only [Bool.not_true, Bool.false_and]
    rw [Bool.eq_false_iff]
    intro hc
    obtain ⟨z, hz, hxz⟩ := List.any_eq_true.1 hc
    have := (List.mem_filter.1 hz).2
    rw [h.trans y x z (h.symm _ _ hxy) hxz] at this
    simp at this

theorem run_snoc (eq : T → T → Bool) (ops : List (Op T)) (op : Op T) :
    run eq (ops ++ [op]) = step eq (run eq ops) op := by
  simp [run]

theorem lastAdd_snoc {eq : T → T → Bool} (ops : List (Op T)) (op : Op T) (x : T) :
    LastAdd eq (ops ++ [op]) x ↔
      (eq x (key op) = true ∧ isAdd op = true) ∨ (eq x (key op) = false ∧ LastAdd eq ops x) := by
  constructor
  · rintro ⟨b, o, a, h1, h2, h3, h4⟩
    rcases List.eq_nil_or_concat a with ha | ⟨a', o', ha⟩
    · subst ha
      obtain ⟨rfl, hoo⟩ := List.append_inj' h1 rfl
      obtain rfl : op = o := by simpa using hoo
      exact .inl ⟨h2, h3⟩
    · rw [List.concat_eq_append] at ha
      subst ha
      have h1' : ops ++ [op] = (b ++ o :: a') ++ [o'] := by simpa using h1
      obtain ⟨rfl, hoo⟩ := List.append_inj' h1' rfl
      obtain rfl : op = o' := by simpa using hoo
      exact .inr ⟨h4 op (by simp), b, o, a', rfl, h2, h3, fun o ho => h4 o (by simp [ho])⟩
  · rintro (⟨h2, h3⟩ | ⟨h2, b, o, a, rfl, h3, h4, h5⟩)
    · exact ⟨ops, op, [], rfl, h2, h3, by simp⟩
    · refine ⟨b, o, a ++ [op], by simp, h3, h4, ?_⟩
      intro o' ho'
      rcases List.mem_append.1 ho' with h | h
      · exact h5 o' h
      · rw [List.mem_singleton.1 h]; exact h2

/-- **C31, membership.** For every key type whose `==` is an equivalence, after every history of `Add` and `Remove`,
`Contains x` holds exactly if the last call about `x` was an `Add`. -/
theorem C31_contains {eq : T → T → Bool} (h : Equiv eq) (ops : List (Op T)) (x : T) :
    contains eq (run eq ops) x = true ↔ LastAdd eq ops x := by
  induction ops using List.reverseRecOn with
  | nil =>
    constructor
    · intro hc; simp [run, new, contains] at hc
    · rintro ⟨b, o, a, h1, _⟩
      cases b <;> simp at h1
  | append_singleton ops op ih =>
    rw [run_snoc, lastAdd_snoc, ← ih]
    cases op with
    | add y =>
      simp only [step, contains_add h, key, isAdd, Bool.or_eq_true]
      cases eq x y <;> simp
    | remove y =>
      simp only [step, contains_remove h, key, isAdd, Bool.and_eq_true]
      cases eq x y <;> simp

/-- The keys of a map are pairwise different. -/
theorem run_pairwise {eq : T → T → Bool} (h : Equiv eq) (ops : List (Op T)) :
    (run eq ops).Pairwise fun a b => eq a b = false := by
  induction ops using List.reverseRecOn with
  | nil => simp [run, new]
  | append_singleton ops op ih =>
    rw [run_snoc]
    cases op with
    | add y =>
      simp only [step, add]
      split
      · exact ih
      · rename_i hm
        rw [List.pairwise_append]
        refine ⟨ih, by simp, ?_⟩
        intro a ha b hb
        rw [List.mem_singleton.1 hb]
        cases hay : eq a y
        · rfl
        · exact absurd (List.any_eq_true.2 ⟨a, ha, h.symm _ _ hay⟩) hm
    | remove y => exact ih.filter _

/-- **C31, length.** After every history `Len` is the number of distinct members: there is a list of that length of
pairwise different members to one of which every member is equal; and `Empty` says that there is no member. -/
theorem C31_len {eq : T → T → Bool} (h : Equiv eq) (ops : List (Op T)) :
    ∃ reps : List T, len (run eq ops) = reps.length ∧ (reps.Pairwise fun a b => eq a b = false) ∧
      (∀ r ∈ reps, LastAdd eq ops r) ∧ (∀ x, LastAdd eq ops x → ∃ r ∈ reps, eq x r = true) ∧
      (isEmpty (run eq ops) = true ↔ ∀ x, ¬ LastAdd eq ops x) := by
  refine ⟨run eq ops, rfl, run_pairwise h ops, ?_, ?_, ?_⟩
  · intro r hr
    rw [← C31_contains h]
    exact List.any_eq_true.2 ⟨r, hr, h.refl r⟩
  · intro x hx
    rw [← C31_contains h] at hx
    exact List.any_eq_true.1 hx
  · constructor
    · intro he x hx
      rw [← C31_contains h] at hx
      have : run eq ops = [] := by simpa [isEmpty, len] using he
      rw [this] at hx; simp [contains] at hx
    · intro hn
      cases hr : run eq ops with
      | nil => rfl
      | cons r rs =>
        refine absurd ?_ (hn r)
        rw [← C31_contains h, hr]
        simp [contains, h.refl]

/-- **C31, length, for ordinary equality**: the cardinality of the set of members. -/
theorem C31_card [DecidableEq T] (ops : List (Op T)) (S : Finset T)
    (hS : ∀ x, x ∈ S ↔ LastAdd (fun a b => decide (a = b)) ops x) :
    len (run (fun a b => decide (a = b)) ops) = S.card := by
  have h : Equiv (fun a b : T => decide (a = b)) :=
    ⟨by simp, by simp, by simp⟩
  have hp := run_pairwise h ops
  have hnd : (run (fun a b => decide (a = b)) ops).Nodup := by
    refine hp.imp ?_
    intro a b hab
    simpa using hab
  have : S = (run (fun a b => decide (a = b)) ops).toFinset := by
    ext x
    rw [hS, ← C31_contains h, List.mem_toFinset]
    simp [contains]
  rw [this, List.toFinset_card_of_nodup hnd]; rfl

/-- A history with a re-added and a twice-added element. -/
example : run (fun a b : Nat => decide (a = b)) [.add 1, .add 2, .add 1, .remove 1, .add 3, .add 1, .remove 2] = [3, 1] ∧
    Equiv (fun a b : Nat => decide (a = b)) := by
  refine ⟨by decide, ?_⟩
  exact ⟨by simp, by simp, by simp⟩

/-- **Reflexivity is needed**: with a key unequal to itself (NaN) `Contains` is false after `Add`, `Len` grows with every
`Add`, and nothing can be removed. -/
theorem C31_nan_refuted : let eq := fun _ _ : Unit => false
    let m := run eq [.add (), .add (), .remove ()]
    contains eq m () = false ∧ len m = 2 := by decide

end Verif.GoSet
