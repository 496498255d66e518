import Verif.Model.SetFloat
import Verif.Props.Set
import Verif.Props.MathFloat

/-!
# C193: sets of floating point numbers
-/

namespace Verif.GoSet

variable {T : Type}

/-- `==` of any Go type: symmetric and transitive; an element may differ from itself. -/
structure PartEquiv (eq : T → T → Bool) : Prop where
  symm : ∀ x y, eq x y = true → eq y x = true
  trans : ∀ x y z, eq x y = true → eq y z = true → eq x z = true

theorem PartEquiv.odd {eq : T → T → Bool} (h : PartEquiv eq) {x : T} (hx : eq x x = false) (y : T) : eq x y = false ∧ eq y x = false := by
  constructor
  · cases e : eq x y
    · rfl
    · rw [h.trans x y x e (h.symm x y e)] at hx; cases hx
  · cases e : eq y x
    · rfl
    · rw [h.trans x y x (h.symm y x e) e] at hx; cases hx

/-- **C193 (membership).** For every `==`, after every history of `Add` and `Remove`, `Contains x` holds exactly if the last call about an element equal to `x` was an `Add`; an element that differs from itself is never contained. -/
theorem C193_contains {eq : T → T → Bool} (h : PartEquiv eq) (ops : List (Op T)) (x : T) :
    (contains eq (run eq ops) x = true ↔ LastAdd eq ops x) ∧ (eq x x = false → contains eq (run eq ops) x = false) := by
  have hadd : ∀ (m : List T) (y : T), contains eq (add eq m y) x = (eq x y || contains eq m x) := by
    intro m y
    simp only [contains, add]
    split
    · rename_i hm
      cases hxy : eq x y
      · simp
      · rw [Bool.true_or]
        obtain ⟨z, hz, hyz⟩ := List.any_eq_true.1 hm
        exact List.any_eq_true.2 ⟨z, hz, h.trans x y z hxy hyz⟩
    · simp [List.any_append, Bool.or_comm]
  have hrem : ∀ (m : List T) (y : T), contains eq (remove eq m y) x = (!eq x y && contains eq m x) := by
    intro m y
    rw [Bool.eq_iff_iff, Bool.and_eq_true, Bool.not_eq_true']
    simp only [contains, remove, List.any_eq_true, List.mem_filter, Bool.not_eq_true']
    constructor
    · rintro ⟨z, ⟨hz, hyz⟩, hxz⟩
      refine ⟨?_, z, hz, hxz⟩
      cases hxy : eq x y
      · rfl
      · rw [h.trans y x z (h.symm _ _ hxy) hxz] at hyz; cases hyz
    · rintro ⟨hxy, z, hz, hxz⟩
      refine ⟨z, ⟨hz, ?_⟩, hxz⟩
      cases hyz : eq y z
      · rfl
      · rw [h.trans x z y hxz (h.symm _ _ hyz)] at hxy; cases hxy
  refine ⟨?_, ?_⟩
  · induction ops using List.reverseRecOn with
    | nil =>
      constructor
      · intro hc; simp [run, new, contains] at hc
      · rintro ⟨b, o, a, h1, _⟩
        cases b <;> simp at h1
    | append_singleton ops op ih =>
      rw [run_snoc, lastAdd_snoc, ← ih]
      cases op with
      | add y =>
        simp only [step, hadd, key, isAdd, Bool.or_eq_true]
        cases eq x y <;> simp
      | remove y =>
        simp only [step, hrem, key, isAdd, Bool.and_eq_true]
        cases eq x y <;> simp
  · intro hx
    unfold contains
    rw [List.any_eq_false]
    intro y _
    rw [(h.odd hx y).1]
    simp

/-- Is the call an `Add` of an element that differs from itself? -/
def oddAdd (eq : T → T → Bool) : Op T → Bool
  | .add x => !eq x x
  | .remove _ => false

theorem run_split {eq : T → T → Bool} (h : PartEquiv eq) (ops : List (Op T)) :
    ((run eq ops).filter fun x => !eq x x).length = (ops.filter (oddAdd eq)).length ∧
    (run eq ops).Pairwise (fun a b => eq a b = false) := by
  induction ops using List.reverseRecOn with
  | nil => exact ⟨rfl, List.Pairwise.nil⟩
  | append_singleton ops op ih =>
    obtain ⟨i1, i2⟩ := ih
    rw [run_snoc, List.filter_append, List.length_append]
    cases op with
    | add y =>
      simp only [step, add]
      split
      · rename_i hm
        obtain ⟨z, _, hyz⟩ := List.any_eq_true.1 hm
        have hy : eq y y = true := h.trans y z y hyz (h.symm _ _ hyz)
        exact ⟨by rw [i1]; simp [oddAdd, hy], i2⟩
      · rename_i hm
        constructor
        · rw [List.filter_append, List.length_append, i1]
          cases hy : eq y y <;> simp [oddAdd, hy]
        · rw [List.pairwise_append]
          refine ⟨i2, List.pairwise_singleton _ _, ?_⟩
          intro a ha b hb
          rw [List.mem_singleton.1 hb]
          cases e : eq a y
          · rfl
          · exact absurd (List.any_eq_true.2 ⟨a, ha, h.symm _ _ e⟩) hm
    | remove y =>
      simp only [step, remove]
      refine ⟨?_, i2.filter _⟩
      rw [List.filter_filter, ← Nat.add_zero (List.length _)]
      congr 1
      rw [← i1]
      congr 1
      refine List.filter_congr fun a _ => ?_
      cases ha : eq a a
      · rw [(h.odd ha y).2]; rfl
      · rfl

/-- **C193 (length).** The elements kept are one for each `Add` of an element that differs from itself, whatever was removed, and besides pairwise different elements, one for each that is contained. -/
theorem C193_len {eq : T → T → Bool} (h : PartEquiv eq) (ops : List (Op T)) : ∃ ms : List T,
    len (run eq ops) = (ops.filter (oddAdd eq)).length + ms.length ∧ ms.Pairwise (fun a b => eq a b = false) ∧
    (∀ x ∈ ms, eq x x = true) ∧ ∀ x, LastAdd eq ops x ↔ ∃ y ∈ ms, eq x y = true := by
  obtain ⟨h1, h2⟩ := run_split h ops
  refine ⟨(run eq ops).filter fun x => eq x x, ?_, h2.filter _, fun x hx => (List.mem_filter.1 hx).2, ?_⟩
  · unfold len
    rw [← h1, Nat.add_comm]
    exact (List.length_eq_length_filter_add (fun x => eq x x))
  · intro x
    rw [← (C193_contains h ops x).1]
    unfold contains
    rw [List.any_eq_true]
    constructor
    · rintro ⟨y, hy, hxy⟩
      exact ⟨y, List.mem_filter.2 ⟨hy, h.trans y x y (h.symm _ _ hxy) hxy⟩, hxy⟩
    · rintro ⟨y, hy, hxy⟩
      exact ⟨y, (List.mem_filter.1 hy).1, hxy⟩

theorem feq_part : PartEquiv feq := by
  constructor
  · intro x y hxy
    unfold feq at *
    cases hx : MathFloat.val x <;> cases hy : MathFloat.val y <;> rw [hx, hy] at hxy <;> simp_all
  · intro x y z hxy hyz
    unfold feq at *
    cases hx : MathFloat.val x <;> cases hy : MathFloat.val y <;> cases hz : MathFloat.val z <;> rw [hx, hy] at hxy <;> rw [hy, hz] at hyz <;> simp_all

theorem feq_self (x : BitVec 64) : feq x x = false ↔ MathFloat.IsNaN x := by
  unfold feq MathFloat.IsNaN
  cases MathFloat.val x <;> simp

theorem feq_iff {x : BitVec 64} (hx : ¬ MathFloat.IsNaN x) (y : BitVec 64) : feq x y = true ↔ MathFloat.val x = MathFloat.val y := by
  unfold MathFloat.IsNaN at hx
  unfold feq
  cases h : MathFloat.val x <;> cases h' : MathFloat.val y <;> simp_all

/-- **C193 (float64).** In a `Set[float64]` NaN is never contained, and a number or infinity exactly if the last call about that number was an `Add` (the zeros are one number); the length is the number of `Add`s of a NaN plus that of the
numbers contained. -/
theorem C193_float64 (ops : List (Op (BitVec 64))) :
    (∀ x, MathFloat.IsNaN x → contains feq (runFloat ops) x = false) ∧
    (∀ x, ¬ MathFloat.IsNaN x → (contains feq (runFloat ops) x = true ↔
      ∃ before op after, ops = before ++ op :: after ∧ MathFloat.val x = MathFloat.val (key op) ∧ isAdd op = true ∧
        ∀ o ∈ after, MathFloat.val x ≠ MathFloat.val (key o))) ∧
    ∃ vs : List F64, vs.Nodup ∧ (∀ v, v ∈ vs ↔ ∃ x, MathFloat.val x = v ∧ contains feq (runFloat ops) x = true) ∧
      len (runFloat ops) = (ops.filter (oddAdd feq)).length + vs.length := by
  unfold runFloat
  refine ⟨fun x hx => (C193_contains feq_part ops x).2 ((feq_self x).2 hx), ?_, ?_⟩
  · intro x hx
    rw [(C193_contains feq_part ops x).1]
    unfold LastAdd
    have e : ∀ y, feq x y = false ↔ MathFloat.val x ≠ MathFloat.val y := by
      intro y
      rw [ne_eq, ← feq_iff hx y, Bool.not_eq_true]
    simp only [feq_iff hx, e]
  · obtain ⟨ms, h1, h2, h3, h4⟩ := C193_len feq_part ops
    have hn : ∀ x ∈ ms, ¬ MathFloat.IsNaN x := by
      intro x hx hc
      have := (feq_self x).2 hc
      rw [h3 x hx] at this
      cases this
    refine ⟨ms.map MathFloat.val, ?_, ?_, by rw [h1, List.length_map]⟩
    · rw [List.Nodup, List.pairwise_map]
      refine h2.imp_of_mem ?_
      intro a b ha _ hab hc
      rw [(feq_iff (hn a ha) b).2 hc] at hab
      cases hab
    · intro v
      rw [List.mem_map]
      constructor
      · rintro ⟨x, hx, rfl⟩
        exact ⟨x, rfl, ((C193_contains feq_part ops x).1).2 ((h4 x).2 ⟨x, hx, h3 x hx⟩)⟩
      · rintro ⟨x, rfl, hx⟩
        obtain ⟨y, hy, hxy⟩ := (h4 x).1 (((C193_contains feq_part ops x).1).1 hx)
        exact ⟨y, hy, ((feq_iff (hn y hy) x).1 (feq_part.symm _ _ hxy))⟩

/-- **C193 (refuted: what was added can be removed).** After an `Add` of NaN the set is never empty again, whatever is removed. -/
theorem C193_nan_refuted (before after : List (Op (BitVec 64))) (x : BitVec 64) (hx : MathFloat.IsNaN x) :
    isEmpty (runFloat (before ++ .add x :: after)) = false := by
  obtain ⟨_, _, vs, _, _, h⟩ := C193_float64 (before ++ .add x :: after)
  have : oddAdd feq (.add x) = true := by
    show (!feq x x) = true
    rw [(feq_self x).2 hx]
    rfl
  unfold isEmpty
  rw [h, List.filter_append, List.filter_cons, if_pos this]
  simp

/-- Non-vacuity: there is a NaN; minus zero removes zero. -/
example : MathFloat.IsNaN 0x7FF8000000000001#64 ∧ runFloat [.add 0#64, .remove 0x8000000000000000#64] = [] := by
  refine ⟨by unfold MathFloat.IsNaN MathFloat.val; rw [if_pos (by decide), if_neg (by decide)], ?_⟩
  have h4 : MathFloat.val 0x8000000000000000#64 = .fin 0 := by
    unfold MathFloat.val MathFloat.size
    rw [if_neg (by decide), if_pos (by decide), if_pos (by decide)]
    simp [MathFloat.fraction, MathFloat.magnitude]
  have e : feq 0x8000000000000000#64 0#64 = true := by
    unfold feq
    rw [h4, MathFloat.val_zero]
    simp
  simp [runFloat, run, step, add, remove, new, e]

end Verif.GoSet
