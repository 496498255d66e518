import Verif.Go.Strings
import Verif.Proof.Utf8

/-!
# Searching and splitting
-/

namespace Verif.Strings

theorem index_none (sub s : Bytes) : index sub s = none ↔ ¬ sub <:+: s := by
  induction s with
  | nil =>
    simp only [index, List.infix_nil]
    split <;> simp_all
  | cons c s ih =>
    simp only [index, List.infix_cons_iff, ← List.isPrefixOf_iff_prefix]
    split
    · rename_i h; simp [h]
    · rename_i h
      simp only [Option.map_eq_none_iff, ih, h]
      simp

theorem contains_iff (s sub : Bytes) : contains s sub = true ↔ sub <:+: s := by
  have := index_none sub s
  unfold contains
  cases h : index sub s with
  | none => simp [this.1 h]
  | some i =>
    simp only [Option.isSome_some, true_iff]
    apply Classical.byContradiction
    intro h'
    rw [this.2 h'] at h
    cases h

/-- The position found is an occurrence, and the first. -/
theorem index_some (sub s : Bytes) (i : Nat) (h : index sub s = some i) :
    s = s.take i ++ sub ++ s.drop (i + sub.length) ∧ (∀ j < i, ¬ sub <+: s.drop j) := by
  induction s generalizing i with
  | nil =>
    simp only [index] at h
    split at h
    · rename_i h0
      cases h
      subst h0
      exact ⟨rfl, by omega⟩
    · cases h
  | cons c s ih =>
    simp only [index] at h
    split at h
    · rename_i hp
      cases h
      rw [List.isPrefixOf_iff_prefix] at hp
      obtain ⟨t, ht⟩ := hp
      refine ⟨?_, by omega⟩
      rw [← ht]
      simp
    · rename_i hp
      rw [List.isPrefixOf_iff_prefix] at hp
      cases hi : index sub s with
      | none => rw [hi] at h; cases h
      | some k =>
        rw [hi, Option.map_some, Option.some.injEq] at h
        subst h
        obtain ⟨h1, h2⟩ := ih k hi
        refine ⟨?_, ?_⟩
        · rw [List.take_succ_cons, show k + 1 + sub.length = (k + sub.length) + 1 by omega, List.drop_succ_cons,
            List.cons_append, List.cons_append, ← h1]
        · intro j hj
          cases j with
          | zero => exact hp
          | succ j => rw [List.drop_succ_cons]; exact h2 j (by omega)

theorem index_char (c : Nat) (l d : Bytes) (h : c ∉ l) : index [c] (l ++ c :: d) = some l.length := by
  induction l with
  | nil => simp [index]
  | cons a l ih =>
    simp only [List.mem_cons, not_or] at h
    rw [List.cons_append, index]
    have : List.isPrefixOf [c] (a :: (l ++ c :: d)) = false := by
      simp [List.isPrefixOf, h.1]
    rw [this]
    simp [ih h.2]

theorem index_char_none (c : Nat) (l : Bytes) : index [c] l = none ↔ c ∉ l := by
  rw [index_none]
  refine not_congr ⟨fun h => h.subset List.mem_cons_self, fun h => ?_⟩
  obtain ⟨a, b, rfl⟩ := List.append_of_mem h
  exact ⟨a, b, by simp⟩

theorem splitFuel_enough (sep : Bytes) (hs : sep ≠ []) (f g : Nat) (s : Bytes) (hf : s.length ≤ f) (hg : s.length ≤ g) :
    splitFuel sep f s = splitFuel sep g s := by
  have hpos : 0 < sep.length := List.length_pos_iff.2 hs
  have hnil : index sep [] = none := by simp [index, hs]
  induction f generalizing g s with
  | zero =>
    have : s = [] := List.length_eq_zero_iff.1 (by omega)
    subst this
    cases g with
    | zero => rfl
    | succ g => simp [splitFuel, hnil]
  | succ f ih =>
    cases g with
    | zero =>
      have : s = [] := List.length_eq_zero_iff.1 (by omega)
      subst this
      simp [splitFuel, hnil]
    | succ g =>
      simp only [splitFuel]
      cases h : index sep s with
      | none => rfl
      | some i =>
        have h1 := (index_some sep s i h).1
        have h2 := congrArg List.length h1
        rw [List.length_append, List.length_append, List.length_take, List.length_drop] at h2
        dsimp only
        rw [ih g _ (by rw [List.length_drop]; omega) (by rw [List.length_drop]; omega)]

theorem split_none (s sep : Bytes) (hs : sep ≠ []) (h : index sep s = none) : split s sep = [s] := by
  unfold split
  rw [if_neg hs]
  cases hl : s.length with
  | zero => rfl
  | succ n => simp [splitFuel, h]

theorem split_some (s sep : Bytes) (hs : sep ≠ []) (i : Nat) (h : index sep s = some i) :
    split s sep = s.take i :: split (s.drop (i + sep.length)) sep := by
  have hpos : 0 < sep.length := List.length_pos_iff.2 hs
  unfold split
  rw [if_neg hs, if_neg hs]
  have h1 := (index_some sep s i h).1
  have h2 := congrArg List.length h1
  rw [List.length_append, List.length_append, List.length_take, List.length_drop] at h2
  obtain ⟨n, hn⟩ : ∃ n, s.length = n + 1 := ⟨s.length - 1, by omega⟩
  rw [hn, splitFuel, h]
  dsimp only
  rw [splitFuel_enough sep hs n _ _ (by rw [List.length_drop]; omega) (Nat.le_refl _)]

theorem split_char (c : Nat) (l d : Bytes) (h : c ∉ l) : split (l ++ c :: d) [c] = l :: split d [c] := by
  rw [split_some _ _ (by simp) _ (index_char c l d h)]
  simp

theorem split_char_none (c : Nat) (l : Bytes) (h : c ∉ l) : split l [c] = [l] :=
  split_none _ _ (by simp) ((index_char_none c l).2 h)

/-- At a character that occurs, a string splits into the part before its first occurrence and the rest. -/
theorem mem_split (c : Nat) (s : Bytes) (h : c ∈ s) : ∃ l d, c ∉ l ∧ s = l ++ c :: d := by
  induction s with
  | nil => cases h
  | cons a s ih =>
    by_cases ha : a = c
    · exact ⟨[], s, by simp, by simp [ha]⟩
    · have hm : c ∈ s := by
        rcases List.mem_cons.1 h with h | h
        · exact absurd h.symm ha
        · exact h
      obtain ⟨l, d, h1, h2⟩ := ih hm
      refine ⟨a :: l, d, ?_, by simp [h2]⟩
      simp only [List.mem_cons, not_or]
      exact ⟨fun h => ha h.symm, h1⟩

theorem split_ne_nil (s sep : Bytes) (hs : sep ≠ []) : split s sep ≠ [] := by
  cases h : index sep s with
  | none => rw [split_none s sep hs h]; simp
  | some i => rw [split_some s sep hs i h]; simp

end Verif.Strings

namespace Verif.Utf8

/-- An ASCII byte ends whatever comes before it. -/
theorem decode1_append_ascii (l t : Bytes) (b : Nat) (hb : b < 0x80) (hl : l ≠ []) : decode1 (l ++ b :: t) = decode1 l := by
  have hc : cont b = false := by simp only [cont, decide_eq_false_iff_not]; omega
  have hlo : ∀ x, ¬ lo x ≤ b := by intro x; unfold lo; split <;> (try split) <;> omega
  match l, hl with
  | [b0], _ =>
    simp only [List.cons_append, List.nil_append, decode1, hc]
    cases t with
    | nil => simp
    | cons t1 t =>
      cases t with
      | nil => simp [hlo]
      | cons t2 t => simp [hlo]
  | [b0, b1], _ =>
    simp only [List.cons_append, List.nil_append, decode1, hc]
    cases t with
    | nil => simp
    | cons t1 t => simp [hc]
  | [b0, b1, b2], _ => simp [decode1, hc]
  | b0 :: b1 :: b2 :: b3 :: l, _ => rfl

theorem runes_append_ascii (l t : Bytes) (b : Nat) (hb : b < 0x80) : runes (l ++ b :: t) = runes l ++ runes (b :: t) := by
  induction l using runes_induct with
  | nil => rfl
  | cons l hl ih =>
    have hw := decode1_width l hl
    rw [runes_cons _ (by simp), decode1_append_ascii l t b hb hl, runes_cons l hl, List.drop_append_of_le_length hw.2.2, ih]
    rfl

end Verif.Utf8
