import Verif.Proof.JsonString
import Verif.Props.Json

/-!
# C109: exactly what `JsonStringToMap` makes of a text
-/

namespace Verif.Json

open Utf8 Spec.Decimal Spec.Json

theorem members_chars {P : Bytes → Value → Prop} {s : Bytes} {ms : List (Bytes × Value)} (h : Members P s ms) : ∀ m ∈ ms, Chars m.1 := by
  induction h with
  | one w k w1 w2 t w3 v _ hk _ _ _ _ => simpa using hk
  | cons w k w1 w2 t w3 v s ms _ hk _ _ _ _ _ ih =>
    intro m hm
    rcases List.mem_cons.1 hm with rfl | hm
    · exact hk
    · exact ih m hm

theorem object_keys {d : Nat} {s : Bytes} {ms : List (Bytes × Value)} (h : Doc d s (.obj ms)) : ∀ m ∈ ms, Chars m.1 := by
  obtain ⟨-, t, -, -, -, h, -⟩ := h
  cases d with
  | zero => cases h
  | succ d =>
    rcases h with h | ⟨_, _, h, _⟩ | ⟨_, _, _, h, _⟩ | ⟨_, _, h, _⟩ | ⟨_, _, _, h, hm⟩
    · cases h
    · cases h
    · cases h
    · injection h with h
      subst h
      simp
    · injection h with h
      subst h
      exact members_chars hm

/-- **C109 (exactly).** `JsonStringToMap` gives a map exactly if the text is a JSON object (nested at most 10000 deep). The map is made by
assigning, member by member, the 32-bit number the value is — 0 if it is none — to the string the key stands for. -/
theorem C109_exact (s : Bytes) (l : List (Bytes × Int)) :
    jsonStringToMap s = some l ↔
      ∃ ms, Doc 10000 s (.obj ms) ∧ List.Forall₂ (fun m e => Decoded m.1 e.1 ∧ Int32 m.2 e.2) ms l := by
  have hmap : ∀ ms : List (Bytes × Value), (∀ m ∈ ms, Chars m.1) → ∀ l : List (Bytes × Int),
      List.Forall₂ (fun m e => Decoded m.1 e.1 ∧ Int32 m.2 e.2) ms l ↔ ms.map (fun m => (unquote m.1, toInt32 m.2)) = l := by
    intro ms
    induction ms with
    | nil => intro _ l; cases l <;> simp
    | cons m ms ih =>
      intro hk l
      cases l with
      | nil => simp
      | cons e l =>
        rw [List.forall₂_cons, ih (fun x hx => hk x (by simp [hx])), decoded_iff _ _ (hk m (by simp)), int32_iff]
        simp [Prod.ext_iff]
  unfold jsonStringToMap
  constructor
  · intro h
    split at h
    · rename_i ms hp
      injection h with h
      have hd := (parse_iff _ _).1 hp
      exact ⟨ms, hd, (hmap ms (object_keys hd) l).2 h⟩
    · cases h
  · rintro ⟨ms, hd, hf⟩
    rw [(parse_iff _ _).2 hd]
    simp only
    rw [(hmap ms (object_keys hd) l).1 hf]

/-- A text is at most one value. -/
theorem C109_unique (d : Nat) (s : Bytes) (v v' : Value) (h : Doc d s v) (h' : Doc d s v') : v = v' := by
  have key : ∀ v, Doc d s v → ∃ r, value d (skipWs s) = some (v, r) := by
    rintro v ⟨w, t, w', rfl, hw, ht, hw'⟩
    obtain ⟨c, s, rfl, hc⟩ := text_begin _ _ _ ht
    refine ⟨w', ?_⟩
    rw [skipWs_append _ _ hw, List.cons_append, begin_ws _ _ hc, ← List.cons_append, value_complete _ _ _ _ ht]
    have := stop_ws w' [] hw' (Or.inl rfl)
    simpa using this
  obtain ⟨r, h1⟩ := key v h
  obtain ⟨r', h2⟩ := key v' h'
  rw [h1] at h2
  simp at h2
  exact h2.1

/-- `{"a":1} x` is no object, `{"é": -7 , "a":[1]}` is one. -/
example : jsonStringToMap (lit "{\"a\":1} x") = none ∧
    ∃ ms, Doc 10000 (lit "{\"é\": -7 , \"a\":[1]}") (.obj ms) ∧
      List.Forall₂ (fun m e => Decoded m.1 e.1 ∧ Int32 m.2 e.2) ms [(lit "é", -7), (lit "a", 0)] :=
  ⟨by decide +kernel, (C109_exact _ _).1 (by decide +kernel)⟩

end Verif.Json
