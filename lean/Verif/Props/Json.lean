import Verif.Proof.Json
import Mathlib.Data.List.Perm.Basic

/-!
# C108–C110: JSON of integer maps (help/utils/maps.go)
-/

namespace Verif.Json

open Utf8 Strconv Spec.Decimal

/-- The map after some assignments, in order. -/
def assign (l : List (Bytes × Int)) : Bytes → Option Int :=
  l.foldl (fun m e k => if k = e.1 then some e.2 else m k) (fun _ => none)

/-- The entries of a map: no key twice, and every value a 32-bit number. -/
structure Entries (es : List (Bytes × Int)) : Prop where
  nodup : (es.map (·.1)).Nodup
  range : ∀ e ∈ es, InI32 e.2

/-- A string with every byte that is no UTF-8 replaced by U+FFFD. -/
def clean (s : Bytes) : Bytes := ofRunes (runes s)

/-! ## C108: reading what was written -/

theorem sort_perm (es : List (Bytes × Int)) : (es.insertionSort (fun a b => bytesLe a.1 b.1)).Perm es := List.perm_insertionSort _ _

theorem toInt32_formatInt (v : Int) (h : InI64 v) : toInt32 (.num (formatInt v)) = if InI32 v then v else 0 := by
  unfold toInt32
  dsimp only
  rw [parseInt_formatInt v h]
  rfl

theorem jsonStringToMap_object (es : List (Bytes × Int)) (h : ∀ e ∈ es, InI64 e.2) :
    jsonStringToMap (123 :: ([44].intercalate (es.map member) ++ [125])) =
      some (es.map (fun e => (clean e.1, if InI32 e.2 then e.2 else 0))) := by
  unfold jsonStringToMap
  rw [parse_object es h]
  simp only [List.map_map, Option.some.injEq]
  apply List.map_congr_left
  intro e he
  simp only [Function.comp, unquote_esc, toInt32_formatInt _ (h e he)]
  rfl

/-- For every map: the entries come back, with their keys made valid UTF-8. -/
theorem C108_exact (es : List (Bytes × Int)) (h : Entries es) :
    ∃ l, jsonStringToMap (mapIntToJsonString (some es)) = some l ∧ l.Perm (es.map (fun e => (clean e.1, e.2))) := by
  have hp := sort_perm es
  unfold mapIntToJsonString
  rw [jsonStringToMap_object _ (fun e he => (h.range e (hp.mem_iff.1 he)).i64)]
  refine ⟨_, rfl, ?_⟩
  have : (es.insertionSort (fun a b => bytesLe a.1 b.1)).map (fun e => (clean e.1, if InI32 e.2 then e.2 else 0)) =
      (es.insertionSort (fun a b => bytesLe a.1 b.1)).map (fun e => (clean e.1, e.2)) := by
    apply List.map_congr_left
    intro e he
    rw [if_pos (h.range e (hp.mem_iff.1 he))]
  rw [this]
  exact hp.map _

theorem assign_fold (l : List (Bytes × Int)) (hn : (l.map (·.1)).Nodup) (m : Bytes → Option Int) (hm : ∀ e ∈ l, m e.1 = none) (k : Bytes) (v : Int) :
    l.foldl (fun m e k => if k = e.1 then some e.2 else m k) m k = some v ↔ (k, v) ∈ l ∨ m k = some v := by
  induction l generalizing m with
  | nil => simp
  | cons e l ih =>
    rw [List.foldl_cons, ih]
    · rw [List.map_cons, List.nodup_cons] at hn
      have he := hm e (by simp)
      by_cases hk : k = e.1
      · subst hk
        have hl : ∀ w, (e.1, w) ∉ l := fun w hw => hn.1 (List.mem_map.2 ⟨_, hw, rfl⟩)
        simp only [if_true, List.mem_cons, hl, false_or, he, reduceCtorEq, or_false, Option.some.injEq]
        constructor
        · intro h; rw [← h]
        · intro h; rw [← h]
      · rw [if_neg hk]
        simp only [List.mem_cons]
        constructor
        · rintro (h | h)
          · exact Or.inl (Or.inr h)
          · exact Or.inr h
        · rintro ((h | h) | h)
          · rw [← h] at hk; exact absurd rfl hk
          · exact Or.inl h
          · exact Or.inr h
    · rw [List.map_cons, List.nodup_cons] at hn
      exact hn.2
    · intro x hx
      rw [List.map_cons, List.nodup_cons] at hn
      have hne : x.1 ≠ e.1 := fun h => hn.1 (h ▸ List.mem_map.2 ⟨x, hx, rfl⟩)
      simp only [hne, if_false]
      exact hm x (List.mem_cons_of_mem _ hx)

/-- The map after assigning its entries. -/
theorem assign_iff (l : List (Bytes × Int)) (hn : (l.map (·.1)).Nodup) (k : Bytes) (v : Int) : assign l k = some v ↔ (k, v) ∈ l := by
  unfold assign
  rw [assign_fold l hn _ (fun _ _ => rfl)]
  simp

/-- **C108** for maps whose keys are valid UTF-8: `JsonStringToMap(MapIntToJsonString(m))` has exactly the entries of `m`. -/
theorem C108_roundtrip_partial (es : List (Bytes × Int)) (h : Entries es) (hu : ∀ e ∈ es, ValidString e.1) :
    ∃ l, jsonStringToMap (mapIntToJsonString (some es)) = some l ∧ ∀ k v, assign l k = some v ↔ (k, v) ∈ es := by
  obtain ⟨l, h1, h2⟩ := C108_exact es h
  have : es.map (fun e => (clean e.1, e.2)) = es := by
    conv_rhs => rw [← List.map_id es]
    apply List.map_congr_left
    intro e he
    simp only [clean, ofRunes_runes _ (hu e he), id]
  rw [this] at h2
  refine ⟨l, h1, fun k v => ?_⟩
  rw [assign_iff l ((h2.map _).nodup_iff.2 h.nodup), h2.mem_iff]

/-- The nil map comes back as the nil map, the empty map as an empty map. -/
theorem C108_nil : jsonStringToMap (mapIntToJsonString none) = none ∧ jsonStringToMap (mapIntToJsonString (some [])) = some [] := by
  decide +kernel

/-- Two maps with keys in valid UTF-8 have the same text only if they are equal. -/
theorem C108_injective_partial (es es' : List (Bytes × Int)) (h : Entries es) (h' : Entries es') (hu : ∀ e ∈ es, ValidString e.1)
    (hu' : ∀ e ∈ es', ValidString e.1) (heq : mapIntToJsonString (some es) = mapIntToJsonString (some es')) (e : Bytes × Int) :
    e ∈ es ↔ e ∈ es' := by
  obtain ⟨l, h1, h2⟩ := C108_roundtrip_partial es h hu
  obtain ⟨l', h1', h2'⟩ := C108_roundtrip_partial es' h' hu'
  rw [heq, h1'] at h1
  cases h1
  rw [← h2, h2']

/-- **C108 fails** for keys that are not UTF-8: two entries come back as one. -/
theorem C108_utf8_refuted : ∃ es, Entries es ∧ ∃ l, jsonStringToMap (mapIntToJsonString (some es)) = some l ∧
    (∀ e ∈ es, assign l e.1 = none) ∧ ∃ k, ∀ e ∈ l, e.1 = k := by
  refine ⟨[([0xFE], 1), ([0xFF], 2)], ⟨by decide, by decide⟩, [(encode1 0xFFFD, 1), (encode1 0xFFFD, 2)], by decide +kernel, by decide +kernel,
    encode1 0xFFFD, by decide +kernel⟩

/-! The order in which the map is iterated makes no difference. -/

theorem bytesLe_total (a b : Bytes) : (bytesLe a b || bytesLe b a) = true := by
  induction a generalizing b with
  | nil => simp [bytesLe]
  | cons x a ih =>
    cases b with
    | nil => simp [bytesLe]
    | cons y b =>
      unfold bytesLe
      have := ih b
      by_cases h1 : x < y
      · simp [h1]
      · by_cases h2 : y < x
        · simp [h2]
        · simp [h1, h2, this]

theorem bytesLe_trans (a b c : Bytes) (h1 : bytesLe a b = true) (h2 : bytesLe b c = true) : bytesLe a c = true := by
  induction a generalizing b c with
  | nil => simp [bytesLe]
  | cons x a ih =>
    cases b with
    | nil => simp [bytesLe] at h1
    | cons y b =>
      cases c with
      | nil => simp [bytesLe] at h2
      | cons z c =>
        rw [bytesLe] at h1 h2 ⊢
        by_cases h3 : x < y
        · by_cases h4 : z < y
          · rw [if_neg (by omega), if_pos h4] at h2
            simp at h2
          · rw [if_pos (by omega)]
        · rw [if_neg h3] at h1
          split at h1
          · simp at h1
          · rename_i h4
            have : x = y := by omega
            subst this
            split at h2
            · rename_i h5; rw [if_pos h5]
            · rename_i h5
              split at h2
              · simp at h2
              · rename_i h6
                rw [if_neg h5, if_neg h6]
                exact ih b c h1 h2

theorem bytesLe_antisymm (a b : Bytes) (h1 : bytesLe a b = true) (h2 : bytesLe b a = true) : a = b := by
  induction a generalizing b with
  | nil =>
    cases b with
    | nil => rfl
    | cons y b => simp [bytesLe] at h2
  | cons x a ih =>
    cases b with
    | nil => simp [bytesLe] at h1
    | cons y b =>
      rw [bytesLe] at h1 h2
      by_cases h3 : x < y
      · rw [if_neg (by omega), if_pos h3] at h2
        simp at h2
      · rw [if_neg h3] at h1
        split at h1
        · simp at h1
        · rename_i h4
          rw [if_neg h4, if_neg h3] at h2
          rw [ih b h1 h2, show x = y by omega]

/-- **C108**: the text does not depend on the order in which the entries of the map are visited. -/
theorem C108_deterministic (es es' : List (Bytes × Int)) (h : Entries es) (hp : es.Perm es') :
    mapIntToJsonString (some es) = mapIntToJsonString (some es') := by
  unfold mapIntToJsonString
  have key : es.insertionSort (fun a b => bytesLe a.1 b.1) = es'.insertionSort (fun a b => bytesLe a.1 b.1) := by
    have : IsTrans (Bytes × Int) (fun a b => bytesLe a.1 b.1 = true) := ⟨fun a b c => bytesLe_trans a.1 b.1 c.1⟩
    have : Std.Total (fun a b : Bytes × Int => bytesLe a.1 b.1 = true) :=
      ⟨fun a b => by have := bytesLe_total a.1 b.1; simpa using this⟩
    have s1 := List.pairwise_insertionSort (fun a b : Bytes × Int => bytesLe a.1 b.1 = true) es
    have s2 := List.pairwise_insertionSort (fun a b : Bytes × Int => bytesLe a.1 b.1 = true) es'
    have p1 := sort_perm es
    have p2 := sort_perm es'
    refine List.Perm.eq_of_pairwise ?_ s1 s2 (p1.trans (hp.trans p2.symm))
    intro a b ha hb h1 h2
    have hk : a.1 = b.1 := bytesLe_antisymm _ _ h1 h2
    have ha := p1.mem_iff.1 ha
    have hb := hp.mem_iff.2 (p2.mem_iff.1 hb)
    have hn := h.nodup
    rw [List.Nodup, List.pairwise_map] at hn
    exact List.inj_on_of_nodup_map h.nodup ha hb hk
  dsimp only
  rw [key]

example : Entries [(lit "b", 2 ^ 31 - 1), (lit "a\"<é", - 2 ^ 31)] ∧ ValidString (lit "a\"<é") ∧
    mapIntToJsonString (some [(lit "b", 2 ^ 31 - 1), (lit "a\"<é", - 2 ^ 31)]) =
      lit "{\"a\\\"\\u003cé\":-2147483648,\"b\":2147483647}" := by
  refine ⟨⟨by decide +kernel, by decide⟩, ⟨[97, 34, 60, 233], by decide, by decide⟩, by decide +kernel⟩

/-! ## C109: values that are no 32-bit numbers -/

/-- Whatever the text, the values are 32-bit numbers. -/
theorem C109_range (s : Bytes) (l : List (Bytes × Int)) (h : jsonStringToMap s = some l) : ∀ e ∈ l, InI32 e.2 := by
  unfold jsonStringToMap at h
  split at h
  · simp only [Option.some.injEq] at h
    subst h
    intro e he
    obtain ⟨m, -, rfl⟩ := List.mem_map.1 he
    dsimp only
    unfold toInt32
    split
    · split
      · split
        · assumption
        · decide
      · decide
    · decide
  · simp at h

/-- **C109 fails** for every number out of range: it is read as 0, and there is no error. -/
theorem C109_overflow_refuted (k : Bytes) (v : Int) (h : InI64 v) (hv : ¬ InI32 v) :
    jsonStringToMap (123 :: (quote k ++ 58 :: formatInt v ++ [125])) = some [(clean k, 0)] := by
  have := jsonStringToMap_object [(k, v)] (by simpa using h)
  rw [List.map_singleton, List.map_singleton, if_neg hv] at this
  rw [← this]
  simp [member, List.intercalate]

/-- The same for values of other types, and a syntax error (or no object) gives the nil map. -/
theorem C109_other_refuted :
    jsonStringToMap (lit " {\"a\" : 1.5, \"b\":\"7\", \"c\":[1,{\"d\":2}],\"e\":null,\"f\":-3 } ") =
      some [(lit "a", 0), (lit "b", 0), (lit "c", 0), (lit "e", 0), (lit "f", -3)] ∧
    jsonStringToMap (lit "{\"a\":1,}") = none ∧ jsonStringToMap (lit "{\"a\":01}") = none ∧ jsonStringToMap (lit "[1]") = none ∧
    jsonStringToMap (lit "{\"\\ud83d\\ude00\":1,\"\\ud83d\":2}") = some [(encode1 0x1F600, 1), (encode1 0xFFFD, 2)] := by
  decide +kernel

/-- **C109** for numbers in range: they are read exactly. -/
theorem C109_number_partial (k : Bytes) (v : Int) (hv : InI32 v) :
    jsonStringToMap (123 :: (quote k ++ 58 :: formatInt v ++ [125])) = some [(clean k, v)] := by
  have := jsonStringToMap_object [(k, v)] (by simpa using hv.i64)
  rw [List.map_singleton, List.map_singleton, if_pos hv] at this
  rw [← this]
  simp [member, List.intercalate]

/-! ## C110: the text can be put into HTML -/

/-- No character that means something in HTML, and no control character. -/
def Harmless (c : Nat) : Prop := 32 ≤ c ∧ c ≠ 38 ∧ c ≠ 60 ∧ c ≠ 62

instance (c : Nat) : Decidable (Harmless c) := by unfold Harmless; infer_instance

theorem hex_harmless (c : Nat) (h : isHex c = true) : Harmless c := by
  unfold isHex at h
  simp at h
  unfold Harmless
  omega

theorem piece_harmless (p : Bytes) (r : Nat) (hp : Piece p r) : ∀ c ∈ p, Harmless c := by
  cases hp with
  | plain =>
    intro c hc
    rw [List.mem_singleton] at hc
    subst hc
    unfold Harmless
    omega
  | escape c h1 h2 =>
    intro x hx
    unfold isEscape at h1
    simp at h1 hx
    unfold Harmless
    omega
  | unicode a b c d h1 h2 h3 h4 h5 =>
    intro x hx
    simp at hx
    rcases hx with rfl | rfl | rfl | rfl | rfl | rfl
    · decide
    · decide
    · exact hex_harmless _ h1
    · exact hex_harmless _ h2
    · exact hex_harmless _ h3
    · exact hex_harmless _ h4
  | multi _ h1 h2 =>
    intro c hc
    have := encode1_high r h1 c hc
    unfold Harmless
    omega

theorem esc_harmless (s : Bytes) : ∀ c ∈ esc s, Harmless c := by
  induction s using runes_induct with
  | nil => simp [esc_nil]
  | cons s hs ih =>
    rw [esc_cons s hs]
    intro c hc
    rcases List.mem_append.1 hc with hc | hc
    · exact piece_harmless _ _ (block_piece s) c hc
    · exact ih c hc

theorem formatInt_harmless (v : Int) (h : InI64 v) : ∀ c ∈ formatInt v, Harmless c := by
  intro c hc
  have hb : v.natAbs ≤ 2 ^ 63 := by unfold InI64 at h; omega
  obtain ⟨h1, -⟩ := digits_spec v.natAbs hb
  unfold formatInt at hc
  unfold Harmless
  split at hc
  · rcases List.mem_cons.1 hc with rfl | hc
    · omega
    · have := h1.2 c hc; omega
  · have := h1.2 c hc; omega

/-- **C110**: the text of a map contains none of `<`, `>`, `&` and no control characters, whatever the keys are. -/
theorem C110_html (es : List (Bytes × Int)) (h : ∀ e ∈ es, InI32 e.2) : ∀ c ∈ mapIntToJsonString (some es), Harmless c := by
  intro c hc
  unfold mapIntToJsonString at hc
  dsimp only at hc
  rw [body_eq] at hc
  have hb : ∀ l : List (Bytes × Int), (∀ e ∈ l, InI32 e.2) → ∀ c ∈ body [] l, Harmless c := by
    intro l
    have hm : ∀ e : Bytes × Int, InI32 e.2 → ∀ c ∈ member e, Harmless c := by
      intro e he c hc
      rw [← List.append_nil (member e), member_cons] at hc
      simp only [List.mem_cons, List.mem_append, List.append_nil] at hc
      rcases hc with rfl | hc | rfl | rfl | hc
      · decide
      · exact esc_harmless _ c hc
      · decide
      · decide
      · exact formatInt_harmless _ he.i64 c hc
    induction l with
    | nil => intro _ c hc; simp [body] at hc; subst hc; decide
    | cons e l ih =>
      intro hl c hc
      cases l with
      | nil =>
        rw [body] at hc
        rcases List.mem_append.1 hc with hc | hc
        · exact hm e (hl e (by simp)) c hc
        · simp at hc; subst hc; decide
      | cons e' l =>
        rw [body] at hc
        · rcases List.mem_append.1 hc with hc | hc
          · exact hm e (hl e (by simp)) c hc
          · rcases List.mem_cons.1 hc with rfl | hc
            · decide
            · exact ih (fun x hx => hl x (List.mem_cons_of_mem _ hx)) c hc
        · simp
  rcases List.mem_cons.1 hc with rfl | hc
  · decide
  · exact hb _ (fun e he => h e ((sort_perm es).mem_iff.1 he)) c hc

end Verif.Json
