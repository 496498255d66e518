import Verif.Model.JsonValue
import Verif.Props.JsonExact
import Mathlib.Data.List.Perm.Basic

/-!
# C122: JSON of arbitrary maps (help/utils/maps.go)
-/

namespace Verif.Json

open Utf8 Spec.Decimal Spec.Json Strconv

/-! ## Specification -/

/-- `x` is `v` or a part of it. -/
inductive Inside : GoVal → GoVal → Prop
  | self (v) : Inside v v
  | elem (x v l) : v ∈ l → Inside x v → Inside x (.slice l)
  | entry (x k v es) : (k, v) ∈ es → Inside x v → Inside x (.map es)

/-- What has no JSON: channels, functions, complex numbers, NaN and the infinities. -/
def Foreign (x : GoVal) : Prop := x = .other ∨ x = .float none

/-- Integers of 64 bits, floats with the text of a number, maps without two equal keys. -/
structure Typed (v : GoVal) : Prop where
  int : ∀ n, Inside (.int n) v → InI64 n
  float : ∀ t, Inside (.float (some t)) v → Number t
  map : ∀ es, Inside (.map es) v → (es.map (·.1)).Nodup

mutual
/-- `Means v j`: the JSON value `j` says what the Go value `v` is. Strings are made UTF-8, the members of objects are in the order of
their keys. -/
inductive Means : GoVal → Value → Prop
  | nil : Means .nil .null
  | bool (b) : Means (.bool b) (.bool b)
  | int (n t) : Numeral t n → Means (.int n) (.num t)
  | float (t) : Means (.float (some t)) (.num t)
  | str (s raw) : Decoded raw (clean s) → Means (.str s) (.str raw)
  | slice (l js) : MeansList l js → Means (.slice l) (.arr js)
  | map (es es' ms) : es.Perm es' → es'.Pairwise (fun a b => bytesLe a.1 b.1 = true) → MeansEntries es' ms → Means (.map es) (.obj ms)

inductive MeansList : List GoVal → List Value → Prop
  | nil : MeansList [] []
  | cons (v j l js) : Means v j → MeansList l js → MeansList (v :: l) (j :: js)

inductive MeansEntries : List (Bytes × GoVal) → List (Bytes × Value) → Prop
  | nil : MeansEntries [] []
  | cons (k v raw j es ms) : Decoded raw (clean k) → Means v j → MeansEntries es ms → MeansEntries ((k, v) :: es) ((raw, j) :: ms)
end

/-! ## Induction -/

theorem GoVal.ind {P : GoVal → Prop} (nil : P .nil) (bool : ∀ b, P (.bool b)) (int : ∀ n, P (.int n)) (float : ∀ t, P (.float t))
    (str : ∀ s, P (.str s)) (slice : ∀ l, (∀ v ∈ l, P v) → P (.slice l)) (map : ∀ es, (∀ e ∈ es, P e.2) → P (.map es)) (other : P .other)
    (v : GoVal) : P v := by
  refine GoVal.rec (motive_1 := P) (motive_2 := fun l => ∀ v ∈ l, P v) (motive_3 := fun es => ∀ e ∈ es, P e.2) (motive_4 := fun e => P e.2)
    nil bool int float str slice map other ?_ ?_ ?_ ?_ ?_ v
  · simp
  · intro v l h1 h2 x hx
    rcases List.mem_cons.1 hx with rfl | hx
    · exact h1
    · exact h2 x hx
  · simp
  · intro v l h1 h2 x hx
    rcases List.mem_cons.1 hx with rfl | hx
    · exact h1
    · exact h2 x hx
  · intro k v h; exact h

theorem encodeList_eq (l : List GoVal) : encodeList l = l.mapM encode := by
  induction l with
  | nil => rfl
  | cons v l ih =>
    rw [encodeList, ih, List.mapM_cons]
    cases encode v with
    | none => rfl
    | some t => cases List.mapM encode l <;> rfl

theorem encodeEntries_eq (es : List (Bytes × GoVal)) : encodeEntries es = es.mapM (fun e => (encode e.2).map (fun t => (e.1, t))) := by
  induction es with
  | nil => rfl
  | cons e es ih =>
    obtain ⟨k, v⟩ := e
    rw [encodeEntries, ih, List.mapM_cons]
    cases encode v with
    | none => rfl
    | some t => cases List.mapM (fun e : Bytes × GoVal => (encode e.2).map (fun t => (e.1, t))) es <;> rfl

theorem mapM_none {α β : Type} (f : α → Option β) (l : List α) : l.mapM f = none ↔ ∃ a ∈ l, f a = none := by
  induction l with
  | nil => simp
  | cons a l ih =>
    rw [List.mapM_cons]
    cases h : f a with
    | none => simp [h]
    | some b =>
      cases h2 : l.mapM f with
      | none =>
        obtain ⟨x, hx, hx'⟩ := ih.1 h2
        simp [h]
        exact ⟨x, hx, hx'⟩
      | some bs =>
        have : ¬ ∃ a ∈ l, f a = none := fun h => by rw [ih.2 h] at h2; cases h2
        simp [h]
        intro x hx hx'
        exact this ⟨x, hx, hx'⟩

theorem mapM_some {α β : Type} (f : α → Option β) (l : List α) (r : List β) : l.mapM f = some r ↔ List.Forall₂ (fun a b => f a = some b) l r := by
  induction l generalizing r with
  | nil => cases r <;> simp
  | cons a l ih =>
    rw [List.mapM_cons]
    cases r with
    | nil => cases f a <;> cases l.mapM f <;> simp
    | cons b r =>
      rw [List.forall₂_cons, ← ih]
      cases f a <;> cases l.mapM f <;> simp

/-! ## What cannot be written -/

theorem encode_none (v : GoVal) : encode v = none ↔ ∃ x, Inside x v ∧ Foreign x := by
  induction v using GoVal.ind with
  | nil => constructor
           · intro h; simp [encode] at h
           · rintro ⟨x, h, h'⟩; cases h; rcases h' with h' | h' <;> cases h'
  | bool b => constructor
              · intro h; cases b <;> simp [encode] at h
              · rintro ⟨x, h, h'⟩; cases h; rcases h' with h' | h' <;> cases h'
  | int n => constructor
             · intro h; simp [encode] at h
             · rintro ⟨x, h, h'⟩; cases h; rcases h' with h' | h' <;> cases h'
  | float t => constructor
               · intro h
                 rw [encode] at h
                 subst h
                 exact ⟨_, .self _, Or.inr rfl⟩
               · rintro ⟨x, h, h'⟩
                 cases h
                 rcases h' with h' | h'
                 · cases h'
                 · injection h'
  | str s => constructor
             · intro h; simp [encode] at h
             · rintro ⟨x, h, h'⟩; cases h; rcases h' with h' | h' <;> cases h'
  | slice l ih =>
    rw [encode, Option.map_eq_none_iff, encodeList_eq, mapM_none]
    constructor
    · rintro ⟨v, hv, h⟩
      obtain ⟨x, h1, h2⟩ := (ih v hv).1 h
      exact ⟨x, .elem _ _ _ hv h1, h2⟩
    · rintro ⟨x, h1, h2⟩
      cases h1 with
      | self => rcases h2 with h2 | h2 <;> cases h2
      | elem v _ hv h => exact ⟨v, hv, (ih v hv).2 ⟨x, h, h2⟩⟩
  | map es ih =>
    rw [encode, Option.map_eq_none_iff, encodeEntries_eq, mapM_none]
    constructor
    · rintro ⟨e, he, h⟩
      rw [Option.map_eq_none_iff] at h
      obtain ⟨x, h1, h2⟩ := (ih e he).1 h
      exact ⟨x, .entry _ e.1 e.2 _ he h1, h2⟩
    · rintro ⟨x, h1, h2⟩
      cases h1 with
      | self => rcases h2 with h2 | h2 <;> cases h2
      | entry k v _ hv h =>
        refine ⟨(k, v), hv, ?_⟩
        rw [Option.map_eq_none_iff]
        exact (ih (k, v) hv).2 ⟨x, h, h2⟩
  | other =>
    constructor
    · intro _; exact ⟨_, .self _, Or.inl rfl⟩
    · intro _; rfl

/-! ## What is written -/

theorem elements_mono {P Q : Bytes → Value → Prop} (h : ∀ t v, P t v → Q t v) {s : Bytes} {vs : List Value} (he : Elements P s vs) :
    Elements Q s vs := by
  induction he with
  | one w t w' v hw ht hw' => exact .one w t w' v hw (h _ _ ht) hw'
  | cons w t w' v s vs hw ht hw' _ ih => exact .cons w t w' v s vs hw (h _ _ ht) hw' ih

theorem members_mono {P Q : Bytes → Value → Prop} (h : ∀ t v, P t v → Q t v) {s : Bytes} {ms : List (Bytes × Value)} (he : Members P s ms) :
    Members Q s ms := by
  induction he with
  | one w k w1 w2 t w3 v hw hk hw1 hw2 ht hw3 => exact .one w k w1 w2 t w3 v hw hk hw1 hw2 (h _ _ ht) hw3
  | cons w k w1 w2 t w3 v s ms hw hk hw1 hw2 ht hw3 _ ih => exact .cons w k w1 w2 t w3 v s ms hw hk hw1 hw2 (h _ _ ht) hw3 ih

theorem text_succ (d : Nat) (t : Bytes) (v : Value) (h : Text d t v) : Text (d + 1) t v := by
  induction d generalizing t v with
  | zero => exact Or.inl h
  | succ d ih =>
    rcases h with h | h | ⟨s, vs, h1, h2, h3⟩ | h | ⟨s, ms, h1, h2, h3⟩
    · exact Or.inl h
    · exact Or.inr (Or.inl h)
    · exact Or.inr (Or.inr (Or.inl ⟨s, vs, h1, h2, elements_mono ih h3⟩))
    · exact Or.inr (Or.inr (Or.inr (Or.inl h)))
    · exact Or.inr (Or.inr (Or.inr (Or.inr ⟨s, ms, h1, h2, members_mono ih h3⟩)))

theorem text_mono {d d' : Nat} (hd : d ≤ d') {t : Bytes} {v : Value} (h : Text d t v) : Text d' t v := by
  induction hd with
  | refl => exact h
  | step _ ih => exact text_succ _ _ _ ih

theorem chars_esc (s : Bytes) : Chars (esc s) := (scanString_sound _ _ _ (scanString_esc s [])).2

theorem decoded_esc (s : Bytes) : Decoded (esc s) (clean s) := (decoded_iff _ _ (chars_esc s)).2 (unquote_esc s)

theorem number_formatInt (n : Int) (h : InI64 n) : Number (formatInt n) :=
  (scanNumber_sound _ _ _ (scanNumber_formatInt n h 44 (Or.inl rfl) [])).2

theorem ws_nil : Ws [] := by intro c hc; cases hc

theorem elements_join (P : Bytes → Value → Prop) (ts : List Bytes) (js : List Value) (h : List.Forall₂ P ts js) (hne : ts ≠ []) :
    Elements P ([44].intercalate ts) js := by
  induction h with
  | nil => exact absurd rfl hne
  | @cons t j ts js h h' ih =>
    cases h' with
    | nil =>
      have := Elements.one (P := P) [] t [] j ws_nil h ws_nil
      simpa [List.intercalate] using this
    | @cons t' j' ts js h2 h3 =>
      have := Elements.cons (P := P) [] t [] j _ _ ws_nil h ws_nil (ih (by simp))
      simpa [List.intercalate] using this

/-- The members of an object from their texts. -/
theorem members_join (P : Bytes → Value → Prop) (ts : List (Bytes × Bytes)) (js : List Value) (h : List.Forall₂ (fun t j => P t.2 j) ts js)
    (hne : ts ≠ []) :
    Members P ([44].intercalate (ts.map (fun e => quote e.1 ++ 58 :: e.2))) ((ts.zip js).map (fun p => (esc p.1.1, p.2))) := by
  induction h with
  | nil => exact absurd rfl hne
  | @cons t j ts js h h' ih =>
    cases h' with
    | nil =>
      have := Members.one (P := P) [] (esc t.1) [] [] t.2 [] j ws_nil (chars_esc _) ws_nil ws_nil h ws_nil
      simpa [List.intercalate, quote, esc] using this
    | @cons t' j' ts js h2 h3 =>
      have := Members.cons (P := P) [] (esc t.1) [] [] t.2 [] j _ _ ws_nil (chars_esc _) ws_nil ws_nil h ws_nil (ih (by simp))
      simpa [List.intercalate, quote, esc] using this

/-- A common depth. -/
theorem common_depth {α : Type} (Q : Nat → α → Prop) (hQ : ∀ d d' a, d ≤ d' → Q d a → Q d' a) (l : List α) (h : ∀ a ∈ l, ∃ d, Q d a) :
    ∃ d, ∀ a ∈ l, Q d a := by
  induction l with
  | nil => exact ⟨0, by simp⟩
  | cons a l ih =>
    obtain ⟨d1, h1⟩ := h a (by simp)
    obtain ⟨d2, h2⟩ := ih (fun x hx => h x (by simp [hx]))
    refine ⟨max d1 d2, fun x hx => ?_⟩
    rcases List.mem_cons.1 hx with rfl | hx
    · exact hQ _ _ _ (Nat.le_max_left _ _) h1
    · exact hQ _ _ _ (Nat.le_max_right _ _) (h2 x hx)

theorem Typed.elem {l : List GoVal} (h : Typed (.slice l)) {v : GoVal} (hv : v ∈ l) : Typed v :=
  ⟨fun n hn => h.int n (.elem _ _ _ hv hn), fun t ht => h.float t (.elem _ _ _ hv ht), fun es he => h.map es (.elem _ _ _ hv he)⟩

theorem Typed.entry {es : List (Bytes × GoVal)} (h : Typed (.map es)) {e : Bytes × GoVal} (he : e ∈ es) : Typed e.2 :=
  ⟨fun n hn => h.int n (.entry _ e.1 _ _ he hn), fun t ht => h.float t (.entry _ e.1 _ _ he ht), fun s hs => h.map s (.entry _ e.1 _ _ he hs)⟩

theorem sort_pairwise {α : Type} (l : List (Bytes × α)) :
    (l.insertionSort (fun a b => bytesLe a.1 b.1)).Pairwise (fun a b => bytesLe a.1 b.1 = true) := by
  have : IsTrans (Bytes × α) (fun a b => bytesLe a.1 b.1 = true) := ⟨fun a b c => bytesLe_trans a.1 b.1 c.1⟩
  have : Std.Total (fun a b : Bytes × α => bytesLe a.1 b.1 = true) := ⟨fun a b => by have := bytesLe_total a.1 b.1; simpa using this⟩
  exact List.pairwise_insertionSort (fun a b : Bytes × α => bytesLe a.1 b.1 = true) l

theorem forall₂_perm {α β : Type} {R : α → β → Prop} {l : List α} {m m' : List β} (h : List.Forall₂ R l m) (hp : m.Perm m') :
    ∃ l', l.Perm l' ∧ List.Forall₂ R l' m' := by
  induction hp generalizing l with
  | nil => cases h; exact ⟨[], .nil, .nil⟩
  | cons b _ ih =>
    cases h with
    | cons h1 h2 =>
      obtain ⟨l', hl, hf⟩ := ih h2
      exact ⟨_, hl.cons _, .cons h1 hf⟩
  | swap b b' m =>
    cases h with
    | cons h1 h2 =>
      cases h2 with
      | cons h2 h3 => exact ⟨_, .swap _ _ _, .cons h2 (.cons h1 h3)⟩
  | trans _ _ ih1 ih2 =>
    obtain ⟨l1, p1, f1⟩ := ih1 h
    obtain ⟨l2, p2, f2⟩ := ih2 f1
    exact ⟨l2, p1.trans p2, f2⟩

theorem forall₂_swap {α β : Type} {R : α → β → Prop} {l : List α} {m : List β} (h : List.Forall₂ R l m) :
    List.Forall₂ (fun b a => R a b) m l := by
  induction h with
  | nil => exact .nil
  | cons h _ ih => exact .cons h ih

theorem encode_text (v : GoVal) (h : Typed v) (t : Bytes) (he : encode v = some t) : ∃ d j, Text d t j ∧ Means v j := by
  induction v using GoVal.ind generalizing t with
  | nil =>
    simp [encode] at he
    exact ⟨0, .null, he ▸ Scalar.null, .nil⟩
  | bool b =>
    cases b with
    | true =>
      simp [encode] at he
      exact ⟨0, .bool true, he ▸ Scalar.true, .bool _⟩
    | false =>
      simp [encode] at he
      exact ⟨0, .bool false, he ▸ Scalar.false, .bool _⟩
  | int n =>
    simp [encode] at he
    have hn := h.int n (.self _)
    refine ⟨0, .num t, ?_, .int _ _ ?_⟩
    · rw [← he]; exact Scalar.num _ (number_formatInt n hn)
    · rw [← he]; exact (C71_numeral n hn).1
  | float x =>
    rw [encode] at he
    subst he
    exact ⟨0, .num t, Scalar.num _ (h.float t (.self _)), .float t⟩
  | str s =>
    simp [encode] at he
    refine ⟨0, .str (esc s), ?_, .str _ _ (decoded_esc s)⟩
    rw [← he]
    exact Scalar.str _ (chars_esc s)
  | slice l ih =>
    rw [encode, Option.map_eq_some_iff] at he
    obtain ⟨ts, h1, rfl⟩ := he
    rw [encodeList_eq, mapM_some] at h1
    have hd : ∃ d, ∀ v ∈ l, ∀ t, encode v = some t → ∃ j, Text d t j ∧ Means v j := by
      apply common_depth (fun d v => ∀ t, encode v = some t → ∃ j, Text d t j ∧ Means v j)
      · intro d d' v hd hh t ht
        obtain ⟨j, a, b⟩ := hh t ht
        exact ⟨j, text_mono hd a, b⟩
      · intro v hv
        cases ht : encode v with
        | none => exact ⟨0, by simp⟩
        | some t =>
          obtain ⟨d, j, a, b⟩ := ih v hv (h.elem hv) t ht
          refine ⟨d, fun t' ht' => ?_⟩
          injection ht' with ht'
          subst ht'
          exact ⟨j, a, b⟩
    obtain ⟨d, hd⟩ := hd
    have : ∃ js, List.Forall₂ (Text d) ts js ∧ MeansList l js := by
      clear ih h
      induction h1 with
      | nil => exact ⟨[], .nil, .nil⟩
      | @cons v t l ts h1 _ ih =>
        obtain ⟨j, e2, e3⟩ := hd v (by simp) t h1
        obtain ⟨js, f1, f2⟩ := ih (fun x hx => hd x (by simp [hx]))
        exact ⟨j :: js, .cons e2 f1, .cons _ _ _ _ e3 f2⟩
    obtain ⟨js, f1, f2⟩ := this
    refine ⟨d + 1, .arr js, ?_, .slice _ _ f2⟩
    cases f1 with
    | nil => exact Or.inr (Or.inl ⟨[], rfl, rfl, ws_nil⟩)
    | cons g1 g2 => exact Or.inr (Or.inr (Or.inl ⟨_, _, rfl, rfl, elements_join _ _ _ (.cons g1 g2) (by simp)⟩))
  | map es ih =>
    rw [encode, Option.map_eq_some_iff] at he
    obtain ⟨ts, h1, rfl⟩ := he
    rw [encodeEntries_eq, mapM_some] at h1
    have hp : ts.Perm (ts.insertionSort (fun a b => bytesLe a.1 b.1)) := (List.perm_insertionSort _ _).symm
    have hsort := sort_pairwise ts
    generalize ts.insertionSort (fun a b => bytesLe a.1 b.1) = ts' at hp hsort ⊢
    obtain ⟨es', hp', h2⟩ := forall₂_perm h1 hp
    have hd : ∃ d, ∀ e ∈ es', ∀ t, encode e.2 = some t → ∃ j, Text d t j ∧ Means e.2 j := by
      apply common_depth (fun d (e : Bytes × GoVal) => ∀ t, encode e.2 = some t → ∃ j, Text d t j ∧ Means e.2 j)
      · intro d d' e hd hh t ht
        obtain ⟨j, a, b⟩ := hh t ht
        exact ⟨j, text_mono hd a, b⟩
      · intro e he
        have he := hp'.mem_iff.2 he
        cases ht : encode e.2 with
        | none => exact ⟨0, by simp⟩
        | some t =>
          obtain ⟨d, j, a, b⟩ := ih e he (h.entry he) t ht
          refine ⟨d, fun t' ht' => ?_⟩
          injection ht' with ht'
          subst ht'
          exact ⟨j, a, b⟩
    obtain ⟨d, hd⟩ := hd
    have : ∃ js, List.Forall₂ (fun t j => Text d t.2 j) ts' js ∧ MeansEntries es' ((ts'.zip js).map (fun p => (esc p.1.1, p.2))) ∧
        es'.map (·.1) = ts'.map (·.1) := by
      clear hsort hp hp'
      induction h2 with
      | nil => exact ⟨[], .nil, .nil, rfl⟩
      | @cons e t es' ts' h2 _ ih' =>
        obtain ⟨k, v⟩ := e
        obtain ⟨k', t⟩ := t
        simp only [Option.map_eq_some_iff, Prod.mk.injEq] at h2
        obtain ⟨_, e1, rfl, rfl⟩ := h2
        obtain ⟨j, e2, e3⟩ := hd (k, v) (by simp) _ e1
        obtain ⟨js, f1, f2, f3⟩ := ih' (fun x hx => hd x (by simp [hx]))
        refine ⟨j :: js, .cons e2 f1, .cons _ _ _ _ _ _ (decoded_esc k) e3 f2, ?_⟩
        rw [List.map_cons, List.map_cons, f3]
    obtain ⟨js, f1, f2, f3⟩ := this
    refine ⟨d + 1, .obj ((ts'.zip js).map (fun p => (esc p.1.1, p.2))), ?_, .map _ _ _ hp' ?_ f2⟩
    · cases f1 with
      | nil => exact Or.inr (Or.inr (Or.inr (Or.inl ⟨[], rfl, rfl, ws_nil⟩)))
      | cons g1 g2 => exact Or.inr (Or.inr (Or.inr (Or.inr ⟨_, _, rfl, rfl, members_join _ _ _ (.cons g1 g2) (by simp)⟩)))
    · rw [← List.pairwise_map (f := fun e : Bytes × GoVal => e.1) (R := fun a b => bytesLe a b = true), f3, List.pairwise_map]
      exact hsort
  | other => simp [encode] at he

/-- **C122** for values without channels, functions, complex numbers, NaN and infinities: the text is JSON, and it says what the value
is. -/
theorem C122_text_partial (v : GoVal) (h : Typed v) (hf : ∀ x, Inside x v → ¬ Foreign x) :
    ∃ d j, Doc d (map2JsonString v) j ∧ Means v j := by
  cases he : encode v with
  | none =>
    obtain ⟨x, h1, h2⟩ := (encode_none v).1 he
    exact absurd h2 (hf x h1)
  | some t =>
    obtain ⟨d, j, h1, h2⟩ := encode_text v h t he
    refine ⟨d, j, ⟨[], t, [], ?_, ws_nil, h1, ws_nil⟩, h2⟩
    simp [map2JsonString, he]

/-- **C122 fails** for every other value: one such part, however deep, and the text is empty. The error is dropped; the empty text is no
JSON. -/
theorem C122_foreign_refuted (v x : GoVal) (h : Inside x v) (hf : Foreign x) :
    map2JsonString v = [] ∧ ∀ d j, ¬ Doc d (map2JsonString v) j := by
  have he := (encode_none v).2 ⟨x, h, hf⟩
  have h0 : map2JsonString v = [] := by simp [map2JsonString, he]
  refine ⟨h0, ?_⟩
  rw [h0]
  rintro d j ⟨w, t, w', h1, -, ht, -⟩
  obtain ⟨c, s, rfl, -⟩ := text_begin _ _ _ ht
  simp at h1

/-- `MapToJsonString` is `Map2JsonString`; the nil map is `null`. -/
theorem C122_map (es : List (Bytes × GoVal)) :
    mapToJsonString (some es) = map2JsonString (.map es) ∧ mapToJsonString none = lit "null" := ⟨rfl, rfl⟩

/-- A map of 32-bit numbers has the same text as with `MapIntToJsonString`. -/
theorem C122_ints (es : List (Bytes × Int)) :
    mapToJsonString (some (es.map (fun e => (e.1, .int e.2)))) = mapIntToJsonString (some es) := by
  have h1 : encodeEntries (es.map (fun e => (e.1, .int e.2))) = some (es.map (fun e => (e.1, formatInt e.2))) := by
    induction es with
    | nil => rfl
    | cons e es ih => simp [encodeEntries, encode, ih]
  have h2 : ∀ l : List (Bytes × Int), (l.map (fun e => (e.1, formatInt e.2))).insertionSort (fun a b => bytesLe a.1 b.1) =
      (l.insertionSort (fun a b => bytesLe a.1 b.1)).map (fun e => (e.1, formatInt e.2)) := by
    intro l
    exact (List.map_insertionSort (r := fun a b : Bytes × Int => bytesLe a.1 b.1 = true)
      (s := fun a b : Bytes × Bytes => bytesLe a.1 b.1 = true) (fun e : Bytes × Int => (e.1, formatInt e.2)) l (fun a _ b _ => Iff.rfl)).symm
  unfold mapToJsonString map2JsonString mapIntToJsonString
  simp only [encode, h1, Option.map_some, Option.getD_some, h2, List.map_map]
  rfl

/-! ## The order of visiting -/

mutual
/-- The same value, with the entries of maps visited in another order. -/
inductive Same : GoVal → GoVal → Prop
  | refl (v) : Same v v
  | slice (l l') : SameList l l' → Same (.slice l) (.slice l')
  | map (es es' es'') : SameEntries es es' → es'.Perm es'' → Same (.map es) (.map es'')

inductive SameList : List GoVal → List GoVal → Prop
  | nil : SameList [] []
  | cons (v v' l l') : Same v v' → SameList l l' → SameList (v :: l) (v' :: l')

inductive SameEntries : List (Bytes × GoVal) → List (Bytes × GoVal) → Prop
  | nil : SameEntries [] []
  | cons (k v v' es es') : Same v v' → SameEntries es es' → SameEntries ((k, v) :: es) ((k, v') :: es')
end

theorem sort_eq_of_perm (l l' : List (Bytes × Bytes)) (hp : l.Perm l') (hn : (l.map (·.1)).Nodup) :
    l.insertionSort (fun a b => bytesLe a.1 b.1) = l'.insertionSort (fun a b => bytesLe a.1 b.1) := by
  have p1 : (l.insertionSort (fun a b => bytesLe a.1 b.1)).Perm l := List.perm_insertionSort _ _
  have p2 : (l'.insertionSort (fun a b => bytesLe a.1 b.1)).Perm l' := List.perm_insertionSort _ _
  refine List.Perm.eq_of_pairwise ?_ (sort_pairwise l) (sort_pairwise l') (p1.trans (hp.trans p2.symm))
  intro a b ha hb h1 h2
  exact List.inj_on_of_nodup_map hn (p1.mem_iff.1 ha) (hp.mem_iff.2 (p2.mem_iff.1 hb)) (bytesLe_antisymm _ _ h1 h2)

theorem encodeEntries_keys (es : List (Bytes × GoVal)) (ts : List (Bytes × Bytes)) (h : encodeEntries es = some ts) :
    ts.map (·.1) = es.map (·.1) := by
  rw [encodeEntries_eq, mapM_some] at h
  induction h with
  | nil => rfl
  | @cons e t es ts h _ ih =>
    simp only [Option.map_eq_some_iff] at h
    obtain ⟨_, -, rfl⟩ := h
    simp [ih]

theorem encodeEntries_perm (es es' : List (Bytes × GoVal)) (hp : es.Perm es') (ts : List (Bytes × Bytes)) (h : encodeEntries es = some ts) :
    ∃ ts', encodeEntries es' = some ts' ∧ ts.Perm ts' := by
  rw [encodeEntries_eq, mapM_some] at h
  have h' : List.Forall₂ (fun b a => Option.map (fun t => (a.1, t)) (encode a.2) = some b) ts es := forall₂_swap h
  obtain ⟨ts', h1, h2⟩ := forall₂_perm h' hp
  refine ⟨ts', ?_, h1⟩
  rw [encodeEntries_eq, mapM_some]
  exact forall₂_swap h2

mutual
theorem same_encode : ∀ v v', Same v v' → Typed v → encode v = encode v'
  | _, _, .refl _, _ => rfl
  | _, _, .slice l l' h, ht => by
    rw [encode, encode, same_encodeList l l' h (fun v hv => ht.elem hv)]
  | _, _, .map es es' es'' h hp, ht => by
    have he := same_encodeEntries es es' h (fun e he => ht.entry he)
    rw [encode, encode, he]
    cases h1 : encodeEntries es' with
    | none =>
      cases h2 : encodeEntries es'' with
      | none => rfl
      | some ts =>
        obtain ⟨ts', h3, -⟩ := encodeEntries_perm _ _ hp.symm ts h2
        rw [h1] at h3
        cases h3
    | some ts =>
      obtain ⟨ts', h3, h4⟩ := encodeEntries_perm _ _ hp ts h1
      have hn : (ts.map (·.1)).Nodup := by
        rw [encodeEntries_keys es ts (he.trans h1)]
        exact ht.map es (.self _)
      rw [h3, Option.map_some, Option.map_some, sort_eq_of_perm ts ts' h4 hn]

theorem same_encodeList : ∀ l l', SameList l l' → (∀ v ∈ l, Typed v) → encodeList l = encodeList l'
  | _, _, .nil, _ => rfl
  | _, _, .cons v v' l l' h h', ht => by
    rw [encodeList, encodeList, same_encode v v' h (ht v (by simp)), same_encodeList l l' h' (fun x hx => ht x (by simp [hx]))]

theorem same_encodeEntries : ∀ es es', SameEntries es es' → (∀ e ∈ es, Typed e.2) → encodeEntries es = encodeEntries es'
  | _, _, .nil, _ => rfl
  | _, _, .cons k v v' es es' h h', ht => by
    rw [encodeEntries, encodeEntries, same_encode v v' h (ht (k, v) (by simp)), same_encodeEntries es es' h' (fun x hx => ht x (by simp [hx]))]
end

/-- **C122**: the text does not depend on the order in which the entries of the maps are visited, at any depth. -/
theorem C122_deterministic (v v' : GoVal) (h : Same v v') (ht : Typed v) : map2JsonString v = map2JsonString v' := by
  unfold map2JsonString
  rw [same_encode v v' h ht]

/-! ## Different values -/

/-- No floats, and strings and keys in UTF-8. -/
structure Plain (v : GoVal) : Prop where
  float : ∀ t, ¬ Inside (.float t) v
  str : ∀ s, Inside (.str s) v → ValidString s
  key : ∀ es, Inside (.map es) v → ∀ e ∈ es, ValidString e.1

theorem Plain.elem {l : List GoVal} (h : Plain (.slice l)) {v : GoVal} (hv : v ∈ l) : Plain v :=
  ⟨fun t ht => h.float t (.elem _ _ _ hv ht), fun s hs => h.str s (.elem _ _ _ hv hs), fun es he => h.key es (.elem _ _ _ hv he)⟩

theorem Plain.entry {es : List (Bytes × GoVal)} (h : Plain (.map es)) {e : Bytes × GoVal} (he : e ∈ es) : Plain e.2 :=
  ⟨fun t ht => h.float t (.entry _ e.1 _ _ he ht), fun s hs => h.str s (.entry _ e.1 _ _ he hs),
    fun es he' => h.key es (.entry _ e.1 _ _ he he')⟩

theorem decoded_unique (raw o o' : Bytes) (h : Decoded raw o) (h' : Decoded raw o') : o = o' := by
  rw [← decoded_unquote raw o h _ (Nat.le_refl _), ← decoded_unquote raw o' h' _ (Nat.le_refl _)]

theorem decoded_valid (raw s s' : Bytes) (h : Decoded raw (clean s)) (h' : Decoded raw (clean s')) (hs : ValidString s) (hs' : ValidString s') :
    s = s' := by
  have := decoded_unique raw _ _ h h'
  unfold clean at this
  rwa [ofRunes_runes _ hs, ofRunes_runes _ hs'] at this

theorem sameEntries_perm (es es1 : List (Bytes × GoVal)) (hp : es1.Perm es) (es2 : List (Bytes × GoVal)) (h : SameEntries es1 es2) :
    ∃ es3, SameEntries es es3 ∧ es3.Perm es2 := by
  induction hp generalizing es2 with
  | nil => cases h; exact ⟨[], .nil, .nil⟩
  | cons e _ ih =>
    cases h with
    | cons k v v' es es' h1 h2 =>
      obtain ⟨es3, h3, h4⟩ := ih _ h2
      exact ⟨(k, v') :: es3, .cons _ _ _ _ _ h1 h3, h4.cons _⟩
  | swap a b l =>
    cases h with
    | cons k v v' es es' h1 h2 =>
      cases h2 with
      | cons k2 v2 v2' es es' h3 h4 => exact ⟨(k2, v2') :: (k, v') :: es', .cons _ _ _ _ _ h3 (.cons _ _ _ _ _ h1 h4), .swap _ _ _⟩
  | trans _ _ ih1 ih2 =>
    obtain ⟨e1, a1, b1⟩ := ih1 _ h
    obtain ⟨e2, a2, b2⟩ := ih2 _ a1
    exact ⟨e2, a2, b2.trans b1⟩

mutual
theorem means_same : ∀ v j, Means v j → ∀ v', Means v' j → Plain v → Plain v' → Same v v'
  | _, _, .nil, v', h', _, _ => by cases h'; exact .refl _
  | _, _, .bool b, v', h', _, _ => by cases h'; exact .refl _
  | _, _, .int n t h, v', h', _, hp' => by
    cases h' with
    | int n' _ h' => rw [numeral_unique _ _ _ h h']; exact .refl _
    | float => exact absurd (.self _) (hp'.float _)
  | _, _, .float t, v', h', hp, _ => absurd (.self _) (hp.float _)
  | _, _, .str s raw h, v', h', hp, hp' => by
    cases h' with
    | str s' _ h' => rw [decoded_valid raw s s' h h' (hp.str s (.self _)) (hp'.str s' (.self _))]; exact .refl _
  | _, _, .slice l js h, v', h', hp, hp' => by
    cases h' with
    | slice l' _ h' => exact .slice _ _ (means_sameList l js h l' h' (fun v hv => hp.elem hv) (fun v hv => hp'.elem hv))
  | _, _, .map es es1 ms hperm _ h, v', h', hp, hp' => by
    cases h' with
    | map es' es2 _ hperm' _ h' =>
      have := means_sameEntries es1 ms h es2 h'
        (fun e he => ⟨hp.entry (hperm.mem_iff.2 he), hp.key _ (.self _) e (hperm.mem_iff.2 he)⟩)
        (fun e he => ⟨hp'.entry (hperm'.mem_iff.2 he), hp'.key _ (.self _) e (hperm'.mem_iff.2 he)⟩)
      obtain ⟨es3, h3, h4⟩ := sameEntries_perm es es1 hperm.symm es2 this
      exact .map _ es3 _ h3 (h4.trans hperm'.symm)

theorem means_sameList : ∀ l js, MeansList l js → ∀ l', MeansList l' js → (∀ v ∈ l, Plain v) → (∀ v ∈ l', Plain v) → SameList l l'
  | _, _, .nil, l', h', _, _ => by cases h'; exact .nil
  | _, _, .cons v j l js h1 h2, l', h', hp, hp' => by
    cases h' with
    | cons v' _ l' _ h1' h2' =>
      exact .cons _ _ _ _ (means_same v j h1 v' h1' (hp v (by simp)) (hp' v' (by simp)))
        (means_sameList l js h2 l' h2' (fun x hx => hp x (by simp [hx])) (fun x hx => hp' x (by simp [hx])))

theorem means_sameEntries : ∀ es ms, MeansEntries es ms → ∀ es', MeansEntries es' ms → (∀ e ∈ es, Plain e.2 ∧ ValidString e.1) →
    (∀ e ∈ es', Plain e.2 ∧ ValidString e.1) → SameEntries es es'
  | _, _, .nil, es', h', _, _ => by cases h'; exact .nil
  | _, _, .cons k v raw j es ms hk h1 h2, es', h', hp, hp' => by
    cases h' with
    | cons k' v' _ _ es' _ hk' h1' h2' =>
      have a := hp (k, v) (by simp)
      have b := hp' (k', v') (by simp)
      have := decoded_valid raw k k' hk hk' a.2 b.2
      subst this
      exact .cons _ _ _ _ _ (means_same v j h1 v' h1' a.1 b.1)
        (means_sameEntries es ms h2 es' h2' (fun x hx => hp x (by simp [hx])) (fun x hx => hp' x (by simp [hx])))
end

/-- **C122**: without floats, and with strings in UTF-8, different values have different texts. -/
theorem C122_injective_partial (v v' : GoVal) (h : Typed v) (h' : Typed v') (hf : ∀ x, Inside x v → ¬ Foreign x)
    (hf' : ∀ x, Inside x v' → ¬ Foreign x) (hp : Plain v) (hp' : Plain v') (heq : map2JsonString v = map2JsonString v') : Same v v' := by
  obtain ⟨d, j, ⟨w, t, u, e1, e2, e3, e4⟩, hm⟩ := C122_text_partial v h hf
  obtain ⟨d', j', ⟨w', t', u', e1', e2', e3', e4'⟩, hm'⟩ := C122_text_partial v' h' hf'
  have := C109_unique (max d d') (map2JsonString v) j j' ⟨w, t, u, e1, e2, text_mono (Nat.le_max_left _ _) e3, e4⟩
    (heq ▸ ⟨w', t', u', e1', e2', text_mono (Nat.le_max_right _ _) e3', e4'⟩)
  subst this
  exact means_same v j hm v' hm' hp hp'

/-- An integer and a float may have the same text. -/
theorem C122_type_refuted : map2JsonString (.int 1) = map2JsonString (.float (some (lit "1"))) ∧
    ¬ Same (.int 1) (.float (some (lit "1"))) := by
  refine ⟨by decide, ?_⟩
  intro h
  cases h

example : Typed (.map [(lit "b", .slice [.int 1, .nil]), (lit "a", .str (lit "<"))]) ∧
    mapToJsonString (some [(lit "b", .slice [.int 1, .nil]), (lit "a", .str (lit "<"))]) = lit "{\"a\":\"\\u003c\",\"b\":[1,null]}" ∧
    mapToJsonString (some [(lit "b", .slice [.int 1, .float none]), (lit "a", .bool true)]) = [] := by
  refine ⟨⟨?_, ?_, ?_⟩, by decide +kernel, by decide +kernel⟩
  · intro n h
    cases h with
    | entry k v _ hk h =>
      simp at hk
      rcases hk with ⟨rfl, rfl⟩ | ⟨rfl, rfl⟩
      · cases h with
        | elem v _ hv h =>
          simp at hv
          rcases hv with rfl | rfl
          · cases h; decide
          · cases h
      · cases h
  · intro t h
    cases h with
    | entry k v _ hk h =>
      simp at hk
      rcases hk with ⟨rfl, rfl⟩ | ⟨rfl, rfl⟩
      · cases h with
        | elem v _ hv h =>
          simp at hv
          rcases hv with rfl | rfl <;> cases h
      · cases h
  · intro es h
    cases h with
    | self => decide
    | entry k v _ hk h =>
      simp at hk
      rcases hk with ⟨rfl, rfl⟩ | ⟨rfl, rfl⟩
      · cases h with
        | elem v _ hv h =>
          simp at hv
          rcases hv with rfl | rfl <;> cases h
      · cases h

end Verif.Json
