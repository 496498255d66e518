import Verif.Model.JsonDump
import Verif.Model.Gorm
import Verif.Props.JsonValue

/-!
# C132: `dumpStructToMapForInsert`
-/

namespace Verif.Json

open Utf8 Spec.Decimal Spec.Json Strconv

/-! ## Specification -/

/-- Slices and maps are nested at most `d` deep. -/
def Nested : Nat → GoVal → Prop
  | 0, .slice _ => False
  | 0, .map _ => False
  | d + 1, .slice l => ∀ v ∈ l, Nested d v
  | d + 1, .map es => ∀ e ∈ es, Nested d e.2
  | _, _ => True

mutual
/-- `Keeps v w`: `w` is what `v` was. Numbers keep all their digits, strings are made UTF-8. -/
inductive Keeps : GoVal → IVal → Prop
  | nil : Keeps .nil .nil
  | bool (b) : Keeps (.bool b) (.bool b)
  | int (n t) : Numeral t n → Keeps (.int n) (.num t)
  | float (t) : Keeps (.float (some t)) (.num t)
  | str (s) : Keeps (.str s) (.str (clean s))
  | slice (l ws) : KeepsList l ws → Keeps (.slice l) (.arr ws)
  | map (es es' ws) : es.Perm es' → KeepsEntries es' ws → Keeps (.map es) (.obj ws)

inductive KeepsList : List GoVal → List IVal → Prop
  | nil : KeepsList [] []
  | cons (v w l ws) : Keeps v w → KeepsList l ws → KeepsList (v :: l) (w :: ws)

inductive KeepsEntries : List (Bytes × GoVal) → List (Bytes × IVal) → Prop
  | nil : KeepsEntries [] []
  | cons (k v w es ws) : Keeps v w → KeepsEntries es ws → KeepsEntries ((k, v) :: es) ((clean k, w) :: ws)
end

/-! ## The text and what it is decoded to -/

theorem encode_text_depth (d : Nat) : ∀ (v : GoVal) (_ : Nested d v) (_ : Typed v) (t : Bytes), encode v = some t →
    ∃ j, Text d t j ∧ Keeps v (decodeAny j) := by
  have scalar : ∀ {d : Nat} {t : Bytes} {j : Value}, Scalar t j → Text d t j := by
    intro d t j h
    cases d with
    | zero => exact h
    | succ d => exact Or.inl h
  induction d with
  | zero =>
    intro v hn h t he
    cases v with
    | nil => simp [encode] at he; exact ⟨.null, scalar (he ▸ .null), .nil⟩
    | bool b =>
      cases b with
      | true => simp [encode] at he; exact ⟨.bool true, scalar (he ▸ .true), .bool _⟩
      | false => simp [encode] at he; exact ⟨.bool false, scalar (he ▸ .false), .bool _⟩
    | int n =>
      simp [encode] at he
      have hn := h.int n (.self _)
      exact ⟨.num t, scalar (he ▸ .num _ (number_formatInt n hn)), .int _ _ (he ▸ (C71_numeral n hn).1)⟩
    | float x =>
      rw [encode] at he
      subst he
      exact ⟨.num t, scalar (.num _ (h.float t (.self _))), .float t⟩
    | str s =>
      simp [encode] at he
      refine ⟨.str (esc s), scalar (he ▸ .str _ (chars_esc s)), ?_⟩
      rw [decodeAny, unquote_esc]
      exact .str s
    | slice l => exact hn.elim
    | map es => exact hn.elim
    | other => simp [encode] at he
  | succ d ih =>
    intro v hn h t he
    cases v with
    | nil => simp [encode] at he; exact ⟨.null, scalar (he ▸ .null), .nil⟩
    | bool b =>
      cases b with
      | true => simp [encode] at he; exact ⟨.bool true, scalar (he ▸ .true), .bool _⟩
      | false => simp [encode] at he; exact ⟨.bool false, scalar (he ▸ .false), .bool _⟩
    | int n =>
      simp [encode] at he
      have hn := h.int n (.self _)
      exact ⟨.num t, scalar (he ▸ .num _ (number_formatInt n hn)), .int _ _ (he ▸ (C71_numeral n hn).1)⟩
    | float x =>
      rw [encode] at he
      subst he
      exact ⟨.num t, scalar (.num _ (h.float t (.self _))), .float t⟩
    | str s =>
      simp [encode] at he
      refine ⟨.str (esc s), scalar (he ▸ .str _ (chars_esc s)), ?_⟩
      rw [decodeAny, unquote_esc]
      exact .str s
    | slice l =>
      rw [encode, Option.map_eq_some_iff] at he
      obtain ⟨ts, h1, rfl⟩ := he
      rw [encodeList_eq, mapM_some] at h1
      have hd : ∀ v ∈ l, ∀ t, encode v = some t → ∃ j, Text d t j ∧ Keeps v (decodeAny j) :=
        fun v hv t ht => ih v (hn v hv) (h.elem hv) t ht
      have : ∃ js, List.Forall₂ (Text d) ts js ∧ KeepsList l (decodeAll js) := by
        clear ih h hn
        induction h1 with
        | nil => exact ⟨[], .nil, .nil⟩
        | @cons v t l ts h1 _ ih =>
          obtain ⟨j, e2, e3⟩ := hd v (by simp) t h1
          obtain ⟨js, f1, f2⟩ := ih (fun x hx => hd x (by simp [hx]))
          exact ⟨j :: js, .cons e2 f1, .cons _ _ _ _ e3 f2⟩
      obtain ⟨js, f1, f2⟩ := this
      refine ⟨.arr js, ?_, .slice _ _ f2⟩
      cases f1 with
      | nil => exact Or.inr (Or.inl ⟨[], rfl, rfl, ws_nil⟩)
      | cons g1 g2 => exact Or.inr (Or.inr (Or.inl ⟨_, _, rfl, rfl, elements_join _ _ _ (.cons g1 g2) (by simp)⟩))
    | map es =>
      rw [encode, Option.map_eq_some_iff] at he
      obtain ⟨ts, h1, rfl⟩ := he
      rw [encodeEntries_eq, mapM_some] at h1
      have hp : ts.Perm (ts.insertionSort (fun a b => bytesLe a.1 b.1)) := (List.perm_insertionSort _ _).symm
      generalize ts.insertionSort (fun a b => bytesLe a.1 b.1) = ts' at hp ⊢
      obtain ⟨es', hp', h2⟩ := forall₂_perm h1 hp
      have hd : ∀ e ∈ es', ∀ t, encode e.2 = some t → ∃ j, Text d t j ∧ Keeps e.2 (decodeAny j) :=
        fun e he t ht => ih e.2 (hn e (hp'.mem_iff.2 he)) (h.entry (hp'.mem_iff.2 he)) t ht
      have : ∃ js, List.Forall₂ (fun t j => Text d t.2 j) ts' js ∧
          KeepsEntries es' (decodeMembers ((ts'.zip js).map (fun p => (esc p.1.1, p.2)))) := by
        clear hp hp'
        induction h2 with
        | nil => exact ⟨[], .nil, .nil⟩
        | @cons e t es' ts' h2 _ ih' =>
          obtain ⟨k, v⟩ := e
          obtain ⟨k', t⟩ := t
          simp only [Option.map_eq_some_iff, Prod.mk.injEq] at h2
          obtain ⟨_, e1, rfl, rfl⟩ := h2
          obtain ⟨j, e2, e3⟩ := hd (k, v) (by simp) _ e1
          obtain ⟨js, f1, f2⟩ := ih' (fun x hx => hd x (by simp [hx]))
          refine ⟨j :: js, .cons e2 f1, ?_⟩
          rw [List.zip_cons_cons, List.map_cons, decodeMembers, unquote_esc]
          exact .cons _ _ _ _ _ e3 f2
      obtain ⟨js, f1, f2⟩ := this
      refine ⟨.obj ((ts'.zip js).map (fun p => (esc p.1.1, p.2))), ?_, .map _ _ _ hp' f2⟩
      cases f1 with
      | nil => exact Or.inr (Or.inr (Or.inr (Or.inl ⟨[], rfl, rfl, ws_nil⟩)))
      | cons g1 g2 => exact Or.inr (Or.inr (Or.inr (Or.inr ⟨_, _, rfl, rfl, members_join _ _ _ (.cons g1 g2) (by simp)⟩)))
    | other => simp [encode] at he

/-- **C132 (partial).** For a record without foreign parts, nested at most 10000 deep, the map has exactly the fields of the record, with
their values; numbers keep all their digits. (Names and strings that are no UTF-8 are changed.) -/
theorem C132_dump_partial (es : List (Bytes × GoVal)) (h : Typed (.map es)) (hf : ∀ x, Inside x (.map es) → ¬ Foreign x)
    (hn : Nested 10000 (.map es)) : ∃ es' l, dumpStruct (.map es) = .ok l ∧ es.Perm es' ∧ KeepsEntries es' l := by
  cases he : encode (.map es) with
  | none =>
    obtain ⟨x, h1, h2⟩ := (encode_none _).1 he
    exact absurd h2 (hf x h1)
  | some t =>
    obtain ⟨j, h1, h2⟩ := encode_text_depth 10000 _ hn h t he
    have hp : parse t = some j := (parse_iff t j).2 ⟨[], t, [], by simp, ws_nil, h1, ws_nil⟩
    cases j with
    | obj ms =>
      rw [decodeAny] at h2
      cases h2 with
      | map es es' ws hperm hk =>
        refine ⟨es', decodeMembers ms, ?_, hperm, hk⟩
        simp only [dumpStruct, he, hp]
    | null => rw [decodeAny] at h2; cases h2
    | bool b => rw [decodeAny] at h2; cases h2
    | num t => rw [decodeAny] at h2; cases h2
    | str s => rw [decodeAny] at h2; cases h2
    | arr l => rw [decodeAny] at h2; cases h2

/-- **C132 (errors).** A record with a foreign part is an error; so is one that is neither a struct, a map nor nil. -/
theorem C132_error (v : GoVal) :
    ((∃ x, Inside x v ∧ Foreign x) → dumpStruct v = .error .marshal) ∧
    (Typed v → Nested 10000 v → (∀ x, Inside x v → ¬ Foreign x) → (∀ es, v ≠ .map es) → v ≠ .nil → dumpStruct v = .error .unmarshal) := by
  constructor
  · intro h
    simp only [dumpStruct, (encode_none v).2 h]
  · intro h hn hf hm hnil
    cases he : encode v with
    | none =>
      obtain ⟨x, h1, h2⟩ := (encode_none _).1 he
      exact absurd h2 (hf x h1)
    | some t =>
      obtain ⟨j, h1, h2⟩ := encode_text_depth 10000 _ hn h t he
      have hp : parse t = some j := (parse_iff t j).2 ⟨[], t, [], by simp, ws_nil, h1, ws_nil⟩
      cases j with
      | obj ms => rw [decodeAny] at h2; cases h2; exact absurd rfl (hm _)
      | null => rw [decodeAny] at h2; cases h2; exact absurd rfl hnil
      | bool b => simp only [dumpStruct, he, hp]
      | num t => simp only [dumpStruct, he, hp]
      | str s => simp only [dumpStruct, he, hp]
      | arr l => simp only [dumpStruct, he, hp]

/-- **C132 (refuted: nil is an error).** A nil record has no fields and is no error; then `SplitInsertTableRecords` returns success and
inserts none of the records. -/
theorem C132_nil_refuted : dumpStruct .nil = .ok [] ∧
    ∀ (R V : Type) (env : Gorm.Env R V) (table : Gorm.Str) (fuel : Nat) (r : R) (rs : List R) (hist : List (Gorm.Stmt V)),
      env.dump r = .ok [] → Gorm.splitInsert env table fuel (r :: rs) hist = .ok (hist, none) := by
  constructor
  · have hp : parse (lit "null") = some .null := (parse_iff _ _).2 ⟨[], lit "null", [], by simp, ws_nil, Or.inl .null, ws_nil⟩
    simp only [dumpStruct, encode, hp]
  · intro R V env table fuel r rs hist h
    simp [Gorm.splitInsert, h]

/-- **C132 (refuted: strings are kept).** A byte that is no UTF-8 becomes U+FFFD. -/
theorem C132_string_refuted : ∃ l, dumpStruct (.map [(lit "a", .str [255])]) = .ok [(lit "a", l)] ∧
    (∃ s, l = .str s ∧ s ≠ [255]) := by
  obtain ⟨es', l, h1, h2, h3⟩ := C132_dump_partial [(lit "a", .str [255])]
    ⟨fun n h => (by cases h with | entry k v _ hk h => simp at hk; obtain ⟨-, rfl⟩ := hk; cases h),
     fun n h => (by cases h with | entry k v _ hk h => simp at hk; obtain ⟨-, rfl⟩ := hk; cases h),
     fun es h => (by
      cases h with
      | self => simp
      | entry k v _ hk h => simp at hk; obtain ⟨-, rfl⟩ := hk; cases h)⟩
    (fun x h => (by
      cases h with
      | self => rintro (h | h) <;> cases h
      | entry k v _ hk h =>
        simp at hk; obtain ⟨-, rfl⟩ := hk; cases h
        rintro (h | h) <;> cases h))
    (by simp [Nested])
  rw [List.perm_singleton.1 h2.symm] at h3
  cases h3 with
  | cons k v w es ws h4 h5 =>
    cases h5
    cases h4
    rw [show clean (lit "a") = lit "a" by decide] at h1
    exact ⟨_, h1, _, rfl, by decide⟩

example : Nested 2 (.map [(lit "id", .int 9007199254740993), (lit "tags", .slice [.nil])]) ∧
    KeepsEntries [(lit "id", .int 9007199254740993)] [(clean (lit "id"), .num (lit "9007199254740993"))] := by
  refine ⟨by simp [Nested], .cons _ _ _ _ _ (.int _ _ ?_) .nil⟩
  exact (show lit "9007199254740993" = formatInt 9007199254740993 by decide) ▸ (C71_numeral 9007199254740993 ⟨by decide, by decide⟩).1

end Verif.Json
