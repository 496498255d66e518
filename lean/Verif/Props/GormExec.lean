import Verif.Proof.GormExec
import Verif.Props.Gorm

/-!
# C146: the statements of the GORM helpers at the driver
-/

namespace Verif.Gorm

open Spec.Sql

/-! ## Every value arrives at its place -/

section Places

variable {A : Type}

theorem bounds_append (a b : List (Tok A)) : bounds (a ++ b) = bounds a ++ bounds b := by
  induction a with
  | nil => rfl
  | cons x a ih => cases x <;> simp [bounds, ih]

theorem bounds_chars (s : Str) : bounds (chars s : List (Tok A)) = [] := by
  induction s with
  | nil => rfl
  | cons c s ih => exact ih

theorem bounds_flatten (l : List (List (Tok A))) : bounds l.flatten = (l.map bounds).flatten := by
  induction l with
  | nil => rfl
  | cons a l ih => simp [bounds_append, ih]

theorem bounds_commas (l : List (List (Tok A))) : bounds (commas l) = (l.map bounds).flatten := by
  cases l with
  | nil => rfl
  | cons a l =>
    simp only [commas, bounds_append, bounds_flatten, List.map_map, List.map_cons, List.flatten_cons]
    rfl

theorem bounds_values {B : Type} (g : B → A) (l : List B) : bounds (commas (l.map (fun v => [Tok.bound (g v)]))) = l.map g := by
  rw [bounds_commas, List.map_map]
  induction l with
  | nil => rfl
  | cons a l ih => simp only [List.map_cons, List.flatten_cons, ih]; rfl

/-- **C146** What the driver gets for an INSERT: the statement with every value at its place, and no value left over. -/
theorem C146_insert {R : Type} (env : Env R A) (hk : KeysOk env) (int : Int → A) (table : Str) (records : List R) (ms : List (Fields A)) (m : Fields A)
    (hd : records.map env.dump = (m :: ms).map .ok) (hm : m ≠ []) (ht : '?' ∉ table) (hq : ∀ e ∈ m, '?' ∉ e.1) (hist : List (Stmt A)) :
    ∃ ins : Insert A, (batchInsert env table records hist).1 = hist ++ [ins.stmt] ∧ sent env.nil int .atom ins.stmt = ⟨ins.toks, []⟩ ∧
      ins.table = table ∧ ins.columns.Perm (m.map (·.1)) ∧
      ins.rows = (m :: ms).map (fun m => ins.columns.map (fun c => (m.lookup c).getD env.nil)) ∧ bounds ins.toks = ins.rows.flatten := by
  have hne : records ≠ [] := by rintro rfl; simp at hd
  rcases batch_spec env hk table records hist hne with ⟨e, ⟨r, hr, he⟩, -⟩ | ⟨ins, h1, ⟨m', ms', h2, h3, h4⟩, hb⟩
  · have : env.dump r ∈ records.map env.dump := List.mem_map_of_mem hr
    rw [hd, he] at this
    obtain ⟨_, _, h⟩ := List.mem_map.1 this
    cases h
  · rw [hd] at h2
    have h2 := List.map_injective_iff.2 (fun _ _ h => Except.ok.inj h) h2
    simp only [List.cons.injEq] at h2
    obtain ⟨rfl, rfl⟩ := h2
    have hc : ins.columns ≠ [] := by
      intro h
      rw [h] at h3
      have := List.nil_perm.1 h3
      simp at this
      exact hm this
    refine ⟨ins, by rw [hb], sent_insert _ _ _ (by rw [h1]; exact ht) (fun c hc' => ?_) (by rw [h4]; simp) (fun r hr => ?_), h1, h3, h4, ?_⟩
    · obtain ⟨e, he, rfl⟩ := List.mem_map.1 (h3.mem_iff.1 hc')
      exact hq e he
    · rw [h4] at hr
      obtain ⟨_, _, rfl⟩ := List.mem_map.1 hr
      simpa using hc
    · unfold Insert.toks
      simp only [bounds_append, bounds_chars, bounds_commas, List.map_map, List.nil_append, List.append_nil]
      have e1 : (ins.columns.map (bounds ∘ fun c => (chars ('`' :: (c ++ ['`'])) : List (Tok A)))).flatten = [] := by
        induction ins.columns with
        | nil => rfl
        | cons c cs ih =>
          simp only [List.map_cons, List.flatten_cons, Function.comp_apply, bounds_chars, List.nil_append]
          exact ih
      rw [e1, List.nil_append]
      congr 1
      induction ins.rows with
      | nil => rfl
      | cons r rs ih =>
        simp only [List.map_cons, Function.comp_apply, ih, bounds, bounds_append]
        rw [bounds_values (fun v => v)]
        simp

/-- **C146** The same for an UPDATE. -/
theorem C146_update (env : UEnv A) (ho : OrdersOk env) (nil : A) (int : Int → A) (table : Str) (m : IdMap A) (hm : m ≠ [])
    (F : List Str) (hF : ∀ e ∈ m, ∀ f, f ∈ e.2.map (·.1) ↔ f ∈ F) (hF0 : F ≠ []) (ht : '?' ∉ table) (hq : ∀ f ∈ F, '?' ∉ f) (hist : List (Stmt A)) :
    ∃ u : Update A, batchUpdate env table m hist = (hist ++ [u.stmt], (env.exec hist u.stmt).err.map .failed) ∧
      sent nil int .atom u.stmt = ⟨u.toks int, []⟩ ∧ u.table = table ∧ Updates m u ∧
      bounds (u.toks int) = (u.sets.map (fun p => (p.2.map (fun w => [int w.1, w.2])).flatten)).flatten ++ u.ids.map int := by
  rcases update_spec env ho.1 ho.2 table m hist hm with ⟨e, he, f, hf, e', he', hl, -⟩ | ⟨u, h1, hu, hr⟩
  · exact absurd ((hF e' he' f).2 ((hF e he f).1 hf)) ((lookup_none _ f).1 hl)
  · obtain ⟨e, he, hp⟩ := hu.2.1
    have hs : u.sets ≠ [] := by
      intro h
      rw [h] at hp
      cases F with
      | nil => exact hF0 rfl
      | cons f F => exact absurd (hp.mem_iff.2 ((hF e he f).2 List.mem_cons_self)) (by simp)
    have hi : u.ids ≠ [] := by
      intro h
      have := hu.1
      rw [h] at this
      have := List.nil_perm.1 this
      simp at this
      exact hm this
    refine ⟨u, hr, sent_update _ _ _ (by rw [h1]; exact ht) (fun p h => ?_) hs hi, h1, hu, ?_⟩
    · exact hq _ ((hF e he p.1).1 (hp.mem_iff.1 (List.mem_map_of_mem h)))
    · unfold Update.toks
      simp only [bounds_append, bounds_chars, bounds_commas, List.map_map, List.nil_append, List.append_nil]
      have e1 : bounds [(Tok.ch ')' : Tok A)] = [] := rfl
      have e2 := bounds_values int u.ids
      rw [bounds_commas, List.map_map] at e2
      rw [e1, e2, List.append_nil]
      congr 2
      apply List.map_congr_left
      intro p _
      simp only [Function.comp_apply, setToks, bounds_append, bounds_chars, bounds_flatten, List.map_map, List.nil_append, List.append_nil]
      congr 1

/-- **C146** The text at the driver tells columns and rows; no values can pass for names, and no names for values. -/
theorem C146_read_insert (i j : Insert A) (ht : i.table = j.table) (hi : i.columns ≠ [] ∧ i.rows ≠ [] ∧ (∀ c ∈ i.columns, '`' ∉ c) ∧ ∀ r ∈ i.rows, r ≠ [])
    (hj : j.columns ≠ [] ∧ j.rows ≠ [] ∧ (∀ c ∈ j.columns, '`' ∉ c) ∧ ∀ r ∈ j.rows, r ≠ []) (h : i.toks = j.toks) : i = j :=
  insert_toks_inj i j ht hi.1 hj.1 hi.2.1 hj.2.1 hi.2.2.1 hj.2.2.1 hi.2.2.2 hj.2.2.2 h

theorem C146_read_update {int : Int → A} (hint : ∀ i j, int i = int j → i = j) (u u' : Update A) (ht : u.table = u'.table)
    (hu : u.sets ≠ [] ∧ u.ids ≠ [] ∧ ∀ p ∈ u.sets, '=' ∉ p.1) (hu' : u'.sets ≠ [] ∧ u'.ids ≠ [] ∧ ∀ p ∈ u'.sets, '=' ∉ p.1)
    (h : u.toks int = u'.toks int) : u = u' :=
  update_toks_inj hint u u' ht hu.1 hu'.1 hu.2.1 hu'.2.1 hu.2.2 hu'.2.2 h

end Places

/-- Numbers as values. -/
def natInt (i : Int) : Nat := i.toNat

/-- A text with numbers in it. -/
def show' (l : List (Tok Nat)) : Str := (l.map (fun | .ch c => [c] | .bound n => ['<'] ++ (Nat.repr n).toList ++ ['>'])).flatten

/-- **C146 (refuted: every value arrives at its place).** A question mark in a column name takes the values of the first row; the rows get those of the row before, and
a place holder without a value is left. In an UPDATE everything is shifted. -/
theorem C146_mark_refuted :
    ((batchInsert demoEnv "t".toList [[("a?".toList, 1)], [("a?".toList, 2)]] []).1.map (fun s => show' (sent 0 natInt .atom s).text)) =
      ["insert into t(`a(<1>)`) values (<2>),(?)".toList] ∧
    ((batchUpdate demoU "t".toList [(7, [("a?".toList, 1)])] []).1.map (fun s => show' (sent 0 natInt .atom s).text)) =
      ["update t set a<7>= case when id = <1> then (<7>) end where id in (?)".toList] := by
  decide +kernel

/-- **C146 (refuted: a row has as many values as columns).** A field that is an array (or in Go any slice but `[]byte`) is written as several values in parentheses. -/
theorem C146_array_refuted :
    show' (sent 0 natInt (fun v : SqlVal Nat => v) (⟨"t".toList, ["id".toList, "tags".toList], [[.atom 1, .list [.atom 5, .atom 6]], [.atom 2, .list []]]⟩ :
      Insert (SqlVal Nat)).stmt).text = "insert into t(`id`,`tags`) values (<1>,(<5>,<6>)),(<2>,(NULL))".toList := by
  decide +kernel

/-- One record whose only field is an array. -/
def arrayEnv : Env (Fields (SqlVal Nat)) (SqlVal Nat) where
  nil := .atom 0
  dump := fun r => .ok r
  exec := fun _ _ => ⟨none, 1⟩
  keys := fun _ m => m.map (·.1)

theorem bounds_addRest {A : Type} (l : List A) : bounds (addRest (l.map SqlVal.atom)) = l := by
  induction l with
  | nil => rfl
  | cons a l ih => simp [addRest, addVar, bounds, ih]

/-- **C146 (refuted: at most 65000 place holders, as `SplitInsertTableRecords` computes).** One record with one field that is an array of any length `n + 1`: the statement
has `n + 1` place holders. -/
theorem C146_limit_refuted (n fuel : Nat) : ∃ s, splitInsert arrayEnv "t".toList (fuel + 2) [[("a".toList, .list (List.replicate (n + 1) (.atom 7)))]] [] = .ok ([s], none) ∧
    (bounds (sent 0 natInt (fun v => v) s).text).length = n + 1 := by
  refine ⟨(⟨"t".toList, ["a".toList], [[SqlVal.list (List.replicate (n + 1) (.atom 7))]]⟩ : Insert (SqlVal Nat)).stmt, ?_, ?_⟩
  · generalize List.replicate (n + 1) (SqlVal.atom 7) = l
    have hb : batchInsert arrayEnv "t".toList [[("a".toList, .list l)]] [] =
        ([(⟨"t".toList, ["a".toList], [[SqlVal.list l]]⟩ : Insert (SqlVal Nat)).stmt], none) := rfl
    have h1 : splitInsert arrayEnv "t".toList (fuel + 2) [[("a".toList, .list l)]] [] =
        splitLoop arrayEnv "t".toList (65000 / 1) (fuel + 2) [[("a".toList, .list l)]] [] := by
      simp [splitInsert, arrayEnv]
    rw [h1, splitLoop]
    simp only [List.length_singleton, Nat.div_one]
    rw [if_neg (by decide), if_neg (by decide)]
    simp only [List.take_succ_cons, List.take_zero, hb]
    rfl
  have e : sent 0 natInt (fun v : SqlVal Nat => v) ((⟨"t".toList, ["a".toList], [[SqlVal.list (List.replicate (n + 1) (.atom 7))]]⟩ : Insert (SqlVal Nat)).stmt) =
      build 0 false ("insert into t(`a`) values (".toList ++ '?' :: (")".toList ++ [])) [SqlVal.list [SqlVal.list (List.replicate (n + 1) (.atom 7))]] := rfl
  refine (congrArg (fun s => (bounds s.text).length) e).trans ?_
  rw [build_text _ _ _ _ _ (by decide), build_place, build_text _ _ ")".toList _ _ (by decide)]
  have ho : opens false "insert into t(`a`) values (".toList = true := by decide
  have hr : List.replicate (n + 1) (SqlVal.atom 7) = .atom 7 :: (List.replicate n 7).map SqlVal.atom := by rw [List.map_replicate]; rfl
  rw [ho, hr]
  simp only [addPlace, if_true, addVar, addRest, build, bounds_append, bounds_chars, List.nil_append, List.append_nil, bounds, bounds_addRest]
  simp

/-- A case of `C146_insert` and one of `C146_update`. -/
example : show' (sent 0 natInt .atom ((batchInsert demoEnv "t".toList [recA, recB] []).1.headD ⟨[], []⟩)).text =
    "insert into t(`id`,`age`) values (<1>,<30>),(<2>,<40>)".toList := by decide +kernel

example : show' (sent 0 natInt .atom ((batchUpdate demoU "t".toList [(3, [("a".toList, 1)]), (4, [("a".toList, 2)])] []).1.headD ⟨[], []⟩)).text =
    "update t set a= case when id = <3> then <1> when id = <4> then <2> end where id in (<3>,<4>)".toList := by decide +kernel

end Verif.Gorm
