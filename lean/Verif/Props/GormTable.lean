import Verif.Model.GormTable
import Mathlib.Data.List.Forall2

/-!
# C126–C129: the wrappers of `gorm_tools/gorm.go` on a table
-/

namespace Verif.Gorm

/-! ## Specification -/

/-- `r'` is `r` with the cells of `upd`. -/
def Updated (upd : Fields Cell) (r r' : Row) : Prop :=
  (∀ c v, (c, v) ∈ upd → r' c = v) ∧ ∀ c, c ∉ upd.map (·.1) → r' c = r c

/-- `t'` is `t` with the rows in `hit` updated and the others as they were; keys and columns are those of before. -/
structure Changed (hit : Row → Prop) (upd : Fields Cell) (t t' : Table) : Prop where
  cols : t'.cols = t.cols
  valid : t'.valid = t.valid
  rows : List.Forall₂ (fun r r' => (hit r → Updated upd r r') ∧ (¬ hit r → r' = r)) t.rows t'.rows

/-- What a condition of a map asks for. A slice never finds NULL. -/
def Meets (c : Cell) : Cond → Prop
  | .one v => c = v
  | .many vs => c ∈ vs ∧ c ≠ .null

theorem sqlEq_iff (a b : Cell) : sqlEq a b = true ↔ a ≠ .null ∧ a = b := by
  simp [sqlEq]

theorem holds_iff (c : Cell) (k : Cond) : k.holds c = true ↔ Meets c k := by
  cases k with
  | one v =>
    cases v with
    | null => simp [Cond.holds, Meets]
    | int n =>
      simp only [Cond.holds, Meets, sqlEq_iff]
      exact ⟨fun h => h.2, fun h => ⟨by rw [h]; simp, h⟩⟩
    | text s =>
      simp only [Cond.holds, Meets, sqlEq_iff]
      exact ⟨fun h => h.2, fun h => ⟨by rw [h]; simp, h⟩⟩
  | many vs =>
    simp only [Cond.holds, Meets, List.any_eq_true, sqlEq_iff]
    constructor
    · rintro ⟨v, hv, h1, rfl⟩; exact ⟨hv, h1⟩
    · rintro ⟨h1, h2⟩; exact ⟨c, h1, h2, rfl⟩

theorem idIn_iff (ids : List Int) (r : Row) : idIn ids r = true ↔ ∃ i ∈ ids, r idCol = .int i := by
  simp only [idIn, List.any_eq_true, sqlEq_iff]
  constructor
  · rintro ⟨i, h1, -, h2⟩; exact ⟨i, h1, h2⟩
  · rintro ⟨i, h1, h2⟩; exact ⟨i, h1, by rw [h2]; simp, h2⟩

theorem setRow_updated (upd : Fields Cell) (hu : (upd.map (·.1)).Nodup) (r : Row) : Updated upd r (setRow upd r) := by
  constructor
  · intro c v h
    have : upd.lookup c = some v := by
      induction upd with
      | nil => cases h
      | cons e upd ih =>
        rw [List.map_cons, List.nodup_cons] at hu
        rcases List.mem_cons.1 h with rfl | h
        · simp [List.lookup_cons]
        · have hne : c ≠ e.1 := by
            rintro rfl
            exact hu.1 (List.mem_map.2 ⟨_, h, rfl⟩)
          rw [List.lookup_cons, beq_false_of_ne hne]
          exact ih hu.2 h
    simp [setRow, this]
  · intro c h
    have : upd.lookup c = none := by
      rw [List.lookup_eq_none_iff]
      intro e he
      have : c ≠ e.1 := by rintro rfl; exact h (List.mem_map.2 ⟨_, he, rfl⟩)
      simpa using this
    simp [setRow, this]

theorem updates_changed (t : Table) (reads : List Str) (p : Row → Bool) (upd : Fields Cell) (hu : (upd.map (·.1)).Nodup)
    (hit : Row → Prop) (hp : ∀ r, p r = true ↔ hit r) (t' : Table) (h : updates t reads (some p) upd = (t', none)) :
    Changed hit upd t t' := by
  unfold updates at h
  split at h
  · rename_i h0
    simp only [Prod.mk.injEq, and_true] at h
    subst h0 h
    refine ⟨rfl, rfl, ?_⟩
    exact List.forall₂_same.2 (fun r _ => ⟨fun _ => ⟨by simp, by simp⟩, fun _ => rfl⟩)
  · dsimp only at h
    split at h
    · simp at h
    · split at h
      · simp only [Prod.mk.injEq, and_true] at h
        subst h
        refine ⟨rfl, rfl, ?_⟩
        dsimp only
        rw [List.forall₂_map_right_iff]
        refine List.forall₂_same.2 (fun r _ => ⟨fun hr => ?_, fun hr => ?_⟩)
        · rw [if_pos ((hp r).2 hr)]; exact setRow_updated upd hu r
        · rw [if_neg (fun h => hr ((hp r).1 h))]
      · simp at h

theorem updates_error (t : Table) (reads : List Str) (cond : Option (Row → Bool)) (upd : Fields Cell) (t' : Table) (e : DbErr)
    (h : updates t reads cond upd = (t', some e)) : t' = t := by
  unfold updates at h
  split at h
  · simp at h
  · cases cond with
    | none => simp only [Prod.mk.injEq] at h; exact h.1.symm
    | some p =>
      dsimp only at h
      split at h
      · simp only [Prod.mk.injEq] at h; exact h.1.symm
      · split at h
        · simp at h
        · simp only [Prod.mk.injEq] at h; exact h.1.symm

/-- An update goes through if the columns exist and the keys admit it. -/
theorem updates_ok (t : Table) (reads : List Str) (p : Row → Bool) (upd : Fields Cell) (hc : ∀ c ∈ upd.map (·.1) ++ reads, c ∈ t.cols)
    (hv : ∀ rows, t.valid rows = true) : (updates t reads (some p) upd).2 = none := by
  unfold updates
  split
  · rfl
  · dsimp only
    rw [if_neg (by
      simp only [List.any_eq_true, decide_eq_true_eq, not_exists, not_and, not_not]
      exact hc)]
    simp [hv]

/-! ## C126: DelByTableNameAndId -/

/-- **C126 (delete).** Without an error exactly the rows with one of the ids are gone, the others are unchanged and in their order; no ids
means no change. With an error nothing is changed. -/
theorem C126_delete (t t' : Table) (ids : List Int) :
    (delById t ids = (t', none) → t'.cols = t.cols ∧ t'.rows.Sublist t.rows ∧
      (∀ r, r ∈ t'.rows ↔ r ∈ t.rows ∧ ∀ i ∈ ids, r idCol ≠ .int i) ∧ (ids = [] → t'.rows = t.rows)) ∧
    ∀ e, delById t ids = (t', some e) → t' = t := by
  constructor
  · intro h
    unfold delById at h
    split at h
    · simp at h
    · split at h
      · simp only [Prod.mk.injEq, and_true] at h
        subst h
        refine ⟨rfl, List.filter_sublist, ?_, ?_⟩
        · intro r
          simp only [List.mem_filter, Bool.not_eq_true', and_congr_right_iff]
          intro _
          rw [← Bool.not_eq_true, idIn_iff]
          simp
        · rintro rfl
          simp [idIn]
      · simp at h
  · intro e h
    unfold delById at h
    split at h
    · simp only [Prod.mk.injEq] at h; exact h.1.symm
    · split at h
      · simp at h
      · simp only [Prod.mk.injEq] at h; exact h.1.symm

/-- **C126 (total).** If the keys admit any contents and the table has ids, the call succeeds, also for ids that are not there. -/
theorem C126_ok (t : Table) (ids : List Int) (hc : idCol ∈ t.cols) (hv : ∀ rows, t.valid rows = true) : (delById t ids).2 = none := by
  unfold delById
  rw [if_neg (by simpa using hc), if_pos (hv _)]

/-- **C126 (column).** The column that is compared is `id`: the call reports a missing column exactly for tables without it. -/
theorem C126_column (t : Table) (ids : List Int) : (delById t ids).2 = some .column ↔ "id".toList ∉ t.cols := by
  unfold delById
  change (if "id".toList ∉ t.cols then _ else _ : Table × Option DbErr).2 = _ ↔ _
  split
  · rename_i h; exact ⟨fun _ => h, fun _ => rfl⟩
  · rename_i h
    refine ⟨fun h' => ?_, fun h' => absurd h' h⟩
    split at h' <;> simp at h'

/-- A table for the examples: a row with id, value, time of the last change and of the deletion. -/
def row (i v u d : Int) : Row := fun c =>
  if c = idCol then .int i else if c = "v".toList then .int v else if c = updatedCol then .int u else if c = deletedCol then .int d
  else .null

theorem row_cells (i v u d : Int) : row i v u d idCol = .int i ∧ row i v u d "v".toList = .int v ∧ row i v u d updatedCol = .int u ∧
    row i v u d deletedCol = .int d := by
  unfold row
  refine ⟨by rw [if_pos rfl], ?_, ?_, ?_⟩
  · rw [if_neg (by decide), if_pos rfl]
  · rw [if_neg (by decide), if_neg (by decide), if_pos rfl]
  · rw [if_neg (by decide), if_neg (by decide), if_neg (by decide), if_pos rfl]

def sample (rows : List Row) : Table := ⟨[idCol, "v".toList, updatedCol, deletedCol], rows, fun _ => true⟩

/-- **C126 (refuted: rows can be restored).** Although the models have a `DeletedAt`, the row is not marked but removed. -/
theorem C126_hard_refuted (i v u d : Int) : (delById (sample [row i v u d]) [i]).1.rows = [] := by
  have h : idIn [i] (row i v u d) = true := (idIn_iff _ _).2 ⟨i, by simp, by simp [row]⟩
  simp [delById, sample, h, idCol]

example : ((delById (sample [row 1 10 0 0, row 2 20 0 0, row 3 30 0 0]) [3, 1, 9]).1.rows.map (fun r => r idCol)) = [.int 2] ∧
    (delById (sample [row 1 10 0 0]) [9]).2 = none := by decide

/-! ## C127: updates -/

/-- **C127 (ids).** Without an error exactly the rows with one of the ids are updated, in exactly the given columns. -/
theorem C127_ids (t t' : Table) (ids : List Int) (upd : Fields Cell) (hu : (upd.map (·.1)).Nodup)
    (h : updateByIds t ids upd = (t', none)) : Changed (fun r => ∃ i ∈ ids, r idCol = .int i) upd t t' :=
  updates_changed t _ _ upd hu _ (idIn_iff ids) t' h

/-- **C127 (id).** The same for one id. -/
theorem C127_id (t t' : Table) (id : Int) (upd : Fields Cell) (hu : (upd.map (·.1)).Nodup) (h : updateById t id upd = (t', none)) :
    Changed (fun r => r idCol = .int id) upd t t' := by
  refine updates_changed t _ _ upd hu _ (fun r => ?_) t' h
  rw [sqlEq_iff]
  exact ⟨fun h => h.2, fun h => ⟨by rw [h]; simp, h⟩⟩

/-- **C127 (where).** Without an error exactly the rows that meet all the conditions are updated. -/
theorem C127_where (t t' : Table) (cond : List (Str × Cond)) (upd : Fields Cell) (hu : (upd.map (·.1)).Nodup)
    (h : updateByWhere t cond upd = (t', none)) : Changed (fun r => ∀ k ∈ cond, Meets (r k.1) k.2) upd t t' := by
  unfold updateByWhere at h
  by_cases hc : cond = []
  · rw [if_pos hc] at h
    unfold updates at h
    split at h
    · rename_i h0
      simp only [Prod.mk.injEq, and_true] at h
      subst h0 h
      exact ⟨rfl, rfl, List.forall₂_same.2 (fun r _ => ⟨fun _ => ⟨by simp, by simp⟩, fun _ => rfl⟩)⟩
    · simp at h
  · rw [if_neg hc] at h
    refine updates_changed t _ _ upd hu _ (fun r => ?_) t' h
    simp only [List.all_eq_true, holds_iff]

/-- **C127 (no conditions).** Without conditions nothing is changed; unless there is nothing to change, it is an error. -/
theorem C127_where_empty (t : Table) (upd : Fields Cell) :
    (updateByWhere t [] upd).1 = t ∧ (upd ≠ [] → (updateByWhere t [] upd).2 = some .missingWhere) := by
  unfold updateByWhere updates
  split
  · rename_i h; exact ⟨rfl, fun h' => absurd h h'⟩
  · exact ⟨rfl, fun _ => rfl⟩

/-- **C127 (all or nothing).** With an error nothing is changed. -/
theorem C127_atomic (t t' : Table) (e : DbErr) (upd : Fields Cell) (id : Int) (ids : List Int) (cond : List (Str × Cond)) :
    (updateById t id upd = (t', some e) → t' = t) ∧ (updateByIds t ids upd = (t', some e) → t' = t) ∧
    (updateByWhere t cond upd = (t', some e) → t' = t) :=
  ⟨updates_error _ _ _ _ _ _, updates_error _ _ _ _ _ _, updates_error _ _ _ _ _ _⟩

/-- **C127 (total).** Updates of existing columns succeed if the keys admit any contents. -/
theorem C127_ok (t : Table) (ids : List Int) (upd : Fields Cell) (hc : ∀ c ∈ upd.map (·.1) ++ [idCol], c ∈ t.cols)
    (hv : ∀ rows, t.valid rows = true) : (updateByIds t ids upd).2 = none := updates_ok t _ _ upd hc hv

/-- **C127 (refuted: missing rows are reported).** An id that is not there gives no error, and no change. -/
theorem C127_missing_refuted (rows : List Row) (id n : Int) (h : ∀ r ∈ rows, r idCol ≠ .int id) :
    (updateById (sample rows) id [("v".toList, .int n)]).2 = none ∧
    (updateById (sample rows) id [("v".toList, .int n)]).1.rows = rows := by
  have h1 := updates_ok (sample rows) [idCol] (fun r => sqlEq (r idCol) (.int id)) [("v".toList, .int n)]
    (by simp [sample]) (fun _ => rfl)
  refine ⟨h1, ?_⟩
  change (updateById (sample rows) id [("v".toList, .int n)]).2 = none at h1
  cases hx : updateById (sample rows) id [("v".toList, .int n)] with
  | mk t' e =>
  rw [hx] at h1
  simp only at h1
  subst h1
  have h3 := (C127_id (sample rows) t' id [("v".toList, .int n)] (by simp) hx).rows
  change List.Forall₂ _ rows t'.rows at h3
  change t'.rows = rows
  generalize t'.rows = rows' at h3
  clear hx
  induction h3 with
  | nil => rfl
  | cons hr _ ih =>
    rw [hr.2 (h _ List.mem_cons_self), ih (fun r hr => h r (List.mem_cons_of_mem _ hr))]

/-- **C127 (refuted: deleted rows stay as they are; times of changes are kept).** Rows that are marked as deleted are updated too, and
`updated_at` is not. -/
theorem C127_deleted_refuted (i v n u d : Int) (hd : d ≠ 0) :
    ∃ r, (updateById (sample [row i v u d]) i [("v".toList, .int n)]).1.rows = [r] ∧ r deletedCol = .int d ∧ r "v".toList = .int n ∧
      r updatedCol = .int u := by
  obtain ⟨c1, -, c3, c4⟩ := row_cells i v u d
  obtain ⟨u1, u2⟩ := setRow_updated [("v".toList, .int n)] (by simp) (row i v u d)
  refine ⟨setRow [("v".toList, .int n)] (row i v u d), ?_, ?_, ?_, ?_⟩
  · have h : sqlEq (row i v u d idCol) (.int i) = true := (sqlEq_iff _ _).2 ⟨by rw [c1]; simp, c1⟩
    simp [updateById, updates, sample, h]
  · rw [u2 deletedCol (show deletedCol ∉ ["v".toList] by decide), c4]
  · exact u1 _ _ (by simp)
  · rw [u2 updatedCol (show updatedCol ∉ ["v".toList] by decide), c3]

example : ((updateByWhere (sample [row 1 10 0 0, row 2 20 0 0, row 3 10 0 7]) [("v".toList, .one (.int 10)), (deletedCol, .many [.int 0])]
      [("v".toList, .null)]).1.rows.map (fun r => (r idCol, r "v".toList))) =
        [(.int 1, .null), (.int 2, .int 20), (.int 3, .int 10)] ∧
    (updateByWhere (sample [row 1 10 0 0]) [] [("v".toList, .null)]).2 = some .missingWhere ∧
    (updateByIds (sample [row 1 10 0 0]) [1] [("w".toList, .null)]).2 = some .column ∧
    ((updateByIds (sample [row 1 10 0 0, row 2 20 0 0]) [] [("v".toList, .null)]).1.rows.map (fun r => r "v".toList)) =
      [.int 10, .int 20] := by decide

/-! ## C128: SoftDelByTableNameAndId -/

theorem times_nodup (a b : Int) : (([(updatedCol, .int a), (deletedCol, .int b)] : Fields Cell).map (·.1)).Nodup := by
  change [updatedCol, deletedCol].Nodup
  decide

/-- **C128 (partial).** Without an error the row with the id is still there and is marked with the times; nothing else is changed. -/
theorem C128_marks_partial (t t' : Table) (id now1 now2 : Int) (h : softDel t id now1 now2 = (t', none)) :
    Changed (fun r => r idCol = .int id) [(updatedCol, .int now1), (deletedCol, .int now2)] t t' ∧
    ∀ r' ∈ t'.rows, r' idCol = .int id → r' updatedCol = .int now1 ∧ r' deletedCol = .int now2 := by
  have hc : Changed (fun r => r idCol = .int id) [(updatedCol, .int now1), (deletedCol, .int now2)] t t' := by
    refine updates_changed t _ _ _ (times_nodup now1 now2) _ (fun r => ?_) t' h
    rw [sqlEq_iff]
    exact ⟨fun h => h.2, fun h => ⟨by rw [h]; simp, h⟩⟩
  refine ⟨hc, ?_⟩
  have h3 := hc.rows
  generalize t'.rows = rows' at h3
  generalize t.rows = rows at h3
  clear h hc
  induction h3 with
  | nil => simp
  | @cons r r' rows rows' hr _ ih =>
    intro x hx hi
    rcases List.mem_cons.1 hx with rfl | hx
    · by_cases hrid : r idCol = .int id
      · have := (hr.1 hrid).1
        exact ⟨this updatedCol _ (by simp), this deletedCol _ (by simp)⟩
      · rw [hr.2 hrid] at hi
        exact absurd hi hrid
    · exact ih x hx hi

/-- **C128 (columns).** The columns are `id`, `updated_at` and `deleted_at`: the call reports a missing column exactly for tables that lack
one of them, and if they have none but these and another one, the other one is not touched. -/
theorem C128_columns (t : Table) (id now1 now2 : Int) :
    ((softDel t id now1 now2).2 = some .column ↔
      "id".toList ∉ t.cols ∨ "updated_at".toList ∉ t.cols ∨ "deleted_at".toList ∉ t.cols) ∧
    ∀ t', softDel t id now1 now2 = (t', none) → ∀ c, c ≠ "updated_at".toList → c ≠ "deleted_at".toList →
      t'.rows.map (fun r => r c) = t.rows.map (fun r => r c) := by
  constructor
  · unfold softDel updates
    rw [if_neg (by simp)]
    dsimp only
    have hany : (([(updatedCol, Cell.int now1), (deletedCol, .int now2)] : Fields Cell).map (·.1) ++ [idCol]).any (fun c => c ∉ t.cols) = true ↔
        "id".toList ∉ t.cols ∨ "updated_at".toList ∉ t.cols ∨ "deleted_at".toList ∉ t.cols := by
      rw [show "id".toList = idCol from rfl, show "updated_at".toList = updatedCol from rfl, show "deleted_at".toList = deletedCol from rfl]
      simp only [List.map_cons, List.map_nil, List.cons_append, List.nil_append, List.any_cons, List.any_nil, Bool.or_eq_true,
        decide_eq_true_eq, Bool.false_eq_true, or_false]
      generalize (idCol ∈ t.cols) = a, (updatedCol ∈ t.cols) = b, (deletedCol ∈ t.cols) = c
      tauto
    rw [← hany]
    split
    · rename_i h; exact ⟨fun _ => h, fun _ => rfl⟩
    · rename_i h
      refine ⟨fun h' => ?_, fun h' => absurd h' h⟩
      split at h' <;> simp at h'
  · intro t' h c c1 c2
    have h3 := (C128_marks_partial t t' id now1 now2 h).1.rows
    generalize t'.rows = rows' at h3
    generalize t.rows = rows at h3
    clear h
    induction h3 with
    | nil => rfl
    | @cons r r' rows rows' hr _ ih =>
      rw [List.map_cons, List.map_cons, ih]
      congr 1
      by_cases hrid : r idCol = .int id
      · refine (hr.1 hrid).2 c ?_
        change c ∉ [updatedCol, deletedCol]
        intro h
        rcases List.mem_cons.1 h with h | h
        · exact c1 h
        · exact c2 (List.mem_singleton.1 h)
      · rw [hr.2 hrid]

/-- **C128 (refuted: the time of the deletion stays).** Deleting again moves the time of the deletion, without an error. -/
theorem C128_again_refuted (i v a b : Int) (hab : a ≠ b) :
    ∃ t1 t2, softDel (sample [row i v 0 0]) i a a = (t1, none) ∧ softDel t1 i b b = (t2, none) ∧
      t1.rows.map (fun r => r deletedCol) = [.int a] ∧ t2.rows.map (fun r => r deletedCol) = [.int b] ∧ t1.rows ≠ t2.rows := by
  have hid : ∀ x y : Int, ∀ r : Row, setRow [(updatedCol, .int x), (deletedCol, .int y)] r idCol = r idCol := by
    intro x y r
    refine (setRow_updated _ (times_nodup x y) r).2 idCol ?_
    change idCol ∉ [updatedCol, deletedCol]
    decide
  have hdel : ∀ x y : Int, ∀ r : Row, setRow [(updatedCol, .int x), (deletedCol, .int y)] r deletedCol = .int y := by
    intro x y r
    exact (setRow_updated _ (times_nodup x y) r).1 deletedCol _ (by simp)
  have h0 : row i v 0 0 idCol = .int i := (row_cells i v 0 0).1
  let r1 := setRow [(updatedCol, .int a), (deletedCol, .int a)] (row i v 0 0)
  let r2 := setRow [(updatedCol, .int b), (deletedCol, .int b)] r1
  refine ⟨sample [r1], sample [r2], ?_, ?_, ?_, ?_, ?_⟩
  · have h : sqlEq (row i v 0 0 idCol) (.int i) = true := (sqlEq_iff _ _).2 ⟨by rw [h0]; simp, h0⟩
    simp [softDel, updates, sample, h, r1]
  · have h : sqlEq (r1 idCol) (.int i) = true := (sqlEq_iff _ _).2 ⟨by simp only [r1]; rw [hid, h0]; simp, by simp only [r1]; rw [hid, h0]⟩
    simp [softDel, updates, sample, h, r2]
  · simp only [sample, List.map_cons, List.map_nil, r1]; rw [hdel]
  · simp only [sample, List.map_cons, List.map_nil, r2]; rw [hdel]
  · intro h
    have h' := congrArg (List.map (fun r : Row => r deletedCol)) h
    simp only [sample, List.map_cons, List.map_nil, r2] at h'
    rw [hdel] at h'
    simp only [r1] at h'
    rw [hdel] at h'
    simp at h'
    exact hab h'

/-- **C128 (refuted: missing rows are reported).** A row that is not there gives no error. -/
theorem C128_missing_refuted : (softDel (sample [row 1 10 0 0]) 9 5 5).2 = none := by decide

example : ((softDel (sample [row 1 10 0 0, row 2 20 0 0]) 2 5 6).1.rows.map (fun r => (r idCol, r updatedCol, r deletedCol))) =
    [(.int 1, .int 0, .int 0), (.int 2, .int 5, .int 6)] := by decide

/-! ## C129: InsertToTable -/

/-- **C129.** Either all rows are added behind the others, or there is an error and the table is as it was; no rows are an error. -/
theorem C129_insert (t : Table) (data : List Row) :
    (∃ t', insertToTable t data = (t', none) ∧ data ≠ [] ∧ t'.cols = t.cols ∧ t'.rows = t.rows ++ data ∧ t.valid t'.rows = true) ∨
    (∃ e, insertToTable t data = (t, some e) ∧ (data = [] ∨ t.valid (t.rows ++ data) = false)) := by
  unfold insertToTable
  by_cases h : data = []
  · right
    exact ⟨.emptySlice, by rw [if_pos h], .inl h⟩
  · rw [if_neg h]
    cases hv : t.valid (t.rows ++ data) with
    | true => left; exact ⟨{ t with rows := t.rows ++ data }, by simp, h, rfl, rfl, hv⟩
    | false => right; exact ⟨.constraint, by simp, .inr rfl⟩

example : (insertToTable (sample [row 1 10 0 0]) [row 2 20 0 0]).1.rows.map (fun r => r idCol) = [.int 1, .int 2] ∧
    (insertToTable ⟨[idCol], [row 1 0 0 0], fun rows => decide ((rows.map (fun r => r idCol)).Nodup)⟩ [row 1 5 0 0]).2 =
      some .constraint := by decide

end Verif.Gorm
