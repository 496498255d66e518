import Verif.Model.Gorm

/-!
# Model of the wrappers of `gorm_tools/gorm.go:21-98` on a table

What GORM (v2) and the database make of the calls: one statement, executed as a whole or not at all. A cell is NULL, a number or a text;
two cells are equal in SQL if they are the same and not NULL (MySQL's conversions between numbers and texts are not modelled). Hooks,
transactions of the caller and `InsertToTable` of anything but complete rows are not modelled.
-/

namespace Verif.Gorm

inductive Cell
  | null
  | int (n : Int)
  | text (s : Str)
deriving DecidableEq, Repr

/-- A row: the cell of every column. -/
abbrev Row := Str → Cell

/-- `valid` tells which contents the keys and constraints of the table admit. -/
structure Table where
  cols : List Str
  rows : List Row
  valid : List Row → Bool

/-- The errors. -/
inductive DbErr
  /-- a column the table does not have -/
  | column
  /-- a key or another constraint -/
  | constraint
  /-- `gorm.ErrMissingWhereClause` -/
  | missingWhere
  /-- `gorm.ErrEmptySlice` -/
  | emptySlice
deriving DecidableEq, Repr

def idCol : Str := "id".toList
def updatedCol : Str := "updated_at".toList
def deletedCol : Str := "deleted_at".toList

/-- A condition on a column in a map given to `Where`: a value, or a slice of values. -/
inductive Cond
  | one (c : Cell)
  | many (cs : List Cell)
deriving DecidableEq, Repr

/-- `=`, in SQL true only if neither is NULL. -/
def sqlEq (a b : Cell) : Bool := a ≠ .null && a = b

/-- `clause.Eq` and `clause.IN`: nil becomes `IS NULL`; no values become `IN (NULL)`. -/
def Cond.holds (c : Cell) : Cond → Bool
  | .one .null => c = .null
  | .one v => sqlEq c v
  | .many vs => vs.any (fun v => sqlEq c v)

/-- The row with some cells replaced. -/
def setRow (upd : Fields Cell) (r : Row) : Row := fun c => (upd.lookup c).getD (r c)

/-- `Updates` with a map, under a WHERE clause (`none` if there is none) that reads the columns `reads`: no statement for an empty map, no
statement without a WHERE clause. -/
def updates (t : Table) (reads : List Str) (cond : Option (Row → Bool)) (upd : Fields Cell) : Table × Option DbErr :=
  if upd = [] then (t, none)
  else
    match cond with
    | none => (t, some .missingWhere)
    | some p =>
      if (upd.map (·.1) ++ reads).any (fun c => c ∉ t.cols) then (t, some .column)
      else
        let rows := t.rows.map (fun r => if p r then setRow upd r else r)
        if t.valid rows then ({ t with rows := rows }, none) else (t, some .constraint)

/-- `Where("id in (?)", ids)`; without ids it is `id in (NULL)`. -/
def idIn (ids : List Int) (r : Row) : Bool := ids.any (fun i => sqlEq (r idCol) (.int i))

/-- `InsertToTable`, gorm_tools/gorm.go:21-30, of complete rows. -/
def insertToTable (t : Table) (data : List Row) : Table × Option DbErr :=
  if data = [] then (t, some .emptySlice)
  else if t.valid (t.rows ++ data) then ({ t with rows := t.rows ++ data }, none) else (t, some .constraint)

/-- `DelByTableNameAndId`, gorm_tools/gorm.go:33-44: without a model there is no soft delete. -/
def delById (t : Table) (ids : List Int) : Table × Option DbErr :=
  if idCol ∉ t.cols then (t, some .column)
  else if t.valid (t.rows.filter (fun r => !idIn ids r)) then ({ t with rows := t.rows.filter (fun r => !idIn ids r) }, none)
  else (t, some .constraint)

/-- `UpdateByTableNameAndId`, gorm_tools/gorm.go:47-56. -/
def updateById (t : Table) (id : Int) (upd : Fields Cell) : Table × Option DbErr :=
  updates t [idCol] (some (fun r => sqlEq (r idCol) (.int id))) upd

/-- `UpdateByTableNameAndIds`, gorm_tools/gorm.go:58-67. -/
def updateByIds (t : Table) (ids : List Int) (upd : Fields Cell) : Table × Option DbErr :=
  updates t [idCol] (some (idIn ids)) upd

/-- `UpdateByTableNameAndWhere`, gorm_tools/gorm.go:69-80: an empty map gives no WHERE clause. -/
def updateByWhere (t : Table) (cond : List (Str × Cond)) (upd : Fields Cell) : Table × Option DbErr :=
  updates t (cond.map (·.1)) (if cond = [] then none else some (fun r => cond.all (fun c => c.2.holds (r c.1)))) upd

/-- `SoftDelByTableNameAndId`, gorm_tools/gorm.go:86-98, with the two readings of the clock. -/
def softDel (t : Table) (id : Int) (now1 now2 : Int) : Table × Option DbErr :=
  updates t [idCol] (some (fun r => sqlEq (r idCol) (.int id))) [(updatedCol, .int now1), (deletedCol, .int now2)]

end Verif.Gorm
