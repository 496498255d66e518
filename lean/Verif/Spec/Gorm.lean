import Verif.Model.Gorm

/-!
# Specification of the statements the GORM helpers send

Statements as trees, the text and the arguments they are sent with, and what they mean.
-/

namespace Verif.Spec.Sql

open Verif.Gorm (Str Stmt Arg Result InsErr)

/-- `insert into table(columns) values rows`. -/
structure Insert (V : Type) where
  table : Str
  columns : List Str
  rows : List (List V)

namespace Insert

def text {V : Type} (s : Insert V) : Str :=
  "insert into ".toList ++ s.table ++ "(".toList ++
    List.intercalate [','] (s.columns.map (fun c => '`' :: (c ++ ['`']))) ++
    ") values ".toList ++ List.intercalate [','] (s.rows.map (fun _ => "(?)".toList))

def stmt {V : Type} (s : Insert V) : Stmt V := ⟨s.text, s.rows.map .row⟩

/-- The number of values it carries. -/
def size {V : Type} (s : Insert V) : Nat := (s.rows.map List.length).sum

/-- The value the `k`-th inserted row has in column `c`. -/
def cell {V : Type} (s : Insert V) (k : Nat) (c : Str) : Option V :=
  (s.rows[k]?).bind (fun row => (s.columns.zip row).lookup c)

end Insert

/-- What a caller should be told about an insert. -/
def verdict (r : Result) : Option InsErr :=
  match r.err with
  | some e => if "Duplicate entry".toList <:+: e then some .duplicate else some (.failed e)
  | none => if r.rows = 0 then some .noRows else none

/-- `update table set f = case when id = i then v … end, … where id in (ids)`. -/
structure Update (V : Type) where
  table : Str
  sets : List (Str × List (Int × V))
  ids : List Int

namespace Update

def text {V : Type} (s : Update V) : Str :=
  "update ".toList ++ s.table ++ " set ".toList ++
    List.intercalate [','] (s.sets.map (fun p =>
      p.1 ++ "= case ".toList ++ (p.2.map (fun _ => "when id = ? then ? ".toList)).flatten ++ "end".toList)) ++
    " where id in (?)".toList

def stmt {V : Type} (s : Update V) : Stmt V :=
  ⟨s.text, (s.sets.map (fun p => (p.2.map (fun w => [Arg.id w.1, Arg.val w.2])).flatten)).flatten ++ [.ids s.ids]⟩

/-- The table after the update: `none` is NULL; a `case` without a matching `when` is NULL. The column `id` itself must not be
among those set, or the outcome depends on the order in which the database assigns. -/
def apply {V : Type} (s : Update V) (tbl : Int → Str → Option V) (i : Int) (f : Str) : Option V :=
  if i ∈ s.ids then
    match s.sets.lookup f with
    | some ws => ws.lookup i
    | none => tbl i f
  else tbl i f

end Update

end Verif.Spec.Sql
