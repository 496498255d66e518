import Verif.Model.GormExec
import Verif.Model.GormTable
import Verif.Spec.Gorm

/-!
# Statements with their values in place, and what a database does with them

The statements of `Spec.Sql` with the values where they belong. A database (as MySQL) that knows one table: it understands such statements if the names
are plain, takes an UPDATE row by row and assigns from left to right, checks the constraints at the end, and rejects everything else.
-/

namespace Verif.Spec.Sql

open Verif.Gorm (Str Tok Sent Cell Row Table DbErr chars sqlEq idCol)

/-- With commas between. -/
def commas {A : Type} : List (List (Tok A)) → List (Tok A)
  | [] => []
  | a :: l => a ++ (l.map (fun x => Tok.ch ',' :: x)).flatten

/-- `insert into table(columns) values (v,…),…` with the values in place. -/
def Insert.toks {A : Type} (s : Insert A) : List (Tok A) :=
  chars ("insert into ".toList ++ s.table ++ "(".toList) ++ commas (s.columns.map (fun c => chars ('`' :: (c ++ ['`'])))) ++
    chars ") values ".toList ++ commas (s.rows.map (fun r => .ch '(' :: (commas (r.map (fun v => [.bound v])) ++ [.ch ')'])))

/-- `when id = i then v `. -/
def whenToks {A : Type} (int : Int → A) (w : Int × A) : List (Tok A) :=
  chars "when id = ".toList ++ .bound (int w.1) :: (chars " then ".toList ++ [.bound w.2, .ch ' '])

/-- `f= case when … end`. -/
def setToks {A : Type} (int : Int → A) (p : Str × List (Int × A)) : List (Tok A) :=
  chars p.1 ++ chars "= case ".toList ++ (p.2.map (whenToks int)).flatten ++ chars "end".toList

/-- `update table set … where id in (…)` with the values in place. -/
def Update.toks {A : Type} (int : Int → A) (s : Update A) : List (Tok A) :=
  chars ("update ".toList ++ s.table ++ " set ".toList) ++ commas (s.sets.map (setToks int)) ++ chars " where id in (".toList ++
    commas (s.ids.map (fun i => [.bound (int i)])) ++ [.ch ')']

/-- The bound variables, in order. -/
def bounds {A : Type} : List (Tok A) → List A
  | [] => []
  | .ch _ :: l => bounds l
  | .bound a :: l => a :: bounds l

/-! ## The database -/

/-- A name that needs no quotes. -/
def Plain (s : Str) : Prop := s ≠ [] ∧ ∀ c ∈ s, c.isAlphanum = true ∨ c = '_'

inductive ExecErr
  | syntax
  | db (e : DbErr)
deriving DecidableEq

/-- `case when id = i then v … end`: the first that fits, else NULL. -/
def caseValue (r : Row) : List (Int × Cell) → Cell
  | [] => .null
  | (i, v) :: ws => if sqlEq (r idCol) (.int i) then v else caseValue r ws

/-- The assignments, one after the other; each sees the row as the ones before have left it. -/
def assignAll (r : Row) : List (Str × List (Int × Cell)) → Row
  | [] => r
  | (f, ws) :: sets => assignAll (fun c => if c = f then caseValue r ws else r c) sets

/-- `where id in (…)`. -/
def listed (ids : List Int) (r : Row) : Bool := ids.any (fun i => sqlEq (r idCol) (.int i))

def execUpdate (t : Table) (u : Update Cell) : Table × Option ExecErr :=
  if (u.sets.map (·.1)).any (fun c => c ∉ t.cols) || idCol ∉ t.cols then (t, some (.db .column))
  else
    let rows := t.rows.map (fun r => if listed u.ids r then assignAll r u.sets else r)
    if t.valid rows then ({ t with rows := rows }, none) else (t, some (.db .constraint))

/-- A new row; columns that are not named get their default. -/
def newRow (defaults : Row) (columns : List Str) (vs : List Cell) : Row := fun c => ((columns.zip vs).lookup c).getD (defaults c)

def execInsert (defaults : Row) (t : Table) (i : Insert Cell) : Table × Option ExecErr :=
  if i.columns.any (fun c => c ∉ t.cols) then (t, some (.db .column))
  else
    let rows := t.rows ++ i.rows.map (newRow defaults i.columns)
    if t.valid rows then ({ t with rows := rows }, none) else (t, some (.db .constraint))

/-- An UPDATE the database understands. -/
structure Update.Good (name : Str) (u : Update Cell) : Prop where
  table : u.table = name
  fields : u.sets ≠ []
  names : ∀ p ∈ u.sets, Plain p.1 ∧ p.2 ≠ []
  ids : u.ids ≠ []

/-- An INSERT the database understands. -/
structure Insert.Good (name : Str) (i : Insert Cell) : Prop where
  table : i.table = name
  names : ∀ c ∈ i.columns, Plain c
  distinct : i.columns.Nodup
  columns : i.columns ≠ []
  rows : i.rows ≠ []
  sizes : ∀ r ∈ i.rows, r.length = i.columns.length

/-- A database with the table `name`; `defaults` are the default values of its columns. -/
structure Db where
  name : Str
  defaults : Row

open Classical in
/-- What the database does with a statement. -/
noncomputable def Db.run (d : Db) (t : Table) (s : Sent Cell) : Table × Option ExecErr :=
  if s.extra ≠ [] then (t, some .syntax)
  else if h : ∃ u : Update Cell, u.Good d.name ∧ u.toks .int = s.text then execUpdate t h.choose
  else if h : ∃ i : Insert Cell, i.Good d.name ∧ i.toks = s.text then execInsert d.defaults t h.choose
  else (t, some .syntax)

/-- The table after some statements. -/
noncomputable def Db.after (d : Db) (t : Table) (l : List (Sent Cell)) : Table := l.foldl (fun t s => (d.run t s).1) t

end Verif.Spec.Sql
