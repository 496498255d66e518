import Verif.Go.Prelude

/-!
# Model of `gorm_tools/gorm.go:100-207` and `gorm_tools/update.go`

Strings are lists of characters. A map is an association list with distinct keys; the order in which a `range` over it yields
the keys is an input (`Env.keys`, `UEnv.order`, `UEnv.fields`), and may differ from loop to loop. The database is an input
as well: `exec` tells what `db.Exec` reports for a statement, given all statements sent before. `dump` is what
`dumpStructToMapForInsert`, gorm.go:192-207, yields for a record (JSON is not modelled).
-/

namespace Verif.Gorm

abbrev Str := List Char

/-- `map[string]interface{}` -/
abbrev Fields (V : Type) := List (Str × V)

/-- `map[int64]map[string]interface{}` -/
abbrev IdMap (V : Type) := List (Int × Fields V)

/-- An argument of `db.Exec`. -/
inductive Arg (V : Type)
  | row (vs : List V)
  | id (i : Int)
  | val (v : V)
  | ids (l : List Int)
deriving DecidableEq, Repr

/-- A call of `db.Exec`. -/
structure Stmt (V : Type) where
  sql : Str
  args : List (Arg V)
deriving DecidableEq, Repr

/-- `dbRet.Error` and `dbRet.RowsAffected`. -/
structure Result where
  err : Option Str
  rows : Int
deriving DecidableEq, Repr

/-- The errors of `BatchInsertTableRecords`, in the order of the code, and that of the first lines of
`SplitInsertTableRecords`. -/
inductive InsErr
  | dump (e : Str)
  | duplicate
  | failed (e : Str)
  | noRows
deriving DecidableEq, Repr

structure Env (R V : Type) where
  nil : V
  dump : R → Except Str (Fields V)
  exec : List (Stmt V) → Stmt V → Result
  keys : List (Stmt V) → Fields V → List Str

/-- `strings.TrimSuffix`. -/
def trimSuffix (s suf : Str) : Str := if suf.isSuffixOf s then s.take (s.length - suf.length) else s

/-- `strings.Contains`. -/
def contains : Str → Str → Bool
  | [], sub => sub.isPrefixOf []
  | c :: s, sub => sub.isPrefixOf (c :: s) || contains s sub

/-- `strings.Join`. -/
def join (sep : Str) : List Str → Str
  | [] => []
  | [a] => a
  | a :: as => a ++ sep ++ join sep as

/-- The text of the insert, gorm.go:166-174. -/
def insertSql (table : Str) (names : List Str) (rows : Nat) : Str :=
  let quoted := names.map (fun f => "`".toList ++ f ++ "`".toList)
  let sql := "insert into ".toList ++ table ++ "(".toList ++ join ",".toList quoted ++ ") values ".toList
  let sql := (List.range rows).foldl (fun s _ => s ++ "(?),".toList) sql
  trimSuffix sql ",".toList

/-- gorm.go:141-147 -/
def dumpAll {R V : Type} (env : Env R V) : List R → Except Str (List (Fields V))
  | [] => .ok []
  | r :: rs =>
    match env.dump r with
    | .error e => .error e
    | .ok m =>
      match dumpAll env rs with
      | .error e => .error e
      | .ok ms => .ok (m :: ms)

/-- `BatchInsertTableRecords`, gorm.go:134-189. `hist` are the statements sent so far. -/
def batchInsert {R V : Type} (env : Env R V) (table : Str) (records : List R) (hist : List (Stmt V)) :
    List (Stmt V) × Option InsErr :=
  match records with
  | [] => (hist, none)
  | _ =>
    match dumpAll env records with
    | .error e => (hist, some (.dump e))
    | .ok [] => (hist, none)
    | .ok (m :: ms) =>
      let names := env.keys hist m
      let values := (m :: ms).map (fun item => Arg.row (names.map (fun name => (item.lookup name).getD env.nil)))
      let stmt : Stmt V := ⟨insertSql table names values.length, values⟩
      let ret := env.exec hist stmt
      let errString := match ret.err with | none => "<nil>".toList | some e => e
      if contains errString "Duplicate entry".toList then (hist ++ [stmt], some .duplicate)
      else
        match ret.err with
        | some e => (hist ++ [stmt], some (.failed e))
        | none => if ret.rows = 0 then (hist ++ [stmt], some .noRows) else (hist ++ [stmt], none)

/-- The loop of `SplitInsertTableRecords`, gorm.go:117-128. -/
def splitLoop {R V : Type} (env : Env R V) (table : Str) (max : Nat) : Nat → List R → List (Stmt V) →
    Go (List (Stmt V) × Option InsErr)
  | 0, _, _ => .error .diverge
  | fuel + 1, records, hist =>
    if records.length = 0 then .ok (hist, none)
    else
      let insertLen := if records.length > max then max else records.length
      match batchInsert env table (records.take insertLen) hist with
      | (hist, some e) => .ok (hist, some e)
      | (hist, none) => splitLoop env table max fuel (records.drop insertLen) hist

/-- `SplitInsertTableRecords`, gorm.go:101-131. -/
def splitInsert {R V : Type} (env : Env R V) (table : Str) (fuel : Nat) (records : List R) (hist : List (Stmt V)) :
    Go (List (Stmt V) × Option InsErr) :=
  match records with
  | [] => .ok (hist, none)
  | r :: _ =>
    match env.dump r with
    | .error e => .ok (hist, some (.dump e))
    | .ok m =>
      if m.length = 0 then .ok (hist, none)
      else splitLoop env table (65000 / m.length) fuel records hist

/-! ## Updates -/

inductive UpdErr
  | fields
  | failed (e : Str)
deriving DecidableEq, Repr

structure UEnv (V : Type) where
  exec : List (Stmt V) → Stmt V → Result
  /-- the order of the `n`-th loop over a map of ids, after the statements sent so far -/
  order : List (Stmt V) → Nat → IdMap V → IdMap V
  fields : List (Stmt V) → Fields V → List Str

/-- `m[k] = v` -/
def mapSet {V : Type} (m : IdMap V) (k : Int) (v : Fields V) : IdMap V :=
  if (m.lookup k).isSome then m.map (fun e => if e.1 = k then (k, v) else e) else m ++ [(k, v)]

/-- The variables of the loop, update.go:16-19. -/
structure Slicing (V : Type) where
  index : Nat
  total : Nat
  tmp : IdMap V
  slices : List (IdMap V)

/-- `maxUpdateLen`, update.go:14. -/
def maxUpdateLen : Nat := 500

/-- The body of the loop, update.go:21-29. -/
def slice1 {V : Type} (len : Nat) (s : Slicing V) (e : Int × Fields V) : Slicing V :=
  let tmp := if s.index = 0 then [] else s.tmp
  let tmp := mapSet tmp e.1 e.2
  let index := s.index + 1
  let total := s.total + 1
  if index = maxUpdateLen ∨ total = len then ⟨0, total, tmp, s.slices ++ [tmp]⟩ else ⟨index, total, tmp, s.slices⟩

/-- The first loop of `SplitUpdateTableFieldWithoutVersionByID`, update.go:14-30; `m` in the order of the iteration. -/
def slices {V : Type} (m : IdMap V) : List (IdMap V) := (m.foldl (slice1 m.length) ⟨0, 0, [], []⟩).slices

/-- The inner loop, update.go:61-68: the text and the arguments for one field. -/
def caseOf {V : Type} (field : Str) : IdMap V → Str × List (Arg V) → Option (Str × List (Arg V))
  | [], acc => some acc
  | (id, upd) :: m, (sql, args) =>
    match upd.lookup field with
    | none => none
    | some v => caseOf field m (sql ++ "when id = ? then ? ".toList, args ++ [.id id, .val v])

/-- The loop over the fields, update.go:59-70; `n` counts the loops over ids. -/
def casesOf {V : Type} (env : UEnv V) (hist : List (Stmt V)) (m : IdMap V) : Nat → List Str → Str × List (Arg V) →
    Option (Str × List (Arg V))
  | _, [], acc => some acc
  | n, f :: fs, (sql, args) =>
    match caseOf f (env.order hist n m) (sql ++ f ++ "= case ".toList, args) with
    | none => none
    | some (sql, args) => casesOf env hist m (n + 1) fs (sql ++ "end,".toList, args)

/-- `BatchUpdateTableFieldWithoutVersionByID`, update.go:43-84. -/
def batchUpdate {V : Type} (env : UEnv V) (table : Str) (m : IdMap V) (hist : List (Stmt V)) : List (Stmt V) × Option UpdErr :=
  if m.length = 0 then (hist, none)
  else
    let updateField := match env.order hist 0 m with
      | [] => []
      | (_, item) :: _ => env.fields hist item
    match casesOf env hist m 1 updateField ([], []) with
    | none => (hist, some .fields)
    | some (caseSQL, args) =>
      let sql := "update ".toList ++ table ++ " set ".toList ++ trimSuffix caseSQL ",".toList ++ " where id in (?)".toList
      let allID := (env.order hist (1 + updateField.length) m).map (·.1)
      let stmt : Stmt V := ⟨sql, args ++ [.ids allID]⟩
      match (env.exec hist stmt).err with
      | some e => (hist ++ [stmt], some (.failed e))
      | none => (hist ++ [stmt], none)

/-- The second loop of `SplitUpdateTableFieldWithoutVersionByID`, update.go:32-37. -/
def updateAll {V : Type} (env : UEnv V) (table : Str) : List (IdMap V) → List (Stmt V) → List (Stmt V) × Option UpdErr
  | [], hist => (hist, none)
  | m :: ms, hist =>
    match batchUpdate env table m hist with
    | (hist, some e) => (hist, some e)
    | (hist, none) => updateAll env table ms hist

/-- `SplitUpdateTableFieldWithoutVersionByID`, update.go:13-40. -/
def splitUpdate {V : Type} (env : UEnv V) (table : Str) (m : IdMap V) (hist : List (Stmt V)) : List (Stmt V) × Option UpdErr :=
  updateAll env table (slices (env.order hist 0 m)) hist

end Verif.Gorm
