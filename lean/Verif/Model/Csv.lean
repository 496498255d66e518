import Verif.Model.Files

/-!
# Model of `ReadCsv` (help/utils/csv.go)

`csv.Reader` of the standard library with its default settings (comma, no comments, quotes not lazy, every record with as many
fields as the first one), as a machine that reads one byte after the other; the library reads line by line.
-/

namespace Verif.Fs

open Utf8

/-- `readLine`: `\r\n` becomes `\n`, and a `\r` before the end of the file is dropped. -/
def csvNorm : Bytes → Bytes
  | [] => []
  | [13] => []
  | 13 :: 10 :: s => 10 :: csvNorm s
  | c :: s => c :: csvNorm s

/-- Where the reader is: at the start of a record, at the start of another field, in a field without quotes, between quotes, or behind a
quote that ends the field unless another one follows. -/
inductive CsvMode
  | recordStart
  | fieldStart
  | bare (acc : Bytes)
  | quoted (acc : Bytes)
  | quote (acc : Bytes)
deriving DecidableEq

/-- The records read, the fields of the current record, and where the reader is. -/
structure CsvState where
  records : List (List Bytes)
  fields : List Bytes
  mode : CsvMode
deriving DecidableEq

def CsvState.addField (s : CsvState) (f : Bytes) : CsvState := ⟨s.records, s.fields ++ [f], .fieldStart⟩

def CsvState.addRecord (s : CsvState) (f : Bytes) : CsvState := ⟨s.records ++ [s.fields ++ [f]], [], .recordStart⟩

/-- One byte in `readRecord`; `none` is `ErrBareQuote` or `ErrQuote`. -/
def csvStep (s : CsvState) (c : Nat) : Option CsvState :=
  match s.mode with
  | .recordStart =>
    if c = 10 then some s else if c = 44 then some (s.addField []) else if c = 34 then some { s with mode := .quoted [] }
    else some { s with mode := .bare [c] }
  | .fieldStart =>
    if c = 10 then some (s.addRecord []) else if c = 44 then some (s.addField []) else if c = 34 then some { s with mode := .quoted [] }
    else some { s with mode := .bare [c] }
  | .bare acc =>
    if c = 10 then some (s.addRecord acc) else if c = 44 then some (s.addField acc) else if c = 34 then none
    else some { s with mode := .bare (acc ++ [c]) }
  | .quoted acc => if c = 34 then some { s with mode := .quote acc } else some { s with mode := .quoted (acc ++ [c]) }
  | .quote acc =>
    if c = 10 then some (s.addRecord acc) else if c = 44 then some (s.addField acc)
    else if c = 34 then some { s with mode := .quoted (acc ++ [34]) } else none

/-- The end of the file. -/
def csvEnd (s : CsvState) : Option (List (List Bytes)) :=
  match s.mode with
  | .recordStart => some s.records
  | .fieldStart => some (s.addRecord []).records
  | .bare acc => some (s.addRecord acc).records
  | .quoted _ => none
  | .quote acc => some (s.addRecord acc).records

/-- `ReadAll`: also fails if a record has another number of fields than the first one (`ErrFieldCount`). -/
def readAll (s : Bytes) : Option (List (List Bytes)) := do
  let st ← (csvNorm s).foldlM csvStep ⟨[], [], .recordStart⟩
  let rs ← csvEnd st
  if rs.all (fun r => r.length == (rs.headD []).length) then some rs else none

/-- `ReadCsv`, help/utils/csv.go:15-31: `none` for nil. -/
def readCsv (fs : FS) (l : Loc) : Option (List (List Bytes)) :=
  match fs l with
  | some (.file c) => readAll c
  | _ => none

end Verif.Fs
