import Verif.Model.Fs
import Verif.Go.Prelude
import Verif.Go.Strings
import Mathlib.Data.Rat.Defs
import Mathlib.Algebra.Order.Field.Rat

/-!
# File helpers (help/utils/files.go, csv.go) on the file system of `Model/Fs.lean`
-/

namespace Verif.Fs

open Utf8

/-! ## Looking at a path -/

/-- The answer of `os.Stat` (and of `os.Lstat`, there being no symbolic links): a node; `ENOENT`, for which `os.IsNotExist` holds; or
`ENOTDIR`, for which it does not, if a file is on the way. -/
inductive Stat
  | ok (n : Node)
  | notExist
  | notDir
deriving DecidableEq

def stat (fs : FS) (l : Loc) : Stat :=
  match fs l with
  | some n => .ok n
  | none => if (List.range l.length).any (fun i => isFile (fs (l.take i))) then .notDir else .notExist

/-- `PathExists`, help/utils/files.go:24-36: whether there is a directory, and whether there was no error. -/
def pathExists (fs : FS) (l : Loc) : Bool × Bool :=
  match stat fs l with
  | .ok .dir => (true, true)
  | .ok (.file _) => (false, false)
  | .notExist => (false, true)
  | .notDir => (false, false)

/-- `CreateDir`, help/utils/files.go:41-56: the file system afterwards and whether there was no error. -/
def createDir (fs : FS) : List Loc → FS × Bool
  | [] => (fs, true)
  | v :: vs =>
    match pathExists fs v with
    | (_, false) => (fs, false)
    | (true, true) => createDir fs vs
    | (false, true) =>
      match mkdirAll fs v with
      | none => (fs, false)
      | some fs => createDir fs vs

/-- `FileExist`, help/utils/files.go:103-109. -/
def fileExist (fs : FS) (l : Loc) : Bool :=
  match stat fs l with
  | .ok n => decide (n ≠ .dir)
  | .notExist => false
  | .notDir => true

/-- `IsDir`, help/utils/files.go:229-235. -/
def isDirectory (fs : FS) (l : Loc) : Bool :=
  match stat fs l with
  | .ok n => decide (n = .dir)
  | _ => false

/-- `IsFile`, help/utils/files.go:241-243. -/
def isFilePath (fs : FS) (l : Loc) : Bool := !isDirectory fs l

/-- `FileIsExisted`, help/utils/files.go:325-331. -/
def fileIsExisted (fs : FS) (l : Loc) : Bool :=
  match stat fs l with
  | .ok _ => true
  | .notExist => false
  | .notDir => true

/-! ## Moving and copying -/

/-- `os.Rename`: refused if the new name is a directory, if the old one does not exist, if the new one lies below the old one, or if
there is no directory for the new one; a directory does not replace a file. -/
def rename (fs : FS) (src dst : Loc) : Option FS :=
  if fs dst = some .dir then none
  else if fs src = none then none
  else if src = dst then some fs
  else if src <+: dst then none
  else if fs dst.dropLast ≠ some .dir then none
  else if fs src = some .dir ∧ fs dst ≠ none then none
  else some (fun x => if dst <+: x then fs (src ++ x.drop dst.length) else if src <+: x then none else fs x)

/-- The directory of the target is created if `Stat` fails, help/utils/files.go:75-87. -/
def ensureDir (fs : FS) (d : Loc) : Option FS :=
  match stat fs d with
  | .ok _ => some fs
  | _ => mkdirAll fs d

/-- `FileMove`, help/utils/files.go:62-89. (After a successful `MkdirAll` the second `Stat` succeeds; the jump back is left out.) -/
def fileMove (cwd : Loc) (fs : FS) (src dst : Bytes) : FS × Bool :=
  if dst = [] then (fs, true)
  else
    let s := Spec.Path.loc cwd src
    let d := Spec.Path.loc cwd dst
    match ensureDir fs d.dropLast with
    | none => (fs, false)
    | some fs =>
      match rename fs s d with
      | none => (fs, false)
      | some fs => (fs, true)

/-- `CopyFile`, help/utils/files.go:199-212: the target is opened without `O_TRUNC` and written from its beginning; `wrote` bytes get
written. The result is the number of bytes; `none` is an error of opening (or of reading a directory). -/
def copyFile (fs : FS) (dst src : Loc) (wrote : Nat) : FS × Option Nat :=
  match fs src with
  | some (.file c) =>
    match openKeep fs dst with
    | none => (fs, none)
    | some fs =>
      let part := c.take wrote
      (fs.set dst (some (.file (part ++ (content fs dst).drop part.length))), some part.length)
  | some .dir => ((openKeep fs dst).getD fs, none)
  | none => (fs, none)

/-! ## CSV -/

/-- `fieldNeedsQuotes` of `encoding/csv` with a comma, for fields that do not begin with a space. -/
def needsQuotes (f : Bytes) : Bool :=
  decide (f = [92, 46]) || f.any (fun c => c == 44 || c == 34 || c == 13 || c == 10)

/-- A field as written by `csv.Writer` with `UseCRLF`. -/
def csvField (f : Bytes) : Bytes :=
  if needsQuotes f then
    [34] ++ f.flatMap (fun c => if c = 34 then [34, 34] else if c = 13 then [] else if c = 10 then [13, 10] else [c]) ++ [34]
  else f

/-- A row as written by `csv.Writer` with `Comma = ','` and `UseCRLF`. -/
def csvRow (r : List Bytes) : Bytes := Strings.join [44] (r.map csvField) ++ [13, 10]

/-- `WriteCsv`, help/utils/csv.go:40-62: `wrote` bytes get written by `Flush`, whose error is dropped. The parameter `content` is not
used. -/
def writeCsv (fs : FS) (l : Loc) (_content : List Bytes) (wrote : Nat) : FS × Bool :=
  match openKeep fs l with
  | none => (fs, false)
  | some fs =>
    let row := [lit "1", lit "2", lit "3", lit "4", lit "5,6"]
    (appendTo fs l ((csvRow row).take wrote), true)

/-! ## Scanning -/

/-- The loop of `ScanDir`, help/utils/files.go:177-188. -/
def scanLoop (again : Bytes → Go (Option (List Bytes))) (dir : Bytes) : List (Bytes × Bool) → List Bytes → Go (Option (List Bytes))
  | [], files => pure (some files)
  | (name, true) :: rest, files => do
    match ← again (dir ++ lit "/" ++ name) with
    | none => pure none
    | some item => scanLoop again dir rest (files ++ item)
  | (name, false) :: rest, files => scanLoop again dir rest (files ++ [dir ++ lit "/" ++ name])

/-- `ScanDir`, help/utils/files.go:174-193. `readDir` is the answer of `ReadDir` for a location: names and whether each is a directory,
or an error (`none`). The empty path is an error. The fuel bounds the depth; if it is exceeded the result is `diverge`. -/
def scanDir (cwd : Loc) (readDir : Loc → Option (List (Bytes × Bool))) : Nat → Bytes → Go (Option (List Bytes))
  | 0, _ => .error .diverge
  | fuel + 1, dir =>
    let dir := Strings.trimSuffix dir (lit "/")
    match (if dir = [] then none else readDir (Spec.Path.loc cwd dir)) with
    | none => pure none
    | some infos => scanLoop (scanDir cwd readDir fuel) dir infos []

/-! ## Sizes -/

/-- The loop of `FormatByte`, help/utils/files.go:163-165. -/
def scaleLoop : Nat → Rat → Rat
  | 0, f => f
  | k + 1, f => if f > 1024 then scaleLoop k (f / 1024) else f

/-- `FormatByte`, help/utils/files.go:159-168. `fmt2` is `fmt.Sprintf("%.2f", _)`; the loop declares its own `i`, so the unit is always
the first one. -/
def formatByte (fmt2 : Rat → Bytes) (_size : Int) : Bytes :=
  let fSize : Rat := 32
  let units := [lit "B", lit "KB", lit "MB", lit "GB", lit "TB", lit "PB"]
  let i := 0
  fmt2 (scaleLoop 5 fSize) ++ lit " " ++ units.getD i []

end Verif.Fs
