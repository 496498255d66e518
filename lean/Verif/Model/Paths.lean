import Verif.Go.Strings

/-!
# Paths: `filepath.Clean`, `filepath.Join`, `IsMaliciousPath`, `Unzip`

`path/filepath` on Unix; the separator is `/` (47), `.` is 46. No symbolic links.
-/

namespace Verif.Paths

open Strings

def slash : Nat := 47
def dot : Bytes := [46]
def dotdot : Bytes := [46, 46]

/-- `filepath.IsAbs` on Unix. -/
def isAbs (p : Bytes) : Bool := hasPrefix p [slash]

/-- One path element of `filepath.Clean`; the elements kept so far, the last first. -/
def cleanStep (rooted : Bool) (stack : List Bytes) (e : Bytes) : List Bytes :=
  if e = [] ∨ e = dot then stack
  else if e = dotdot then
    match stack with
    | top :: rest => if top = dotdot then dotdot :: stack else rest
    | [] => if rooted then [] else [dotdot]
  else e :: stack

/-- `filepath.Clean` on Unix (the loop over the bytes is a loop over the elements between separators here). -/
def clean (p : Bytes) : Bytes :=
  let rooted := isAbs p
  let kept := ((split p [slash]).foldl (cleanStep rooted) []).reverse
  if rooted then slash :: join [slash] kept
  else if kept = [] then dot else join [slash] kept

/-- `filepath.Join` of two elements. -/
def joinPath (a b : Bytes) : Bytes :=
  if a ≠ [] then clean (a ++ [slash] ++ b)
  else if b ≠ [] then clean b
  else []

/-- `filepath.Dir`: clean the path up to the last separator. -/
def dirOf (p : Bytes) : Bytes := clean ((p.reverse.dropWhile (· != slash)).reverse)

/-- `IsMaliciousPath`, help/utils/files.go:317-319. -/
def isMaliciousPath (p : Bytes) : Bool := isAbs p || contains p dotdot

/-! ## `Unzip`, help/utils/zip.go:19-56 -/

/-- An entry of an archive. `openErr`: `f.Open()` fails; `copyErr`: reading the content fails. -/
structure Entry where
  name : Bytes
  isDir : Bool
  content : Bytes
  openErr : Bool
  copyErr : Bool
deriving DecidableEq

/-- What is done to the file system. -/
inductive Op
  | mkdir (p : Bytes)      -- `os.MkdirAll` for a directory entry
  | parent (p : Bytes)     -- `os.MkdirAll` of the directory of a file
  | write (p : Bytes) (content : Bytes)
deriving DecidableEq

/-- Failures of the operating system: `mkdirFails p`, `createFails p`. -/
structure Os where
  mkdirFails : Bytes → Bool
  createFails : Bytes → Bool

/-- The loop, zip.go:27-54: the paths so far, the operations so far; `none` is an error. -/
def unzipLoop (os : Os) (dest : Bytes) : List Entry → List Bytes → List Op → Option (List Bytes) × List Op
  | [], paths, ops => (some paths, ops)
  | f :: fs, paths, ops =>
    let fpath := joinPath dest f.name
    let paths := paths ++ [fpath]
    if f.isDir then unzipLoop os dest fs paths (ops ++ [.mkdir fpath])
    else
      let ops := ops ++ [.parent (dirOf fpath)]
      if os.mkdirFails (dirOf fpath) then (none, ops)
      else if f.openErr then (none, ops)
      else if os.createFails fpath then (none, ops)
      else
        let ops := ops ++ [.write fpath f.content]
        if f.copyErr then (none, ops) else unzipLoop os dest fs paths ops

/-- `Unzip`, zip.go:19-56, for an archive that can be opened. -/
def unzip (os : Os) (dest : Bytes) (files : List Entry) : Option (List Bytes) × List Op := unzipLoop os dest files [] []

end Verif.Paths
