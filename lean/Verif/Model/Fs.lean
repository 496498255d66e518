import Verif.Spec.Paths
import Verif.Model.Strconv

/-!
# A file system, and the helpers that use it

A file system maps locations (names from the root, see `Spec.Path`) to directories and files; no symbolic links, no permissions, no
links between files. Whether the operating system fails is an input of each call.
-/

namespace Verif.Fs

open Utf8

abbrev Loc := List Bytes

inductive Node
  | dir
  | file (content : Bytes)
deriving DecidableEq

abbrev FS := Loc → Option Node

/-- The file system with another node at `l`. -/
def FS.set (fs : FS) (l : Loc) (n : Option Node) : FS := fun x => if x = l then n else fs x

def isFile : Option Node → Bool
  | some (.file _) => true
  | _ => false

/-- `os.MkdirAll`: fails if a file is in the way. -/
def mkdirAll (fs : FS) (l : Loc) : Option FS :=
  if (List.range (l.length + 1)).any (fun i => isFile (fs (l.take i))) then none
  else some (fun x => if x <+: l ∧ fs x = none then some .dir else fs x)

/-- `os.Create`: the directory must exist, and there must be no directory of that name; an existing file is emptied. -/
def create (fs : FS) (l : Loc) : Option FS :=
  if fs l.dropLast = some .dir ∧ fs l ≠ some .dir then some (fs.set l (some (.file []))) else none

/-- Opening with `O_CREATE` and without `O_TRUNC`: an existing file is kept. -/
def openKeep (fs : FS) (l : Loc) : Option FS :=
  match fs l with
  | some .dir => none
  | some (.file _) => some fs
  | none => if fs l.dropLast = some .dir then some (fs.set l (some (.file []))) else none

/-- The content of a file, empty if there is none. -/
def content (fs : FS) (l : Loc) : Bytes :=
  match fs l with
  | some (.file c) => c
  | _ => []

/-- Appending to a file. -/
def appendTo (fs : FS) (l : Loc) (b : Bytes) : FS := fs.set l (some (.file (content fs l ++ b)))

/-- `os.RemoveAll`: the path and all below. (A path ending in `.` is refused, see `removeAllPath`.) -/
def removeAll (fs : FS) (l : Loc) : FS := fun x => if l <+: x then none else fs x

/-! ## Resumable uploads, help/utils/breakpoint_continue.go -/

/-- `breakpointDir`, breakpoint_continue.go:12. -/
def breakpointDir : Bytes := lit "./breakpointDir/"

/-- `finishDir`, breakpoint_continue.go:13. -/
def finishDir : Bytes := lit "./fileDir/"

/-- What happens during an upload: where it fails or the machine stops, and how many bytes get written. -/
structure UploadIo where
  mkdirFails : Bool
  createFails : Bool
  wrote : Nat

/-- The path of a chunk, breakpoint_continue.go:28, 47. -/
def chunkPath (fileMd5 fileName : Bytes) (n : Int) : Bytes :=
  breakpointDir ++ fileMd5 ++ lit "/" ++ fileName ++ lit "_" ++ Strconv.formatInt n

/-- `BreakPointContinue` with `makeFileContent`, breakpoint_continue.go:27-35, 46-59: the file system afterwards and whether there
was no error. (The total number of chunks is not used; the path returned is left out.) -/
def breakPointContinue (cwd : Loc) (io : UploadIo) (fs : FS) (cont fileName : Bytes) (contentNumber : Int) (fileMd5 : Bytes) : FS × Bool :=
  match (if io.mkdirFails then none else mkdirAll fs (Spec.Path.loc cwd (breakpointDir ++ fileMd5 ++ lit "/"))) with
  | none => (fs, false)
  | some fs =>
    let l := Spec.Path.loc cwd (chunkPath fileMd5 fileName contentNumber)
    match (if io.createFails then none else create fs l) with
    | none => (fs, false)
    | some fs => (appendTo fs l (cont.take io.wrote), decide (cont.length ≤ io.wrote))

/-- What happens during `MakeFile`: the answer of `ReadDir` (if there is a directory), whether the target cannot be opened, how many
bytes a `ReadFile` delivers that fails (`none`: it does not fail), and whether a write fails. -/
structure MakeIo where
  listing : List Bytes
  openFails : Bool
  readCut : Nat → Option Nat
  writeFails : Nat → Bool

/-- What `ReadFile` returns for chunk `k`; the error is dropped, breakpoint_continue.go:73. -/
def readChunk (cwd : Loc) (io : MakeIo) (fs : FS) (fileName fileMd5 : Bytes) (k : Nat) : Bytes :=
  let c := content fs (Spec.Path.loc cwd (chunkPath fileMd5 fileName k))
  match io.readCut k with
  | none => c
  | some m => c.take m

/-- The loop, breakpoint_continue.go:72-79. -/
def makeLoop (cwd : Loc) (io : MakeIo) (fileName fileMd5 : Bytes) (target : Loc) : List Nat → FS → FS × Bool
  | [], fs => (fs, true)
  | k :: ks, fs =>
    if io.writeFails k then (fs.set target none, false)
    else makeLoop cwd io fileName fileMd5 target ks (appendTo fs target (readChunk cwd io fs fileName fileMd5 k))

/-- `MakeFile`, breakpoint_continue.go:61-81: the file system afterwards and whether there was no error. -/
def makeFile (cwd : Loc) (io : MakeIo) (fs : FS) (fileName fileMd5 : Bytes) : FS × Bool :=
  if fs (Spec.Path.loc cwd (breakpointDir ++ fileMd5)) ≠ some .dir then (fs, false)
  else
    let fs := (mkdirAll fs (Spec.Path.loc cwd finishDir)).getD fs
    let target := Spec.Path.loc cwd (finishDir ++ fileName)
    match (if io.openFails then none else openKeep fs target) with
    | none => (fs, false)
    | some fs => makeLoop cwd io fileName fileMd5 target (List.range io.listing.length) fs

/-- The answer of `ReadDir` for the directory of the upload: its names, each once. -/
def Listing (cwd : Loc) (fs : FS) (fileMd5 : Bytes) (names : List Bytes) : Prop :=
  names.Nodup ∧ ∀ n, n ∈ names ↔ fs (Spec.Path.loc cwd (breakpointDir ++ fileMd5) ++ [n]) ≠ none

/-- `os.RemoveAll` of a path: nothing for the empty path, an error if the path ends in `.`. If it ends in `..`, all below that
directory is removed, but not the directory itself, which is an error (nothing happens if what is before the `..` does not exist).
A file on the way is an error. (Directories that a path enters and leaves again by `..` are taken to exist.) -/
def removeAllPath (cwd : Loc) (fs : FS) (p : Bytes) : FS × Bool :=
  if p = [] then (fs, true)
  else if p = [46] ∨ [47, 46].isSuffixOf p then (fs, false)
  else if [47, 46, 46].isSuffixOf p then
    match fs (Spec.Path.loc cwd (p.take (p.length - 3))) with
    | none => (fs, true)
    | some (.file _) => (fs, false)
    | some .dir => (fun x => if Spec.Path.loc cwd p <+: x ∧ x ≠ Spec.Path.loc cwd p then none else fs x, false)
  else if (List.range (Spec.Path.loc cwd p).length).any (fun i => isFile (fs ((Spec.Path.loc cwd p).take i))) then (fs, false)
  else (removeAll fs (Spec.Path.loc cwd p), true)

/-- `RemoveChunk`, breakpoint_continue.go:83-86. -/
def removeChunk (cwd : Loc) (fs : FS) (fileMd5 : Bytes) : FS × Bool := removeAllPath cwd fs (breakpointDir ++ fileMd5)

end Verif.Fs
