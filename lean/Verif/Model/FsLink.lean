import Verif.Model.Paths
import Verif.Spec.Paths
import Verif.Go.Prelude

/-!
# A file system with symbolic links, walked as the operating system does

Unlike in Model/Fs a path is resolved step by step: what it goes through must exist and be a directory, a link is followed (at most 40 of
them, as on Linux), and a path with a trailing slash must lead to a directory. The helpers of help/utils/files.go, zip.go on it.
No permissions, no hard links, no failing devices.
-/

namespace Verif.FsLink

open Utf8 Paths Spec.Path

abbrev Loc := List Bytes

inductive Node
  | dir
  | file (content : Bytes)
  | link (target : Bytes)
deriving DecidableEq

abbrev FS := Loc → Option Node

/-- The file system with another node at `l`. -/
def FS.set (fs : FS) (l : Loc) (n : Option Node) : FS := fun x => if x = l then n else fs x

/-- The errors told apart: `os.IsNotExist` holds for `noEnt` only. -/
inductive Err
  | noEnt | notDir | loop | exist | isDir | inval
deriving DecidableEq

/-- How a walk ends: at something; before its last name, which does not exist; with an error; at a link that is to be followed. -/
inductive Way
  | found (l : Loc)
  | missing (d : Loc) (e : Bytes)
  | err (e : Err)
  | link (d : Loc) (target : Bytes) (rest : List Bytes)
deriving DecidableEq

/-- The walk from `l` along the elements up to the first link (path_lookup of Linux). A link in the last place counts only if `follow`. -/
def go (fs : FS) (follow : Bool) : Loc → List Bytes → Way
  | l, [] => .found l
  | l, e :: es =>
    if fs l ≠ some .dir then .err .notDir
    else if e = [] ∨ e = dot then go fs follow l es
    else if e = dotdot then go fs follow l.dropLast es
    else
      match fs (l ++ [e]) with
      | none => if es = [] then .missing l e else .err .noEnt
      | some (.link t) => if es = [] ∧ follow = false then .found (l ++ [e]) else .link l t es
      | some _ => go fs follow (l ++ [e]) es

/-- Where a path starts. -/
def start (l : Loc) (p : Bytes) : Loc := if p.head? = some 47 then [] else l

/-- The walk with at most `n` links. -/
def walk (fs : FS) (follow : Bool) : Nat → Loc → List Bytes → Way
  | n, l, es =>
    match go fs follow l es with
    | .link d t rest =>
      match n with
      | 0 => .err .loop
      | n + 1 => walk fs follow n (start d t) (elems t ++ rest)
    | w => w

/-- Where the operating system gets for a path. -/
def resolve (fs : FS) (follow : Bool) (cwd : Loc) (p : Bytes) : Way :=
  if p = [] then .err .noEnt else walk fs follow 40 (start cwd p) (elems p)

/-- The node of a walk. -/
def nodeOf (fs : FS) : Way → Except Err Node
  | .found l =>
    match fs l with
    | some n => .ok n
    | none => .error .noEnt
  | .missing _ _ => .error .noEnt
  | .err e => .error e
  | .link _ _ _ => .error .loop

/-- The walk ends at a directory. -/
def atDir (fs : FS) (w : Way) : Bool :=
  match nodeOf fs w with
  | .ok .dir => true
  | _ => false

/-- `os.Stat` -/
def stat (fs : FS) (cwd : Loc) (p : Bytes) : Except Err Node := nodeOf fs (resolve fs true cwd p)

/-- `os.Lstat` -/
def lstat (fs : FS) (cwd : Loc) (p : Bytes) : Except Err Node := nodeOf fs (resolve fs false cwd p)

/-! ## Looking at a path -/

/-- `PathExists`, help/utils/files.go:24-36: whether there is a directory, and whether there was no error. -/
def pathExists (fs : FS) (cwd : Loc) (p : Bytes) : Bool × Bool :=
  match stat fs cwd p with
  | .ok n => if n = .dir then (true, true) else (false, false)
  | .error e => if e = .noEnt then (false, true) else (false, false)

/-- `FileExist`, help/utils/files.go:103-109. -/
def fileExist (fs : FS) (cwd : Loc) (p : Bytes) : Bool :=
  match lstat fs cwd p with
  | .ok n => decide (n ≠ .dir)
  | .error e => decide (e ≠ .noEnt)

/-- `IsDir`, help/utils/files.go:229-235. -/
def isDirectory (fs : FS) (cwd : Loc) (p : Bytes) : Bool :=
  match stat fs cwd p with
  | .ok n => decide (n = .dir)
  | .error _ => false

/-- `IsFile`, help/utils/files.go:241-243. -/
def isFilePath (fs : FS) (cwd : Loc) (p : Bytes) : Bool := !isDirectory fs cwd p

/-- `FileIsExisted`, help/utils/files.go:325-331. -/
def fileIsExisted (fs : FS) (cwd : Loc) (p : Bytes) : Bool :=
  match stat fs cwd p with
  | .error .noEnt => false
  | _ => true

/-! ## Making directories -/

/-- `mkdir` of Linux for a path whose last element is not empty. -/
def mkdir (fs : FS) (l : Loc) (es : List Bytes) : Except Err FS :=
  match walk fs false 40 l es with
  | .found _ => .error .exist
  | .missing d e => .ok (fs.set (d ++ [e]) (some .dir))
  | .err e => .error e
  | .link _ _ _ => .error .loop

/-- `os.MkdirAll` (go 1.18, os/path.go); the elements of the path from the last to the first, and where it starts. A trailing separator is
skipped, the parent is made first, and a `mkdir` that fails is accepted if `Lstat` finds a directory. -/
def mkdirAllR (fs : FS) (l : Loc) : List Bytes → FS × Bool
  | [] => (fs, decide (fs l = some .dir))
  | e :: r =>
    match walk fs true 40 l (e :: r).reverse with
    | .found x => (fs, decide (fs x = some .dir))
    | _ =>
      if e = [] then mkdirAllR fs l r
      else
        let parent := if r = [] ∨ r = [[]] then (fs, true) else mkdirAllR fs l r
        if parent.2 = false then (parent.1, false)
        else
          match mkdir parent.1 l (e :: r).reverse with
          | .ok fs => (fs, true)
          | .error _ => (parent.1, atDir parent.1 (walk parent.1 false 40 l (e :: r).reverse))

/-- `os.MkdirAll` of a path. -/
def mkdirAll (fs : FS) (cwd : Loc) (p : Bytes) : FS × Bool :=
  if p = [] then (fs, false) else mkdirAllR fs (start cwd p) (elems p).reverse

/-- `MkDir`, help/utils/files.go:249-251. -/
def mkDir (fs : FS) (cwd : Loc) (p : Bytes) : FS × Bool := mkdirAll fs cwd p

/-- `CreateDir`, help/utils/files.go:41-56: the file system afterwards and whether there was no error. -/
def createDir (fs : FS) (cwd : Loc) : List Bytes → FS × Bool
  | [] => (fs, true)
  | v :: vs =>
    match pathExists fs cwd v with
    | (_, false) => (fs, false)
    | (true, true) => createDir fs cwd vs
    | (false, true) =>
      let r := mkdirAll fs cwd v
      if r.2 then createDir r.1 cwd vs else (r.1, false)

/-! ## Reading and writing -/

/-- The place of the file that `open` with `O_CREATE` opens for writing. -/
def openLoc (fs : FS) (cwd : Loc) (p : Bytes) : Except Err Loc :=
  match resolve fs true cwd p with
  | .found l => if fs l = some .dir then .error .isDir else .ok l
  | .missing d e => .ok (d ++ [e])
  | .err e => .error e
  | .link _ _ _ => .error .loop

/-- The content of a file, empty if there is none. -/
def content (fs : FS) (l : Loc) : Bytes :=
  match fs l with
  | some (.file c) => c
  | _ => []

/-- Reading a whole file (`ioutil.ReadFile`; also `os.Open` with `io.Copy`). -/
def readFile (fs : FS) (cwd : Loc) (p : Bytes) : Except Err Bytes :=
  match stat fs cwd p with
  | .ok (.file c) => .ok c
  | .ok _ => .error .isDir
  | .error e => .error e

/-- `CopyFile`, help/utils/files.go:199-212: the target is opened without `O_TRUNC` and written from its beginning; all bytes get written. A
directory can be opened as the source, and is found out by reading. -/
def copyFile (fs : FS) (cwd : Loc) (dst src : Bytes) : FS × Bool :=
  match stat fs cwd src with
  | .error _ => (fs, false)
  | .ok n =>
    match openLoc fs cwd dst with
    | .error _ => (fs, false)
    | .ok l =>
      match n with
      | .file c => (fs.set l (some (.file (c ++ (content fs l).drop c.length))), true)
      | _ => (fs.set l (some (.file (content fs l))), false)

/-! ## Removing and moving -/

/-- `os.RemoveAll` (go 1.18, os/removeall_at.go). Nothing is done for the empty path, and a path that ends with the element `.` is refused. Else
trailing slashes are dropped and the last name itself is removed, with all below if it is a directory; a link is removed, not followed. Nothing to
remove is no error, a file on the way is. Not for paths whose last element but for trailing slashes is `.` or `..` or that consist of slashes. -/
def removeAll (fs : FS) (cwd : Loc) (p : Bytes) : FS × Bool :=
  if p = [] then (fs, true)
  else if (elems p).getLast? = some dot then (fs, false)
  else
  match walk fs false 40 (start cwd p) ((elems p).reverse.dropWhile (· = [])).reverse with
  | .found l => (fun x => if l <+: x then none else fs x, true)
  | .missing _ _ => (fs, true)
  | .err .noEnt => (fs, true)
  | _ => (fs, false)

/-- `DeLFile`, help/utils/files.go:95-97. -/
def delFile (fs : FS) (cwd : Loc) (p : Bytes) : FS × Bool := removeAll fs cwd p

/-- `os.Rename` (go 1.18, os/file_unix.go): the last names are not followed. Refused if the new name is a directory (but for another text that
names the old one), if the old one does not exist, if the new one lies below the old one; a directory does not replace anything else. -/
def rename (fs : FS) (cwd : Loc) (src dst : Bytes) : FS × Bool :=
  match resolve fs false cwd src with
  | .found s =>
    match (match resolve fs false cwd dst with
      | .found d => some d
      | .missing d e => some (d ++ [e])
      | _ => none) with
    | none => (fs, false)
    | some d =>
      if fs d = some .dir ∧ (src = dst ∨ s ≠ d) then (fs, false)
      else if s = d then (fs, true)
      else if s <+: d then (fs, false)
      else if fs s = some .dir ∧ fs d ≠ none then (fs, false)
      else (fun x => if d <+: x then fs (s ++ x.drop d.length) else if s <+: x then none else fs x, true)
  | _ => (fs, false)

/-- `filepath.Abs` on Unix, the working directory being `cwd`. -/
def absPath (cwd : Loc) (p : Bytes) : Bytes := if isAbs p then clean p else joinPath (slash :: Strings.join [slash] cwd) p

/-- `FileMove`, help/utils/files.go:62-89: the jump back is taken once, after the directory has been made. -/
def fileMove (fs : FS) (cwd : Loc) (src dst : Bytes) : FS × Bool :=
  if dst = [] then (fs, true)
  else
    let src := absPath cwd src
    let dst := absPath cwd dst
    let dir := dirOf dst
    match stat fs cwd dir with
    | .ok _ => rename fs cwd src dst
    | .error _ =>
      let r := mkdirAll fs cwd dir
      if r.2 = false then (r.1, false)
      else
        match stat r.1 cwd dir with
        | .ok _ => rename r.1 cwd src dst
        | .error _ =>
          let r := mkdirAll r.1 cwd dir
          if r.2 = false then (r.1, false) else rename r.1 cwd src dst

/-! ## Unpacking -/

/-- The loop of `Unzip`, zip.go:27-54, for an archive whose entries can be read: an error of `MkdirAll` for a directory entry is dropped. -/
def unzipLoop (cwd : Loc) (dest : Bytes) : List Entry → FS → FS × Bool
  | [], fs => (fs, true)
  | f :: rest, fs =>
    let fpath := joinPath dest f.name
    if f.isDir then unzipLoop cwd dest rest (mkdirAll fs cwd fpath).1
    else
      let r := mkdirAll fs cwd (dirOf fpath)
      if r.2 = false then (r.1, false)
      else
        match openLoc r.1 cwd fpath with
        | .error _ => (r.1, false)
        | .ok l => unzipLoop cwd dest rest (r.1.set l (some (.file f.content)))

end Verif.FsLink
