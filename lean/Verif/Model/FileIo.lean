import Verif.Model.Files
import Verif.Model.Md5
import Verif.Model.Base64

/-!
# Model of further helpers of `help/utils/files.go` that read, make and remove files
-/

namespace Verif.Fs

open Utf8

/-- Reading a whole file: `cut` is the number of bytes delivered before an error (`none`: no error). A directory can be opened but not
read. The bytes read and whether there was no error. -/
def readFile (fs : FS) (l : Loc) (cut : Option Nat) : Bytes × Bool :=
  match fs l with
  | some (.file c) =>
    match cut with
    | none => (c, true)
    | some k => (c.take k, false)
  | _ => ([], false)

/-- `FileMd5`, help/utils/files.go:115-131. -/
def fileMd5 (md5 : Bytes → Bytes) (fs : FS) (l : Loc) (cut : Option Nat) : Bytes × Bool :=
  match readFile fs l cut with
  | (c, true) => (Md5.hex ((Md5.Hash.new.write c).sum md5 []), true)
  | (_, false) => ([], false)

/-- `ImageFileToBase64`, help/utils/files.go:215-223. -/
def imageFileToBase64 (fs : FS) (l : Loc) (cut : Option Nat) : Bytes :=
  match readFile fs l cut with
  | (c, true) => lit "data:image/png;base64," ++ Base64.encode c
  | (_, false) => []

/-- `DeLFile`, help/utils/files.go:95-97. -/
def delFile (cwd : Loc) (fs : FS) (p : Bytes) : FS × Bool := removeAllPath cwd fs p

/-- `MkDir`, help/utils/files.go:249-251. -/
def mkDir (fs : FS) (l : Loc) : FS × Bool :=
  match mkdirAll fs l with
  | none => (fs, false)
  | some fs => (fs, true)

end Verif.Fs
