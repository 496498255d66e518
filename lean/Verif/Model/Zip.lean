import Verif.Model.Paths
import Verif.Model.Fs

/-!
# Model of `ZipFiles`, and of `Unzip` on a file system (help/utils/zip.go)

An archive is a list of entries; its bytes are made by a function `enc` and read by a function `dec`, which are parameters
(package archive/zip with its compression). Modes and times of files are left out.
-/

namespace Verif.Strings

/-- `strings.Replace(s, old, new, -1)`. -/
def replaceAll (s old new : Bytes) : Bytes :=
  if old = new then s
  else if old = [] then new ++ (explode s.length s).flatMap (· ++ new)
  else join new (split s old)

end Verif.Strings

namespace Verif.Zip

open Fs Paths Spec.Path

/-- What may go wrong in `ZipFiles`: opening a file, writing a header, copying (what was copied before), and closing the archive (what is in
the file then). -/
structure ZipIo where
  openFails : Bytes → Bool
  headerFails : Bytes → Bool
  copyFails : Bytes → Option Nat
  closeFails : Option Bytes

/-- The loop of `ZipFiles`, zip.go:82-117: the entries written so far. `CreateHeader` makes a directory entry of a name that ends in `/`,
to which nothing can be written, and refuses names of more than 65535 bytes; a directory cannot be read. -/
def zipLoop (cwd : Loc) (io : ZipIo) (fs : FS) (oldForm newForm : Bytes) : List Bytes → List Entry → List Entry × Bool
  | [], a => (a, true)
  | file :: rest, a =>
    match fs (loc cwd file) with
    | none => (a, false)
    | some node =>
      if io.openFails file then (a, false)
      else
        let name := Strings.replaceAll file oldForm newForm
        if io.headerFails name ∨ 65535 < name.length then (a, false)
        else
          match node with
          | .dir => (a ++ [⟨name, true, [], false, false⟩], false)
          | .file c =>
            if name.getLast? = some slash then
              if c = [] then zipLoop cwd io fs oldForm newForm rest (a ++ [⟨name, true, [], false, false⟩])
              else (a ++ [⟨name, true, [], false, false⟩], false)
            else
              match io.copyFails file with
              | some k => (a ++ [⟨name, false, c.take k, false, false⟩], false)
              | none => zipLoop cwd io fs oldForm newForm rest (a ++ [⟨name, false, c, false, false⟩])

/-- `ZipFiles`, zip.go:67-119. The archive is closed by `defer`, also after an error, and an error of closing it is dropped. If the archive
itself is among the files, it is read as the empty file that it was made (the code reads what has been flushed). -/
def zipFiles (cwd : Loc) (io : ZipIo) (enc : List Entry → Bytes) (fs : FS) (filename : Bytes) (files : List Bytes) (oldForm newForm : Bytes) :
    FS × Bool :=
  match create fs (loc cwd filename) with
  | none => (fs, false)
  | some fs =>
    let r := zipLoop cwd io fs oldForm newForm files []
    (fs.set (loc cwd filename) (some (.file (io.closeFails.getD (enc r.1)))), r.2)

/-- The loop of `Unzip`, zip.go:27-54, on a file system. An entry that overwrites the archive itself (`zip`, with content `bytes`) cannot be
read any more, nor can those that follow. The content of an entry with `copyErr` is what is read before the error. -/
def unzipLoop (cwd : Loc) (zip : Loc) (bytes dest : Bytes) : List Entry → List Bytes → FS → FS × Option (List Bytes)
  | [], paths, fs => (fs, some paths)
  | f :: rest, paths, fs =>
    let fpath := joinPath dest f.name
    let paths := paths ++ [fpath]
    if f.isDir then unzipLoop cwd zip bytes dest rest paths ((mkdirAll fs (loc cwd fpath)).getD fs)
    else
      match mkdirAll fs (loc cwd (dirOf fpath)) with
      | none => (fs, none)
      | some fs =>
        if f.openErr ∨ fs zip ≠ some (.file bytes) then (fs, none)
        else
          match create fs (loc cwd fpath) with
          | none => (fs, none)
          | some fs =>
            if fs zip ≠ some (.file bytes) then (fs, none)
            else
              let fs := fs.set (loc cwd fpath) (some (.file f.content))
              if f.copyErr then (fs, none) else unzipLoop cwd zip bytes dest rest paths fs

/-- `Unzip`, zip.go:19-56, on a file system. -/
def unzip (cwd : Loc) (dec : Bytes → Option (List Entry)) (fs : FS) (zipFile dest : Bytes) : FS × Option (List Bytes) :=
  match fs (loc cwd zipFile) with
  | some (.file b) =>
    match dec b with
    | none => (fs, none)
    | some es => unzipLoop cwd (loc cwd zipFile) b dest es [] fs
  | _ => (fs, none)

end Verif.Zip
