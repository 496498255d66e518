import Verif.Model.Zip
import Verif.Model.FileIo
import Verif.Model.Csv

/-!
# The helpers that open files, in a process with a limited number of file descriptors

The other models of these functions say what happens to the file system; here the process is added, with the descriptors that it has
open. A call that opens a file fails if the limit is reached (`EMFILE`, before the path is looked at). `defer` closes when the function
returns. Not modelled: the garbage collector, which at some later time closes a file that nobody refers to any more (package os sets a
finalizer); descriptors that `MkdirAll`, `RemoveAll` and the runtime use for themselves.
-/

namespace Verif.OpenFiles

open Utf8 Fs Paths Spec.Path Zip

/-- A process: how many descriptors it may have open, and those it has open. (Numbers are not used again; Unix would.) -/
structure Proc where
  limit : Nat
  opened : List Nat
  fresh : Nat
deriving DecidableEq

/-- What `open(2)` does to the descriptors; `none` is `EMFILE`. -/
def Proc.open (p : Proc) : Option (Proc × Nat) :=
  if p.opened.length < p.limit then some ({ p with opened := p.opened ++ [p.fresh], fresh := p.fresh + 1 }, p.fresh) else none

/-- `Close`. -/
def Proc.close (p : Proc) (h : Nat) : Proc := { p with opened := p.opened.filter (fun x => x ≠ h) }

/-- The deferred calls of `Close`, the last first. -/
def Proc.closeAll (p : Proc) (ds : List Nat) : Proc := ds.reverse.foldl Proc.close p

/-- Opening a file, using it and closing it, as `FileMd5`, `ReadFile`, `ReadDir`, `ReadCsv` and `WriteCsv` do. `cannot`: there is nothing to
open. -/
def withFile {α : Type} (p : Proc) (cannot : Bool) (failed : α) (body : α) : α × Proc :=
  match p.open with
  | none => (failed, p)
  | some (p1, h) => if cannot then (failed, p) else (body, p1.close h)

/-- `FileMd5`, files.go:115-131 (`defer file.Close()` at 124). -/
def fileMd5P (md5 : Bytes → Bytes) (fs : FS) (p : Proc) (l : Loc) (cut : Option Nat) : (Bytes × Bool) × Proc :=
  withFile p (decide (fs l = none)) ([], false) (fileMd5 md5 fs l cut)

/-- `ImageFileToBase64`, files.go:215-223 (`ioutil.ReadFile` closes the file). -/
def imageFileToBase64P (fs : FS) (p : Proc) (l : Loc) (cut : Option Nat) : Bytes × Proc :=
  withFile p (decide (fs l = none)) [] (imageFileToBase64 fs l cut)

/-- `ReadCsv`, csv.go:15-31 (`defer fs.Close()` at 22). -/
def readCsvP (fs : FS) (p : Proc) (l : Loc) : Option (List (List Bytes)) × Proc :=
  withFile p (decide (fs l = none)) none (readCsv fs l)

/-- `WriteCsv`, csv.go:40-62 (`defer nfs.Close()` at 46). -/
def writeCsvP (fs : FS) (p : Proc) (l : Loc) (row : List Bytes) (wrote : Nat) : (FS × Bool) × Proc :=
  withFile p (decide (openKeep fs l = none)) (fs, false) (writeCsv fs l row wrote)

/-- `CopyFile`, files.go:199-212 (`defer` at 204 and 210). -/
def copyFileP (fs : FS) (p : Proc) (dst src : Loc) (wrote : Nat) : (FS × Option Nat) × Proc :=
  match p.open with
  | none => ((fs, none), p)
  | some (p1, h1) =>
    if fs src = none then ((fs, none), p)
    else
      match p1.open with
      | none => ((fs, none), p1.closeAll [h1])
      | some (p2, h2) =>
        if openKeep fs dst = none then ((fs, none), p1.closeAll [h1])
        else (copyFile fs dst src wrote, p2.closeAll [h1, h2])

/-- `BreakPointContinue` with `makeFileContent`, breakpoint_continue.go:27-35, 46-59: the `defer f.Close()` at 57 comes after the return
at 54. -/
def breakPointContinueP (cwd : Loc) (io : UploadIo) (fs : FS) (p : Proc) (cont fileName : Bytes) (contentNumber : Int) (fileMd5 : Bytes) :
    (FS × Bool) × Proc :=
  match (if io.mkdirFails then none else mkdirAll fs (loc cwd (breakpointDir ++ fileMd5 ++ lit "/"))) with
  | none => ((fs, false), p)
  | some fs =>
    let l := loc cwd (chunkPath fileMd5 fileName contentNumber)
    match p.open with
    | none => ((fs, false), p)
    | some (p1, h) =>
      match (if io.createFails then none else create fs l) with
      | none => ((fs, false), p)
      | some fs =>
        let fs := appendTo fs l (cont.take io.wrote)
        if cont.length ≤ io.wrote then ((fs, true), p1.closeAll [h]) else ((fs, false), p1)

/-- The loop of `MakeFile`, breakpoint_continue.go:72-79. The error of `ReadFile` is dropped, also if there is no descriptor left. -/
def makeLoopP (cwd : Loc) (io : MakeIo) (fileName fileMd5 : Bytes) (target : Loc) : List Nat → FS → Proc → (FS × Bool) × Proc
  | [], fs, p => ((fs, true), p)
  | k :: ks, fs, p =>
    let r := withFile p (decide (fs (loc cwd (chunkPath fileMd5 fileName k)) = none)) [] (readChunk cwd io fs fileName fileMd5 k)
    if io.writeFails k then ((fs.set target none, false), r.2)
    else makeLoopP cwd io fileName fileMd5 target ks (appendTo fs target r.1) r.2

/-- `MakeFile`, breakpoint_continue.go:61-81 (`defer fd.Close()` at 71). -/
def makeFileP (cwd : Loc) (io : MakeIo) (fs : FS) (p : Proc) (fileName fileMd5 : Bytes) : (FS × Bool) × Proc :=
  match withFile p (decide (fs (loc cwd (breakpointDir ++ fileMd5)) = none)) none
      (if fs (loc cwd (breakpointDir ++ fileMd5)) ≠ some .dir then none else some io.listing) with
  | (none, p) => ((fs, false), p)
  | (some rd, p) =>
    let fs := (mkdirAll fs (loc cwd finishDir)).getD fs
    let target := loc cwd (finishDir ++ fileName)
    match p.open with
    | none => ((fs, false), p)
    | some (p1, h) =>
      match (if io.openFails then none else openKeep fs target) with
      | none => ((fs, false), p)
      | some fs =>
        let r := makeLoopP cwd io fileName fileMd5 target (List.range rd.length) fs p1
        (r.1, r.2.closeAll [h])

/-- The loop of `ZipFiles`, zip.go:82-117; the function literal closes the file before the next one is opened (`defer` at 89). -/
def zipLoopP (cwd : Loc) (io : ZipIo) (fs : FS) (oldForm newForm : Bytes) : List Bytes → List Entry → Proc → (List Entry × Bool) × Proc
  | [], a, p => ((a, true), p)
  | file :: rest, a, p =>
    match p.open with
    | none => ((a, false), p)
    | some (p1, h) =>
      match fs (loc cwd file) with
      | none => ((a, false), p)
      | some node =>
        if io.openFails file then ((a, false), p)
        else
          let name := Strings.replaceAll file oldForm newForm
          let p := p1.closeAll [h]
          if io.headerFails name ∨ 65535 < name.length then ((a, false), p)
          else
            match node with
            | .dir => ((a ++ [⟨name, true, [], false, false⟩], false), p)
            | .file c =>
              if name.getLast? = some slash then
                if c = [] then zipLoopP cwd io fs oldForm newForm rest (a ++ [⟨name, true, [], false, false⟩]) p
                else ((a ++ [⟨name, true, [], false, false⟩], false), p)
              else
                match io.copyFails file with
                | some k => ((a ++ [⟨name, false, c.take k, false, false⟩], false), p)
                | none => zipLoopP cwd io fs oldForm newForm rest (a ++ [⟨name, false, c, false, false⟩]) p

/-- `ZipFiles`, zip.go:67-119. -/
def zipFilesP (cwd : Loc) (io : ZipIo) (enc : List Entry → Bytes) (fs : FS) (p : Proc) (filename : Bytes) (files : List Bytes)
    (oldForm newForm : Bytes) : (FS × Bool) × Proc :=
  match p.open with
  | none => ((fs, false), p)
  | some (p1, h) =>
    match create fs (loc cwd filename) with
    | none => ((fs, false), p)
    | some fs =>
      let r := zipLoopP cwd io fs oldForm newForm files [] p1
      ((fs.set (loc cwd filename) (some (.file (io.closeFails.getD (enc r.1.1)))), r.1.2), r.2.closeAll [h])

/-- The loop of `Unzip`, zip.go:27-54. `defer outFile.Close()` (zip.go:47) waits for the end of `Unzip`: `ds` are the files deferred so
far. (`inFile` is no file of the system.) -/
def unzipLoopP (cwd : Loc) (zip : Loc) (bytes dest : Bytes) : List Entry → List Bytes → FS → Proc → List Nat →
    (FS × Option (List Bytes)) × Proc × List Nat
  | [], paths, fs, p, ds => ((fs, some paths), p, ds)
  | f :: rest, paths, fs, p, ds =>
    let fpath := joinPath dest f.name
    let paths := paths ++ [fpath]
    if f.isDir then unzipLoopP cwd zip bytes dest rest paths ((mkdirAll fs (loc cwd fpath)).getD fs) p ds
    else
      match mkdirAll fs (loc cwd (dirOf fpath)) with
      | none => ((fs, none), p, ds)
      | some fs =>
        if f.openErr ∨ fs zip ≠ some (.file bytes) then ((fs, none), p, ds)
        else
          match p.open with
          | none => ((fs, none), p, ds)
          | some (p1, h) =>
            match create fs (loc cwd fpath) with
            | none => ((fs, none), p, ds)
            | some fs =>
              let ds := ds ++ [h]
              if fs zip ≠ some (.file bytes) then ((fs, none), p1, ds)
              else
                let fs := fs.set (loc cwd fpath) (some (.file f.content))
                if f.copyErr then ((fs, none), p1, ds) else unzipLoopP cwd zip bytes dest rest paths fs p1 ds

/-- `Unzip`, zip.go:19-56. `zip.OpenReader` closes the file if it is no archive. -/
def unzipP (cwd : Loc) (dec : Bytes → Option (List Entry)) (fs : FS) (p : Proc) (zipFile dest : Bytes) : (FS × Option (List Bytes)) × Proc :=
  match p.open with
  | none => ((fs, none), p)
  | some (p1, h) =>
    match fs (loc cwd zipFile) with
    | none => ((fs, none), p)
    | some .dir => ((fs, none), p1.close h)
    | some (.file b) =>
      match dec b with
      | none => ((fs, none), p1.close h)
      | some es =>
        let r := unzipLoopP cwd (loc cwd zipFile) b dest es [] fs p1 []
        (r.1, r.2.1.closeAll (h :: r.2.2))

end Verif.OpenFiles
