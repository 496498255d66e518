import Verif.Model.Files
import Verif.Model.UploadConc

/-!
# `WriteCsv` by several goroutines (help/utils/csv.go)

As in Model/Files, one action per call of the operating system: opening, seeking to the end, and the one write of `Flush`, which stores all bytes. The
actions of the goroutines (or of several processes) interleave in any way; nobody else touches the file.
-/

namespace Verif.Fs

open Utf8
open Mutex (put)

/-- Where a goroutine is. -/
inductive CsvPc
  | idle
  /-- before line 48 -/
  | opened
  /-- before line 59, at position `o` of the file -/
  | ready (o : Nat)
  | returned (ok : Bool)
deriving DecidableEq

structure CsvConc where
  fs : FS
  pc : Nat → CsvPc
  /-- how many calls have returned without error (not part of the program) -/
  calls : Nat

/-- The row that is written whatever the argument, csv.go:53. -/
def csvLine : Bytes := csvRow [lit "1", lit "2", lit "3", lit "4", lit "5,6"]

/-- The next action of goroutine `i`, all calls for the file at `l`; `none` if there is none. -/
def csvExec (l : Loc) (s : CsvConc) (i : Nat) : Option CsvConc :=
  match s.pc i with
  /- line 42 -/
  | .idle =>
    match openKeep s.fs l with
    | none => some { s with pc := put s.pc i (.returned false) }
    | some fs => some { s with fs := fs, pc := put s.pc i .opened }
  /- line 48 -/
  | .opened => some { s with pc := put s.pc i (.ready (content s.fs l).length) }
  /- line 59 -/
  | .ready o => some ⟨s.fs.set l (some (.file (writeAt (content s.fs l) o csvLine))), put s.pc i (.returned true), s.calls + 1⟩
  | .returned _ => none

/-- The goroutines take turns as `is` says. -/
def csvExecs (l : Loc) : List Nat → CsvConc → Option CsvConc
  | [], s => some s
  | i :: is, s => (csvExec l s i).bind (csvExecs l is)

end Verif.Fs
