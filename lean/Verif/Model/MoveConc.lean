import Verif.Model.Mutex

/-!
# `FileMove` called by several goroutines (help/utils/files.go)

Paths and files are numbered. `os.Rename` is one action of the operating system, which replaces a file at the destination. Whether `os.Stat` finds the directory, and whether `os.MkdirAll` and `os.Rename` are
allowed, may be different each time. The destination is not empty, and no path goes through a symbolic link (C158 is about those). A goroutine calls once; one that calls several times is several goroutines.
-/

namespace Verif.MoveConc

open Mutex (put)

/-- Where a call of `FileMove` is (help/utils/files.go:62-89). -/
inductive Pc
  | idle
  /-- before line 77; `again` is `revoke` -/
  | stat (src dst : Nat) (again : Bool)
  /-- before line 79 -/
  | mkdir (src dst : Nat) (again : Bool)
  /-- before line 88 -/
  | rename (src dst : Nat)
  | returned (src dst : Nat) (ok : Bool)
deriving DecidableEq

structure State where
  /-- the file at a path -/
  files : Nat → Option Nat
  pc : Nat → Pc

/-- What happens next; `ok` is whether the operating system finds the directory or lets the call pass. -/
inductive Act
  | call (i src dst : Nat)
  | step (i : Nat) (ok : Bool)
deriving DecidableEq

/-- `os.Rename`: without a file at `src` it fails. -/
def renamed (files : Nat → Option Nat) (src dst : Nat) : Option (Nat → Option Nat) :=
  match files src with
  | none => none
  | some f => some (if src = dst then files else put (put files dst (some f)) src none)

/-- The effect (help/utils/files.go:62-89); `none` if this cannot happen now. -/
def exec (s : State) : Act → Option State
  | .call i src dst =>
    match s.pc i with
    | .idle => some { s with pc := put s.pc i (.stat src dst false) }
    | _ => none
  | .step i ok =>
    match s.pc i with
    | .stat src dst again => some { s with pc := put s.pc i (if ok then .rename src dst else .mkdir src dst again) }
    | .mkdir src dst again =>
      some { s with pc := put s.pc i (if ok then (if again then .rename src dst else .stat src dst true) else .returned src dst false) }
    | .rename src dst =>
      match (if ok then renamed s.files src dst else none) with
      | none => some { s with pc := put s.pc i (.returned src dst false) }
      | some files => some ⟨files, put s.pc i (.returned src dst true)⟩
    | _ => none

/-- The actions one after the other. -/
def execs : List Act → State → Option State
  | [], s => some s
  | a :: as, s => (exec s a).bind (execs as)

def start (files : Nat → Option Nat) : State := ⟨files, fun _ => .idle⟩

end Verif.MoveConc
