import Verif.Model.Zip
import Verif.Model.Strconv

/-!
# Model of `GetCurrentDir`, `ShellExec` and `Reload` (help/utils/runtime.go, cmd.go, sys.go)

On Unix. What the operating system does is a parameter: the working directory, the shell, the processes.
-/

namespace Verif.Sys

open Utf8 Paths

/-! ## GetCurrentDir -/

/-- `filepath.Abs` on Unix with the working directory `wd` (`os.Getwd` does not fail). -/
def absPath (wd p : Bytes) : Bytes := if isAbs p then clean p else joinPath wd p

/-- `GetCurrentDir`, help/utils/runtime.go:15-21; `args` is `os.Args`. -/
def getCurrentDir (wd : Bytes) (args : List Bytes) : Go Bytes :=
  match args with
  | [] => .error .index
  | a :: _ => .ok (Strings.replaceAll (absPath wd (dirOf a)) [92] [47])

/-! ## ShellExec -/

/-- What a command did: its status, what it wrote to stdout and stderr, and whether it ended the shell (`exit`, `exec`, `set -e`). -/
structure Outcome where
  status : Nat
  out : Bytes
  err : Bytes
  quits : Bool
deriving DecidableEq

/-- How the shell executes a line that is not empty and is not `exit`: from a state (variables, files, …) to the next. Commands that span
several lines or read stdin are in Model/ShellInput. -/
abbrev Exec (σ : Type) := σ → Bytes → σ × Outcome

/-- `sh` reading its commands from stdin: status, stdout, stderr and the state at the end; `last` is `$?`. -/
def sh {σ : Type} (ex : Exec σ) : σ → Nat → List Bytes → σ × Outcome
  | s, last, [] => (s, ⟨last, [], [], true⟩)
  | s, last, l :: ls =>
    if l = [] then sh ex s last ls
    else if l = lit "exit" then (s, ⟨last, [], [], true⟩)
    else
      let (s1, o) := ex s l
      if o.quits then (s1, o)
      else
        let (s2, r) := sh ex s1 o.status ls
        (s2, ⟨r.status, o.out ++ r.out, o.err ++ r.err, true⟩)

/-- `ShellExec`, help/utils/cmd.go:13-29: stdout, or an error with the text of stderr. `shell` is `none` if there is no program `sh`. -/
def shellExec {σ : Type} (shell : Option (Exec σ)) (s : σ) (cmd : Bytes) : σ × Except Bytes Bytes :=
  let input := cmd ++ [10] ++ lit "exit\n"
  match shell with
  | none => (s, .error [])
  | some ex =>
    let (s1, r) := sh ex s 0 (Strings.split input [10])
    (s1, if r.status ≠ 0 then .error r.err else .ok r.out)

/-! ## Reload -/

structure Proc where
  pid : Int
  ppid : Int
  group : Int
deriving DecidableEq

/-- The program `kill -1 arg` of a process in the group `group`: the processes that get the signal, and its success. The argument `0`
stands for the group of the caller; `may` tells which processes may be signalled. -/
def killHup (ps : List Proc) (may : Int → Bool) (group : Int) (arg : Bytes) : List Int × Bool :=
  match Strconv.parseInt arg with
  | (0, none) =>
    let l := (ps.filter (fun p => p.group = group ∧ may p.pid)).map (·.pid)
    (l, l ≠ [])
  | (n, none) =>
    if 0 < n ∧ n ∈ ps.map (·.pid) ∧ may n then ([n], true) else ([], false)
  | _ => ([], false)

/-- `Reload`, help/utils/sys.go:16-26: the processes that get SIGHUP, and whether the error is nil. -/
def reload (windows : Bool) (ps : List Proc) (may : Int → Bool) (self : Proc) : List Int × Bool :=
  if windows then ([], false)
  else killHup ps may self.group (Strconv.formatInt self.ppid)

end Verif.Sys
