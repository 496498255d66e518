import Verif.Model.Sys

/-!
# Model of `ShellExec` (help/utils/cmd.go) with commands that read stdin or span several lines

`ShellExec` gives the shell its commands through stdin (cmd.go:18-23), which the commands inherit. POSIX (sh, STDIN) asks the shell to read no further than the line of the command, so a command that reads stdin gets the text
behind its line; a command that is not complete at the end of its line (`if`, a quoted newline, a here-document) goes on there as well. What a command takes of that text, in either way, is a parameter. A shell that reads ahead
(older versions of dash do) behaves otherwise when commands read stdin. Input that nobody reads is no error: os/exec ignores the broken pipe (exec_unix.go).
-/

namespace Verif.Sys

open Utf8

/-- How the shell executes a command whose first line is neither empty nor `exit`, where the third argument is the input behind that line: the next state, what the command did, and how many bytes of that input it took. -/
abbrev ExecIn (σ : Type) := σ → Bytes → Bytes → σ × Outcome × Nat

/-- The first line of the input and what is behind it. -/
def readLine (input : Bytes) : Bytes × Bytes := (input.takeWhile (· ≠ 10), (input.dropWhile (· ≠ 10)).drop 1)

/-- `sh` reading its commands from stdin, as `sh` in Model/Sys. -/
def shIn {σ : Type} (ex : ExecIn σ) : Nat → σ → Nat → Bytes → Go (σ × Outcome)
  | 0, _, _, _ => .error .diverge
  | fuel + 1, s, last, input =>
    if input = [] then .ok (s, ⟨last, [], [], true⟩)
    else
      let (l, rest) := readLine input
      if l = [] then shIn ex fuel s last rest
      else if l = lit "exit" then .ok (s, ⟨last, [], [], true⟩)
      else
        let (s1, o, k) := ex s l rest
        if o.quits then .ok (s1, o)
        else do
          let (s2, r) ← shIn ex fuel s1 o.status (rest.drop k)
          .ok (s2, ⟨r.status, o.out ++ r.out, o.err ++ r.err, true⟩)

/-- `ShellExec`, help/utils/cmd.go:13-29. -/
def shellExecIn {σ : Type} (ex : ExecIn σ) (s : σ) (cmd : Bytes) : Go (σ × Except Bytes Bytes) := do
  let input := cmd ++ [10] ++ lit "exit\n"
  let (s1, r) ← shIn ex (input.length + 1) s 0 input
  .ok (s1, if r.status ≠ 0 then .error r.err else .ok r.out)

end Verif.Sys
