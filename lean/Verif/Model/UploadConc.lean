import Verif.Model.Fs
import Verif.Model.Mutex

/-!
# Uploads by several goroutines (help/utils/breakpoint_continue.go)

`BreakPointContinue` as in Model/Fs, one action per call of the operating system; the actions of the goroutines interleave in any way. `os.MkdirAll` is one
action (it makes directories that do not exist, and tolerates that others make them). A `write` stores some of the bytes, at the position of its own file
descriptor; `f.Write` goes on until all are stored or an error occurs. `RemoveChunk` is not called meanwhile; other programs may do what they want outside of
the files concerned (`touch`).
-/

namespace Verif.Fs

open Utf8
open Mutex (put)

/-- A call of `BreakPointContinue`, breakpoint_continue.go:27. -/
structure Call where
  cont : Bytes
  fileName : Bytes
  number : Int
  md5 : Bytes
deriving DecidableEq

/-- Where the chunk goes, breakpoint_continue.go:28, 47. -/
def Call.loc (cwd : Loc) (e : Call) : Loc := Spec.Path.loc cwd (chunkPath e.md5 e.fileName e.number)

/-- The content of a file after `b` is written at position `o`: a gap is filled with zeros. (Writing no bytes does nothing.) -/
def writeAt (c : Bytes) (o : Nat) (b : Bytes) : Bytes :=
  if b = [] then c else c.take o ++ List.replicate (o - c.length) 0 ++ b ++ c.drop (o + b.length)

/-- Where a goroutine is. -/
inductive UpPc
  | idle
  /-- before line 29 -/
  | mkdir (e : Call)
  /-- before line 48 -/
  | create (e : Call)
  /-- in line 52, `n` bytes are written -/
  | write (e : Call) (n : Nat)
  /-- `ok`: no error -/
  | returned (e : Call) (ok : Bool)
deriving DecidableEq

structure UpState where
  fs : FS
  pc : Nat → UpPc

/-- What happens next. -/
inductive UpAct
  | call (i : Nat) (e : Call)
  | step (i : Nat)
  /-- up to `k` more bytes are written -/
  | wrote (i k : Nat)
  | fail (i : Nat)
  | touch (l : Loc) (n : Option Node)
deriving DecidableEq

/-- The effect; `none` if this cannot happen now. -/
def upExec (cwd : Loc) (s : UpState) : UpAct → Option UpState
  | .call i e =>
    match s.pc i with
    | .idle | .returned _ _ => some { s with pc := put s.pc i (.mkdir e) }
    | _ => none
  | .step i =>
    match s.pc i with
    /- line 29 -/
    | .mkdir e =>
      match mkdirAll s.fs (Spec.Path.loc cwd (breakpointDir ++ e.md5 ++ lit "/")) with
      | some fs => some ⟨fs, put s.pc i (.create e)⟩
      | none => some { s with pc := put s.pc i (.returned e false) }
    /- line 48 -/
    | .create e =>
      match create s.fs (e.loc cwd) with
      | some fs => some ⟨fs, put s.pc i (.write e 0)⟩
      | none => some { s with pc := put s.pc i (.returned e false) }
    /- line 58 -/
    | .write e n => if n = e.cont.length then some { s with pc := put s.pc i (.returned e true) } else none
    | _ => none
  /- line 52 -/
  | .wrote i k =>
    match s.pc i with
    | .write e n =>
      let b := (e.cont.drop n).take k
      some ⟨s.fs.set (e.loc cwd) (some (.file (writeAt (content s.fs (e.loc cwd)) n b))), put s.pc i (.write e (n + b.length))⟩
    | _ => none
  /- the operating system fails: lines 30, 49, 53 -/
  | .fail i =>
    match s.pc i with
    | .mkdir e | .create e | .write e _ => some { s with pc := put s.pc i (.returned e false) }
    | _ => none
  | .touch l n => some { s with fs := s.fs.set l n }

/-- The actions one after the other. -/
def upExecs (cwd : Loc) : List UpAct → UpState → Option UpState
  | [], s => some s
  | a :: as, s => (upExec cwd s a).bind (upExecs cwd as)

/-- The call that goroutine is in. -/
def UpPc.call : UpPc → Option Call
  | .mkdir e | .create e | .write e _ => some e
  | _ => none

end Verif.Fs
