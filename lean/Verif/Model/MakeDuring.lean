import Verif.Go.Utf8
import Verif.Model.Mutex

/-!
# `MakeFile` while chunks are uploaded and removed (help/utils/breakpoint_continue.go)

One call of `MakeFile`; meanwhile `BreakPointContinue` uploads chunks of the same file and `RemoveChunk` removes them. One action per call of the operating system. A chunk that is removed can still be read by
those who have it open, so the files of a chunk are numbered. Chunk `k` is always uploaded with the content `cs k`, by one upload at a time (Model/UploadConc has several); a retry truncates the file and starts
again. `ReadDir` lists the directory in one action; `fd.Write` stores all or fails (Model/MakeConc has the parts, and several calls of `MakeFile`).
-/

namespace Verif.MakeDuring

open Utf8
open Mutex (put)

/-- Where the call of `MakeFile` is (help/utils/breakpoint_continue.go:61-81); `n` is the length of `rd`. -/
inductive Pc
  /-- before line 62 -/
  | listing
  /-- before line 67 -/
  | opening (n : Nat)
  /-- line 72, `k` chunks are done -/
  | loop (n k : Nat)
  /-- in `ReadFile` of line 73 with file `g` of chunk `k` open; `buf` is read -/
  | reading (n k g : Nat) (buf : Bytes)
  /-- before line 74 -/
  | writing (n k : Nat) (content : Bytes)
  | returned (n : Nat) (ok : Bool)
deriving DecidableEq

structure State where
  /-- the chunks in the directory, each with its file -/
  dir : List (Nat × Nat)
  /-- the content of file `g` of chunk `k` -/
  data : Nat → Nat → Bytes
  /-- the next new file -/
  next : Nat
  /-- the file that is made -/
  out : Option Bytes
  pc : Pc
  /-- what line 74 has written (not part of the program) -/
  log : List Bytes

inductive Act
  /-- line 62; `x` other files are in the directory -/
  | list (x : Nat)
  /-- the next step of `MakeFile` that is not a read -/
  | step
  /-- a read of line 73 returns up to `m + 1` bytes -/
  | read (m : Nat)
  /-- the operating system fails: lines 62, 67, 73 or 74 -/
  | fail
  /-- `os.Create` of line 48 for chunk `k` -/
  | create (k : Nat)
  /-- `f.Write` of line 52 stores up to `m` more bytes -/
  | upload (k g m : Nat)
  /-- `os.RemoveAll` of line 84 removes chunk `k` -/
  | remove (k : Nat)
deriving DecidableEq

/-- The effect on `data` of storing in, or truncating, a file. -/
def setData (data : Nat → Nat → Bytes) (k g : Nat) (b : Bytes) : Nat → Nat → Bytes := put data k (put (data k) g b)

/-- The effect (help/utils/breakpoint_continue.go:48, 52, 61-81, 84); `none` if this cannot happen now. -/
def exec (cs : Nat → Bytes) (s : State) : Act → Option State
  | .list x =>
    match s.pc with
    | .listing => some { s with pc := .opening (s.dir.length + x) }
    | _ => none
  | .step =>
    match s.pc with
    /- line 67, `O_CREATE` -/
    | .opening n => some { s with out := some (s.out.getD []), pc := .loop n 0 }
    /- lines 72, 73 and 80 -/
    | .loop n k =>
      if k < n then
        match s.dir.lookup k with
        | some g => some { s with pc := .reading n k g [] }
        /- the error is dropped -/
        | none => some { s with pc := .writing n k [] }
      else some { s with pc := .returned n true }
    /- line 74 -/
    | .writing n k c => some { s with out := s.out.map (· ++ c), pc := .loop n (k + 1), log := s.log ++ [c] }
    | _ => none
  | .read m =>
    match s.pc with
    | .reading n k g buf =>
      let b := ((s.data k g).drop buf.length).take (m + 1)
      if b = [] then some { s with pc := .writing n k buf } else some { s with pc := .reading n k g (buf ++ b) }
    | _ => none
  | .fail =>
    match s.pc with
    | .listing => some { s with pc := .returned 0 false }
    | .opening n => some { s with pc := .returned n false }
    /- line 73: the error is dropped, `ReadFile` returns what it has read -/
    | .loop n k => if k < n then some { s with pc := .writing n k [] } else none
    | .reading n k _ buf => some { s with pc := .writing n k buf }
    /- line 76 -/
    | .writing n _ _ => some { s with out := none, pc := .returned n false }
    | _ => none
  | .create k =>
    match s.dir.lookup k with
    | some g => some { s with data := setData s.data k g [] }
    | none => some { s with dir := (k, s.next) :: s.dir, data := setData s.data k s.next [], next := s.next + 1 }
  | .upload k g m => some { s with data := setData s.data k g ((cs k).take ((s.data k g).length + m)) }
  | .remove k => some { s with dir := s.dir.filter (fun e => e.1 != k) }

/-- The actions one after the other. -/
def execs (cs : Nat → Bytes) : List Act → State → Option State
  | [], s => some s
  | a :: as, s => (exec cs s a).bind (execs cs as)

/-- At the start no chunk is there; `old` is what is at the path of the file. -/
def init (old : Option Bytes) : State := ⟨[], fun _ _ => [], 0, old, .listing, []⟩

end Verif.MakeDuring
