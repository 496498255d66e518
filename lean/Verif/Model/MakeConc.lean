import Verif.Go.Utf8
import Verif.Model.Mutex

/-!
# `MakeFile` called by several goroutines with one file name (help/utils/breakpoint_continue.go)

The calls have the same `fileName`, so they write to the same path; the uploads they put together may be different ones (`FileMd5`). Files are numbered (inodes), since a file that is removed while others
have it open is still written to. One action per call of the operating system. The chunks are not written or removed meanwhile (C175 is about that): what `ReadDir` and `ReadFile` give is a
parameter of the call, a chunk that is missing being empty. `fd.Write` goes on until all bytes are stored or an error occurs; with `O_APPEND` each write is put at the end of the file. A goroutine calls once; one
that calls several times is several goroutines.
-/

namespace Verif.MakeConc

open Utf8
open Mutex (put)

/-- Where a call of `MakeFile` is (help/utils/breakpoint_continue.go:61-81); `cs` are the chunks, in the order of line 72. -/
inductive Pc
  | idle
  /-- before line 67 -/
  | opening (cs : List Bytes)
  /-- in the loop of line 72 with file `f` open: `k` chunks and `o` bytes of the next one are written -/
  | writing (cs : List Bytes) (f k o : Nat)
  /-- before line 76 -/
  | removing (cs : List Bytes)
  | returned (cs : List Bytes) (f : Nat) (ok : Bool)
deriving DecidableEq

structure State where
  /-- the file at the path -/
  path : Option Nat
  data : Nat → Bytes
  next : Nat
  pc : Nat → Pc
  /-- what was written: the file, by whom, the bytes (not part of the program) -/
  log : List (Nat × Nat × Bytes)

inductive Act
  | call (i : Nat) (cs : List Bytes)
  | step (i : Nat)
  /-- up to `m` more bytes are written -/
  | wrote (i m : Nat)
  | fail (i : Nat)
deriving DecidableEq

/-- The effect (help/utils/breakpoint_continue.go:67-80); `none` if this cannot happen now. -/
def exec (s : State) : Act → Option State
  | .call i cs =>
    match s.pc i with
    | .idle => some { s with pc := put s.pc i (.opening cs) }
    | _ => none
  | .step i =>
    match s.pc i with
    /- line 67, `O_CREATE` -/
    | .opening cs =>
      match s.path with
      | some f => some { s with pc := put s.pc i (.writing cs f 0 0) }
      | none => some { s with path := some s.next, data := put s.data s.next [], next := s.next + 1, pc := put s.pc i (.writing cs s.next 0 0) }
    /- line 72 -/
    | .writing cs f k o =>
      match cs[k]? with
      | none => some { s with pc := put s.pc i (.returned cs f true) }
      | some c => if o = c.length then some { s with pc := put s.pc i (.writing cs f (k + 1) 0) } else none
    /- line 76 -/
    | .removing cs => some { s with path := none, pc := put s.pc i (.returned cs 0 false) }
    | _ => none
  /- line 74 -/
  | .wrote i m =>
    match s.pc i with
    | .writing cs f k o =>
      match cs[k]? with
      | none => none
      | some c =>
        let b := (c.drop o).take m
        some { s with data := put s.data f (s.data f ++ b), pc := put s.pc i (.writing cs f k (o + b.length)), log := s.log ++ [(f, i, b)] }
    | _ => none
  /- the operating system fails: lines 67, 74 and 76 -/
  | .fail i =>
    match s.pc i with
    | .opening cs => some { s with pc := put s.pc i (.returned cs 0 false) }
    | .writing cs _ k _ => if k < cs.length then some { s with pc := put s.pc i (.removing cs) } else none
    /- line 76: the error of `os.Remove` is dropped -/
    | .removing cs => some { s with pc := put s.pc i (.returned cs 0 false) }
    | _ => none

/-- The actions one after the other. -/
def execs : List Act → State → Option State
  | [], s => some s
  | a :: as, s => (exec s a).bind (execs as)

/-- At the start: nobody has called; there may be a file at the path. -/
def init (old : Option Bytes) : State :=
  match old with
  | none => ⟨none, fun _ => [], 0, fun _ => .idle, []⟩
  | some c => ⟨some 0, fun _ => c, 1, fun _ => .idle, []⟩

end Verif.MakeConc
