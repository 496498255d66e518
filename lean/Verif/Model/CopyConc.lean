import Verif.Go.Utf8
import Verif.Model.Mutex

/-!
# `CopyFile` called by several goroutines (help/utils/files.go)

Files are numbered; a file that does not exist is an empty one (`O_CREATE`), and none is removed or renamed meanwhile. The source of one call may be the destination of others, or its own. `io.Copy` reads a piece and
writes it, until a read gives nothing; a write may be split. One action per read and write. Both files are used at the position of the call, which is the same in both since every byte read is written. A goroutine calls once; one that calls
several times is several goroutines.
-/

namespace Verif.CopyConc

open Utf8
open Mutex (put)

/-- Where a call of `CopyFile` is (help/utils/files.go:199-212). -/
inductive Pc
  | idle
  /-- in `io.Copy` (line 211) with both files open: `o` bytes are copied, `buf` is read and not yet written -/
  | copying (src dst o : Nat) (buf : Bytes)
  | returned (src dst n : Nat) (ok : Bool)
deriving DecidableEq

structure State where
  data : Nat → Bytes
  pc : Nat → Pc

inductive Act
  | call (i src dst : Nat)
  /-- a read gives up to `m + 1` bytes, nothing only at the end of the source -/
  | read (i m : Nat)
  /-- up to `m` bytes of the buffer are written -/
  | write (i m : Nat)
  | fail (i : Nat)
deriving DecidableEq

/-- `b` written at position `o` of a file; a gap would be filled with zeros. -/
def writeAt (d : Bytes) (o : Nat) (b : Bytes) : Bytes := d.take o ++ List.replicate (o - d.length) 0 ++ b ++ d.drop (o + b.length)

/-- The effect (help/utils/files.go:199-212); `none` if this cannot happen now. -/
def exec (s : State) : Act → Option State
  /- lines 200-205: without `O_TRUNC` -/
  | .call i src dst =>
    match s.pc i with
    | .idle => some { s with pc := put s.pc i (.copying src dst 0 []) }
    | _ => none
  | .read i m =>
    match s.pc i with
    | .copying src dst o [] =>
      match ((s.data src).drop o).take (m + 1) with
      | [] => some { s with pc := put s.pc i (.returned src dst o true) }
      | b => some { s with pc := put s.pc i (.copying src dst o b) }
    | _ => none
  | .write i m =>
    match s.pc i with
    | .copying src dst o buf =>
      some { data := put s.data dst (writeAt (s.data dst) o (buf.take m)),
             pc := put s.pc i (.copying src dst (o + (buf.take m).length) (buf.drop m)) }
    | _ => none
  | .fail i =>
    match s.pc i with
    | .copying src dst o _ => some { s with pc := put s.pc i (.returned src dst o false) }
    | _ => none

/-- The actions one after the other. -/
def execs : List Act → State → Option State
  | [], s => some s
  | a :: as, s => (exec s a).bind (execs as)

def start (d : Nat → Bytes) : State := ⟨d, fun _ => .idle⟩

end Verif.CopyConc
