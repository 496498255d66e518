import Verif.Spec.Md5Rfc
import Verif.Go.Prelude

/-!
# Model of `md5.New`, `Write` and `Sum` as used by `help/utils/md5.go:18-33` and `help/utils/breakpoint_continue.go:92-96`

`crypto/md5` (Go 1.18, md5.go) is not in the repository; this is its buffering, on which it depends that a file hashed piece by piece
(`io.Copy`, `ComputeFileMD5`) has the digest of its content. The function of one block is that of Spec/Md5Rfc.
-/

namespace Verif.Md5Digest

open Verif.Md5Rfc

/-- `digest`: the registers, the buffer, the number of bytes in it, and the number of bytes written, modulo 2^64. -/
structure Digest where
  s : Regs
  x : List Nat
  nx : Nat
  len : BitVec 64

/-- `md5.New`. -/
def Digest.new : Digest := ⟨init, List.replicate 64 0, 0, 0⟩

/-- `copy(x[from:], p)` into an array: the array afterwards and the number of bytes copied. -/
def copyInto (x : List Nat) (start : Nat) (p : List Nat) : List Nat × Nat :=
  let n := min (x.length - start) p.length
  (x.take start ++ p.take n ++ x.drop (start + n), n)

/-- `block(d, p)`: all blocks of `p`. -/
def block (r : Regs) (p : List Nat) : Regs := blocks compress (p.length / 64) r p

/-- First part of `Write`: fill the buffer if it has something. -/
def fill (d : Digest) (p : List Nat) : Digest × List Nat :=
  if 0 < d.nx then
    let (x, n) := copyInto d.x d.nx p
    let d := { d with x := x, nx := d.nx + n }
    let d := if d.nx = 64 then { d with s := block d.s d.x, nx := 0 } else d
    (d, p.drop n)
  else (d, p)

/-- Second part of `Write`: the whole blocks, without the buffer. -/
def whole (d : Digest) (p : List Nat) : Digest × List Nat :=
  if 64 ≤ p.length then
    let n := p.length - p.length % 64
    ({ d with s := block d.s (p.take n) }, p.drop n)
  else (d, p)

/-- Third part of `Write`: what is left goes into the buffer. -/
def keep (d : Digest) (p : List Nat) : Digest :=
  if 0 < p.length then
    let (x, n) := copyInto d.x 0 p
    { d with x := x, nx := n }
  else d

/-- `Write`. -/
def Digest.write (d : Digest) (p : List Nat) : Digest :=
  let d := { d with len := d.len + BitVec.ofNat 64 p.length }
  let (d, p) := fill d p
  let (d, p) := whole d p
  keep d p

/-- `checkSum`: it panics if the buffer is not empty after the padding. -/
def checkSum (d : Digest) : Go (List Nat) :=
  let pad := ((55 - d.len) % 64).toNat
  let d' := d.write ([0x80] ++ List.replicate pad 0 ++ littleEndian 8 (d.len <<< 3).toNat)
  if d'.nx ≠ 0 then .error (.explicit "d.nx != 0") else .ok (output d'.s)

/-- `Sum(in)`; it works on a copy of the digest. -/
def Digest.sum (d : Digest) (b : List Nat) : Go (List Nat) := do
  let hash ← checkSum d
  return b ++ hash

end Verif.Md5Digest
