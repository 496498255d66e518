import Verif.Proof.Md5Digest
import Verif.Props.Md5

/-!
# C150: the MD5 helpers with MD5 itself

Props/Md5 takes the hash function as a parameter. Here it is MD5 as in RFC 1321 (Spec/Md5Rfc), computed with the buffering of
`crypto/md5` (Model/Md5Digest).
-/

namespace Verif.Md5Digest

open Verif.Md5Rfc Verif.Md5 Verif.Utf8

theorem writes_hold (ps : List Bytes) (d : Digest) (w : List Nat) (h : Holds d w) : Holds (ps.foldl Digest.write d) (w ++ ps.flatten) := by
  induction ps generalizing d w with
  | nil => simpa using h
  | cons p ps ih =>
    rw [List.foldl_cons, List.flatten_cons, ← List.append_assoc]
    exact ih _ _ (holds_write d w p h)

/-- Whatever the pieces in which bytes are written to the hash, any number of them, empty ones too, `Sum` gives the MD5 of all the
bytes, after the bytes it is given; it does not panic. -/
theorem C150_stream (ps : List Bytes) (b : Bytes) : (ps.foldl Digest.write .new).sum b = .ok (b ++ md5 ps.flatten) := by
  unfold Digest.sum
  rw [checkSum_eq _ _ (writes_hold ps .new [] holds_new)]
  rfl

/-- The same when `Sum` is called in between: it does not disturb the hash. (`Sum` works on a copy; the bytes written so far count.) -/
theorem C150_between (ps qs : List Bytes) (b c : Bytes) : let d := ps.foldl Digest.write .new
    d.sum b = .ok (b ++ md5 ps.flatten) ∧ (qs.foldl Digest.write d).sum c = .ok (c ++ md5 (ps ++ qs).flatten) := by
  refine ⟨C150_stream ps b, ?_⟩
  rw [← List.foldl_append]
  exact C150_stream (ps ++ qs) c

theorem littleEndian_bytes (n v : Nat) : ∀ b ∈ littleEndian n v, IsByte b := by
  induction n generalizing v with
  | zero => intro b hb; simp [littleEndian] at hb
  | succ n ih =>
    intro b hb
    rw [littleEndian, List.mem_cons] at hb
    rcases hb with rfl | hb
    · exact Nat.mod_lt _ (by omega)
    · exact ih _ b hb

/-- The digest has 16 bytes. -/
theorem C150_digest : DigestOk md5 := by
  intro s
  unfold md5 output
  constructor
  · simp only [List.length_append, littleEndian_length]
  · intro b hb
    simp only [List.mem_append] at hb
    rcases hb with ((hb | hb) | hb) | hb <;> exact littleEndian_bytes _ _ b hb

/-- The helpers `Md5Crypt`, `Md5`, `MD5V` and `ComputeFileMD5`, the latter for every way the reader cuts the content: 32 lower-case
hexadecimal digits that spell the MD5 of the content. -/
theorem C150_helpers (s : Bytes) (pieces : List Bytes) (h : pieces.flatten = s) :
    (pieces.foldl Digest.write .new).sum [] = .ok (md5 s) ∧
    md5Crypt md5 s = hex (md5 s) ∧ md5String md5 s = hex (md5 s) ∧ md5V md5 s [] = hex (md5 s) ∧ computeFileMD5 md5 pieces = hex (md5 s) ∧
    (hex (md5 s)).length = 32 ∧ (∀ c ∈ hex (md5 s), (48 ≤ c ∧ c ≤ 57) ∨ (97 ≤ c ∧ c ≤ 102)) ∧ unhex (hex (md5 s)) = some (md5 s) := by
  have hs := C150_stream pieces []
  rw [h] at hs
  exact ⟨hs, (C75_agree md5 s pieces h).1, (C75_agree md5 s pieces h).2.1, (C75_agree md5 s pieces h).2.2.1,
    (C75_agree md5 s pieces h).2.2.2, C75_shape md5 C150_digest s⟩

/-! ## Collisions -/

/-- Two messages of two blocks with the same MD5 (X. Wang et al., 2004). -/
def messageA : Bytes := [
  0xd1, 0x31, 0xdd, 0x02, 0xc5, 0xe6, 0xee, 0xc4, 0x69, 0x3d, 0x9a, 0x06, 0x98, 0xaf, 0xf9, 0x5c,
  0x2f, 0xca, 0xb5, 0x87, 0x12, 0x46, 0x7e, 0xab, 0x40, 0x04, 0x58, 0x3e, 0xb8, 0xfb, 0x7f, 0x89,
  0x55, 0xad, 0x34, 0x06, 0x09, 0xf4, 0xb3, 0x02, 0x83, 0xe4, 0x88, 0x83, 0x25, 0x71, 0x41, 0x5a,
  0x08, 0x51, 0x25, 0xe8, 0xf7, 0xcd, 0xc9, 0x9f, 0xd9, 0x1d, 0xbd, 0xf2, 0x80, 0x37, 0x3c, 0x5b,
  0xd8, 0x82, 0x3e, 0x31, 0x56, 0x34, 0x8f, 0x5b, 0xae, 0x6d, 0xac, 0xd4, 0x36, 0xc9, 0x19, 0xc6,
  0xdd, 0x53, 0xe2, 0xb4, 0x87, 0xda, 0x03, 0xfd, 0x02, 0x39, 0x63, 0x06, 0xd2, 0x48, 0xcd, 0xa0,
  0xe9, 0x9f, 0x33, 0x42, 0x0f, 0x57, 0x7e, 0xe8, 0xce, 0x54, 0xb6, 0x70, 0x80, 0xa8, 0x0d, 0x1e,
  0xc6, 0x98, 0x21, 0xbc, 0xb6, 0xa8, 0x83, 0x93, 0x96, 0xf9, 0x65, 0x2b, 0x6f, 0xf7, 0x2a, 0x70]

def messageB : Bytes := [
  0xd1, 0x31, 0xdd, 0x02, 0xc5, 0xe6, 0xee, 0xc4, 0x69, 0x3d, 0x9a, 0x06, 0x98, 0xaf, 0xf9, 0x5c,
  0x2f, 0xca, 0xb5, 0x07, 0x12, 0x46, 0x7e, 0xab, 0x40, 0x04, 0x58, 0x3e, 0xb8, 0xfb, 0x7f, 0x89,
  0x55, 0xad, 0x34, 0x06, 0x09, 0xf4, 0xb3, 0x02, 0x83, 0xe4, 0x88, 0x83, 0x25, 0xf1, 0x41, 0x5a,
  0x08, 0x51, 0x25, 0xe8, 0xf7, 0xcd, 0xc9, 0x9f, 0xd9, 0x1d, 0xbd, 0x72, 0x80, 0x37, 0x3c, 0x5b,
  0xd8, 0x82, 0x3e, 0x31, 0x56, 0x34, 0x8f, 0x5b, 0xae, 0x6d, 0xac, 0xd4, 0x36, 0xc9, 0x19, 0xc6,
  0xdd, 0x53, 0xe2, 0x34, 0x87, 0xda, 0x03, 0xfd, 0x02, 0x39, 0x63, 0x06, 0xd2, 0x48, 0xcd, 0xa0,
  0xe9, 0x9f, 0x33, 0x42, 0x0f, 0x57, 0x7e, 0xe8, 0xce, 0x54, 0xb6, 0x70, 0x80, 0x28, 0x0d, 0x1e,
  0xc6, 0x98, 0x21, 0xbc, 0xb6, 0xa8, 0x83, 0x93, 0x96, 0xf9, 0x65, 0xab, 0x6f, 0xf7, 0x2a, 0x70]

theorem blocks_AB : blocks compress 2 init messageA = blocks compress 2 init messageB := by decide +kernel

/-- Messages of whole blocks that leave the registers the same have the same digest with anything behind them. -/
theorem collision_extends (a b : Bytes) (n : Nat) (ha : a.length = 64 * n) (hb : b.length = 64 * n)
    (h : blocks compress n init a = blocks compress n init b) (s : Bytes) : md5 (a ++ s) = md5 (b ++ s) := by
  have key : ∀ x : Bytes, x.length = 64 * n →
      md5 (x ++ s) = output (blocks compress ((padded (a ++ s)).length / 64 - n) (blocks compress n init x) (
        s ++ [0x80] ++ List.replicate ((119 - (a ++ s).length % 64) % 64) 0 ++ littleEndian 8 (8 * (a ++ s).length % 2 ^ 64))) := by
    intro x hx
    have hl : (x ++ s).length = (a ++ s).length := by rw [List.length_append, List.length_append, hx, ha]
    have hp : padded (x ++ s) = x ++ (s ++ [0x80] ++ List.replicate ((119 - (a ++ s).length % 64) % 64) 0 ++
        littleEndian 8 (8 * (a ++ s).length % 2 ^ 64)) := by
      unfold padded
      rw [hl]
      simp only [List.append_assoc]
    have hpl : (padded (x ++ s)).length = (padded (a ++ s)).length := by
      unfold padded
      simp only [List.length_append, List.length_replicate, littleEndian_length, hx, ha]
    have hge : n ≤ (padded (a ++ s)).length / 64 := by
      rw [Nat.le_div_iff_mul_le (by omega)]
      unfold padded
      simp only [List.length_append, ha]
      omega
    unfold md5
    rw [hpl, hp]
    congr 1
    obtain ⟨m, hm⟩ : ∃ m, (padded (a ++ s)).length / 64 = n + m := ⟨_, (Nat.add_sub_cancel' hge).symm⟩
    rw [hm, Nat.add_sub_cancel_left, blocks_append _ _ _ _ _ _ hx]
  rw [key a ha, key b hb, h]

/-- "A content that passes `CheckMd5` is the content of which the digest was taken" fails, not for a contrived hash function but for
MD5: for every text there are two different contents that end in it, and `CheckMd5` accepts the one for the other. -/
theorem C150_collision_refuted (s : Bytes) : ∃ a b : Bytes, a ≠ b ∧ (∀ x ∈ a, IsByte x) ∧ (∀ x ∈ b, IsByte x) ∧
    checkMd5 md5 (b ++ s) (md5String md5 (a ++ s)) = true := by
  refine ⟨messageA, messageB, by decide +kernel, by unfold IsByte; decide +kernel, by unfold IsByte; decide +kernel, ?_⟩
  rw [C75_collision md5 C150_digest]
  exact (collision_extends messageA messageB 2 (by decide +kernel) (by decide +kernel) blocks_AB s).symm

/-! The test suite of RFC 1321, A.5. -/

example : hex (md5 []) = lit "d41d8cd98f00b204e9800998ecf8427e" := by decide +kernel
example : hex (md5 (lit "a")) = lit "0cc175b9c0f1b6a831c399e269772661" := by decide +kernel
example : hex (md5 (lit "abc")) = lit "900150983cd24fb0d6963f7d28e17f72" := by decide +kernel
example : hex (md5 (lit "message digest")) = lit "f96b697d7cb7938d525a2f31aaf161d0" := by decide +kernel
example : hex (md5 (lit "abcdefghijklmnopqrstuvwxyz")) = lit "c3fcd3d76192e4007dfb496cca67e13b" := by decide +kernel
example : hex (md5 (lit "ABCDEFGHIJKLMNOPQRSTUVWXYZabcdefghijklmnopqrstuvwxyz0123456789")) = lit "d174ab98d277d9f5a5611c2c9f419d9f" := by
  decide +kernel
example : hex (md5 (lit "12345678901234567890123456789012345678901234567890123456789012345678901234567890")) =
    lit "57edf4a22be3c955ac49da2e2107b67a" := by decide +kernel
example : hex (md5 messageA) = lit "79054025255fb1a26e4bc422aef54eb4" := by decide +kernel

/-- Pieces of 30, 0, 50 and 1 bytes: the buffer is filled over the end of a block. -/
example : (([List.replicate 30 65, [], List.replicate 50 66, [67]] : List Bytes).foldl Digest.write .new).nx = 17 := by decide +kernel

end Verif.Md5Digest
