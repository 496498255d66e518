import Verif.Model.Md5Digest

/-!
# The buffering of MD5: whatever the pieces, the digest is that of all bytes
-/

namespace Verif.Md5Digest

open Verif.Md5Rfc

/-! ## Blocks -/

theorem blocks_append (f : Regs → List Nat → Regs) (m n : Nat) (r : Regs) (a b : List Nat) (h : a.length = 64 * m) :
    blocks f (m + n) r (a ++ b) = blocks f n (blocks f m r a) b := by
  induction m generalizing r a with
  | zero =>
    rw [List.length_eq_zero_iff.1 (by omega : a.length = 0), Nat.zero_add]
    rfl
  | succ m ih =>
    rw [Nat.succ_add_eq_add_succ, Nat.add_succ, blocks, blocks, List.take_append_of_le_length (by omega),
      List.drop_append_of_le_length (by omega), ih _ _ (by rw [List.length_drop]; omega)]

theorem blocks_prefix (f : Regs → List Nat → Regs) (n : Nat) (r : Regs) (a b : List Nat) (h : 64 * n ≤ a.length) :
    blocks f n r (a ++ b) = blocks f n r a := by
  induction n generalizing r a with
  | zero => rfl
  | succ n ih =>
    rw [blocks, blocks, List.take_append_of_le_length (by omega), List.drop_append_of_le_length (by omega),
      ih _ _ (by rw [List.length_drop]; omega)]

/-! ## The digest and the bytes written -/

/-- Registers and buffer are those of the bytes `w`. -/
structure Core (d : Digest) (w : List Nat) : Prop where
  nx : d.nx = w.length % 64
  size : d.x.length = 64
  buf : d.x.take d.nx = w.drop (64 * (w.length / 64))
  regs : d.s = blocks compress (w.length / 64) init w

theorem copyInto_length (x : List Nat) (start : Nat) (p : List Nat) (h : start ≤ x.length) :
    (copyInto x start p).1.length = x.length := by
  unfold copyInto
  dsimp only
  rw [List.length_append, List.length_append, List.length_take, List.length_take, List.length_drop]
  omega

theorem fill_core (d : Digest) (w p : List Nat) (h : Core d w) : ∃ w1, w1 ++ (fill d p).2 = w ++ p ∧ Core (fill d p).1 w1 ∧
    ((fill d p).2 = [] ∨ (fill d p).1.nx = 0) ∧ (fill d p).1.len = d.len := by
  unfold fill
  by_cases h0 : 0 < d.nx
  · rw [if_pos h0]
    have hnx := h.nx
    have hsz := h.size
    have hm : w.length % 64 < 64 := Nat.mod_lt _ (by omega)
    have hdm := Nat.div_add_mod w.length 64
    generalize hn : min (64 - d.nx) p.length = n
    have hn1 : n ≤ 64 - d.nx := by omega
    have hn2 : n ≤ p.length := by omega
    have hcp : copyInto d.x d.nx p = (d.x.take d.nx ++ p.take n ++ d.x.drop (d.nx + n), n) := by
      unfold copyInto
      rw [hsz, hn]
    rw [hcp]
    dsimp only
    have hbuf := h.buf
    have hlt : (d.x.take d.nx).length = d.nx := by rw [List.length_take]; omega
    have hlp : (p.take n).length = n := by rw [List.length_take]; omega
    refine ⟨w ++ p.take n, ?_, ?_, ?_, ?_⟩
    · rw [List.append_assoc, List.take_append_drop]
    · by_cases hf : d.nx + n = 64
      · rw [if_pos hf]
        have hq : (w ++ p.take n).length / 64 = w.length / 64 + 1 := by rw [List.length_append, hlp]; omega
        have hlen : (w ++ p.take n).length = 64 * (w.length / 64 + 1) := by rw [List.length_append, hlp]; omega
        have hx : d.x.take d.nx ++ p.take n ++ d.x.drop (d.nx + n) = d.x.take d.nx ++ p.take n := by
          rw [List.drop_of_length_le (by omega), List.append_nil]
        have hxl : (d.x.take d.nx ++ p.take n).length = 64 := by rw [List.length_append, hlt, hlp, hf]
        refine ⟨?_, ?_, ?_, ?_⟩
        · dsimp only; omega
        · dsimp only
          rw [hx, hxl]
        · dsimp only
          rw [hq, List.take_zero, List.drop_of_length_le (by omega)]
        · dsimp only
          rw [hx, hq]
          unfold block
          rw [hxl, hbuf, h.regs]
          have hsplit : w ++ p.take n = w.take (64 * (w.length / 64)) ++ (w.drop (64 * (w.length / 64)) ++ p.take n) := by
            rw [← List.append_assoc, List.take_append_drop]
          have hlen0 : (w.take (64 * (w.length / 64))).length = 64 * (w.length / 64) := by rw [List.length_take]; omega
          have hw : blocks compress (w.length / 64) init w = blocks compress (w.length / 64) init (w.take (64 * (w.length / 64))) := by
            have := blocks_prefix compress (w.length / 64) init (w.take (64 * (w.length / 64))) (w.drop (64 * (w.length / 64)))
              (by omega)
            rwa [List.take_append_drop] at this
          rw [hsplit, blocks_append compress (w.length / 64) 1 _ _ _ hlen0, hw]
      · rw [if_neg hf]
        have hq : (w ++ p.take n).length / 64 = w.length / 64 := by rw [List.length_append, hlp]; omega
        refine ⟨?_, ?_, ?_, ?_⟩
        · dsimp only
          rw [List.length_append, hlp]
          omega
        · dsimp only
          rw [List.length_append, List.length_append, hlt, hlp, List.length_drop]
          omega
        · dsimp only
          rw [List.take_left' (by rw [List.length_append, hlt, hlp]), hq, hbuf, List.drop_append_of_le_length (by omega)]
        · dsimp only
          rw [hq, blocks_prefix _ _ _ _ _ (by omega), h.regs]
    · by_cases hf : d.nx + n = 64
      · rw [if_pos hf]
        exact Or.inr rfl
      · left
        rw [List.drop_of_length_le (by omega)]
    · split <;> rfl
  · rw [if_neg h0]
    exact ⟨w, rfl, h, Or.inr (by dsimp only; omega), rfl⟩

theorem whole_core (d : Digest) (w p : List Nat) (h : Core d w) (h0 : p = [] ∨ d.nx = 0) : ∃ w1, w1 ++ (whole d p).2 = w ++ p ∧
    Core (whole d p).1 w1 ∧ ((whole d p).2 = [] ∨ (whole d p).1.nx = 0) ∧ (whole d p).2.length < 64 ∧ (whole d p).1.len = d.len := by
  unfold whole
  by_cases hp : 64 ≤ p.length
  · rw [if_pos hp]
    dsimp only
    have hnx : d.nx = 0 := by
      rcases h0 with rfl | h0
      · simp at hp
      · exact h0
    have hnx' := h.nx
    generalize hn : p.length - p.length % 64 = n
    have hdm := Nat.div_add_mod p.length 64
    have hdw := Nat.div_add_mod w.length 64
    have hlp : (p.take n).length = 64 * (p.length / 64) := by rw [List.length_take]; omega
    have hq : (w ++ p.take n).length / 64 = w.length / 64 + p.length / 64 := by rw [List.length_append, hlp]; omega
    refine ⟨w ++ p.take n, ?_, ⟨?_, h.size, ?_, ?_⟩, Or.inr hnx, ?_, rfl⟩
    · rw [List.append_assoc, List.take_append_drop]
    · dsimp only
      rw [List.length_append, hlp]
      omega
    · dsimp only
      rw [hnx, List.take_zero, List.drop_of_length_le (by rw [List.length_append, hlp, ← hlp]; omega)]
    · dsimp only
      rw [hq, blocks_append _ _ _ _ _ _ (by omega), h.regs]
      unfold block
      rw [hlp, Nat.mul_div_cancel_left _ (by omega)]
    · rw [List.length_drop]
      omega
  · rw [if_neg hp]
    exact ⟨w, rfl, h, h0, by dsimp only; omega, rfl⟩

theorem keep_core (d : Digest) (w p : List Nat) (h : Core d w) (h0 : p = [] ∨ d.nx = 0) (hp : p.length < 64) :
    Core (keep d p) (w ++ p) ∧ (keep d p).len = d.len := by
  unfold keep
  by_cases hz : 0 < p.length
  · rw [if_pos hz]
    have hnx : d.nx = 0 := by
      rcases h0 with rfl | h0
      · simp at hz
      · exact h0
    have hnx' := h.nx
    have hsz := h.size
    have hdw := Nat.div_add_mod w.length 64
    have hcp : copyInto d.x 0 p = (p ++ d.x.drop p.length, p.length) := by
      unfold copyInto
      rw [hsz, Nat.sub_zero, Nat.min_eq_right (by omega)]
      dsimp only
      rw [List.take_zero, List.nil_append, List.take_length, Nat.zero_add]
    rw [hcp]
    have hq : (w ++ p).length / 64 = w.length / 64 := by rw [List.length_append]; omega
    refine ⟨⟨?_, ?_, ?_, ?_⟩, rfl⟩
    · dsimp only
      rw [List.length_append]
      omega
    · dsimp only
      rw [List.length_append, List.length_drop]
      omega
    · dsimp only
      rw [List.take_left' rfl, hq, List.drop_left' (by omega)]
    · dsimp only
      rw [hq, blocks_prefix _ _ _ _ _ (by omega), h.regs]
  · rw [if_neg hz, List.length_eq_zero_iff.1 (by omega : p.length = 0), List.append_nil]
    exact ⟨h, rfl⟩

/-- The digest is that of the bytes `w`. -/
structure Holds (d : Digest) (w : List Nat) : Prop extends Core d w where
  len : d.len = BitVec.ofNat 64 w.length

theorem holds_new : Holds .new [] := ⟨⟨rfl, rfl, rfl, rfl⟩, rfl⟩

theorem holds_write (d : Digest) (w p : List Nat) (h : Holds d w) : Holds (d.write p) (w ++ p) := by
  unfold Digest.write
  have hc : Core { d with len := d.len + BitVec.ofNat 64 p.length } w := ⟨h.nx, h.size, h.buf, h.regs⟩
  obtain ⟨w1, e1, c1, z1, l1⟩ := fill_core _ w p hc
  obtain ⟨w2, e2, c2, z2, s2, l2⟩ := whole_core _ w1 _ c1 z1
  obtain ⟨c3, l3⟩ := keep_core _ w2 _ c2 z2 s2
  dsimp only
  rw [e2, e1] at c3
  refine ⟨c3, ?_⟩
  rw [l3, l2, l1, h.len, List.length_append, BitVec.ofNat_add]

/-- The number of zeros is the least that makes the length 56 modulo 64. -/
theorem zeros_least (n : Nat) : (n + 1 + (119 - n % 64) % 64) % 64 = 56 ∧ ∀ k, (n + 1 + k) % 64 = 56 → (119 - n % 64) % 64 ≤ k := by
  constructor
  · omega
  · intro k hk
    omega

theorem pad_eq (n : Nat) : ((55 - BitVec.ofNat 64 n : BitVec 64) % 64).toNat = (119 - n % 64) % 64 := by
  rw [BitVec.toNat_umod, BitVec.toNat_sub, BitVec.toNat_ofNat, show (55 : BitVec 64).toNat = 55 from rfl,
    show (64 : BitVec 64).toNat = 64 from rfl]
  omega

theorem bits_eq (n : Nat) : (BitVec.ofNat 64 n <<< 3).toNat = 8 * n % 2 ^ 64 := by
  rw [BitVec.toNat_shiftLeft, BitVec.toNat_ofNat, Nat.shiftLeft_eq]
  omega

theorem littleEndian_length (n v : Nat) : (littleEndian n v).length = n := by
  induction n generalizing v with
  | zero => rfl
  | succ n ih => rw [littleEndian, List.length_cons, ih]

theorem padded_length (m : List Nat) : (padded m).length % 64 = 0 := by
  unfold padded
  rw [List.length_append, List.length_append, List.length_append, List.length_replicate, littleEndian_length]
  simp only [List.length_cons, List.length_nil]
  omega

theorem checkSum_eq (d : Digest) (w : List Nat) (h : Holds d w) : checkSum d = .ok (md5 w) := by
  have hp : w ++ ([0x80] ++ List.replicate (((55 - d.len) % 64).toNat) 0 ++ littleEndian 8 (d.len <<< 3).toNat) = padded w := by
    rw [h.len, pad_eq, bits_eq]
    unfold padded
    simp only [List.append_assoc]
  have hw := holds_write d w ([0x80] ++ List.replicate (((55 - d.len) % 64).toNat) 0 ++ littleEndian 8 (d.len <<< 3).toNat) h
  rw [hp] at hw
  unfold checkSum
  dsimp only
  have hnx := hw.nx
  rw [padded_length] at hnx
  rw [if_neg (not_not_intro hnx), hw.regs]
  rfl

end Verif.Md5Digest
