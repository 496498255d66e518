import Verif.Spec.AesBlock
import Verif.Props.Aes

/-!
# C148: the helpers with AES itself

The theorems of Props/Aes hold for every cipher whose decryption undoes its encryption. Here this is proved of AES as in FIPS-197
(Spec/AesBlock), for keys of any bytes.
-/

namespace Verif.Aes

/-! ## The field -/

theorem xtime_xor (a b : Byte) : xtime (a ^^^ b) = xtime a ^^^ xtime b := by
  unfold xtime
  rw [BitVec.getLsbD_xor, BitVec.shiftLeft_xor_distrib]
  cases a.getLsbD 7 <;> cases b.getLsbD 7 <;> simp only [Bool.xor_false, Bool.xor_true, Bool.not_false, Bool.not_true, if_true,
    Bool.false_eq_true, if_false]
  · rw [BitVec.xor_assoc]
  · rw [BitVec.xor_assoc, BitVec.xor_assoc, BitVec.xor_comm (b <<< 1)]
  · rw [BitVec.xor_assoc (a <<< 1), BitVec.xor_comm (0x1b), BitVec.xor_assoc (b <<< 1), BitVec.xor_self, BitVec.xor_zero]

theorem xor4 (a b c d : Byte) : (a ^^^ b) ^^^ (c ^^^ d) = (a ^^^ c) ^^^ (b ^^^ d) := by
  rw [BitVec.xor_assoc, BitVec.xor_assoc, ← BitVec.xor_assoc b, ← BitVec.xor_assoc c, BitVec.xor_comm b c]

theorem gmulLoop_xor (n : Nat) (m a b : Byte) : gmulLoop n m (a ^^^ b) = gmulLoop n m a ^^^ gmulLoop n m b := by
  induction n generalizing m a b with
  | zero => simp [gmulLoop]
  | succ n ih =>
    rw [gmulLoop, gmulLoop, gmulLoop, xtime_xor, ih, xor4]
    congr 1
    cases m.getLsbD 0 <;> simp

/-- The product distributes over the sum. -/
theorem gmul_xor (m a b : Byte) : gmul m (a ^^^ b) = gmul m a ^^^ gmul m b := gmulLoop_xor 8 m a b

theorem regroup (a b c d e f g h i j k l m n o p : Byte) :
    (a ^^^ b ^^^ c ^^^ d) ^^^ (e ^^^ f ^^^ g ^^^ h) ^^^ (i ^^^ j ^^^ k ^^^ l) ^^^ (m ^^^ n ^^^ o ^^^ p) =
      (a ^^^ e ^^^ i ^^^ m) ^^^ (b ^^^ f ^^^ j ^^^ n) ^^^ (c ^^^ g ^^^ k ^^^ o) ^^^ (d ^^^ h ^^^ l ^^^ p) := by ac_rfl

/-- The two matrices are inverse to each other, on single bytes (checked for each of the 256). -/
theorem mix_table (x : Byte) :
    (gmul 0x0e (gmul 2 x) ^^^ gmul 0x0b (gmul 1 x) ^^^ gmul 0x0d (gmul 1 x) ^^^ gmul 0x09 (gmul 3 x) = x) ∧
    (gmul 0x0e (gmul 3 x) ^^^ gmul 0x0b (gmul 2 x) ^^^ gmul 0x0d (gmul 1 x) ^^^ gmul 0x09 (gmul 1 x) = 0) ∧
    (gmul 0x0e (gmul 1 x) ^^^ gmul 0x0b (gmul 3 x) ^^^ gmul 0x0d (gmul 2 x) ^^^ gmul 0x09 (gmul 1 x) = 0) ∧
    (gmul 0x0e (gmul 1 x) ^^^ gmul 0x0b (gmul 1 x) ^^^ gmul 0x0d (gmul 3 x) ^^^ gmul 0x09 (gmul 2 x) = 0) ∧
    (gmul 0x09 (gmul 2 x) ^^^ gmul 0x0e (gmul 1 x) ^^^ gmul 0x0b (gmul 1 x) ^^^ gmul 0x0d (gmul 3 x) = 0) ∧
    (gmul 0x09 (gmul 3 x) ^^^ gmul 0x0e (gmul 2 x) ^^^ gmul 0x0b (gmul 1 x) ^^^ gmul 0x0d (gmul 1 x) = x) ∧
    (gmul 0x09 (gmul 1 x) ^^^ gmul 0x0e (gmul 3 x) ^^^ gmul 0x0b (gmul 2 x) ^^^ gmul 0x0d (gmul 1 x) = 0) ∧
    (gmul 0x09 (gmul 1 x) ^^^ gmul 0x0e (gmul 1 x) ^^^ gmul 0x0b (gmul 3 x) ^^^ gmul 0x0d (gmul 2 x) = 0) ∧
    (gmul 0x0d (gmul 2 x) ^^^ gmul 0x09 (gmul 1 x) ^^^ gmul 0x0e (gmul 1 x) ^^^ gmul 0x0b (gmul 3 x) = 0) ∧
    (gmul 0x0d (gmul 3 x) ^^^ gmul 0x09 (gmul 2 x) ^^^ gmul 0x0e (gmul 1 x) ^^^ gmul 0x0b (gmul 1 x) = 0) ∧
    (gmul 0x0d (gmul 1 x) ^^^ gmul 0x09 (gmul 3 x) ^^^ gmul 0x0e (gmul 2 x) ^^^ gmul 0x0b (gmul 1 x) = x) ∧
    (gmul 0x0d (gmul 1 x) ^^^ gmul 0x09 (gmul 1 x) ^^^ gmul 0x0e (gmul 3 x) ^^^ gmul 0x0b (gmul 2 x) = 0) ∧
    (gmul 0x0b (gmul 2 x) ^^^ gmul 0x0d (gmul 1 x) ^^^ gmul 0x09 (gmul 1 x) ^^^ gmul 0x0e (gmul 3 x) = 0) ∧
    (gmul 0x0b (gmul 3 x) ^^^ gmul 0x0d (gmul 2 x) ^^^ gmul 0x09 (gmul 1 x) ^^^ gmul 0x0e (gmul 1 x) = 0) ∧
    (gmul 0x0b (gmul 1 x) ^^^ gmul 0x0d (gmul 3 x) ^^^ gmul 0x09 (gmul 2 x) ^^^ gmul 0x0e (gmul 1 x) = 0) ∧
    (gmul 0x0b (gmul 1 x) ^^^ gmul 0x0d (gmul 1 x) ^^^ gmul 0x09 (gmul 3 x) ^^^ gmul 0x0e (gmul 2 x) = x) := by
  have h : ∀ n : Fin 256, let x : Byte := BitVec.ofFin n
      (gmul 0x0e (gmul 2 x) ^^^ gmul 0x0b (gmul 1 x) ^^^ gmul 0x0d (gmul 1 x) ^^^ gmul 0x09 (gmul 3 x) = x) ∧
      (gmul 0x0e (gmul 3 x) ^^^ gmul 0x0b (gmul 2 x) ^^^ gmul 0x0d (gmul 1 x) ^^^ gmul 0x09 (gmul 1 x) = 0) ∧
      (gmul 0x0e (gmul 1 x) ^^^ gmul 0x0b (gmul 3 x) ^^^ gmul 0x0d (gmul 2 x) ^^^ gmul 0x09 (gmul 1 x) = 0) ∧
      (gmul 0x0e (gmul 1 x) ^^^ gmul 0x0b (gmul 1 x) ^^^ gmul 0x0d (gmul 3 x) ^^^ gmul 0x09 (gmul 2 x) = 0) ∧
      (gmul 0x09 (gmul 2 x) ^^^ gmul 0x0e (gmul 1 x) ^^^ gmul 0x0b (gmul 1 x) ^^^ gmul 0x0d (gmul 3 x) = 0) ∧
      (gmul 0x09 (gmul 3 x) ^^^ gmul 0x0e (gmul 2 x) ^^^ gmul 0x0b (gmul 1 x) ^^^ gmul 0x0d (gmul 1 x) = x) ∧
      (gmul 0x09 (gmul 1 x) ^^^ gmul 0x0e (gmul 3 x) ^^^ gmul 0x0b (gmul 2 x) ^^^ gmul 0x0d (gmul 1 x) = 0) ∧
      (gmul 0x09 (gmul 1 x) ^^^ gmul 0x0e (gmul 1 x) ^^^ gmul 0x0b (gmul 3 x) ^^^ gmul 0x0d (gmul 2 x) = 0) ∧
      (gmul 0x0d (gmul 2 x) ^^^ gmul 0x09 (gmul 1 x) ^^^ gmul 0x0e (gmul 1 x) ^^^ gmul 0x0b (gmul 3 x) = 0) ∧
      (gmul 0x0d (gmul 3 x) ^^^ gmul 0x09 (gmul 2 x) ^^^ gmul 0x0e (gmul 1 x) ^^^ gmul 0x0b (gmul 1 x) = 0) ∧
      (gmul 0x0d (gmul 1 x) ^^^ gmul 0x09 (gmul 3 x) ^^^ gmul 0x0e (gmul 2 x) ^^^ gmul 0x0b (gmul 1 x) = x) ∧
      (gmul 0x0d (gmul 1 x) ^^^ gmul 0x09 (gmul 1 x) ^^^ gmul 0x0e (gmul 3 x) ^^^ gmul 0x0b (gmul 2 x) = 0) ∧
      (gmul 0x0b (gmul 2 x) ^^^ gmul 0x0d (gmul 1 x) ^^^ gmul 0x09 (gmul 1 x) ^^^ gmul 0x0e (gmul 3 x) = 0) ∧
      (gmul 0x0b (gmul 3 x) ^^^ gmul 0x0d (gmul 2 x) ^^^ gmul 0x09 (gmul 1 x) ^^^ gmul 0x0e (gmul 1 x) = 0) ∧
      (gmul 0x0b (gmul 1 x) ^^^ gmul 0x0d (gmul 3 x) ^^^ gmul 0x09 (gmul 2 x) ^^^ gmul 0x0e (gmul 1 x) = 0) ∧
      (gmul 0x0b (gmul 1 x) ^^^ gmul 0x0d (gmul 1 x) ^^^ gmul 0x09 (gmul 3 x) ^^^ gmul 0x0e (gmul 2 x) = x) := by decide +kernel
  exact h x.toFin

theorem mix_table_back (x : Byte) :
    (gmul 2 (gmul 0x0e x) ^^^ gmul 3 (gmul 0x09 x) ^^^ gmul 1 (gmul 0x0d x) ^^^ gmul 1 (gmul 0x0b x) = x) ∧
    (gmul 2 (gmul 0x0b x) ^^^ gmul 3 (gmul 0x0e x) ^^^ gmul 1 (gmul 0x09 x) ^^^ gmul 1 (gmul 0x0d x) = 0) ∧
    (gmul 2 (gmul 0x0d x) ^^^ gmul 3 (gmul 0x0b x) ^^^ gmul 1 (gmul 0x0e x) ^^^ gmul 1 (gmul 0x09 x) = 0) ∧
    (gmul 2 (gmul 0x09 x) ^^^ gmul 3 (gmul 0x0d x) ^^^ gmul 1 (gmul 0x0b x) ^^^ gmul 1 (gmul 0x0e x) = 0) ∧
    (gmul 1 (gmul 0x0e x) ^^^ gmul 2 (gmul 0x09 x) ^^^ gmul 3 (gmul 0x0d x) ^^^ gmul 1 (gmul 0x0b x) = 0) ∧
    (gmul 1 (gmul 0x0b x) ^^^ gmul 2 (gmul 0x0e x) ^^^ gmul 3 (gmul 0x09 x) ^^^ gmul 1 (gmul 0x0d x) = x) ∧
    (gmul 1 (gmul 0x0d x) ^^^ gmul 2 (gmul 0x0b x) ^^^ gmul 3 (gmul 0x0e x) ^^^ gmul 1 (gmul 0x09 x) = 0) ∧
    (gmul 1 (gmul 0x09 x) ^^^ gmul 2 (gmul 0x0d x) ^^^ gmul 3 (gmul 0x0b x) ^^^ gmul 1 (gmul 0x0e x) = 0) ∧
    (gmul 1 (gmul 0x0e x) ^^^ gmul 1 (gmul 0x09 x) ^^^ gmul 2 (gmul 0x0d x) ^^^ gmul 3 (gmul 0x0b x) = 0) ∧
    (gmul 1 (gmul 0x0b x) ^^^ gmul 1 (gmul 0x0e x) ^^^ gmul 2 (gmul 0x09 x) ^^^ gmul 3 (gmul 0x0d x) = 0) ∧
    (gmul 1 (gmul 0x0d x) ^^^ gmul 1 (gmul 0x0b x) ^^^ gmul 2 (gmul 0x0e x) ^^^ gmul 3 (gmul 0x09 x) = x) ∧
    (gmul 1 (gmul 0x09 x) ^^^ gmul 1 (gmul 0x0d x) ^^^ gmul 2 (gmul 0x0b x) ^^^ gmul 3 (gmul 0x0e x) = 0) ∧
    (gmul 3 (gmul 0x0e x) ^^^ gmul 1 (gmul 0x09 x) ^^^ gmul 1 (gmul 0x0d x) ^^^ gmul 2 (gmul 0x0b x) = 0) ∧
    (gmul 3 (gmul 0x0b x) ^^^ gmul 1 (gmul 0x0e x) ^^^ gmul 1 (gmul 0x09 x) ^^^ gmul 2 (gmul 0x0d x) = 0) ∧
    (gmul 3 (gmul 0x0d x) ^^^ gmul 1 (gmul 0x0b x) ^^^ gmul 1 (gmul 0x0e x) ^^^ gmul 2 (gmul 0x09 x) = 0) ∧
    (gmul 3 (gmul 0x09 x) ^^^ gmul 1 (gmul 0x0d x) ^^^ gmul 1 (gmul 0x0b x) ^^^ gmul 2 (gmul 0x0e x) = x) := by
  have h : ∀ n : Fin 256, let x : Byte := BitVec.ofFin n
      (gmul 2 (gmul 0x0e x) ^^^ gmul 3 (gmul 0x09 x) ^^^ gmul 1 (gmul 0x0d x) ^^^ gmul 1 (gmul 0x0b x) = x) ∧
      (gmul 2 (gmul 0x0b x) ^^^ gmul 3 (gmul 0x0e x) ^^^ gmul 1 (gmul 0x09 x) ^^^ gmul 1 (gmul 0x0d x) = 0) ∧
      (gmul 2 (gmul 0x0d x) ^^^ gmul 3 (gmul 0x0b x) ^^^ gmul 1 (gmul 0x0e x) ^^^ gmul 1 (gmul 0x09 x) = 0) ∧
      (gmul 2 (gmul 0x09 x) ^^^ gmul 3 (gmul 0x0d x) ^^^ gmul 1 (gmul 0x0b x) ^^^ gmul 1 (gmul 0x0e x) = 0) ∧
      (gmul 1 (gmul 0x0e x) ^^^ gmul 2 (gmul 0x09 x) ^^^ gmul 3 (gmul 0x0d x) ^^^ gmul 1 (gmul 0x0b x) = 0) ∧
      (gmul 1 (gmul 0x0b x) ^^^ gmul 2 (gmul 0x0e x) ^^^ gmul 3 (gmul 0x09 x) ^^^ gmul 1 (gmul 0x0d x) = x) ∧
      (gmul 1 (gmul 0x0d x) ^^^ gmul 2 (gmul 0x0b x) ^^^ gmul 3 (gmul 0x0e x) ^^^ gmul 1 (gmul 0x09 x) = 0) ∧
      (gmul 1 (gmul 0x09 x) ^^^ gmul 2 (gmul 0x0d x) ^^^ gmul 3 (gmul 0x0b x) ^^^ gmul 1 (gmul 0x0e x) = 0) ∧
      (gmul 1 (gmul 0x0e x) ^^^ gmul 1 (gmul 0x09 x) ^^^ gmul 2 (gmul 0x0d x) ^^^ gmul 3 (gmul 0x0b x) = 0) ∧
      (gmul 1 (gmul 0x0b x) ^^^ gmul 1 (gmul 0x0e x) ^^^ gmul 2 (gmul 0x09 x) ^^^ gmul 3 (gmul 0x0d x) = 0) ∧
      (gmul 1 (gmul 0x0d x) ^^^ gmul 1 (gmul 0x0b x) ^^^ gmul 2 (gmul 0x0e x) ^^^ gmul 3 (gmul 0x09 x) = x) ∧
      (gmul 1 (gmul 0x09 x) ^^^ gmul 1 (gmul 0x0d x) ^^^ gmul 2 (gmul 0x0b x) ^^^ gmul 3 (gmul 0x0e x) = 0) ∧
      (gmul 3 (gmul 0x0e x) ^^^ gmul 1 (gmul 0x09 x) ^^^ gmul 1 (gmul 0x0d x) ^^^ gmul 2 (gmul 0x0b x) = 0) ∧
      (gmul 3 (gmul 0x0b x) ^^^ gmul 1 (gmul 0x0e x) ^^^ gmul 1 (gmul 0x09 x) ^^^ gmul 2 (gmul 0x0d x) = 0) ∧
      (gmul 3 (gmul 0x0d x) ^^^ gmul 1 (gmul 0x0b x) ^^^ gmul 1 (gmul 0x0e x) ^^^ gmul 2 (gmul 0x09 x) = 0) ∧
      (gmul 3 (gmul 0x09 x) ^^^ gmul 1 (gmul 0x0d x) ^^^ gmul 1 (gmul 0x0b x) ^^^ gmul 2 (gmul 0x0e x) = x) := by decide +kernel
  exact h x.toFin

theorem column_inv (a b c d : Byte) : (match column 2 3 1 1 a b c d with
    | [a, b, c, d] => column 0x0e 0x0b 0x0d 0x09 a b c d
    | l => l) = [a, b, c, d] := by
  unfold column
  dsimp only
  simp only [gmul_xor]
  have ha := mix_table a
  have hb := mix_table b
  have hc := mix_table c
  have hd := mix_table d
  refine List.cons_eq_cons.2 ⟨?_, List.cons_eq_cons.2 ⟨?_, List.cons_eq_cons.2 ⟨?_, List.cons_eq_cons.2 ⟨?_, rfl⟩⟩⟩⟩ <;>
    rw [regroup] <;> simp only [ha, hb, hc, hd] <;> simp only [BitVec.ofNat_eq_ofNat, BitVec.xor_zero, BitVec.zero_xor]

theorem column_inv_back (a b c d : Byte) : (match column 0x0e 0x0b 0x0d 0x09 a b c d with
    | [a, b, c, d] => column 2 3 1 1 a b c d
    | l => l) = [a, b, c, d] := by
  unfold column
  dsimp only
  simp only [gmul_xor]
  have ha := mix_table_back a
  have hb := mix_table_back b
  have hc := mix_table_back c
  have hd := mix_table_back d
  refine List.cons_eq_cons.2 ⟨?_, List.cons_eq_cons.2 ⟨?_, List.cons_eq_cons.2 ⟨?_, List.cons_eq_cons.2 ⟨?_, rfl⟩⟩⟩⟩ <;>
    rw [regroup] <;> simp only [ha, hb, hc, hd] <;> simp only [BitVec.ofNat_eq_ofNat, BitVec.xor_zero, BitVec.zero_xor]

theorem columns_step (m0 m1 m2 m3 n0 n1 n2 n3 a b c d : Byte) (s : List Byte) :
    columns n0 n1 n2 n3 (columns m0 m1 m2 m3 (a :: b :: c :: d :: s)) = (match column m0 m1 m2 m3 a b c d with
      | [a, b, c, d] => column n0 n1 n2 n3 a b c d
      | l => l) ++ columns n0 n1 n2 n3 (columns m0 m1 m2 m3 s) := rfl

theorem four (s : List Byte) (n : Nat) (h : s.length = 4 * (n + 1)) :
    ∃ a b c d t, s = a :: b :: c :: d :: t ∧ t.length = 4 * n := by
  match s, h with
  | a :: b :: c :: d :: t, h => exact ⟨a, b, c, d, t, rfl, by simp at h; omega⟩
  | [], h => simp at h
  | [_], h => simp at h; omega
  | [_, _], h => simp at h; omega
  | [_, _, _], h => simp at h; omega

theorem columns_inv (m0 m1 m2 m3 n0 n1 n2 n3 : Byte) (hinv : ∀ a b c d, (match column m0 m1 m2 m3 a b c d with
      | [a, b, c, d] => column n0 n1 n2 n3 a b c d
      | l => l) = [a, b, c, d]) (n : Nat) (s : List Byte) (h : s.length = 4 * n) :
    columns n0 n1 n2 n3 (columns m0 m1 m2 m3 s) = s := by
  induction n generalizing s with
  | zero =>
    rw [List.length_eq_zero_iff.1 (by omega : s.length = 0)]
    rfl
  | succ n ih =>
    obtain ⟨a, b, c, d, t, rfl, ht⟩ := four s n h
    rw [columns_step, hinv, ih t ht]
    rfl

theorem columns_length (m0 m1 m2 m3 : Byte) (n : Nat) (s : List Byte) (h : s.length = 4 * n) :
    (columns m0 m1 m2 m3 s).length = 4 * n := by
  induction n generalizing s with
  | zero =>
    rw [List.length_eq_zero_iff.1 (by omega : s.length = 0)]
    rfl
  | succ n ih =>
    obtain ⟨a, b, c, d, t, rfl, ht⟩ := four s n h
    rw [columns, List.length_append, ih t ht]
    simp [column]
    omega

/-! ## The layers -/

/-- The S-box is the inverse in the field followed by the affine map of the standard (5.1.1); the inverse of zero is zero. -/
theorem sbox_standard (x : Byte) : ∃ y : Byte, (x = 0 ∧ y = 0 ∨ gmul x y = 1) ∧
    sbox x = y ^^^ y.rotateLeft 1 ^^^ y.rotateLeft 2 ^^^ y.rotateLeft 3 ^^^ y.rotateLeft 4 ^^^ 0x63 := by
  have h : ∀ n : Fin 256, let x : Byte := BitVec.ofFin n
      let t := sbox x
      let y := t.rotateLeft 1 ^^^ t.rotateLeft 3 ^^^ t.rotateLeft 6 ^^^ 0x05
      (x = 0 ∧ y = 0 ∨ gmul x y = 1) ∧
        sbox x = y ^^^ y.rotateLeft 1 ^^^ y.rotateLeft 2 ^^^ y.rotateLeft 3 ^^^ y.rotateLeft 4 ^^^ 0x63 := by decide +kernel
  exact ⟨_, h x.toFin⟩

theorem invSbox_sbox (x : Byte) : invSbox (sbox x) = x := by
  have h : ∀ n : Fin 256, invSbox (sbox (BitVec.ofFin n)) = BitVec.ofFin n := by decide +kernel
  exact h x.toFin

theorem sbox_invSbox (x : Byte) : sbox (invSbox x) = x := by
  have h : ∀ n : Fin 256, sbox (invSbox (BitVec.ofFin n)) = BitVec.ofFin n := by decide +kernel
  exact h x.toFin

theorem invSub_sub (s : List Byte) : invSubBytes (subBytes s) = s := by
  unfold invSubBytes subBytes
  rw [List.map_map]
  exact (List.map_congr_left (fun x _ => invSbox_sbox x)).trans (List.map_id s)

theorem sub_invSub (s : List Byte) : subBytes (invSubBytes s) = s := by
  unfold invSubBytes subBytes
  rw [List.map_map]
  exact (List.map_congr_left (fun x _ => sbox_invSbox x)).trans (List.map_id s)

theorem sixteen (s : List Byte) (h : s.length = 16) : ∃ a b c d e f g i j k l m n o p q, s = [a, b, c, d, e, f, g, i, j, k, l, m, n, o, p, q] := by
  obtain ⟨a, b, c, d, t, rfl, ht⟩ := four s 3 h
  obtain ⟨e, f, g, i, t1, rfl, ht1⟩ := four t 2 ht
  obtain ⟨j, k, l, m, t2, rfl, ht2⟩ := four t1 1 ht1
  obtain ⟨n, o, p, q, t3, rfl, ht3⟩ := four t2 0 ht2
  rw [List.length_eq_zero_iff.1 (by omega : t3.length = 0)]
  exact ⟨a, b, c, d, e, f, g, i, j, k, l, m, n, o, p, q, rfl⟩

theorem invShift_shift (s : List Byte) (h : s.length = 16) : invShiftRows (shiftRows s) = s := by
  obtain ⟨a, b, c, d, e, f, g, i, j, k, l, m, n, o, p, q, rfl⟩ := sixteen s h
  rfl

theorem shift_invShift (s : List Byte) (h : s.length = 16) : shiftRows (invShiftRows s) = s := by
  obtain ⟨a, b, c, d, e, f, g, i, j, k, l, m, n, o, p, q, rfl⟩ := sixteen s h
  rfl

theorem shift_length (s : List Byte) : (shiftRows s).length = 16 := by simp [shiftRows]
theorem invShift_length (s : List Byte) : (invShiftRows s).length = 16 := by simp [invShiftRows]
theorem sub_length (s : List Byte) : (subBytes s).length = s.length := by simp [subBytes]
theorem invSub_length (s : List Byte) : (invSubBytes s).length = s.length := by simp [invSubBytes]
theorem mix_length (s : List Byte) (h : s.length = 16) : (mixColumns s).length = 16 := columns_length _ _ _ _ 4 s h
theorem invMix_length (s : List Byte) (h : s.length = 16) : (invMixColumns s).length = 16 := columns_length _ _ _ _ 4 s h
theorem invMix_mix (s : List Byte) (h : s.length = 16) : invMixColumns (mixColumns s) = s :=
  columns_inv _ _ _ _ _ _ _ _ column_inv 4 s h
theorem mix_invMix (s : List Byte) (h : s.length = 16) : mixColumns (invMixColumns s) = s :=
  columns_inv _ _ _ _ _ _ _ _ column_inv_back 4 s h

theorem roundKey_length (ws : List Word) (r : Nat) : (roundKey ws r).length = 16 := by simp [roundKey, bytesOf]

theorem add_length (k s : List Byte) (hk : k.length = 16) (hs : s.length = 16) : (addRoundKey k s).length = 16 := xor_length s k hs hk

theorem add_add (k s : List Byte) (hk : k.length = 16) (hs : s.length = 16) : addRoundKey k (addRoundKey k s) = s :=
  xor_xor s k (by omega)

/-! ## The rounds -/

theorem encRound_length (s k : List Byte) (hk : k.length = 16) : (encRound s k).length = 16 :=
  add_length _ _ hk (mix_length _ (shift_length _))

theorem decRound_length (s k : List Byte) (hk : k.length = 16) : (decRound s k).length = 16 :=
  invMix_length _ (add_length _ _ hk (by rw [invSub_length, invShift_length]))

theorem enc_fold_length (ks : List (List Byte)) (hks : ∀ k ∈ ks, k.length = 16) (s : List Byte) (hs : s.length = 16) :
    (ks.foldl encRound s).length = 16 := by
  induction ks generalizing s with
  | nil => exact hs
  | cons k ks ih => exact ih (fun x hx => hks x (List.mem_cons_of_mem _ hx)) _ (encRound_length s k (hks k (List.mem_cons_self ..)))

theorem dec_fold_length (ks : List (List Byte)) (hks : ∀ k ∈ ks, k.length = 16) (s : List Byte) (hs : s.length = 16) :
    (ks.foldl decRound s).length = 16 := by
  induction ks generalizing s with
  | nil => exact hs
  | cons k ks ih => exact ih (fun x hx => hks x (List.mem_cons_of_mem _ hx)) _ (decRound_length s k (hks k (List.mem_cons_self ..)))

/-- The inverse rounds take back the rounds. -/
theorem dec_enc_rounds (ks : List (List Byte)) (hks : ∀ k ∈ ks, k.length = 16) (s : List Byte) (hs : s.length = 16) :
    ks.reverse.foldl decRound (shiftRows (subBytes (ks.foldl encRound s))) = shiftRows (subBytes s) := by
  induction ks generalizing s with
  | nil => rfl
  | cons k ks ih =>
    have hk := hks k (List.mem_cons_self ..)
    rw [List.reverse_cons, List.foldl_append, List.foldl_cons (l := ks),
      ih (fun x hx => hks x (List.mem_cons_of_mem _ hx)) _ (encRound_length s k hk), List.foldl_cons, List.foldl_nil]
    unfold decRound
    rw [invShift_shift _ (by rw [sub_length]; exact encRound_length s k hk), invSub_sub]
    unfold encRound
    rw [add_add _ _ hk (mix_length _ (shift_length _)), invMix_mix _ (shift_length _)]

/-- And the rounds the inverse rounds. -/
theorem enc_dec_rounds (ks : List (List Byte)) (hks : ∀ k ∈ ks, k.length = 16) (s : List Byte) (hs : s.length = 16) :
    shiftRows (subBytes (ks.foldl encRound (invSubBytes (invShiftRows (ks.reverse.foldl decRound s))))) = s := by
  induction ks generalizing s with
  | nil =>
    change shiftRows (subBytes (invSubBytes (invShiftRows s))) = s
    rw [sub_invSub, shift_invShift _ hs]
  | cons k ks ih =>
    have hk := hks k (List.mem_cons_self ..)
    have hks' := fun x hx => hks x (List.mem_cons_of_mem k hx)
    have hl := dec_fold_length ks.reverse (fun x hx => hks' x (List.mem_reverse.1 hx)) s hs
    rw [List.reverse_cons, List.foldl_append, List.foldl_cons, List.foldl_cons, List.foldl_nil]
    have hl2 : (invSubBytes (invShiftRows (ks.reverse.foldl decRound s))).length = 16 := by rw [invSub_length, invShift_length]
    have hr : encRound (invSubBytes (invShiftRows (decRound (ks.reverse.foldl decRound s) k))) k =
        invSubBytes (invShiftRows (ks.reverse.foldl decRound s)) := by
      unfold encRound
      rw [sub_invSub, shift_invShift _ (decRound_length _ k hk)]
      change addRoundKey k (mixColumns (invMixColumns (addRoundKey k (invSubBytes (invShiftRows (ks.reverse.foldl decRound s)))))) = _
      rw [mix_invMix _ (add_length _ _ hk hl2), add_add _ _ hk hl2]
    rw [hr]
    exact ih hks' s hs

theorem middle_length (key : List Byte) : ∀ k ∈ middleKeys key, k.length = 16 := by
  intro k hk
  obtain ⟨r, -, rfl⟩ := List.mem_map.1 hk
  exact roundKey_length _ _

/-- AES is a cipher as the helpers need it: blocks go to blocks, and decryption undoes encryption. -/
theorem C148_cipher : aes.Ok where
  enc_length k b hb := add_length _ _ (roundKey_length _ _) (shift_length _)
  dec_length k b hb := add_length _ _ (roundKey_length _ _) (by rw [invSub_length, invShift_length])
  dec_enc k b hb := by
    change aesDec k (aesEnc k b) = b
    have h0 : (addRoundKey (roundKey (expandKey k) 0) b).length = 16 := add_length _ _ (roundKey_length _ _) hb
    unfold aesDec aesEnc
    dsimp only
    rw [add_add _ _ (roundKey_length _ _) (shift_length _), dec_enc_rounds _ (middle_length k) _ h0,
      invShift_shift _ (by rw [sub_length]; exact h0), invSub_sub, add_add _ _ (roundKey_length _ _) hb]

/-- Encryption undoes decryption, too: every block is the encryption of exactly one block. -/
theorem C148_permutation (key b : List Byte) (hb : b.length = 16) :
    ∃ a : List Byte, a.length = 16 ∧ aesEnc key a = b ∧ ∀ a' : List Byte, a'.length = 16 → aesEnc key a' = b → a' = a := by
  have h0 : (addRoundKey (roundKey (expandKey key) (rounds key)) b).length = 16 := add_length _ _ (roundKey_length _ _) hb
  refine ⟨aesDec key b, C148_cipher.dec_length key b hb, ?_, ?_⟩
  · unfold aesDec aesEnc
    dsimp only
    rw [add_add _ _ (roundKey_length _ _) (by rw [invSub_length, invShift_length]), enc_dec_rounds _ (middle_length key) _ h0,
      add_add _ _ (roundKey_length _ _) hb]
  · intro a' ha' he
    rw [← he]
    exact (C148_cipher.dec_enc key a' ha').symm

/-- `AesEncrypt` and `AesDecrypt` as they are used: with AES, for keys of 16, 24 or 32 bytes and any data, decryption gives back the
data; different data have different ciphertexts; other keys are refused. -/
theorem C148_roundtrip (data key : List Byte) :
    (key.length = 16 ∨ key.length = 24 ∨ key.length = 32 →
      (∃ e, aesEncrypt aes data key = .ok (.ok e) ∧ e.length = 16 * (data.length / 16 + 1) ∧ aesDecrypt aes e key = .ok (.ok data)) ∧
      ∀ d, aesEncrypt aes d key = aesEncrypt aes data key → d = data) ∧
    (¬ (key.length = 16 ∨ key.length = 24 ∨ key.length = 32) →
      aesEncrypt aes data key = .ok (.error .keySize) ∧ aesDecrypt aes data key = .ok (.error .keySize)) :=
  ⟨fun hk => ⟨C73_roundtrip aes C148_cipher data key hk, fun d h => (C73_injective aes C148_cipher d data key hk).1 h⟩,
    fun hk => C73_bad_key aes data key hk⟩

/-! The vectors of the standard, appendix C (three lengths of keys) and B. -/

section Vectors

def seqBytes (n : Nat) : List Byte := (List.range n).map (BitVec.ofNat 8)
def plainC : List Byte := (List.range 16).map (fun i => BitVec.ofNat 8 (17 * i))

example : aesEnc (seqBytes 16) plainC =
    [0x69, 0xc4, 0xe0, 0xd8, 0x6a, 0x7b, 0x04, 0x30, 0xd8, 0xcd, 0xb7, 0x80, 0x70, 0xb4, 0xc5, 0x5a] := by decide +kernel
example : aesEnc (seqBytes 24) plainC =
    [0xdd, 0xa9, 0x7c, 0xa4, 0x86, 0x4c, 0xdf, 0xe0, 0x6e, 0xaf, 0x70, 0xa0, 0xec, 0x0d, 0x71, 0x91] := by decide +kernel
example : aesEnc (seqBytes 32) plainC =
    [0x8e, 0xa2, 0xb7, 0xca, 0x51, 0x67, 0x45, 0xbf, 0xea, 0xfc, 0x49, 0x90, 0x4b, 0x49, 0x60, 0x89] := by decide +kernel
example : aesDec (seqBytes 32) [0x8e, 0xa2, 0xb7, 0xca, 0x51, 0x67, 0x45, 0xbf, 0xea, 0xfc, 0x49, 0x90, 0x4b, 0x49, 0x60, 0x89] =
    plainC := by decide +kernel
example : aesEnc [0x2b, 0x7e, 0x15, 0x16, 0x28, 0xae, 0xd2, 0xa6, 0xab, 0xf7, 0x15, 0x88, 0x09, 0xcf, 0x4f, 0x3c]
    [0x32, 0x43, 0xf6, 0xa8, 0x88, 0x5a, 0x30, 0x8d, 0x31, 0x31, 0x98, 0xa2, 0xe0, 0x37, 0x07, 0x34] =
    [0x39, 0x25, 0x84, 0x1d, 0x02, 0xdc, 0x09, 0xfb, 0xdc, 0x11, 0x85, 0x97, 0x19, 0x6a, 0x0b, 0x32] := by decide +kernel

end Vectors

end Verif.Aes
