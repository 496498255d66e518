import Verif.Model.Aes
import Batteries.Lean.Except

/-!
# C73, C74, C76: the AES helpers
-/

namespace Verif.Aes

theorem keyOk_iff (key : List Byte) : keyOk key = true ↔ key.length = 16 ∨ key.length = 24 ∨ key.length = 32 := by
  unfold keyOk
  simp [or_assoc]

theorem iv_length (key : List Byte) (h : keyOk key = true) : (key.take 16).length = 16 := by
  rw [keyOk_iff] at h
  rw [List.length_take]
  omega

theorem xor_length (a b : List Byte) (ha : a.length = 16) (hb : b.length = 16) : (xor a b).length = 16 := by
  unfold xor
  rw [List.length_zipWith, ha, hb]
  rfl

theorem xor_xor (a b : List Byte) (h : a.length = b.length) : xor (xor a b) b = a := by
  induction a generalizing b with
  | nil => simp [xor]
  | cons x a ih =>
    cases b with
    | nil => simp at h
    | cons y b =>
      have := ih b (by simpa using h)
      unfold xor at *
      simp only [List.zipWith_cons_cons]
      rw [this, BitVec.xor_assoc, BitVec.xor_self, BitVec.xor_zero]

theorem cbcEnc_length (c : Cipher) (hc : c.Ok) (key : List Byte) (n : Nat) (iv src : List Byte) (hs : src.length = 16 * n)
    (hi : iv.length = 16) : (cbcEnc c key n iv src).length = 16 * n := by
  induction n generalizing iv src with
  | zero => rfl
  | succ n ih =>
    have h1 : (src.take 16).length = 16 := by rw [List.length_take]; omega
    have h2 := hc.enc_length key _ (xor_length _ _ h1 hi)
    rw [cbcEnc, List.length_append, h2, ih _ _ (by rw [List.length_drop]; omega) h2]
    omega

theorem cbcDec_length (c : Cipher) (hc : c.Ok) (key : List Byte) (n : Nat) (iv src : List Byte) (hs : src.length = 16 * n)
    (hi : iv.length = 16) : (cbcDec c key n iv src).length = 16 * n := by
  induction n generalizing iv src with
  | zero => rfl
  | succ n ih =>
    have h1 : (src.take 16).length = 16 := by rw [List.length_take]; omega
    rw [cbcDec, List.length_append, xor_length _ _ (hc.dec_length key _ h1) hi, ih _ _ (by rw [List.length_drop]; omega) h1]
    omega

/-- CBC decryption undoes CBC encryption. -/
theorem cbc_roundtrip (c : Cipher) (hc : c.Ok) (key : List Byte) (n : Nat) (iv src : List Byte) (hs : src.length = 16 * n)
    (hi : iv.length = 16) : cbcDec c key n iv (cbcEnc c key n iv src) = src := by
  induction n generalizing iv src with
  | zero =>
    rw [List.length_eq_zero_iff.1 (by omega : src.length = 0)]
    rfl
  | succ n ih =>
    have h1 : (src.take 16).length = 16 := by rw [List.length_take]; omega
    have hx := xor_length _ _ h1 hi
    have h2 := hc.enc_length key _ hx
    rw [cbcEnc, cbcDec]
    rw [List.take_left' h2, List.drop_left' h2, hc.dec_enc key _ hx, xor_xor _ _ (by rw [h1, hi]),
      ih _ _ (by rw [List.length_drop]; omega) h2, List.take_append_drop]

theorem pad_length (data : List Byte) : (pkcs7Padding data 16).length = 16 * (data.length / 16 + 1) := by
  unfold pkcs7Padding
  rw [List.length_append, List.length_replicate]
  omega

theorem unpad_pad (data : List Byte) : pkcs7UnPadding (pkcs7Padding data 16) = .ok (.ok data) := by
  have hl := pad_length data
  have hm : data.length % 16 < 16 := Nat.mod_lt _ (by omega)
  unfold pkcs7UnPadding
  rw [dif_neg (by omega)]
  dsimp only
  have hlast : ∀ h, ((pkcs7Padding data 16)[(pkcs7Padding data 16).length - 1]'h) = BitVec.ofNat 8 (16 - data.length % 16) := by
    intro h
    apply Option.some.inj
    rw [← List.getElem?_eq_getElem h]
    unfold pkcs7Padding
    dsimp only
    rw [List.getElem?_append_right (by rw [List.length_append, List.length_replicate]; omega), List.getElem?_replicate,
      if_pos (by rw [List.length_append, List.length_replicate]; omega)]
  rw [hlast, BitVec.toNat_ofNat, Nat.mod_eq_of_lt (by omega), if_pos (by omega)]
  congr 2
  unfold pkcs7Padding
  dsimp only
  rw [List.length_append, List.length_replicate, Nat.add_sub_cancel, List.take_left]

/-! ## C73 -/

/-- What `AesEncrypt` returns for a good key. -/
theorem aesEncrypt_eq (c : Cipher) (data key : List Byte) (hk : keyOk key = true) :
    aesEncrypt c data key = .ok (.ok (cbcEnc c key (data.length / 16 + 1) (key.take 16) (pkcs7Padding data 16))) := by
  have hl := pad_length data
  unfold aesEncrypt
  rw [if_pos hk]
  unfold cryptBlocks
  dsimp only
  rw [if_neg (by omega), hl, Nat.mul_div_cancel_left _ (by omega)]
  rfl

/-- Decrypting what was encrypted gives the data, without error and without panic; the length of the ciphertext is the next multiple
of 16 above that of the data. For every cipher whose decryption undoes its encryption. -/
theorem C73_roundtrip (c : Cipher) (hc : c.Ok) (data key : List Byte) (hk : key.length = 16 ∨ key.length = 24 ∨ key.length = 32) :
    ∃ e, aesEncrypt c data key = .ok (.ok e) ∧ e.length = 16 * (data.length / 16 + 1) ∧ aesDecrypt c e key = .ok (.ok data) := by
  have hk' := (keyOk_iff key).2 hk
  have hiv := iv_length key hk'
  have hl := pad_length data
  have hel := cbcEnc_length c hc key (data.length / 16 + 1) (key.take 16) (pkcs7Padding data 16) hl hiv
  refine ⟨_, aesEncrypt_eq c data key hk', hel, ?_⟩
  unfold aesDecrypt
  rw [if_pos hk']
  unfold cryptBlocks
  rw [if_neg (by omega), hel, Nat.mul_div_cancel_left _ (by omega)]
  simp only [Go.bind_ok]
  rw [cbc_roundtrip c hc key _ _ _ hl hiv, unpad_pad]

/-- The data determines the ciphertext and the ciphertext the data; equal data give equal ciphertexts (the initialisation vector is
the key). -/
theorem C73_injective (c : Cipher) (hc : c.Ok) (d1 d2 key : List Byte) (hk : key.length = 16 ∨ key.length = 24 ∨ key.length = 32) :
    aesEncrypt c d1 key = aesEncrypt c d2 key ↔ d1 = d2 := by
  refine ⟨fun h => ?_, fun h => by rw [h]⟩
  obtain ⟨e1, h1, -, h1'⟩ := C73_roundtrip c hc d1 key hk
  obtain ⟨e2, h2, -, h2'⟩ := C73_roundtrip c hc d2 key hk
  rw [h1, h2] at h
  simp only [Except.ok.injEq] at h
  rw [h, h2'] at h1'
  simp only [Except.ok.injEq] at h1'
  exact h1'.symm

/-- Keys of other lengths are refused by both. -/
theorem C73_bad_key (c : Cipher) (data key : List Byte) (hk : ¬ (key.length = 16 ∨ key.length = 24 ∨ key.length = 32)) :
    aesEncrypt c data key = .ok (.error .keySize) ∧ aesDecrypt c data key = .ok (.error .keySize) := by
  have hk' : ¬ keyOk key = true := fun h => hk ((keyOk_iff key).1 h)
  unfold aesEncrypt aesDecrypt
  rw [if_neg hk', if_neg hk']
  exact ⟨rfl, rfl⟩

/-- A cipher as assumed (each block is reversed). -/
def reverseCipher : Cipher := ⟨fun _ b => b.reverse, fun _ b => b.reverse⟩

example : reverseCipher.Ok :=
  ⟨fun _ b h => by simpa [reverseCipher] using h, fun _ b h => by simpa [reverseCipher] using h, fun _ b _ => by simp [reverseCipher]⟩

/-! ## C74 -/

/-- Exactly when `AesDecrypt` panics: no whole number of blocks, or a last byte of the decrypted text above its length. -/
theorem C74_panics_iff (c : Cipher) (hc : c.Ok) (data key : List Byte) (hk : key.length = 16 ∨ key.length = 24 ∨ key.length = 32) :
    (∃ p, aesDecrypt c data key = .error p) ↔
      data.length % 16 ≠ 0 ∨
      ∃ b, (cbcDec c key (data.length / 16) (key.take 16) data).getLast? = some b ∧ data.length < b.toNat := by
  have hk' := (keyOk_iff key).2 hk
  have hiv := iv_length key hk'
  unfold aesDecrypt
  rw [if_pos hk']
  unfold cryptBlocks
  by_cases hm : data.length % 16 ≠ 0
  · rw [if_pos hm]
    exact ⟨fun _ => Or.inl hm, fun _ => ⟨_, rfl⟩⟩
  rw [if_neg hm]
  have hl := cbcDec_length c hc key (data.length / 16) (key.take 16) data (by omega) hiv
  simp only [Go.bind_ok]
  generalize cbcDec c key (data.length / 16) (key.take 16) data = t at hl ⊢
  have hl' : t.length = data.length := by omega
  unfold pkcs7UnPadding
  by_cases h0 : t.length = 0
  · rw [dif_pos h0]
    have : t = [] := List.length_eq_zero_iff.1 h0
    subst this
    simp [hm]
  · rw [dif_neg h0]
    dsimp only
    have hlast : t.getLast? = some (t[t.length - 1]'(by omega)) := by
      rw [List.getLast?_eq_getElem?, List.getElem?_eq_getElem (by omega)]
    rw [hlast]
    by_cases hp : (t[t.length - 1]'(by omega)).toNat ≤ t.length
    · rw [if_pos hp]
      constructor
      · rintro ⟨p, hp'⟩
        cases hp'
      · rintro (h | ⟨b, hb, hlt⟩)
        · exact absurd h hm
        · rw [Option.some.injEq] at hb
          rw [← hb] at hlt
          omega
    · rw [if_neg hp]
      exact ⟨fun _ => Or.inr ⟨_, rfl, by omega⟩, fun _ => ⟨_, rfl⟩⟩

/-- One byte of ciphertext panics, with every cipher and good key. -/
theorem C74_refuted (c : Cipher) (key : List Byte) (hk : key.length = 16 ∨ key.length = 24 ∨ key.length = 32) :
    aesDecrypt c [0] key = .error (.explicit "crypto/cipher: input not full blocks") := by
  unfold aesDecrypt
  rw [if_pos ((keyOk_iff key).2 hk)]
  rfl

/-- Whole blocks may panic as well: for every cipher and good key there is a block that does. -/
theorem C74_block_refuted (c : Cipher) (hc : c.Ok) (key : List Byte) (hk : key.length = 16 ∨ key.length = 24 ∨ key.length = 32) :
    ∃ data, data.length = 16 ∧ aesDecrypt c data key = .error .slice := by
  have hk' := (keyOk_iff key).2 hk
  have hiv := iv_length key hk'
  let src : List Byte := List.replicate 16 17
  have hs : src.length = 16 := rfl
  have hel := cbcEnc_length c hc key 1 (key.take 16) src hs hiv
  refine ⟨cbcEnc c key 1 (key.take 16) src, hel, ?_⟩
  unfold aesDecrypt
  rw [if_pos hk']
  unfold cryptBlocks
  rw [if_neg (by omega), hel]
  simp only [Go.bind_ok]
  rw [show 16 * 1 / 16 = 1 from rfl, cbc_roundtrip c hc key 1 _ _ hs hiv]
  rfl

/-- Bad padding that is not too long is not noticed: sixteen zero bytes, which no plaintext is padded to, come back as they are. -/
theorem C74_padding_refuted (c : Cipher) (hc : c.Ok) (key : List Byte) (hk : key.length = 16 ∨ key.length = 24 ∨ key.length = 32) :
    ∃ data, (∀ d, aesEncrypt c d key ≠ .ok (.ok data)) ∧ aesDecrypt c data key = .ok (.ok (List.replicate 16 0)) := by
  have hk' := (keyOk_iff key).2 hk
  have hiv := iv_length key hk'
  let src : List Byte := List.replicate 16 0
  have hs : src.length = 16 := rfl
  have hel := cbcEnc_length c hc key 1 (key.take 16) src hs hiv
  have hdec : aesDecrypt c (cbcEnc c key 1 (key.take 16) src) key = .ok (.ok (List.replicate 16 0)) := by
    unfold aesDecrypt
    rw [if_pos hk']
    unfold cryptBlocks
    rw [if_neg (by omega), hel]
    simp only [Go.bind_ok]
    rw [show 16 * 1 / 16 = 1 from rfl, cbc_roundtrip c hc key 1 _ _ hs hiv]
    rfl
  refine ⟨cbcEnc c key 1 (key.take 16) src, ?_, hdec⟩
  intro d hd
  obtain ⟨e, h1, h2, h3⟩ := C73_roundtrip c hc d key hk
  rw [h1] at hd
  simp only [Except.ok.injEq] at hd
  rw [hd] at h2 h3
  rw [hdec] at h3
  simp only [Except.ok.injEq] at h3
  rw [← h3, hel, List.length_replicate] at h2
  omega

/-- On the empty string `AesDecrypt` reports an error; on whole blocks whose last decrypted byte is not above the length it returns
a prefix of the decrypted text.

Missing for the full claim: all other inputs, for which it panics (`C74_panics_iff`). -/
theorem C74_partial (c : Cipher) (hc : c.Ok) (data key : List Byte) (hk : key.length = 16 ∨ key.length = 24 ∨ key.length = 32)
    (hm : data.length % 16 = 0) :
    (data = [] → aesDecrypt c data key = .ok (.error .encrypt)) ∧
    (∀ b, (cbcDec c key (data.length / 16) (key.take 16) data).getLast? = some b → b.toNat ≤ data.length →
      aesDecrypt c data key = .ok (.ok ((cbcDec c key (data.length / 16) (key.take 16) data).take (data.length - b.toNat)))) := by
  have hk' := (keyOk_iff key).2 hk
  have hiv := iv_length key hk'
  unfold aesDecrypt
  rw [if_pos hk']
  unfold cryptBlocks
  rw [if_neg (by omega)]
  simp only [Go.bind_ok]
  constructor
  · rintro rfl
    rfl
  · intro b hb hle
    have hl := cbcDec_length c hc key (data.length / 16) (key.take 16) data (by omega) hiv
    generalize cbcDec c key (data.length / 16) (key.take 16) data = t at hl hb ⊢
    have hl' : t.length = data.length := by omega
    have h0 : t.length ≠ 0 := by
      intro h
      rw [List.length_eq_zero_iff.1 h] at hb
      cases hb
    unfold pkcs7UnPadding
    rw [dif_neg h0]
    dsimp only
    have hlast : t.getLast? = some (t[t.length - 1]'(by omega)) := by
      rw [List.getLast?_eq_getElem?, List.getElem?_eq_getElem (by omega)]
    rw [hlast, Option.some.injEq] at hb
    rw [hb, if_pos (by omega), hl']

/-! ## C76 -/

/-- The result does not depend on the capacity. -/
theorem padMem_val (s : Slice) (hs : s.Ok) : (padMem s 16).1 = pkcs7Padding s.val 16 := by
  obtain ⟨h1, h2⟩ := hs
  have hl : s.val.length = s.len := by
    unfold Slice.val
    rw [List.length_take, List.length_drop]
    omega
  unfold padMem pkcs7Padding
  rw [hl]
  dsimp only
  split
  · rename_i hc
    dsimp only
    have ht : (s.back.take (s.off + s.len)).length = s.off + s.len := by rw [List.length_take]; omega
    rw [List.append_assoc, List.drop_append_of_le_length (by omega)]
    have hd : (s.back.take (s.off + s.len)).drop s.off = s.val := by
      unfold Slice.val
      rw [List.drop_take]
      congr 1
      omega
    rw [hd, ← List.append_assoc]
    have hll : (s.val ++ List.replicate (16 - s.len % 16) (BitVec.ofNat 8 (16 - s.len % 16))).length = s.len + (16 - s.len % 16) := by
      rw [List.length_append, hl, List.length_replicate]
    rw [← hll, List.take_left]
  · rfl

/-- Encryption gives the same whether there is spare capacity or not. -/
theorem C76_result (c : Cipher) (s : Slice) (hs : s.Ok) (key : List Byte) :
    (aesEncryptMem c s key).map (·.1) = aesEncrypt c s.val key := by
  unfold aesEncryptMem aesEncrypt
  by_cases hk : keyOk key = true
  · rw [if_pos hk, if_pos hk]
    have := padMem_val s hs
    generalize padMem s 16 = r at this
    obtain ⟨e, back⟩ := r
    dsimp only at this ⊢
    rw [this]
    cases cryptBlocks (cbcEnc c key) (key.take 16) (pkcs7Padding s.val 16) <;> rfl
  · rw [if_neg hk, if_neg hk]
    rfl

/-- A whole array is a slice of itself, without spare capacity. -/
example (l : List Byte) : Slice.Ok ⟨l, 0, l.length, l.length⟩ := ⟨Nat.le_refl _, by simp⟩

/-- With spare capacity for the padding, the bytes behind the slice are overwritten. -/
theorem C76_refuted (c : Cipher) (key : List Byte) (hk : key.length = 16 ∨ key.length = 24 ∨ key.length = 32) :
    ∃ (s : Slice) (r : Except Err (List Byte)) (back : List Byte), s.Ok ∧ aesEncryptMem c s key = .ok (r, back) ∧ back ≠ s.back := by
  let s : Slice := ⟨List.replicate 32 0, 0, 16, 32⟩
  have hs : s.Ok := ⟨by decide, by decide⟩
  refine ⟨s, .ok (cbcEnc c key 2 (key.take 16) (pkcs7Padding s.val 16)), List.replicate 16 0 ++ List.replicate 16 16, hs, ?_, by decide⟩
  unfold aesEncryptMem
  rw [if_pos ((keyOk_iff key).2 hk)]
  have h1 := padMem_val s hs
  have h2 : (padMem s 16).2 = List.replicate 16 0 ++ List.replicate 16 16 := by decide
  generalize padMem s 16 = r at h1 h2
  obtain ⟨e, back⟩ := r
  dsimp only at h1 h2 ⊢
  rw [h1, h2]
  unfold cryptBlocks
  rw [if_neg (by decide), show (pkcs7Padding s.val 16).length / 16 = 2 by decide]
  rfl

/-- Exactly what is overwritten: the `16 - len % 16` bytes behind the slice if they belong to it, and nothing else. In particular
the data itself, and everything if the capacity is too small, stay.

Missing for the full claim: see `C76_refuted`. -/
theorem C76_partial (c : Cipher) (s : Slice) (hs : s.Ok) (key : List Byte) (r : Except Err (List Byte)) (back : List Byte)
    (h : aesEncryptMem c s key = .ok (r, back)) :
    back.length = s.back.length ∧
    (∀ i, i < s.off + s.len ∨ s.off + s.len + (16 - s.len % 16) ≤ i → back[i]? = s.back[i]?) ∧
    (s.cap < s.len + (16 - s.len % 16) → back = s.back) := by
  obtain ⟨h1, h2⟩ := hs
  have hb : back = s.back ∨ back = (padMem s 16).2 := by
    unfold aesEncryptMem at h
    split at h
    · right
      generalize padMem s 16 = q at h
      obtain ⟨e, b⟩ := q
      dsimp only at h ⊢
      cases hc : cryptBlocks (cbcEnc c key) (key.take 16) e with
      | error p => rw [hc] at h; cases h
      | ok v =>
        rw [hc] at h
        simp only [Go.bind_ok, Go.pure_eq, Except.ok.injEq, Prod.mk.injEq] at h
        exact h.2.symm
    · left
      simp only [Except.ok.injEq, Prod.mk.injEq] at h
      exact h.2.symm
  rcases hb with rfl | rfl
  · exact ⟨rfl, fun _ _ => rfl, fun _ => rfl⟩
  · unfold padMem
    dsimp only
    split
    · rename_i hc
      dsimp only
      have ht : (s.back.take (s.off + s.len)).length = s.off + s.len := by rw [List.length_take]; omega
      refine ⟨?_, ?_, fun h => by omega⟩
      · rw [List.length_append, List.length_append, ht, List.length_replicate, List.length_drop]
        omega
      · intro i hi
        rw [List.append_assoc, List.getElem?_append]
        rcases hi with hi | hi
        · rw [if_pos (by omega), List.getElem?_take, if_pos hi]
        · rw [if_neg (by omega), List.getElem?_append, List.length_replicate, ht, if_neg (by omega), List.getElem?_drop]
          congr 1
          omega
    · exact ⟨rfl, fun _ _ => rfl, fun _ => rfl⟩

end Verif.Aes
