import Verif.Model.Base64

/-!
# C70: base64
-/

namespace Verif.Base64

open Utf8

theorem val_char (v : Nat) (h : v < 64) : val (char v) = some v := by
  have : ∀ v < 64, val (char v) = some v := by decide
  exact this v h

theorem char_ne (v : Nat) : char v ≠ 61 ∧ char v ≠ 10 ∧ char v ≠ 13 := by
  unfold char
  repeat' split
  all_goals omega

/-- The alphabet of RFC 4648, section 4. -/
def alphabet : Bytes := lit "ABCDEFGHIJKLMNOPQRSTUVWXYZabcdefghijklmnopqrstuvwxyz0123456789+/"

theorem C70_alphabet : (List.range 64).map char = alphabet := by decide +kernel

theorem val_pad : val 61 = none := by decide

theorem decodeClean_encode (b : Bytes) (h : ∀ x ∈ b, IsByte x) : decodeClean (encode b) = (b, false) := by
  match b with
  | [] => rfl
  | [a] =>
    have ha : a < 256 := h a (by simp)
    simp only [encode, decodeClean]
    rw [val_char _ (Nat.mod_lt _ (by omega)), val_char _ (Nat.mod_lt _ (by omega)), val_pad]
    simp
    omega
  | [a, b] =>
    have ha : a < 256 := h a (by simp)
    have hb : b < 256 := h b (by simp)
    simp only [encode, decodeClean]
    rw [val_char _ (Nat.mod_lt _ (by omega)), val_char _ (Nat.mod_lt _ (by omega)), val_char _ (Nat.mod_lt _ (by omega)), val_pad]
    simp
    omega
  | a :: b :: c :: rest =>
    have ha : a < 256 := h a (by simp)
    have hb : b < 256 := h b (by simp)
    have hc : c < 256 := h c (by simp)
    have ih := decodeClean_encode rest (fun x hx => h x (by simp [hx]))
    simp only [encode, decodeClean]
    rw [val_char _ (Nat.mod_lt _ (by omega)), val_char _ (Nat.mod_lt _ (by omega)), val_char _ (Nat.mod_lt _ (by omega)),
      val_char _ (Nat.mod_lt _ (by omega)), ih]
    simp
    omega

theorem encode_chars (b : Bytes) : ∀ x ∈ encode b, (∃ v < 64, x = char v) ∨ x = 61 := by
  have hc : ∀ v, (∃ w < 64, char (v % 64) = char w) ∨ char (v % 64) = 61 := fun v => Or.inl ⟨v % 64, Nat.mod_lt _ (by omega), rfl⟩
  match b with
  | [] => simp [encode]
  | [a] =>
    intro x hx
    simp only [encode, List.mem_cons, List.not_mem_nil, or_false] at hx
    rcases hx with rfl | rfl | rfl | rfl
    · exact hc _
    · exact hc _
    · exact Or.inr rfl
    · exact Or.inr rfl
  | [a, b] =>
    intro x hx
    simp only [encode, List.mem_cons, List.not_mem_nil, or_false] at hx
    rcases hx with rfl | rfl | rfl | rfl
    · exact hc _
    · exact hc _
    · exact hc _
    · exact Or.inr rfl
  | a :: b :: c :: rest =>
    have ih := encode_chars rest
    intro x hx
    simp only [encode, List.mem_cons] at hx
    rcases hx with rfl | rfl | rfl | rfl | hx
    · exact hc _
    · exact hc _
    · exact hc _
    · exact hc _
    · exact ih x hx

theorem encode_clean (b : Bytes) : (encode b).filter (fun c => !(c == 10 || c == 13)) = encode b := by
  rw [List.filter_eq_self]
  intro x hx
  rcases encode_chars b x hx with ⟨v, -, rfl⟩ | rfl
  · obtain ⟨-, h1, h2⟩ := char_ne v
    simp [h1, h2]
  · rfl

/-- The library pair: decoding an encoding gives the bytes, without error. -/
theorem C70_no_error (b : Bytes) (h : ∀ x ∈ b, IsByte x) : decode (encode b) = (b, false) := by
  unfold decode
  rw [encode_clean, decodeClean_encode b h]

/-- Round trip of the helpers, for all byte strings. -/
theorem C70_roundtrip (b : Bytes) (h : ∀ x ∈ b, IsByte x) : base64Decode (base64Encode b) = b := by
  unfold base64Decode base64Encode
  rw [C70_no_error b h]

/-- Two byte strings have different encodings. -/
theorem C70_injective (a b : Bytes) (ha : ∀ x ∈ a, IsByte x) (hb : ∀ x ∈ b, IsByte x) (h : base64Encode a = base64Encode b) : a = b := by
  rw [← C70_roundtrip a ha, h, C70_roundtrip b hb]

theorem encode_length : (b : Bytes) → (encode b).length = 4 * ((b.length + 2) / 3)
  | [] => rfl
  | [a] => by simp [encode]
  | [a, b] => by simp [encode]
  | a :: b :: c :: rest => by
    simp only [encode, List.length_cons, encode_length rest]
    omega

/-- Four characters for every three bytes begun; only characters of the alphabet and padding. -/
theorem C70_shape (b : Bytes) : (base64Encode b).length = 4 * ((b.length + 2) / 3) ∧ ∀ x ∈ base64Encode b, x ∈ alphabet ∨ x = 61 := by
  constructor
  · exact encode_length b
  · intro x hx
    rcases encode_chars b x hx with ⟨v, hv, rfl⟩ | rfl
    · left
      rw [← C70_alphabet]
      exact List.mem_map.2 ⟨v, List.mem_range.2 hv, rfl⟩
    · exact Or.inr rfl

/-- Newlines anywhere in the text do not matter. -/
theorem C70_newlines (b s : Bytes) (h : ∀ x ∈ b, IsByte x) (hs : s.filter (fun c => !(c == 10 || c == 13)) = base64Encode b) :
    base64Decode s = b := by
  unfold base64Decode decode
  rw [hs]
  unfold base64Encode
  rw [decodeClean_encode b h]

/-- Because the error is dropped, malformed text gives the bytes before the error, here nothing. -/
theorem C70_malformed : decode (lit "####") = ([], true) ∧ base64Decode (lit "Zm9v####") = lit "foo" := by decide +kernel

example : base64Encode (lit "héllo") = lit "aMOpbGxv" ∧ base64Decode (lit "aMOp\nbGxv") = lit "héllo" := by decide +kernel

end Verif.Base64
