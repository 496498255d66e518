import Verif.Go.Prelude

/-!
# Go strings: bytes, runes and UTF-8

A string is a list of bytes; bytes and runes are natural numbers. Decoding and encoding as in package `unicode/utf8`
(tables `first` and `acceptRanges`), `[]rune(s)`, `string(rs)` and `for i, c := range s` as in the language specification.
-/

namespace Verif

abbrev Bytes := List Nat

/-- A byte. -/
def IsByte (b : Nat) : Prop := b < 256

namespace Utf8

/-- `utf8.RuneError` -/
def runeError : Nat := 0xFFFD

/-- A continuation byte. -/
def cont (b : Nat) : Bool := decide (0x80 ≤ b ∧ b ≤ 0xBF)

/-- Least second byte after `b0`. -/
def lo (b0 : Nat) : Nat := if b0 = 0xE0 then 0xA0 else if b0 = 0xF0 then 0x90 else 0x80

/-- Greatest second byte after `b0`. -/
def hi (b0 : Nat) : Nat := if b0 = 0xED then 0x9F else if b0 = 0xF4 then 0x8F else 0xBF

/-- `utf8.DecodeRune`: the first rune and its width. -/
def decode1 : Bytes → Nat × Nat
  | [] => (runeError, 0)
  | b0 :: t =>
    if b0 < 0x80 then (b0, 1)
    else if b0 < 0xC2 then (runeError, 1)
    else if b0 < 0xE0 then
      match t with
      | b1 :: _ => if cont b1 then ((b0 - 0xC0) * 64 + (b1 - 0x80), 2) else (runeError, 1)
      | _ => (runeError, 1)
    else if b0 < 0xF0 then
      match t with
      | b1 :: b2 :: _ =>
        if lo b0 ≤ b1 ∧ b1 ≤ hi b0 ∧ cont b2 then ((b0 - 0xE0) * 4096 + (b1 - 0x80) * 64 + (b2 - 0x80), 3) else (runeError, 1)
      | _ => (runeError, 1)
    else if b0 < 0xF5 then
      match t with
      | b1 :: b2 :: b3 :: _ =>
        if lo b0 ≤ b1 ∧ b1 ≤ hi b0 ∧ cont b2 ∧ cont b3 then
          ((b0 - 0xF0) * 262144 + (b1 - 0x80) * 4096 + (b2 - 0x80) * 64 + (b3 - 0x80), 4)
        else (runeError, 1)
      | _ => (runeError, 1)
    else (runeError, 1)

/-- A Unicode scalar value. -/
def Valid (r : Nat) : Prop := r < 0xD800 ∨ (0xDFFF < r ∧ r ≤ 0x10FFFF)

instance (r : Nat) : Decidable (Valid r) := by unfold Valid; infer_instance

/-- `utf8.AppendRune`: surrogates and values out of range become `RuneError`. -/
def encode1 (r : Nat) : Bytes :=
  if r < 0x80 then [r]
  else if r < 0x800 then [0xC0 + r / 64, 0x80 + r % 64]
  else if ¬ Valid r then [0xEF, 0xBF, 0xBD]
  else if r < 0x10000 then [0xE0 + r / 4096, 0x80 + r / 64 % 64, 0x80 + r % 64]
  else [0xF0 + r / 262144, 0x80 + r / 4096 % 64, 0x80 + r / 64 % 64, 0x80 + r % 64]

/-- The runes from byte `off` on, with their byte offsets. -/
def rangeFrom : Nat → Nat → Bytes → List (Nat × Nat)
  | 0, _, _ => []
  | _, _, [] => []
  | fuel + 1, off, s => (off, (decode1 s).1) :: rangeFrom fuel (off + (decode1 s).2) (s.drop (decode1 s).2)

/-- `for i, c := range s`: the pairs `(i, c)`. -/
def range (s : Bytes) : List (Nat × Nat) := rangeFrom s.length 0 s

/-- `[]rune(s)` -/
def runes (s : Bytes) : List Nat := (range s).map (·.2)

/-- `string(rs)` -/
def ofRunes (rs : List Nat) : Bytes := (rs.map encode1).flatten

/-- Valid UTF-8. -/
def ValidString (s : Bytes) : Prop := ∃ rs, (∀ r ∈ rs, Valid r) ∧ s = ofRunes rs

/-- An ASCII string. -/
def Ascii (s : Bytes) : Prop := ∀ b ∈ s, b < 0x80

instance (s : Bytes) : Decidable (Ascii s) := by unfold Ascii; infer_instance

/-- A string literal. -/
def lit (s : String) : Bytes := ofRunes (s.toList.map Char.toNat)

end Utf8
end Verif
