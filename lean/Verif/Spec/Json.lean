import Verif.Go.Utf8
import Verif.Spec.Decimal

/-!
# JSON (RFC 8259)
-/

namespace Verif.Spec.Json

open Utf8 Spec.Decimal

/-- Values; numbers and strings as they are written, strings without the quotes. -/
inductive Value
  | null
  | bool (b : Bool)
  | num (text : Bytes)
  | str (raw : Bytes)
  | arr (elements : List Value)
  | obj (members : List (Bytes × Value))

/-- White space. -/
def Ws (w : Bytes) : Prop := ∀ c ∈ w, c = 32 ∨ c = 9 ∨ c = 10 ∨ c = 13

/-- `Hex c n`: a hexadecimal digit and its value. -/
def Hex (c n : Nat) : Prop := (48 ≤ c ∧ c ≤ 57 ∧ n = c - 48) ∨ (97 ≤ c ∧ c ≤ 102 ∧ n = c - 97 + 10) ∨ (65 ≤ c ∧ c ≤ 70 ∧ n = c - 65 + 10)

/-- `\uXXXX` and its number. -/
def Hex4 (t : Bytes) (n : Nat) : Prop :=
  ∃ a b c d a' b' c' d', t = [92, 117, a, b, c, d] ∧ n = ((a' * 16 + b') * 16 + c') * 16 + d' ∧ Hex a a' ∧ Hex b b' ∧ Hex c c' ∧ Hex d d'

/-- The characters after a backslash, and what they stand for. -/
def escapes : List (Nat × Nat) := [(34, 34), (92, 92), (47, 47), (98, 8), (102, 12), (110, 10), (114, 13), (116, 9)]

/-- What may stand between the quotes of a string. -/
inductive Chars : Bytes → Prop
  | nil : Chars []
  | plain (c s) : 32 ≤ c → c ≠ 34 → c ≠ 92 → Chars s → Chars (c :: s)
  | escape (c x s) : (c, x) ∈ escapes → Chars s → Chars (92 :: c :: s)
  | unicode (t n s) : Hex4 t n → Chars s → Chars (t ++ s)

/-- An integer without leading zeros, perhaps a fraction, perhaps an exponent. -/
def Number (t : Bytes) : Prop :=
  ∃ sign i f e, t = sign ++ (i ++ (f ++ e)) ∧ (sign = [] ∨ sign = [45]) ∧ (i = [48] ∨ Digits i ∧ i.head? ≠ some 48) ∧
    (f = [] ∨ ∃ ds, f = 46 :: ds ∧ Digits ds) ∧
    (e = [] ∨ ∃ x sg ds, e = x :: (sg ++ ds) ∧ (x = 101 ∨ x = 69) ∧ (sg = [] ∨ sg = [43] ∨ sg = [45]) ∧ Digits ds)

/-- Values that are no arrays and no objects. -/
inductive Scalar : Bytes → Value → Prop
  | null : Scalar (lit "null") .null
  | true : Scalar (lit "true") (.bool true)
  | false : Scalar (lit "false") (.bool false)
  | num (t) : Number t → Scalar t (.num t)
  | str (raw) : Chars raw → Scalar (34 :: (raw ++ [34])) (.str raw)

/-- Values between commas. -/
inductive Elements (P : Bytes → Value → Prop) : Bytes → List Value → Prop
  | one (w t w' v) : Ws w → P t v → Ws w' → Elements P (w ++ (t ++ w')) [v]
  | cons (w t w' v s vs) : Ws w → P t v → Ws w' → Elements P s vs → Elements P (w ++ (t ++ (w' ++ 44 :: s))) (v :: vs)

/-- Members between commas. -/
inductive Members (P : Bytes → Value → Prop) : Bytes → List (Bytes × Value) → Prop
  | one (w k w1 w2 t w3 v) : Ws w → Chars k → Ws w1 → Ws w2 → P t v → Ws w3 →
      Members P (w ++ 34 :: (k ++ 34 :: (w1 ++ 58 :: (w2 ++ (t ++ w3))))) [(k, v)]
  | cons (w k w1 w2 t w3 v s ms) : Ws w → Chars k → Ws w1 → Ws w2 → P t v → Ws w3 → Members P s ms →
      Members P (w ++ 34 :: (k ++ 34 :: (w1 ++ 58 :: (w2 ++ (t ++ (w3 ++ 44 :: s)))))) ((k, v) :: ms)

/-- `Text d t v`: the text `t` is the value `v`, whose arrays and objects are nested at most `d` deep. -/
def Text : Nat → Bytes → Value → Prop
  | 0, t, v => Scalar t v
  | d + 1, t, v => Scalar t v ∨
      (∃ w, t = 91 :: (w ++ [93]) ∧ v = .arr [] ∧ Ws w) ∨ (∃ s vs, t = 91 :: (s ++ [93]) ∧ v = .arr vs ∧ Elements (Text d) s vs) ∨
      (∃ w, t = 123 :: (w ++ [125]) ∧ v = .obj [] ∧ Ws w) ∨ (∃ s ms, t = 123 :: (s ++ [125]) ∧ v = .obj ms ∧ Members (Text d) s ms)

/-- A whole text. -/
def Doc (d : Nat) (s : Bytes) (v : Value) : Prop := ∃ w t w', s = w ++ (t ++ w') ∧ Ws w ∧ Text d t v ∧ Ws w'

def High (n : Nat) : Prop := 0xD800 ≤ n ∧ n < 0xDC00
def Low (n : Nat) : Prop := 0xDC00 ≤ n ∧ n < 0xE000

/-- What a string stands for, in UTF-8. A surrogate that is not half of a pair, and a byte that is no UTF-8, stands for U+FFFD. -/
inductive Decoded : Bytes → Bytes → Prop
  | nil : Decoded [] []
  | plain (c s o) : c < 128 → c ≠ 92 → Decoded s o → Decoded (c :: s) (c :: o)
  | escape (c x s o) : (c, x) ∈ escapes → Decoded s o → Decoded (92 :: c :: s) (x :: o)
  | unicode (t n s o) : Hex4 t n → ¬ High n → ¬ Low n → Decoded s o → Decoded (t ++ s) (encode1 n ++ o)
  | pair (t n t' n' s o) : Hex4 t n → Hex4 t' n' → High n → Low n' → Decoded s o →
      Decoded (t ++ (t' ++ s)) (encode1 (0x10000 + (n - 0xD800) * 0x400 + (n' - 0xDC00)) ++ o)
  | lone (t n s o) : Hex4 t n → High n ∨ Low n → ¬ (High n ∧ ∃ t' n' s', s = t' ++ s' ∧ Hex4 t' n' ∧ Low n') → Decoded s o →
      Decoded (t ++ s) (encode1 0xFFFD ++ o)
  | multi (r s o) : 128 ≤ r → Valid r → Decoded s o → Decoded (encode1 r ++ s) (encode1 r ++ o)
  | broken (c s o) : 128 ≤ c → ¬ (∃ r s', Valid r ∧ c :: s = encode1 r ++ s') → Decoded s o → Decoded (c :: s) (encode1 0xFFFD ++ o)

/-- The 32-bit number a value is, 0 if it is none. -/
def Int32 (v : Value) (n : Int) : Prop :=
  (∃ t, v = .num t ∧ Numeral t n ∧ - 2 ^ 31 ≤ n ∧ n < 2 ^ 31) ∨
  (n = 0 ∧ ¬ ∃ t m, v = .num t ∧ Numeral t m ∧ - 2 ^ 31 ≤ m ∧ m < 2 ^ 31)

end Verif.Spec.Json
