import Verif.Model.Strconv
import Verif.Spec.Json
import Mathlib.Data.List.Sort

/-!
# Model of the JSON helpers of `help/utils/maps.go` for `map[string]int32`

`json.Marshal` and `json.Unmarshal` of the standard library (go 1.18), as far as these two functions use them.
-/

namespace Verif.Json

open Utf8

/-! ## Marshal -/

/-- A lower case hexadecimal digit. -/
def hexDigit (n : Nat) : Nat := if n < 10 then 48 + n else 87 + n

/-- One rune as `encodeState.string` writes it, with HTML escaping. -/
def escRune (r : Nat) : Bytes :=
  if r < 0x80 then
    if r = 34 ∨ r = 92 then [92, r]
    else if r = 10 then lit "\\n"
    else if r = 13 then lit "\\r"
    else if r = 9 then lit "\\t"
    else if r < 32 ∨ r = 38 ∨ r = 60 ∨ r = 62 then lit "\\u00" ++ [hexDigit (r / 16), hexDigit (r % 16)]
    else [r]
  else if r = 0x2028 ∨ r = 0x2029 then lit "\\u202" ++ [hexDigit (r % 16)]
  else encode1 r

/-- The loop of `encodeState.string`: bytes that are no UTF-8 become `�`. -/
def escLoop : Nat → Bytes → Bytes
  | 0, _ => []
  | _, [] => []
  | fuel + 1, s =>
    (if decode1 s = (runeError, 1) then lit "\\ufffd" else escRune (decode1 s).1) ++ escLoop fuel (s.drop (decode1 s).2)

/-- A string in quotes. -/
def quote (s : Bytes) : Bytes := 34 :: (escLoop s.length s ++ [34])

/-- The order of strings. -/
def bytesLe : Bytes → Bytes → Bool
  | [], _ => true
  | _ :: _, [] => false
  | a :: s, b :: t => if a < b then true else if b < a then false else bytesLe s t

/-- A member of an object. -/
def member (e : Bytes × Int) : Bytes := quote e.1 ++ 58 :: Strconv.formatInt e.2

/-- `MapIntToJsonString`, help/utils/maps.go:118-122. The entries of the map in any order, `none` for the nil map; `Marshal` sorts them by
key. (It cannot fail for such a map.) -/
def mapIntToJsonString : Option (List (Bytes × Int)) → Bytes
  | none => lit "null"
  | some es => 123 :: ([44].intercalate ((es.insertionSort (fun a b => bytesLe a.1 b.1)).map member) ++ [125])

/-! ## Unmarshal -/

def isWs (c : Nat) : Bool := c = 32 ∨ c = 9 ∨ c = 10 ∨ c = 13

def skipWs (s : Bytes) : Bytes := s.dropWhile isWs

def isHex (c : Nat) : Bool := (48 ≤ c ∧ c ≤ 57) ∨ (97 ≤ c ∧ c ≤ 102) ∨ (65 ≤ c ∧ c ≤ 70)

def isDigit (c : Nat) : Bool := 48 ≤ c ∧ c ≤ 57

/-- Letters after a backslash other than `u`: `b f n r t \ / "`. -/
def isEscape (c : Nat) : Bool := [98, 102, 110, 114, 116, 92, 47, 34].contains c

/-- A string after its opening quote: what is before the closing quote, and what follows it. -/
def scanString : Bytes → Option (Bytes × Bytes)
  | [] => none
  | 34 :: s => some ([], s)
  | 92 :: 117 :: a :: b :: c :: d :: s =>
    if isHex a ∧ isHex b ∧ isHex c ∧ isHex d then (scanString s).map (fun p => (92 :: 117 :: a :: b :: c :: d :: p.1, p.2)) else none
  | 92 :: c :: s => if isEscape c then (scanString s).map (fun p => (92 :: c :: p.1, p.2)) else none
  | c :: s => if c < 32 ∨ c = 92 then none else (scanString s).map (fun p => (c :: p.1, p.2))

/-- The digits a text begins with, and the rest. -/
def digits (s : Bytes) : Bytes × Bytes := (s.takeWhile isDigit, s.dropWhile isDigit)

/-- The part of a number before the point. -/
def scanInt (s : Bytes) : Option (Bytes × Bytes) :=
  match s with
  | 48 :: s => some ([48], s)
  | _ => if (digits s).1 = [] then none else some (digits s)

/-- The part of a number after the point, with the point. -/
def scanFrac (s : Bytes) : Option (Bytes × Bytes) :=
  match s with
  | 46 :: s => if (digits s).1 = [] then none else some (46 :: (digits s).1, (digits s).2)
  | _ => some ([], s)

/-- The exponent of a number. -/
def scanExp (s : Bytes) : Option (Bytes × Bytes) :=
  match s with
  | e :: s =>
    if e = 101 ∨ e = 69 then
      match s with
      | c :: t =>
        if c = 43 ∨ c = 45 then if (digits t).1 = [] then none else some (e :: c :: (digits t).1, (digits t).2)
        else if (digits s).1 = [] then none else some (e :: (digits s).1, (digits s).2)
      | [] => none
    else some ([], e :: s)
  | [] => some ([], [])

/-- A number: its text and what follows it. -/
def scanNumber (s : Bytes) : Option (Bytes × Bytes) := do
  let sign := if s.head? = some 45 then [45] else []
  let (i, s) ← scanInt (s.drop sign.length)
  let (f, s) ← scanFrac s
  let (e, s) ← scanExp s
  return (sign ++ i ++ f ++ e, s)

/-- What is parsed: JSON values, with strings and keys as written. -/
abbrev Val := Spec.Json.Value

/-- Members of an object after the opening brace (and after white space): `key : value`, then `,` or `}`. -/
def members (value : Bytes → Option (Val × Bytes)) : Nat → Bytes → Option (List (Bytes × Val) × Bytes)
  | 0, _ => none
  | fuel + 1, s =>
    match s with
    | 34 :: s => do
      let (k, s) ← scanString s
      match skipWs s with
      | 58 :: s => do
        let (v, s) ← value (skipWs s)
        match skipWs s with
        | 125 :: s => some ([(k, v)], s)
        | 44 :: s => do
          let (ms, s) ← members value fuel (skipWs s)
          some ((k, v) :: ms, s)
        | _ => none
      | _ => none
    | _ => none

/-- Elements of an array after the opening bracket (and after white space), and what follows the array. -/
def elements (value : Bytes → Option (Val × Bytes)) : Nat → Bytes → Option (List Val × Bytes)
  | 0, _ => none
  | fuel + 1, s => do
    let (v, s) ← value s
    match skipWs s with
    | 93 :: s => some ([v], s)
    | 44 :: s => do
      let (vs, s) ← elements value fuel (skipWs s)
      some (v :: vs, s)
    | _ => none

/-- A value that is no object and no array. -/
def scalar (s : Bytes) : Option (Val × Bytes) :=
  match s with
  | 34 :: s => (scanString s).map (fun p => (.str p.1, p.2))
  | 110 :: 117 :: 108 :: 108 :: s => some (.null, s)
  | 116 :: 114 :: 117 :: 101 :: s => some (.bool true, s)
  | 102 :: 97 :: 108 :: 115 :: 101 :: s => some (.bool false, s)
  | s => (scanNumber s).map (fun p => (.num p.1, p.2))

/-- A value whose objects and arrays are nested at most `depth` deep. -/
def value : Nat → Bytes → Option (Val × Bytes)
  | 0, s => scalar s
  | depth + 1, s =>
    match s with
    | 123 :: s =>
      match skipWs s with
      | 125 :: s => some (.obj [], s)
      | s => (members (value depth) s.length s).map (fun p => (.obj p.1, p.2))
    | 91 :: s =>
      match skipWs s with
      | 93 :: s => some (.arr [], s)
      | s => (elements (value depth) s.length s).map (fun p => (.arr p.1, p.2))
    | s => scalar s

/-- `maxNestingDepth` -/
def maxDepth : Nat := 10000

/-- A whole text. -/
def parse (s : Bytes) : Option Val :=
  match value maxDepth (skipWs s) with
  | some (v, s) => if skipWs s = [] then some v else none
  | none => none

/-- The value of a hexadecimal digit. -/
def hexVal (c : Nat) : Nat := if c ≤ 57 then c - 48 else if 97 ≤ c then c - 87 else c - 55

/-- `getu4`: the number after `\u`. -/
def getu4 (s : Bytes) : Option Nat :=
  match s with
  | 92 :: 117 :: a :: b :: c :: d :: _ =>
    if isHex a ∧ isHex b ∧ isHex c ∧ isHex d then some (hexVal a * 4096 + hexVal b * 256 + hexVal c * 16 + hexVal d) else none
  | _ => none

/-- `utf16.DecodeRune` -/
def decodeSurrogates (r1 r2 : Nat) : Nat :=
  if 0xD800 ≤ r1 ∧ r1 < 0xDC00 ∧ 0xDC00 ≤ r2 ∧ r2 < 0xE000 then (r1 - 0xD800) * 1024 + (r2 - 0xDC00) + 0x10000 else runeError

/-- The character an escape letter stands for. -/
def unescape (c : Nat) : Nat :=
  if c = 98 then 8 else if c = 102 then 12 else if c = 110 then 10 else if c = 114 then 13 else if c = 116 then 9 else c

/-- `unquote` of a string that was scanned. -/
def unquoteLoop : Nat → Bytes → Bytes
  | 0, _ => []
  | _, [] => []
  | fuel + 1, 92 :: 117 :: s =>
    match getu4 (92 :: 117 :: s) with
    | none => []
    | some r =>
      if 0xD800 ≤ r ∧ r < 0xE000 then
        match getu4 (s.drop 4) with
        | some r2 =>
          if decodeSurrogates r r2 ≠ runeError then encode1 (decodeSurrogates r r2) ++ unquoteLoop fuel (s.drop 10)
          else encode1 runeError ++ unquoteLoop fuel (s.drop 4)
        | none => encode1 runeError ++ unquoteLoop fuel (s.drop 4)
      else encode1 r ++ unquoteLoop fuel (s.drop 4)
  | fuel + 1, 92 :: c :: s => unescape c :: unquoteLoop fuel s
  | fuel + 1, c :: s =>
    if c < 0x80 then c :: unquoteLoop fuel s
    else encode1 (decode1 (c :: s)).1 ++ unquoteLoop fuel ((c :: s).drop (decode1 (c :: s)).2)

def unquote (s : Bytes) : Bytes := unquoteLoop s.length s

/-- `literalStore` into an `int32`: anything else than a number in range leaves the zero value, and an error that is dropped. -/
def toInt32 : Val → Int
  | .num t =>
    match Strconv.parseInt t with
    | (n, none) => if - 2 ^ 31 ≤ n ∧ n < 2 ^ 31 then n else 0
    | _ => 0
  | _ => 0

/-- `JsonStringToMap`, help/utils/maps.go:123-126: the assignments made to the map in order, `none` for the nil map. -/
def jsonStringToMap (s : Bytes) : Option (List (Bytes × Int)) :=
  match parse s with
  | some (.obj ms) => some (ms.map (fun m => (unquote m.1, toInt32 m.2)))
  | _ => none

end Verif.Json
