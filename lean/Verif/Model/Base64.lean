import Verif.Go.Utf8

/-!
# Model of `help/utils/base64.go`

`base64.StdEncoding` of the standard library: encoder, and decoder with `decodeQuantum` (padding `=` is 61; line feed and carriage
return are skipped; the bits below the last byte are not checked).
-/

namespace Verif.Base64

/-- The alphabet. -/
def char (v : Nat) : Nat :=
  if v < 26 then 65 + v else if v < 52 then 97 + (v - 26) else if v < 62 then 48 + (v - 52) else if v = 62 then 43 else 47

/-- `decodeMap`; `none` is `0xFF`. -/
def val (c : Nat) : Option Nat :=
  if 65 ≤ c ∧ c ≤ 90 then some (c - 65)
  else if 97 ≤ c ∧ c ≤ 122 then some (c - 97 + 26)
  else if 48 ≤ c ∧ c ≤ 57 then some (c - 48 + 52)
  else if c = 43 then some 62
  else if c = 47 then some 63
  else none

/-- `EncodeToString` -/
def encode : Bytes → Bytes
  | a :: b :: c :: rest =>
    let v := a * 65536 + b * 256 + c
    char (v / 262144 % 64) :: char (v / 4096 % 64) :: char (v / 64 % 64) :: char (v % 64) :: encode rest
  | [a, b] =>
    let v := a * 65536 + b * 256
    [char (v / 262144 % 64), char (v / 4096 % 64), char (v / 64 % 64), 61]
  | [a] =>
    let v := a * 65536
    [char (v / 262144 % 64), char (v / 4096 % 64), 61, 61]
  | [] => []

/-- `Decode` of a string without newlines: the bytes, and whether there is an error. -/
def decodeClean : Bytes → Bytes × Bool
  | [] => ([], false)
  | a :: b :: c :: d :: rest =>
    match val a, val b with
    | some a, some b =>
      match val c with
      | some c =>
        match val d with
        | some d =>
          let v := a * 262144 + b * 4096 + c * 64 + d
          let r := decodeClean rest
          (v / 65536 % 256 :: v / 256 % 256 :: v % 256 :: r.1, r.2)
        | none =>
          if d = 61 then
            let v := a * 262144 + b * 4096 + c * 64
            ([v / 65536 % 256, v / 256 % 256], rest != [])
          else ([], true)
      | none =>
        if c = 61 ∧ d = 61 then
          let v := a * 262144 + b * 4096
          ([v / 65536 % 256], rest != [])
        else ([], true)
    | _, _ => ([], true)
  | _ => ([], true)

/-- `DecodeString` -/
def decode (s : Bytes) : Bytes × Bool := decodeClean (s.filter (fun c => !(c == 10 || c == 13)))

/-- `Base64Encode`, `Base64EncodeToByte`, base64.go:9-11, 37-39. -/
def base64Encode (data : Bytes) : Bytes := encode data

/-- `Base64DecodeToString`, `Base64Decode`, `Base64DecodeToByte`, base64.go:17-34: the error is dropped. -/
def base64Decode (data : Bytes) : Bytes := (decode data).1

end Verif.Base64
