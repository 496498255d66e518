import Verif.Model.Json

/-!
# Model of `MapToJsonString` and `Map2JsonString` of `help/utils/maps.go`

`json.Marshal` (go 1.18) of values built from booleans, integers, floats, strings, slices and maps with string keys.
-/

namespace Verif.Json

open Utf8

/-- Dynamic values in an `interface{}`. Structs, `[]byte`, types with a `MarshalJSON` method and values that contain themselves are not
modelled. -/
inductive GoVal
  /-- The nil interface, a nil map, a nil slice or a nil pointer. -/
  | nil
  | bool (b : Bool)
  /-- An integer of any type. -/
  | int (v : Int)
  /-- A floating point number: the text `strconv` gives for it, `none` for NaN and the infinities. -/
  | float (text : Option Bytes)
  | str (s : Bytes)
  | slice (l : List GoVal)
  /-- The entries of a map, in the order in which they are visited. -/
  | map (es : List (Bytes × GoVal))
  /-- A channel, a function or a complex number. -/
  | other

mutual
/-- `encodeState.marshal`; `none` is `UnsupportedTypeError` or `UnsupportedValueError`. -/
def encode : GoVal → Option Bytes
  | .nil => some (lit "null")
  | .bool true => some (lit "true")
  | .bool false => some (lit "false")
  | .int v => some (Strconv.formatInt v)
  | .float t => t
  | .str s => some (quote s)
  | .slice l => (encodeList l).map (fun ts => 91 :: ([44].intercalate ts ++ [93]))
  | .map es => (encodeEntries es).map (fun ts =>
      123 :: ([44].intercalate ((ts.insertionSort (fun a b => bytesLe a.1 b.1)).map (fun e => quote e.1 ++ 58 :: e.2)) ++ [125]))
  | .other => none

/-- The elements of a slice. -/
def encodeList : List GoVal → Option (List Bytes)
  | [] => some []
  | v :: l => (encode v).bind (fun t => (encodeList l).map (fun ts => t :: ts))

/-- The entries of a map, with their keys, before they are sorted. -/
def encodeEntries : List (Bytes × GoVal) → Option (List (Bytes × Bytes))
  | [] => some []
  | (k, v) :: es => (encode v).bind (fun t => (encodeEntries es).map (fun ts => (k, t) :: ts))
end

/-- `Map2JsonString`, help/utils/maps.go:114-117: the error is dropped. -/
def map2JsonString (v : GoVal) : Bytes := (encode v).getD []

/-- `MapToJsonString`, help/utils/maps.go:108-112: the same for a map (`none` for the nil map). -/
def mapToJsonString : Option (List (Bytes × GoVal)) → Bytes
  | none => map2JsonString .nil
  | some es => map2JsonString (.map es)

end Verif.Json
