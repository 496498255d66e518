import Verif.Model.JsonValue

/-!
# Model of `dumpStructToMapForInsert` (gorm_tools/gorm.go)

A record is a `GoVal`: a struct is the map of its fields under their JSON names (without those that `omitempty` drops), a pointer is
what it points to.
-/

namespace Verif.Json

open Utf8

/-- What `json` stores in an `interface{}`; numbers are `json.Number` (`UseNumber`). -/
inductive IVal
  | nil
  | bool (b : Bool)
  | num (text : Bytes)
  | str (s : Bytes)
  | arr (l : List IVal)
  | obj (l : List (Bytes × IVal))

mutual
/-- `decodeState.valueInterface`. -/
def decodeAny : Val → IVal
  | .null => .nil
  | .bool b => .bool b
  | .num t => .num t
  | .str raw => .str (unquote raw)
  | .arr l => .arr (decodeAll l)
  | .obj ms => .obj (decodeMembers ms)

def decodeAll : List Val → List IVal
  | [] => []
  | v :: l => decodeAny v :: decodeAll l

def decodeMembers : List (Bytes × Val) → List (Bytes × IVal)
  | [] => []
  | (k, v) :: ms => (unquote k, decodeAny v) :: decodeMembers ms
end

inductive DumpErr
  | marshal
  | unmarshal
deriving DecidableEq

/-- `dumpStructToMapForInsert`, gorm_tools/gorm.go:192-207: the assignments made to the map in order. `null` makes the map nil. -/
def dumpStruct (record : GoVal) : Except DumpErr (List (Bytes × IVal)) :=
  match encode record with
  | none => .error .marshal
  | some data =>
    match parse data with
    | some (.obj ms) => .ok (decodeMembers ms)
    | some .null => .ok []
    | _ => .error .unmarshal

end Verif.Json
