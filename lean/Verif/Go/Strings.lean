import Verif.Go.Utf8

/-!
# Package `strings`, on byte strings
-/

namespace Verif.Strings

/-- `strings.HasPrefix` -/
def hasPrefix (s p : Bytes) : Bool := p.isPrefixOf s

/-- `strings.Index`: the least position at which `sub` begins. -/
def index (sub : Bytes) : Bytes → Option Nat
  | [] => if sub = [] then some 0 else none
  | c :: s => if sub.isPrefixOf (c :: s) then some 0 else (index sub s).map (· + 1)

/-- `strings.Contains` -/
def contains (s sub : Bytes) : Bool := (index sub s).isSome

/-- The bytes of each rune, `strings.explode`. -/
def explode : Nat → Bytes → List Bytes
  | 0, _ => []
  | _, [] => []
  | fuel + 1, s => s.take (Utf8.decode1 s).2 :: explode fuel (s.drop (Utf8.decode1 s).2)

/-- `strings.genSplit` for a separator that is not empty. -/
def splitFuel (sep : Bytes) : Nat → Bytes → List Bytes
  | 0, s => [s]
  | fuel + 1, s =>
    match index sep s with
    | none => [s]
    | some i => s.take i :: splitFuel sep fuel (s.drop (i + sep.length))

/-- `strings.Split` -/
def split (s sep : Bytes) : List Bytes := if sep = [] then explode s.length s else splitFuel sep s.length s

/-- `strings.Join` -/
def join (sep : Bytes) : List Bytes → Bytes
  | [] => []
  | [a] => a
  | a :: as => a ++ sep ++ join sep as

/-- `strings.TrimRight` with one ASCII character. -/
def trimRight (s : Bytes) (c : Nat) : Bytes := (s.reverse.dropWhile (· == c)).reverse

/-- `strings.TrimLeft` with one ASCII character. -/
def trimLeft (s : Bytes) (c : Nat) : Bytes := s.dropWhile (· == c)

/-- `strings.Trim` with one ASCII character. -/
def trim (s : Bytes) (c : Nat) : Bytes := trimRight (trimLeft s c) c

/-- `strings.TrimSuffix` -/
def trimSuffix (s suf : Bytes) : Bytes := if suf.isSuffixOf s then s.take (s.length - suf.length) else s

end Verif.Strings
