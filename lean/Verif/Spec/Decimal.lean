import Verif.Go.Utf8

/-!
# Decimal numerals
-/

namespace Verif.Spec.Decimal

/-- The value of a string of digits. -/
def value (ds : Bytes) : Nat := ds.foldl (fun n d => n * 10 + (d - 48)) 0

/-- One digit or more. -/
def Digits (ds : Bytes) : Prop := ds ≠ [] ∧ ∀ d ∈ ds, 48 ≤ d ∧ d ≤ 57

/-- `s` is a numeral with value `v`: digits, perhaps after a sign. -/
inductive Numeral : Bytes → Int → Prop
  | plain (ds) : Digits ds → Numeral ds (value ds)
  | plus (ds) : Digits ds → Numeral (43 :: ds) (value ds)
  | minus (ds) : Digits ds → Numeral (45 :: ds) (- (value ds : Int))

/-- The nearest 64-bit number. -/
def clamp (v : Int) : Int := max (- 2 ^ 63) (min v (2 ^ 63 - 1))

end Verif.Spec.Decimal
