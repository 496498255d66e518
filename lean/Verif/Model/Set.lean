import Verif.Go.Prelude

/-!
# Model of `common/container/set/set.go`

A Go map with keys compared by `eq` (`==` of the key type) is the list of its keys, at most one per `==`-class.  `==`
need not be reflexive: a floating-point NaN differs from itself, and a map then gets a new entry at every assignment
(Go spec, "Map types"; runtime `mapassign`).  Iteration order does not matter here.
-/

namespace Verif.GoSet

variable {T : Type}

/-- `New`, set.go:7-9. -/
def new : List T := []

/-- `Add`, set.go:12-14: `s.m[elem] = struct{}{}`. -/
def add (eq : T → T → Bool) (m : List T) (x : T) : List T := if m.any (eq x) then m else m ++ [x]

/-- `Remove`, set.go:17-19: `delete(s.m, elem)`. -/
def remove (eq : T → T → Bool) (m : List T) (x : T) : List T := m.filter fun y => !eq x y

/-- `Contains`, set.go:22-25. -/
def contains (eq : T → T → Bool) (m : List T) (x : T) : Bool := m.any (eq x)

/-- `Len`, set.go:28-30. -/
def len (m : List T) : Nat := m.length

/-- `Empty`, set.go:33-35. -/
def isEmpty (m : List T) : Bool := len m == 0

/-- The calls that change a set. -/
inductive Op (T : Type) where
  | add (x : T)
  | remove (x : T)

/-- One call. -/
def step (eq : T → T → Bool) (m : List T) : Op T → List T
  | .add x => add eq m x
  | .remove x => remove eq m x

/-- A history of calls on a new set. -/
def run (eq : T → T → Bool) (ops : List (Op T)) : List T := ops.foldl (step eq) new

end Verif.GoSet
