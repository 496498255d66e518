/-!
# The fragment of Go semantics shared by all models

* A Go panic is an error value; `.diverge` marks a loop that ran out of fuel.
* A slice is a `List`; reading or writing it is bounds-checked as in Go.
-/

namespace Verif

/-- Run-time panics of Go (language spec, "Run-time panics"), explicit `panic(msg)` calls, and
`diverge`, the result of a fuelled loop whose fuel is exhausted (not a Go panic: it stands for
"the loop is still running"). -/
inductive Panic where
  | index
  | slice
  | divZero
  | nilDeref
  | negShift
  | makeLen
  | explicit (msg : String)
  | diverge
deriving DecidableEq, Repr

/-- Result of a Go call: a value or a panic. -/
abbrev Go (α : Type u) := Except Panic α

namespace Go

/-- `l[i]` with Go's bounds check (the language's index expression). -/
def idx {α : Type u} (l : List α) (i : Nat) : Go α :=
  match l[i]? with
  | some a => .ok a
  | none => .error .index

/-- `l[i] = a` with Go's bounds check. -/
def set {α : Type u} (l : List α) (i : Nat) (a : α) : Go (List α) :=
  if i < l.length then .ok (l.set i a) else .error .index

@[simp] theorem idx_of_lt {α : Type u} (l : List α) (i : Nat) (h : i < l.length) :
    idx l i = .ok l[i] := by
  simp [idx, h]

theorem idx_of_ge {α : Type u} (l : List α) (i : Nat) (h : l.length ≤ i) :
    idx l i = .error .index := by
  simp [idx, h]

@[simp] theorem set_of_lt {α : Type u} (l : List α) (i : Nat) (a : α) (h : i < l.length) :
    set l i a = .ok (l.set i a) := by
  simp [set, h]

@[simp] theorem bind_ok {α β : Type u} (a : α) (f : α → Go β) :
    ((Except.ok a : Go α) >>= f) = f a := rfl

@[simp] theorem bind_error {α β : Type u} (e : Panic) (f : α → Go β) :
    ((Except.error e : Go α) >>= f) = .error e := rfl

@[simp] theorem pure_eq {α : Type u} (a : α) : (pure a : Go α) = .ok a := rfl

end Go
end Verif
