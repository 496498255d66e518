import Verif.Model.Gorm

/-!
# What `db.Exec(sql, values...)` hands to the driver (gorm_tools/gorm.go:176, gorm_tools/update.go:78)

GORM v1.24.6 is not part of the repository; this is `clause.Expr.Build` and `Statement.AddVar` of that version: a `?` takes the next value, a slice
right after an opening parenthesis is written without parentheses of its own, any other slice with them. A text with an `@` takes another path in
GORM (`clause.NamedExpr`) and is not modelled.
-/

namespace Verif.Gorm

/-- A value given to GORM: one for the driver, or a slice. -/
inductive SqlVal (A : Type)
  | atom (a : A)
  | list (l : List (SqlVal A))

/-- What the driver gets: the text, in which a bound variable stands for a place holder. -/
inductive Tok (A : Type)
  | ch (c : Char)
  | bound (a : A)
deriving DecidableEq

/-- `extra` are bound variables that have no place in the text (`sql.NamedArg` at the end of `Build`). -/
structure Sent (A : Type) where
  text : List (Tok A)
  extra : List (SqlVal A)

def chars {A : Type} (s : Str) : List (Tok A) := s.map .ch

mutual
/-- `Statement.AddVar` of one value. -/
def addVar {A : Type} : SqlVal A → List (Tok A)
  | .atom a => [.bound a]
  | .list [] => chars "(NULL)".toList
  | .list (v :: l) => .ch '(' :: (addVar v ++ addRest l ++ [.ch ')'])

/-- The others, each after a comma. -/
def addRest {A : Type} : List (SqlVal A) → List (Tok A)
  | [] => []
  | v :: l => .ch ',' :: (addVar v ++ addRest l)
end

/-- One `?` in `clause.Expr.Build`; `nil` is the value nil. -/
def addPlace {A : Type} (nil : A) (afterParenthesis : Bool) (v : SqlVal A) : List (Tok A) :=
  if afterParenthesis then
    match v with
    | .atom a => [.bound a]
    | .list [] => [.bound nil]
    | .list (v :: l) => addVar v ++ addRest l
  else addVar v

/-- `clause.Expr.Build`. -/
def build {A : Type} (nil : A) : Bool → Str → List (SqlVal A) → Sent A
  | _, [], vars => ⟨[], vars⟩
  | after, c :: s, [] => let r := build nil (c == '(') s []; ⟨.ch c :: r.text, r.extra⟩
  | after, c :: s, v :: vs =>
    if c = '?' then let r := build nil after s vs; ⟨addPlace nil after v ++ r.text, r.extra⟩
    else let r := build nil (c == '(') s (v :: vs); ⟨.ch c :: r.text, r.extra⟩

/-- An argument of `db.Exec`; `emb` is what GORM sees in a value of a field. -/
def argVal {A V : Type} (int : Int → A) (emb : V → SqlVal A) : Arg V → SqlVal A
  | .row vs => .list (vs.map emb)
  | .id i => .atom (int i)
  | .val v => emb v
  | .ids l => .list (l.map (fun i => .atom (int i)))

/-- `db.Exec` up to the driver. -/
def sent {A V : Type} (nil : A) (int : Int → A) (emb : V → SqlVal A) (s : Stmt V) : Sent A :=
  build nil false s.sql (s.args.map (argVal int emb))

end Verif.Gorm
