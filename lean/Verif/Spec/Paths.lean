import Verif.Go.Utf8

/-!
# Where a path leads

The meaning of a path for the operating system, without symbolic links: a walk from the root or the current directory.
A location is the list of names from the root.
-/

namespace Verif.Spec.Path

/-- The elements between slashes. -/
def elems : Bytes → List Bytes
  | [] => [[]]
  | c :: s =>
    match elems s with
    | [] => [[c]]
    | e :: es => if c = 47 then [] :: e :: es else (c :: e) :: es

/-- One step. The parent of the root is the root. -/
def step (loc : List Bytes) (e : Bytes) : List Bytes :=
  if e = [] then loc else if e = [46] then loc else if e = [46, 46] then loc.dropLast else loc ++ [e]

/-- Where path `p` leads from the current directory `cwd`. -/
def loc (cwd : List Bytes) (p : Bytes) : List Bytes :=
  (elems p).foldl step (if p.head? = some 47 then [] else cwd)

/-- `q` lies inside directory `d` (or is `d`). -/
def Inside (cwd : List Bytes) (d q : Bytes) : Prop := loc cwd d <+: loc cwd q

end Verif.Spec.Path
