import Verif.Spec.Paths
import Verif.Model.FsLink

/-!
# Where a path leads in a file system with symbolic links

A relation, apart from the function that walks (Model/FsLink): from a place, along some elements, over `k` links, to a place.
-/

namespace Verif.Spec.Walk

open FsLink Spec.Path

/-- A name, not one of the special elements. -/
def Name (e : Bytes) : Prop := e ≠ [] ∧ e ≠ [46] ∧ e ≠ [46, 46]

/-- From `l` the elements lead to `x`, over `k` links. Every element is looked up in a directory. -/
inductive Leads (fs : FS) : Nat → Loc → List Bytes → Loc → Prop
  | here (l) (h : fs l ≠ none) : Leads fs 0 l [] l
  | stay {k l e es x} (hl : fs l = some .dir) (he : e = [] ∨ e = [46]) (h : Leads fs k l es x) : Leads fs k l (e :: es) x
  | up {k l es x} (hl : fs l = some .dir) (h : Leads fs k l.dropLast es x) : Leads fs k l ([46, 46] :: es) x
  | down {k l e es x n} (hl : fs l = some .dir) (he : Name e) (hn : fs (l ++ [e]) = some n) (hd : ∀ t, n ≠ .link t)
      (h : Leads fs k (l ++ [e]) es x) : Leads fs k l (e :: es) x
  | follow {k l e es x t} (hl : fs l = some .dir) (he : Name e) (hn : fs (l ++ [e]) = some (.link t))
      (h : Leads fs k (if t.head? = some 47 then [] else l) (elems t ++ es) x) : Leads fs (k + 1) l (e :: es) x

/-- The path leads to `x`, over at most 40 links. -/
def PathLeads (fs : FS) (cwd : Loc) (p : Bytes) (x : Loc) : Prop :=
  p ≠ [] ∧ ∃ k, k ≤ 40 ∧ Leads fs k (if p.head? = some 47 then [] else cwd) (elems p) x

/-- The path names the entry at `x`: its last element is a name, and the rest leads to the directory of `x`. There may be nothing at `x`, or a link,
which is not followed. -/
def EntryAt (fs : FS) (cwd : Loc) (p : Bytes) (x : Loc) : Prop :=
  ∃ a e d k, elems p = a ++ [e] ∧ Name e ∧ k ≤ 40 ∧ Leads fs k (if p.head? = some 47 then [] else cwd) a d ∧ fs d = some .dir ∧ x = d ++ [e]

/-- A file system: the root is a directory, and what exists lies in a directory. -/
structure Sane (fs : FS) : Prop where
  root : fs [] = some .dir
  inDir : ∀ l e, fs (l ++ [e]) ≠ none → fs l = some .dir

end Verif.Spec.Walk
