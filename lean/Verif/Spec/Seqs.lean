import Verif.Model.LinkedList

/-!
# Sequences of handles

What a collection of lists means: for each list the sequence of the numbers of its elements, and for each element its
value.  `old` are the elements that were in a list when it was cleared (list.go does not forget them, see C28).
-/

namespace Verif.LinkedList.Spec

variable {T : Type}

/-- Abstract state. -/
structure Seqs (T : Type) where
  seq : Nat → List Nat
  val : Nat → T
  old : List Nat
  nElems : Nat
  nLists : Nat

/-- Nothing created yet. -/
def init (zero : T) : Seqs T := ⟨fun _ => [], fun _ => zero, [], 0, 0⟩

/-- Replaces the sequence of one list. -/
def Seqs.setSeq (s : Seqs T) (l : Nat) (xs : List Nat) : Seqs T := { s with seq := fun k => if k = l then xs else s.seq k }

/-- A new element with value `v`, not yet in a list. -/
def Seqs.alloc (s : Seqs T) (v : T) : Seqs T :=
  { s with val := fun k => if k = s.nElems then v else s.val k, nElems := s.nElems + 1 }

/-- `xs` with `n` put before the first `k`. -/
def before (n k : Nat) : List Nat → List Nat
  | [] => []
  | x :: xs => if x = k then n :: x :: xs else x :: before n k xs

/-- `xs` with `n` put after the first `k`. -/
def after (n k : Nat) : List Nat → List Nat
  | [] => []
  | x :: xs => if x = k then x :: n :: xs else x :: after n k xs

/-- The element following `k`. -/
def succ (k : Nat) : List Nat → Option Nat
  | [] => none
  | x :: xs => if x = k then xs.head? else succ k xs

/-- The value an element was created with. -/
def Seqs.vals (s : Seqs T) (xs : List Nat) : List T := xs.map s.val

/-- Appends new elements with the given values. -/
def Seqs.appendVals (s : Seqs T) (l : Nat) : List T → Seqs T
  | [] => s
  | v :: vs => Seqs.appendVals ((s.alloc v).setSeq l (s.seq l ++ [s.nElems])) l vs

/-- Puts new elements with the given values in front, one after the other. -/
def Seqs.prependVals (s : Seqs T) (l : Nat) : List T → Seqs T
  | [] => s
  | v :: vs => Seqs.prependVals ((s.alloc v).setSeq l (s.nElems :: s.seq l)) l vs

/-- The list containing an element, among the first `n` lists. -/
def Seqs.owner (s : Seqs T) (e : Nat) : Nat → Option Nat
  | 0 => none
  | n + 1 => if e ∈ s.seq n then some n else Seqs.owner s e n

/-- One call. -/
def step (s : Seqs T) : Op T → Seqs T × Obs T
  | .new => ({ s with nLists := s.nLists + 1, seq := fun k => if k = s.nLists then [] else s.seq k }, .list s.nLists)
  | .pushFront l v => ((s.alloc v).setSeq l (s.nElems :: s.seq l), .handle (some (.elem s.nElems)))
  | .pushBack l v => ((s.alloc v).setSeq l (s.seq l ++ [s.nElems]), .handle (some (.elem s.nElems)))
  | .insertBefore l v k =>
    if k ∈ s.seq l then ((s.alloc v).setSeq l (before s.nElems k (s.seq l)), .handle (some (.elem s.nElems)))
    else (s, .handle none)
  | .insertAfter l v k =>
    if k ∈ s.seq l then ((s.alloc v).setSeq l (after s.nElems k (s.seq l)), .handle (some (.elem s.nElems)))
    else (s, .handle none)
  | .remove l e => (s.setSeq l ((s.seq l).erase e), .val (s.val e))
  | .removeFront l => match s.seq l with
    | [] => (s, .panic .nilDeref)
    | x :: xs => (s.setSeq l xs, .val (s.val x))
  | .removeBack l => match (s.seq l).getLast? with
    | none => (s, .panic .nilDeref)
    | some x => (s.setSeq l (s.seq l).dropLast, .val (s.val x))
  | .moveToFront l e => (if e ∈ s.seq l then s.setSeq l (e :: (s.seq l).erase e) else s, .unit)
  | .moveToBack l e => (if e ∈ s.seq l then s.setSeq l ((s.seq l).erase e ++ [e]) else s, .unit)
  | .moveBefore l e k =>
    (if e ∈ s.seq l ∧ k ∈ s.seq l ∧ e ≠ k then s.setSeq l (before e k ((s.seq l).erase e)) else s, .unit)
  | .moveAfter l e k =>
    (if e ∈ s.seq l ∧ k ∈ s.seq l ∧ e ≠ k then s.setSeq l (after e k ((s.seq l).erase e)) else s, .unit)
  | .pushBackList l o => (s.appendVals l (s.vals (s.seq o)), .unit)
  | .pushFrontList l o => (s.prependVals l (s.vals (s.seq o)).reverse, .unit)
  | .clear l => ({ s.setSeq l [] with old := s.seq l ++ s.old }, .unit)
  | .len l => (s, .num (s.seq l).length)
  | .isEmpty l => (s, .flag (s.seq l).isEmpty)
  | .front l => (s, .handle ((s.seq l).head?.map .elem))
  | .back l => (s, .handle ((s.seq l).getLast?.map .elem))
  | .next e => (s, .handle (match s.owner e s.nLists with
    | none => none
    | some l => (succ e (s.seq l)).map .elem))
  | .prev e => (s, .handle (match s.owner e s.nLists with
    | none => none
    | some l => (succ e (s.seq l).reverse).map .elem))

/-- The lists a call mentions. -/
def lists : Op T → List Nat
  | .pushFront l _ | .pushBack l _ | .insertBefore l _ _ | .insertAfter l _ _ | .remove l _ | .removeFront l
  | .removeBack l | .moveToFront l _ | .moveToBack l _ | .moveBefore l _ _ | .moveAfter l _ _ | .clear l | .len l
  | .isEmpty l | .front l | .back l => [l]
  | .pushBackList l o | .pushFrontList l o => [l, o]
  | _ => []

/-- The elements a call mentions. -/
def elems : Op T → List Nat
  | .insertBefore _ _ e | .insertAfter _ _ e | .remove _ e | .moveToFront _ e | .moveToBack _ e | .next e
  | .prev e => [e]
  | .moveBefore _ e k | .moveAfter _ e k => [e, k]
  | _ => []

/-- A call is legal if it only mentions lists and elements that have been created, and no element that sat in a list
when that list was cleared. -/
def Legal (s : Seqs T) (op : Op T) : Prop :=
  (∀ l ∈ lists op, l < s.nLists) ∧ (∀ e ∈ elems op, e < s.nElems ∧ e ∉ s.old)

/-- Every call of the history is legal when it is made. -/
def LegalRun (s : Seqs T) : List (Op T) → Prop
  | [] => True
  | op :: ops => Legal s op ∧ LegalRun (step s op).1 ops

/-- A history. -/
def run (s : Seqs T) : List (Op T) → Seqs T × List (Obs T)
  | [] => (s, [])
  | op :: ops =>
    let (s', o) := step s op
    let (s'', os) := run s' ops
    (s'', o :: os)

end Verif.LinkedList.Spec
