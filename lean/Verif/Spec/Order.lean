import Mathlib.Data.Multiset.Basic

/-!
# Specifications: comparison functions and priority queues
-/

namespace Verif

/-- What a `less` function has to satisfy for "minimum" to make sense (the textbook definition of a strict weak order). -/
structure StrictWeakOrder {T : Type} (lt : T → T → Bool) : Prop where
  irrefl : ∀ a, lt a a = false
  trans : ∀ a b c, lt a b = true → lt b c = true → lt a c = true
  incomp_trans : ∀ a b c, (lt a b = false ∧ lt b a = false) → (lt b c = false ∧ lt c b = false) →
    (lt a c = false ∧ lt c a = false)

/-- `x` is a minimum of the bag: it belongs to it and nothing in it is less. -/
def IsMin {T : Type} (lt : T → T → Bool) (x : T) (bag : Multiset T) : Prop :=
  x ∈ bag ∧ ∀ y ∈ bag, lt y x = false

/-- Client operations on a heap. `update i y` is "the element at index `i` changes its value to `y`, then `Fix(i)`". -/
inductive HeapOp (T : Type) where
  | push (x : T)
  | pop
  | peek
  | remove (i : Nat)
  | update (i : Nat) (y : T)

/-- A priority queue over a bag (multiset): what each operation may return and how it changes the bag. -/
inductive PQStep {T : Type} (lt : T → T → Bool) : Multiset T → HeapOp T → Option T → Multiset T → Prop where
  | push (bag : Multiset T) (x : T) : PQStep lt bag (.push x) none (x ::ₘ bag)
  | pop (x : T) (bag : Multiset T) (hmin : IsMin lt x (x ::ₘ bag)) : PQStep lt (x ::ₘ bag) .pop (some x) bag
  | peek (x : T) (bag : Multiset T) (hmin : IsMin lt x bag) : PQStep lt bag .peek (some x) bag
  | remove (i : Nat) (x : T) (bag : Multiset T) (hi : i < (x ::ₘ bag).card) :
      PQStep lt (x ::ₘ bag) (.remove i) (some x) bag
  | update (i : Nat) (x y : T) (bag : Multiset T) (hi : i < (x ::ₘ bag).card) :
      PQStep lt (x ::ₘ bag) (.update i y) none (y ::ₘ bag)

/-- Histories of priority-queue steps. -/
inductive PQRun {T : Type} (lt : T → T → Bool) :
    Multiset T → List (HeapOp T) → List (Option T) → Multiset T → Prop where
  | nil (bag : Multiset T) : PQRun lt bag [] [] bag
  | cons {b b' b'' : Multiset T} {op : HeapOp T} {out : Option T} {ops : List (HeapOp T)} {outs : List (Option T)}
      (h1 : PQStep lt b op out b') (h2 : PQRun lt b' ops outs b'') : PQRun lt b (op :: ops) (out :: outs) b''

end Verif
