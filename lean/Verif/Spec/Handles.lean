/-!
# Specifications of the handle heap (`Reap`) and the map heap (`Meap`)
-/

namespace Verif

/-- State of the handle heap: how many handles were given out, and the current value of each live one. -/
structure HandleBag (T : Type) where
  next : Nat
  live : Nat → Option T

/-- Operations of the handle heap. -/
inductive HandleOp (T : Type) where
  | push (v : T)
  | pop
  | peek
  | remove (e : Nat)
  | setValue (e : Nat) (v : T)

/-- Results of the handle heap. -/
inductive HandleOut (T : Type) where
  | handle (e : Nat)
  | val (v : T)
  | flag (b : Bool)
deriving DecidableEq

/-- The live value of `e` is `v` and no live value is less. -/
def HandleBag.IsMin {T : Type} (lt : T → T → Bool) (b : HandleBag T) (e : Nat) (v : T) : Prop :=
  b.live e = some v ∧ ∀ e' v', b.live e' = some v' → lt v' v = false

/-- Point update of the live map. -/
def HandleBag.set {T : Type} (b : HandleBag T) (e : Nat) (v : Option T) : HandleBag T :=
  { b with live := fun e' => if e' = e then v else b.live e' }

/-- What each operation does; handles passed in must have been given out before. -/
inductive HandleStep {T : Type} (lt : T → T → Bool) :
    HandleBag T → HandleOp T → HandleOut T → HandleBag T → Prop where
  | push (b : HandleBag T) (v : T) :
      HandleStep lt b (.push v) (.handle b.next) { (b.set b.next (some v)) with next := b.next + 1 }
  | pop (b : HandleBag T) (e : Nat) (v : T) (hmin : b.IsMin lt e v) :
      HandleStep lt b .pop (.val v) (b.set e none)
  | peek (b : HandleBag T) (e : Nat) (v : T) (hmin : b.IsMin lt e v) :
      HandleStep lt b .peek (.val v) b
  | removeLive (b : HandleBag T) (e : Nat) (h : (b.live e).isSome) :
      HandleStep lt b (.remove e) (.flag true) (b.set e none)
  | removeDead (b : HandleBag T) (e : Nat) (h : b.live e = none) :
      HandleStep lt b (.remove e) (.flag false) b
  | setLive (b : HandleBag T) (e : Nat) (v : T) (h : (b.live e).isSome) :
      HandleStep lt b (.setValue e v) (.flag true) (b.set e (some v))
  | setDead (b : HandleBag T) (e : Nat) (v : T) (h : b.live e = none) :
      HandleStep lt b (.setValue e v) (.flag false) b

/-- Operations of the map heap. -/
inductive MapHeapOp (K V : Type) where
  | push (k : K) (v : V)
  | pop
  | peek
  | remove (k : K)
  | get (k : K)
  | contains (k : K)
  | len

/-- Results of the map heap. -/
inductive MapHeapOut (K V : Type) where
  | unit
  | entry (e : K × V)
  | val (v : Option V)
  | flag (b : Bool)
  | num (n : Nat)
deriving DecidableEq

/-- The entry is in the map and no entry of the map is less. -/
def MapMin {K V : Type} (lt : K × V → K × V → Bool) (f : K → Option V) (e : K × V) : Prop :=
  f e.1 = some e.2 ∧ ∀ k v, f k = some v → lt (k, v) e = false

/-- Point update of a map. -/
def mapSet {K V : Type} [DecidableEq K] (f : K → Option V) (k : K) (v : Option V) : K → Option V :=
  fun k' => if k' = k then v else f k'

/-- The map has exactly `n` keys. -/
def HasSize {K V : Type} (f : K → Option V) (n : Nat) : Prop :=
  ∃ keys : List K, keys.Nodup ∧ (∀ k, k ∈ keys ↔ (f k).isSome) ∧ keys.length = n

/-- What each operation does to a map from keys to values. -/
inductive MapHeapStep {K V : Type} [DecidableEq K] (lt : K × V → K × V → Bool) :
    (K → Option V) → MapHeapOp K V → MapHeapOut K V → (K → Option V) → Prop where
  | push (f : K → Option V) (k : K) (v : V) : MapHeapStep lt f (.push k v) .unit (mapSet f k (some v))
  | pop (f : K → Option V) (e : K × V) (hmin : MapMin lt f e) : MapHeapStep lt f .pop (.entry e) (mapSet f e.1 none)
  | peek (f : K → Option V) (e : K × V) (hmin : MapMin lt f e) : MapHeapStep lt f .peek (.entry e) f
  | remove (f : K → Option V) (k : K) : MapHeapStep lt f (.remove k) .unit (mapSet f k none)
  | get (f : K → Option V) (k : K) : MapHeapStep lt f (.get k) (.val (f k)) f
  | contains (f : K → Option V) (k : K) : MapHeapStep lt f (.contains k) (.flag (f k).isSome) f
  | len (f : K → Option V) (n : Nat) (hn : HasSize f n) : MapHeapStep lt f .len (.num n) f

/-- Histories of a step relation. -/
inductive Hist {S O R : Type} (stp : S → O → R → S → Prop) : S → List O → List R → S → Prop where
  | nil (s : S) : Hist stp s [] [] s
  | cons {s s' s'' : S} {o : O} {r : R} {os : List O} {rs : List R}
      (h1 : stp s o r s') (h2 : Hist stp s' os rs s'') : Hist stp s (o :: os) (r :: rs) s''

end Verif
