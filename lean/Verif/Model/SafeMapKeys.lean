import Verif.Go.Prelude

/-!
# The map of help/utils/maps.go:12-106 with odd keys, and with callbacks that use the `Unsafe` methods

One goroutine. A Go map takes any key of type `interface{}`, but

* a key that cannot be hashed (a slice, a map, a function) panics, in a look-up, an assignment and a `delete`, even if the map is empty;
* a key that is not equal to itself (NaN) is a new entry for each assignment, which no look-up and no `delete` finds.

`Keys` says which keys are which. An entry of the map has a number that says when it was created, which is how the rules for `range` are
stated: entries deleted before they are reached do not come, entries created meanwhile may come or not, and all others come once.
The order is left open.
-/

namespace Verif.SafeMapKeys

/-- What `==` and the hash function do with a key. -/
structure Keys (K : Type) where
  /-- `k == k` -/
  rfx : K → Bool
  hashable : K → Bool

structure Entry (K V : Type) where
  id : Nat
  key : K
  /-- `none` is `nil` -/
  val : Option V

/-- `Map`, maps.go:12-15; `m = none` is the nil map. `next` is the number of the next entry to be created. -/
structure State (K V : Type) where
  m : Option (List (Entry K V))
  next : Nat

variable {K V : Type} [DecidableEq K] (ks : Keys K)

/-- The entries. -/
def State.es (s : State K V) : List (Entry K V) := s.m.getD []

/-- The panic of an unhashable key. -/
def unhashable : Panic := .explicit "runtime error: hash of unhashable type"

/-- `m[k]` with the second result, for a key that can be hashed. -/
def lookup (es : List (Entry K V)) (k : K) : Option (Option V) :=
  if ks.rfx k then (es.find? (fun e => decide (e.key = k))).map (·.val) else none

/-- `m[k] = v`, for a key that can be hashed. -/
def assign (es : List (Entry K V)) (n : Nat) (k : K) (v : Option V) : List (Entry K V) :=
  if (lookup ks es k).isSome then es.map (fun e => if e.key = k then { e with val := v } else e) else es ++ [⟨n, k, v⟩]

/-- `delete(m, k)`, for a key that can be hashed. -/
def remove (es : List (Entry K V)) (k : K) : List (Entry K V) :=
  if ks.rfx k then es.filter (fun e => decide (e.key ≠ k)) else es

/-- `init`, maps.go:17-21. -/
def init (s : State K V) : State K V := { s with m := some (s.m.getD []) }

/-- `UnsafeGet`, maps.go:23-29; `Get`, maps.go:31-35. -/
def get (s : State K V) (k : K) : Go (Option V) :=
  match s.m with
  | none => .ok none
  | some es => if ks.hashable k then .ok ((lookup ks es k).getD none) else .error unhashable

/-- `UnsafeSet`, maps.go:37-40; `Set`, maps.go:42-46. The state is what is left, also after a panic. -/
def set (s : State K V) (k : K) (v : Option V) : State K V × Go Unit :=
  let s := init s
  if ks.hashable k then ({ s with m := some (assign ks s.es s.next k v), next := s.next + 1 }, .ok ()) else (s, .error unhashable)

/-- `TestAndSet`, maps.go:48-60. -/
def testAndSet (s : State K V) (k : K) (v : Option V) : State K V × Go (Option V) :=
  let s := init s
  if ks.hashable k then
    match lookup ks s.es k with
    | some w => (s, .ok w)
    | none => ({ s with m := some (assign ks s.es s.next k v), next := s.next + 1 }, .ok none)
  else (s, .error unhashable)

/-- `UnsafeDel`, maps.go:62-65; `Del`, maps.go:67-71. -/
def del (s : State K V) (k : K) : State K V × Go Unit :=
  let s := init s
  if ks.hashable k then ({ s with m := some (remove ks s.es k) }, .ok ()) else (s, .error unhashable)

/-- `UnsafeLen`, maps.go:73-79; `Len`, maps.go:81-85. -/
def len (s : State K V) : Nat :=
  match s.m with
  | none => 0
  | some es => es.length

/-- What a callback does to the map: it may use `UnsafeSet` and `UnsafeDel`. -/
inductive Act (K V : Type)
  | set (k : K) (v : Option V)
  | del (k : K)

/-- The callback runs; a panic ends it. -/
def acts (s : State K V) : List (Act K V) → State K V × Go Unit
  | [] => (s, .ok ())
  | .set k v :: as =>
    match set ks s k v with
    | (s, .ok ()) => acts s as
    | (s, .error p) => (s, .error p)
  | .del k :: as =>
    match del ks s k with
    | (s, .ok ()) => acts s as
    | (s, .error p) => (s, .error p)

/-- `UnsafeRange`, maps.go:87-94, as in `LockRange`, maps.go:102-106, with the callback `f`, from the state `s0`: it can have come to the state `s`,
having called `f` with the entries `seen`, in this order. -/
inductive Iter (f : K → Option V → List (Act K V)) (s0 : State K V) : State K V → List (Entry K V) → Prop
  | start : s0.m ≠ none → Iter f s0 s0 []
  | visit {s seen} (e : Entry K V) (s') : Iter f s0 s seen → e ∈ s.es → e.id ∉ seen.map (·.id) → acts ks s (f e.key e.val) = (s', .ok ()) →
      Iter f s0 s' (seen ++ [e])

/-- The loop may end: all entries that were there at the start, and still are, have come. -/
def Ended (f : K → Option V → List (Act K V)) (s0 s : State K V) (seen : List (Entry K V)) : Prop :=
  Iter ks f s0 s seen ∧ ∀ e ∈ s.es, e.id < s0.next → e.id ∈ seen.map (·.id)

/-- A zero `Map`. -/
def zero : State K V := ⟨none, 0⟩

/-- The states that the methods lead to. -/
inductive Reach : State K V → Prop
  | zero : Reach zero
  | set {s} (k v) : Reach s → Reach (set ks s k v).1
  | testAndSet {s} (k v) : Reach s → Reach (testAndSet ks s k v).1
  | del {s} (k) : Reach s → Reach (del ks s k).1

end Verif.SafeMapKeys
