import Verif.Model.RWMutex

/-!
# The map with a lock, help/utils/maps.go:12-106

Keys are compared with `==`; a value is an `interface{}`, `none` being `nil`. The Go map is a list of pairs with distinct keys, in no
particular order, or `nil`. Keys that cannot be hashed (which panic) are left out.
-/

namespace Verif.SafeMap

abbrev Val := Option Nat

/-- The map inside; `none` is `nil`. -/
abbrev St := Option (List (Nat × Val))

/-- The methods that take the lock. -/
inductive Op
  | get (k : Nat)
  | set (k : Nat) (v : Val)
  | testAndSet (k : Nat) (v : Val)
  | del (k : Nat)
  | len
  | rLockRange
  | lockRange
deriving DecidableEq

/-- Results; those of the ranges are what the callback was called with. (The callback does not use the map itself.) -/
inductive Res
  | unit
  | val (v : Val)
  | num (n : Nat)
  | pairs (ps : List (Nat × Val))
deriving DecidableEq

/-- `m[key]`. -/
def lookup (m : List (Nat × Val)) (k : Nat) : Option Val := (m.find? (fun p => p.1 == k)).map (·.2)

/-- `m[key] = value`. -/
def insert (m : List (Nat × Val)) (k : Nat) (v : Val) : List (Nat × Val) := (k, v) :: m.filter (fun p => p.1 != k)

/-- `delete(m, key)`. -/
def remove (m : List (Nat × Val)) (k : Nat) : List (Nat × Val) := m.filter (fun p => p.1 != k)

/-- Where a method is. -/
inductive Local
  | at (op : Op)
  | inited (op : Op)
  | absent (k : Nat) (v : Val)
  | visiting (seen : List (Nat × Val))
  | done (r : Res)

/-- The actions of the methods under the lock. -/
inductive Step : St × Local → St × Local → Prop
  /-- `UnsafeGet`, maps.go:23-29. -/
  | getNil (k) : Step (none, .at (.get k)) (none, .done (.val none))
  | get (m k) : Step (some m, .at (.get k)) (some m, .done (.val ((lookup m k).getD none)))
  /-- `init`, maps.go:17-21, as called by `UnsafeSet`, `TestAndSet` and `UnsafeDel`. -/
  | initSet (s : St) (k v) : Step (s, .at (.set k v)) (some (s.getD []), .inited (.set k v))
  | initTas (s : St) (k v) : Step (s, .at (.testAndSet k v)) (some (s.getD []), .inited (.testAndSet k v))
  | initDel (s : St) (k) : Step (s, .at (.del k)) (some (s.getD []), .inited (.del k))
  /-- `UnsafeSet`, maps.go:37-40. -/
  | set (m k v) : Step (some m, .inited (.set k v)) (some (insert m k v), .done .unit)
  /-- `TestAndSet`, maps.go:48-60. -/
  | found (m k v w) : lookup m k = some w → Step (some m, .inited (.testAndSet k v)) (some m, .done (.val w))
  | notFound (m k v) : lookup m k = none → Step (some m, .inited (.testAndSet k v)) (some m, .absent k v)
  | store (m k v) : Step (some m, .absent k v) (some (insert m k v), .done (.val none))
  /-- `UnsafeDel`, maps.go:62-65. -/
  | del (m k) : Step (some m, .inited (.del k)) (some (remove m k), .done .unit)
  /-- `UnsafeLen`, maps.go:73-79. -/
  | lenNil : Step (none, .at .len) (none, .done (.num 0))
  | len (m) : Step (some m, .at .len) (some m, .done (.num m.length))
  /-- `UnsafeRange`, maps.go:87-94, with either lock: the pairs come in any order. -/
  | rangeNil (op) : op = .rLockRange ∨ op = .lockRange → Step (none, .at op) (none, .done (.pairs []))
  | range (m op) : op = .rLockRange ∨ op = .lockRange → Step (some m, .at op) (some m, .visiting [])
  | visit (m seen p) : p ∈ m → p.1 ∉ seen.map (·.1) → Step (some m, .visiting seen) (some m, .visiting (seen ++ [p]))
  | rangeEnd (m seen) : (∀ p ∈ m, p.1 ∈ seen.map (·.1)) → Step (some m, .visiting seen) (some m, .done (.pairs seen))

/-- The methods: each runs with the lock held. -/
def body : Mutex.Body St Op Local Res where
  start op _ l := l = .at op
  step := Step
  final
    | .done r => some r
    | _ => none

/-- Which methods take only the read lock, maps.go:31-35, 81-85, 96-100. -/
def reads : Op → Bool
  | .get _ => true
  | .len => true
  | .rLockRange => true
  | _ => false

end Verif.SafeMap
