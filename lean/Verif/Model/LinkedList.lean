import Verif.Go.Prelude

/-!
# Model of `common/container/list/list.go`, `deque/deque.go`, `stack/stack.go`

Pointers are addresses: a list's sentinel `&l.root` or an element allocated by `insertValue`.  Memory is one function
per field.  `nil` is `none`; following `nil` panics.  The garbage collector is not modelled (addresses are never reused,
as in Go while a pointer exists).
-/

namespace Verif.LinkedList

/-- A non-nil `*Element`: the sentinel of list `l`, or the `n`-th allocated element. -/
inductive Addr where
  | root (l : Nat)
  | elem (n : Nat)
deriving DecidableEq, Repr

/-- All lists and elements: `type Element struct` (list.go:15-28) and `type List struct` (list.go:48-51).
`nElems`/`nLists` count what has been allocated. -/
structure Mem (T : Type) where
  next : Addr → Option Addr
  prev : Addr → Option Addr
  list : Addr → Option Nat
  val : Addr → T
  len : Nat → Int
  nElems : Nat
  nLists : Nat

variable {T : Type}

/-- Nothing allocated; fresh memory holds zero values. -/
def empty (zero : T) : Mem T := ⟨fun _ => none, fun _ => none, fun _ => none, fun _ => zero, fun _ => 0, 0, 0⟩

/-- Assignment to one entry of a field. -/
def put {K V : Type} [DecidableEq K] (f : K → V) (k : K) (v : V) : K → V := fun x => if x = k then v else f x

/-- Following a pointer. -/
def deref (p : Option Addr) : Go Addr :=
  match p with
  | none => .error .nilDeref
  | some a => .ok a

/-- `p.next = v`. -/
def setNext (m : Mem T) (p : Option Addr) (v : Option Addr) : Go (Mem T) := do
  let a ← deref p
  pure { m with next := put m.next a v }

/-- `p.prev = v`. -/
def setPrev (m : Mem T) (p : Option Addr) (v : Option Addr) : Go (Mem T) := do
  let a ← deref p
  pure { m with prev := put m.prev a v }

/-- `Element.Next`, list.go:31-36. -/
def next (m : Mem T) (e : Option Addr) : Go (Option Addr) := do
  let a ← deref e
  match m.list a with
  | none => pure none
  | some l => pure (if m.next a ≠ some (.root l) then m.next a else none)

/-- `Element.Prev`, list.go:39-44. -/
def prev (m : Mem T) (e : Option Addr) : Go (Option Addr) := do
  let a ← deref e
  match m.list a with
  | none => pure none
  | some l => pure (if m.prev a ≠ some (.root l) then m.prev a else none)

/-- `Clear`, list.go:54-59. -/
def clear (m : Mem T) (l : Nat) : Mem T :=
  { m with next := put m.next (.root l) (some (.root l)), prev := put m.prev (.root l) (some (.root l)),
           len := put m.len l 0 }

/-- `new(List[T])` / `var l List[T]`: a zero list (list.go:47 says it is ready to use). -/
def zeroList (m : Mem T) : Mem T × Nat := ({ m with nLists := m.nLists + 1 }, m.nLists)

/-- `New`, list.go:62. -/
def new (m : Mem T) : Mem T × Nat :=
  let (m, l) := zeroList m
  (clear m l, l)

/-- `Len`, list.go:66. -/
def length (m : Mem T) (l : Nat) : Int := m.len l

/-- `Front`, list.go:69-74. -/
def front (m : Mem T) (l : Nat) : Option Addr := if m.len l = 0 then none else m.next (.root l)

/-- `Back`, list.go:77-82. -/
def back (m : Mem T) (l : Nat) : Option Addr := if m.len l = 0 then none else m.prev (.root l)

/-- `insert`, list.go:85-93. -/
def insert (m : Mem T) (l : Nat) (e : Addr) (at_ : Option Addr) : Go (Mem T) := do
  let m ← setPrev m (some e) at_
  let a ← deref at_
  let m ← setNext m (some e) (m.next a)
  let m ← setNext m (m.prev e) (some e)
  let m ← setPrev m (m.next e) (some e)
  let m := { m with list := put m.list e (some l) }
  pure { m with len := put m.len l (m.len l + 1) }

/-- `insertValue`, list.go:96-98: allocates an element (all fields zero but the value). -/
def insertValue (m : Mem T) (l : Nat) (v : T) (at_ : Option Addr) : Go (Mem T × Option Addr) := do
  let e := Addr.elem m.nElems
  let m := { m with nElems := m.nElems + 1, val := put m.val e v, next := put m.next e none,
                    prev := put m.prev e none, list := put m.list e none }
  let m ← insert m l e at_
  pure (m, some e)

/-- `remove`, list.go:101-108. -/
def removeRaw (m : Mem T) (l : Nat) (e : Addr) : Go (Mem T) := do
  let m ← setNext m (m.prev e) (m.next e)
  let m ← setPrev m (m.next e) (m.prev e)
  let m ← setNext m (some e) none
  let m ← setPrev m (some e) none
  let m := { m with list := put m.list e none }
  pure { m with len := put m.len l (m.len l - 1) }

/-- `move`, list.go:111-122. -/
def move (m : Mem T) (e : Addr) (at_ : Option Addr) : Go (Mem T) :=
  if some e = at_ then .ok m else do
  let m ← setNext m (m.prev e) (m.next e)
  let m ← setPrev m (m.next e) (m.prev e)
  let m ← setPrev m (some e) at_
  let a ← deref at_
  let m ← setNext m (some e) (m.next a)
  let m ← setNext m (m.prev e) (some e)
  setPrev m (m.next e) (some e)

/-- `Remove`, list.go:127-134. -/
def remove (m : Mem T) (l : Nat) (e : Option Addr) : Go (Mem T × T) := do
  let a ← deref e
  let m ← if m.list a = some l then removeRaw m l a else .ok m
  pure (m, m.val a)

/-- `RemoveFront`, list.go:137-139. -/
def removeFront (m : Mem T) (l : Nat) : Go (Mem T × T) := remove m l (front m l)

/-- `RemoveBack`, list.go:142-144. -/
def removeBack (m : Mem T) (l : Nat) : Go (Mem T × T) := remove m l (back m l)

/-- `PushFront`, list.go:147-149. -/
def pushFront (m : Mem T) (l : Nat) (v : T) : Go (Mem T × Option Addr) := insertValue m l v (some (.root l))

/-- `PushBack`, list.go:152-154. -/
def pushBack (m : Mem T) (l : Nat) (v : T) : Go (Mem T × Option Addr) := insertValue m l v (m.prev (.root l))

/-- `InsertBefore`, list.go:159-165. -/
def insertBefore (m : Mem T) (l : Nat) (v : T) (mark : Option Addr) : Go (Mem T × Option Addr) := do
  let a ← deref mark
  if m.list a ≠ some l then pure (m, none) else insertValue m l v (m.prev a)

/-- `InsertAfter`, list.go:170-176. -/
def insertAfter (m : Mem T) (l : Nat) (v : T) (mark : Option Addr) : Go (Mem T × Option Addr) := do
  let a ← deref mark
  if m.list a ≠ some l then pure (m, none) else insertValue m l v mark

/-- `MoveToFront`, list.go:181-187. -/
def moveToFront (m : Mem T) (l : Nat) (e : Option Addr) : Go (Mem T) := do
  let a ← deref e
  if m.list a ≠ some l ∨ m.next (.root l) = e then pure m else move m a (some (.root l))

/-- `MoveToBack`, list.go:192-198. -/
def moveToBack (m : Mem T) (l : Nat) (e : Option Addr) : Go (Mem T) := do
  let a ← deref e
  if m.list a ≠ some l ∨ m.prev (.root l) = e then pure m else move m a (m.prev (.root l))

/-- `MoveBefore`, list.go:203-208. -/
def moveBefore (m : Mem T) (l : Nat) (e mark : Option Addr) : Go (Mem T) := do
  let a ← deref e
  if m.list a ≠ some l ∨ e = mark then pure m else
  let b ← deref mark
  if m.list b ≠ some l then pure m else move m a (m.prev b)

/-- `MoveAfter`, list.go:213-218. -/
def moveAfter (m : Mem T) (l : Nat) (e mark : Option Addr) : Go (Mem T) := do
  let a ← deref e
  if m.list a ≠ some l ∨ e = mark then pure m else
  let b ← deref mark
  if m.list b ≠ some l then pure m else move m a mark

/-- The loop of `PushBackList`, list.go:223-225; `i` is the loop counter. -/
def pushBackListLoop (l : Nat) : Nat → Mem T → Option Addr → Go (Mem T)
  | 0, m, _ => .ok m
  | i + 1, m, e => do
    let a ← deref e
    let (m, _) ← insertValue m l (m.val a) (m.prev (.root l))
    let e ← next m e
    pushBackListLoop l i m e

/-- `PushBackList`, list.go:222-226. -/
def pushBackList (m : Mem T) (l other : Nat) : Go (Mem T) :=
  pushBackListLoop l (length m other).toNat m (front m other)

/-- The loop of `PushFrontList`, list.go:231-233. -/
def pushFrontListLoop (l : Nat) : Nat → Mem T → Option Addr → Go (Mem T)
  | 0, m, _ => .ok m
  | i + 1, m, e => do
    let a ← deref e
    let (m, _) ← insertValue m l (m.val a) (some (.root l))
    let e ← prev m e
    pushFrontListLoop l i m e

/-- `PushFrontList`, list.go:230-234. -/
def pushFrontList (m : Mem T) (l other : Nat) : Go (Mem T) :=
  pushFrontListLoop l (length m other).toNat m (back m other)

/-- `Empty`, list.go:237-239. -/
def isEmpty (m : Mem T) (l : Nat) : Bool := length m l == 0

/-- The loop of the package comment (list.go:7-11): the elements met by `Front` and `Next`, at most `fuel` of them. -/
def walkForward (m : Mem T) : Nat → Option Addr → Go (List Addr)
  | _, none => .ok []
  | 0, some _ => .error .diverge
  | fuel + 1, some a => do
    let n ← next m (some a)
    let rest ← walkForward m fuel n
    pure (a :: rest)

/-- The same with `Back` and `Prev`. -/
def walkBackward (m : Mem T) : Nat → Option Addr → Go (List Addr)
  | _, none => .ok []
  | 0, some _ => .error .diverge
  | fuel + 1, some a => do
    let n ← prev m (some a)
    let rest ← walkBackward m fuel n
    pure (a :: rest)

/-! ## Client operations -/

/-- One client call; lists and elements are numbered in order of creation. -/
inductive Op (T : Type) where
  | new
  | pushFront (l : Nat) (v : T)
  | pushBack (l : Nat) (v : T)
  | insertBefore (l : Nat) (v : T) (mark : Nat)
  | insertAfter (l : Nat) (v : T) (mark : Nat)
  | remove (l : Nat) (e : Nat)
  | removeFront (l : Nat)
  | removeBack (l : Nat)
  | moveToFront (l : Nat) (e : Nat)
  | moveToBack (l : Nat) (e : Nat)
  | moveBefore (l : Nat) (e mark : Nat)
  | moveAfter (l : Nat) (e mark : Nat)
  | pushBackList (l other : Nat)
  | pushFrontList (l other : Nat)
  | clear (l : Nat)
  | len (l : Nat)
  | isEmpty (l : Nat)
  | front (l : Nat)
  | back (l : Nat)
  | next (e : Nat)
  | prev (e : Nat)

/-- What the client sees. -/
inductive Obs (T : Type) where
  | unit
  | list (l : Nat)
  | handle (h : Option Addr)
  | val (v : T)
  | num (n : Int)
  | flag (b : Bool)
  | panic (p : Panic)
deriving DecidableEq

/-- One client call on the model. -/
def step (m : Mem T) : Op T → Go (Mem T × Obs T)
  | .new => let (m, l) := new m; .ok (m, .list l)
  | .pushFront l v => do let (m, h) ← pushFront m l v; pure (m, .handle h)
  | .pushBack l v => do let (m, h) ← pushBack m l v; pure (m, .handle h)
  | .insertBefore l v k => do let (m, h) ← insertBefore m l v (some (.elem k)); pure (m, .handle h)
  | .insertAfter l v k => do let (m, h) ← insertAfter m l v (some (.elem k)); pure (m, .handle h)
  | .remove l e => do let (m, v) ← remove m l (some (.elem e)); pure (m, .val v)
  | .removeFront l => do let (m, v) ← removeFront m l; pure (m, .val v)
  | .removeBack l => do let (m, v) ← removeBack m l; pure (m, .val v)
  | .moveToFront l e => do let m ← moveToFront m l (some (.elem e)); pure (m, .unit)
  | .moveToBack l e => do let m ← moveToBack m l (some (.elem e)); pure (m, .unit)
  | .moveBefore l e k => do let m ← moveBefore m l (some (.elem e)) (some (.elem k)); pure (m, .unit)
  | .moveAfter l e k => do let m ← moveAfter m l (some (.elem e)) (some (.elem k)); pure (m, .unit)
  | .pushBackList l o => do let m ← pushBackList m l o; pure (m, .unit)
  | .pushFrontList l o => do let m ← pushFrontList m l o; pure (m, .unit)
  | .clear l => .ok (clear m l, .unit)
  | .len l => .ok (m, .num (length m l))
  | .isEmpty l => .ok (m, .flag (isEmpty m l))
  | .front l => .ok (m, .handle (front m l))
  | .back l => .ok (m, .handle (back m l))
  | .next e => do let h ← next m (some (.elem e)); pure (m, .handle h)
  | .prev e => do let h ← prev m (some (.elem e)); pure (m, .handle h)

/-- A history.  The only panics that can occur in the histories considered are `RemoveFront`/`RemoveBack` on an empty
list, which happen before any assignment: a client that recovers goes on with the same memory. -/
def run (m : Mem T) : List (Op T) → Mem T × List (Obs T)
  | [] => (m, [])
  | op :: ops =>
    let (m', o) := match step m op with
      | .ok x => x
      | .error p => (m, .panic p)
    let (m'', os) := run m' ops
    (m'', o :: os)

/-! ## Deque and stack -/

/-- Client calls on one `Deque` (deque.go:5-41). -/
inductive DOp (T : Type) where
  | pushFront (v : T)
  | pushBack (v : T)
  | popFront
  | popBack
  | len
  | empty

/-- One call on a deque around list `l`: deque.go:14-41. -/
def dequeStep (m : Mem T) (l : Nat) : DOp T → Go (Mem T × Obs T)
  | .pushFront v => do let (m, _) ← pushFront m l v; pure (m, .unit)
  | .pushBack v => do let (m, _) ← pushBack m l v; pure (m, .unit)
  | .popFront => do let (m, v) ← removeFront m l; pure (m, .val v)
  | .popBack => do let (m, v) ← removeBack m l; pure (m, .val v)
  | .len => .ok (m, .num (length m l))
  | .empty => .ok (m, .flag (isEmpty m l))

/-- Client calls on one `Stack` (stack.go:5-36). -/
inductive SOp (T : Type) where
  | push (v : T)
  | pop
  | peek
  | len
  | empty

/-- One call on a stack around list `l`: stack.go:14-36. -/
def stackStep (m : Mem T) (l : Nat) : SOp T → Go (Mem T × Obs T)
  | .push v => do let (m, _) ← pushBack m l v; pure (m, .unit)
  | .pop => do let (m, v) ← removeBack m l; pure (m, .val v)
  | .peek => do let a ← deref (back m l); pure (m, .val (m.val a))
  | .len => .ok (m, .num (length m l))
  | .empty => .ok (m, .flag (isEmpty m l))

/-- A history of calls given by `st`; a panicking call leaves the memory unchanged. -/
def runWith {O : Type} (st : Mem T → O → Go (Mem T × Obs T)) (m : Mem T) : List O → Mem T × List (Obs T)
  | [] => (m, [])
  | op :: ops =>
    let (m', o) := match st m op with
      | .ok x => x
      | .error p => (m, .panic p)
    let (m'', os) := runWith st m' ops
    (m'', o :: os)

end Verif.LinkedList
