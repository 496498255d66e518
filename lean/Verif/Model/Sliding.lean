import Verif.Go.Prelude
import Verif.Go.Int64
import Verif.Model.Limiter

/-!
# Models of `common/limiter/sliding_window` and `common/limiter/sliding_log`

The counter map is a list of entries.  `range` visits the entries in an order the language leaves open: the order is an
argument, any permutation of the entries.  `time.Now().UnixNano()` is an argument.
-/

namespace Verif.Limiter

/-- `map[int64]int`. -/
abbrev Counters := List (Int × Int)

namespace Counters

/-- `delete(m, k)`. -/
def del (m : Counters) (k : Int) : Counters := m.filter fun e => e.1 ≠ k

/-- `m[k]`, zero if absent. -/
def get (m : Counters) (k : Int) : Int := (m.lookup k).getD 0

/-- `m[k] = v`. -/
def put (m : Counters) (k v : Int) : Counters := (k, v) :: del m k

/-- `m[k]++`. -/
def incr (m : Counters) (k : Int) : Counters := put m k (wrap64 (get m k + 1))

end Counters

/-- `time.Now().UnixNano() / small * small`, sliding_window/sliding_window.go:39, sliding_log/sliding_log.go:87. -/
def smallWindowOf (now small : Int) : Go Int :=
  if small = 0 then .error .divZero else .ok (wrap64 (wrap64 (now.tdiv small) * small))

namespace Window

/-- `type SlidingWindowLimiter struct`, sliding_window/sliding_window.go:10-17. -/
structure Lim where
  limit : Int
  window : Int
  smallWindow : Int
  smallWindows : Int
  counters : Counters
deriving DecidableEq, Repr

/-- `NewSlidingWindowLimiter`, sliding_window/sliding_window.go:19-32. `none` is the error. -/
def new (limit window smallWindow : Int) : Go (Option Lim) :=
  if smallWindow = 0 then .error .divZero
  else if window.tmod smallWindow ≠ 0 then .ok none
  else .ok (some ⟨limit, window, smallWindow, wrap64 (window.tdiv smallWindow), []⟩)

/-- The loop, sliding_window/sliding_window.go:45-51: deletes the old counters from the map and adds up the others. -/
def scan (start : Int) : List (Int × Int) → Counters × Int → Counters × Int
  | [], s => s
  | (w, c) :: rest, (m, count) =>
    if w < start then scan start rest (m.del w, count) else scan start rest (m, wrap64 (count + c))

/-- `TryAcquire`, sliding_window/sliding_window.go:34-60, with the order in which the map is visited. -/
def tryAcquire (l : Lim) (order : List (Int × Int)) (now : Int) : Go (Lim × Bool) := do
  let cur ← smallWindowOf now l.smallWindow
  let start := wrap64 (cur - wrap64 (l.smallWindow * wrap64 (l.smallWindows - 1)))
  let (m, count) := scan start order (l.counters, 0)
  if count ≥ l.limit then .ok ({ l with counters := m }, false)
  else .ok ({ l with counters := m.incr cur }, true)

/-- The calls at the given times, each visiting the map in some order. -/
inductive Runs : Lim → List Int → List Event → Lim → Prop
  | nil (l) : Runs l [] [] l
  | cons {l l' l'' t ts b es} (order) : order.Perm l.counters → tryAcquire l order t = .ok (l', b) →
      Runs l' ts es l'' → Runs l (t :: ts) (⟨t, b⟩ :: es) l''

end Window

namespace Log

/-- `type SlidingLogLimiterStrategy struct`, sliding_log/sliding_log.go:22-26. -/
structure Strategy where
  limit : Int
  window : Int
  smallWindows : Int
deriving DecidableEq, Repr, Inhabited

/-- `NewSlidingLogLimiterStrategy`, sliding_log/sliding_log.go:28-33. -/
def newStrategy (limit window : Int) : Strategy := ⟨limit, window, 0⟩

/-- The strategy objects; a `*SlidingLogLimiterStrategy` is a position, positions outside are the nil pointer. -/
abbrev Store := List Strategy

/-- `p.field`: dereferences a strategy pointer. -/
def deref (st : Store) (p : Nat) : Go Strategy :=
  match st[p]? with
  | some s => .ok s
  | none => .error .nilDeref

/-- `type SlidingLogLimiter struct`, sliding_log/sliding_log.go:36-41. -/
structure Lim where
  strategies : List Nat
  smallWindow : Int
  counters : Counters
deriving DecidableEq, Repr

/-- The comparison given to `sort.Slice`, sliding_log/sliding_log.go:53-59. -/
def less (a b : Strategy) : Bool :=
  if a.window = b.window then decide (a.limit > b.limit) else decide (a.window > b.window)

/-- What `sort.Slice(strategies, less)` guarantees, sliding_log/sliding_log.go:53: a permutation of the pointers, sorted by
`less`.  (It does not guarantee an order for strategies that compare equal.) -/
def SortedBy (st : Store) (ptrs sorted : List Nat) : Prop :=
  sorted.Perm ptrs ∧ sorted.Pairwise fun p q => ∀ a b, st[p]? = some a → st[q]? = some b → less b a = false

/-- The errors of the constructor, sliding_log/sliding_log.go:49, 65, 70. -/
inductive NewError
  | empty
  | smallerLimit
  | notDivisible
deriving DecidableEq, Repr

/-- sliding_log/sliding_log.go:63-64: the limit is not below that of the strategy before, `strategies[i-1]`. -/
def notSmaller (st : Store) (s : Strategy) : Option Nat → Go Bool
  | none => .ok false
  | some q => do
    let sq ← deref st q
    .ok (decide (s.limit ≥ sq.limit))

/-- The loop, sliding_log/sliding_log.go:61-73: checks the strategies in sorted order and fills in `smallWindows`;
`prev` is the strategy before (`strategies[i-1]`). -/
def check (small : Int) (st : Store) (prev : Option Nat) : List Nat → Go (Store × Option NewError)
  | [] => .ok (st, none)
  | p :: ps => do
    let s ← deref st p
    let bad ← notSmaller st s prev
    if bad then .ok (st, some .smallerLimit)
    else if small = 0 then .error .divZero
    else if s.window.tmod small ≠ 0 then .ok (st, some .notDivisible)
    else check small (st.set p { s with smallWindows := wrap64 (s.window.tdiv small) }) (some p) ps

/-- `NewSlidingLogLimiter`, sliding_log/sliding_log.go:43-80, `sorted` being the outcome of the sort.  (The pointers are
valid: the comparison of a nil pointer panics in the sort if there are two pointers, in the loop if there is one.) -/
def new (st : Store) (small : Int) (ptrs sorted : List Nat) : Go (Store × Except NewError Lim) :=
  if ptrs.length = 0 then .ok (st, .error .empty)
  else do
    let (st', e) ← check small st none sorted
    match e with
    | some err => .ok (st', .error err)
    | none => .ok (st', .ok ⟨sorted, small, []⟩)

/-- sliding_log/sliding_log.go:89-92: the first small window of every strategy. -/
def starts (st : Store) (small cur : Int) : List Nat → Go (List Int)
  | [] => .ok []
  | p :: ps => do
    let s ← deref st p
    let rest ← starts st small cur ps
    .ok (wrap64 (cur - wrap64 (small * wrap64 (s.smallWindows - 1))) :: rest)

/-- The inner loop, sliding_log/sliding_log.go:101-105: adds `counter` to the counts of the strategies whose window
contains `w`. -/
def addCounts (w counter : Int) : List Int → List Int → List Int
  | s :: ss, n :: ns => (if w ≥ s then wrap64 (n + counter) else n) :: addCounts w counter ss ns
  | _, ns => ns

/-- The outer loop, sliding_log/sliding_log.go:96-106. `starts[0]` panics if there are no strategies. -/
def scan (starts : List Int) : List (Int × Int) → Counters × List Int → Go (Counters × List Int)
  | [], s => .ok s
  | (w, c) :: rest, (m, counts) => do
    let s0 ← Go.idx starts 0
    if w < s0 then scan starts rest (m.del w, counts) else scan starts rest (m, addCounts w c starts counts)

/-- sliding_log/sliding_log.go:109-116: the first strategy whose limit is reached. -/
def violated (st : Store) : List Nat → List Int → Go (Option (Int × Int))
  | p :: ps, n :: ns => do
    let s ← deref st p
    if n ≥ s.limit then .ok (some (s.limit, s.window)) else violated st ps ns
  | _, _ => .ok none

/-- `TryAcquire`, sliding_log/sliding_log.go:82-121, with the order in which the map is visited. The result is the error
`ViolationStrategyError{Limit, Window}`, or `none` for nil. -/
def tryAcquire (st : Store) (l : Lim) (order : List (Int × Int)) (now : Int) : Go (Lim × Option (Int × Int)) := do
  let cur ← smallWindowOf now l.smallWindow
  let ss ← starts st l.smallWindow cur l.strategies
  let (m, counts) ← scan ss order (l.counters, List.replicate l.strategies.length 0)
  match ← violated st l.strategies counts with
  | some v => .ok ({ l with counters := m }, some v)
  | none => .ok ({ l with counters := m.incr cur }, none)

/-- An answered call of the log limiter. -/
structure Ans where
  time : Int
  res : Option (Int × Int)
deriving DecidableEq, Repr

/-- The calls at the given times, each visiting the map in some order; nobody changes the strategies meanwhile. -/
inductive Runs (st : Store) : Lim → List Int → List Ans → Lim → Prop
  | nil (l) : Runs st l [] [] l
  | cons {l l' l'' t ts b es} (order) : order.Perm l.counters → tryAcquire st l order t = .ok (l', b) →
      Runs st l' ts es l'' → Runs st l (t :: ts) (⟨t, b⟩ :: es) l''

end Log
end Verif.Limiter
