import Verif.Model.RingSPSC

/-!
# The bounded rings with store buffers

As Model/RingSPSC, for `MPush` and `MPop`/`MPopCopy`, but a store goes into a buffer of the processor that executes it, and reaches
the memory later. Each processor sees its own stores at once. With `fifo` the stores of one processor reach the memory in their order
(x86-TSO); without, those to different places may overtake each other (SPARC PSO; ARM allows more). Loads are not delayed.
-/

namespace Verif.RingTSO

open Verif.RingSPSC

variable {T : Type}

/-- A store of the producer on its way: to a cell, or to `in`. -/
inductive PWrite (T : Type) where
  | cell (i : Nat) (v : T)
  | inn (n : Nat)

/-- The store reaches the memory. -/
def apply (m : Shared T) : PWrite T → Shared T
  | .cell i v => { m with data := m.data.set i v }
  | .inn n => { m with inn := n }

/-- The memory once all stores have arrived. -/
def applyAll (m : Shared T) (b : List (PWrite T)) : Shared T := b.foldl apply m

/-- Two stores go to the same place. -/
def same : PWrite T → PWrite T → Bool
  | .cell i _, .cell j _ => i == j
  | .inn _, .inn _ => true
  | _, _ => false

/-- Memory, the buffers (oldest store first; the consumer stores to `out` only), both program counters, and the logs. -/
structure State (T : Type) where
  sh : Shared T
  pb : List (PWrite T)
  cb : List Nat
  p : PPc T
  c : CPc T
  produced : List T
  consumed : List T

/-- `in` as the producer sees it. -/
def State.pin (s : State T) : Nat := (applyAll s.sh s.pb).inn

/-- `out` as the consumer sees it. -/
def State.cout (s : State T) : Nat := s.cb.getLast?.getD s.sh.out

/-- A new ring of the given size. -/
def init (zero : T) (size : Nat) : State T :=
  ⟨⟨0, 0, size, List.replicate size zero⟩, [], [], .idle, .idle, [], []⟩

/-- One step of either goroutine, or a store that arrives. -/
inductive Step (fifo : Bool) : State T → State T → Prop
  /-- `MPush`: the batch fits (fix.go:72 false); an empty batch returns at once (fix.go:76-78). -/
  | mpushFits (s es) (hp : s.p = .idle) (h : es.length ≤ s.sh.size - (s.pin - s.sh.out)) :
      Step fifo s { s with p := if es = [] then .idle else .bulkCopy es 0 }
  /-- `MPush`: the batch does not fit (fix.go:72 true). -/
  | mpushTooLarge (s es) (hp : s.p = .idle) (h : s.sh.size - (s.pin - s.sh.out) < es.length) :
      Step fifo s { s with p := .bulkTooLarge es }
  /-- `MPush`: `size = r.Avail(); elems = elems[:size]` (fix.go:73-74). -/
  | mpushCut (s es) (hp : s.p = .bulkTooLarge es) (h : s.sh.size - (s.pin - s.sh.out) ≤ es.length) :
      Step fifo s { s with p := if es.take (s.sh.size - (s.pin - s.sh.out)) = [] then .idle
                             else .bulkCopy (es.take (s.sh.size - (s.pin - s.sh.out))) 0 }
  /-- `MPush`: `elems[:size]` (fix.go:74) is out of range. -/
  | mpushPanic (s es) (hp : s.p = .bulkTooLarge es) (h : es.length < s.sh.size - (s.pin - s.sh.out)) :
      Step fifo s { s with p := .panicked }
  /-- `MPush`: one cell of the two `copy`s (fix.go:80-81). -/
  | mpushCell (s es j e) (hp : s.p = .bulkCopy es j) (he : es[j]? = some e) :
      Step fifo s { s with p := .bulkCopy es (j + 1), pb := s.pb ++ [.cell ((s.pin % s.sh.size + j) % s.sh.size) e] }
  /-- `MPush`: `r.in += size` (fix.go:82). -/
  | mpushDone (s es) (hp : s.p = .bulkCopy es es.length) :
      Step fifo s { s with p := .idle, pb := s.pb ++ [.inn (s.pin + es.length)], produced := s.produced ++ es }
  /-- `MPop`/`MPopCopy`: at most `Len()` elements are asked for (fix.go:87 false; fix.go:104). -/
  | mpopFits (s m) (hc : s.c = .idle) (h : m ≤ s.sh.inn - s.cout) :
      Step fifo s { s with c := if m = 0 then .idle else .bulkCopy m [] }
  /-- `MPop`: more than `Len()` elements are asked for (fix.go:87 true). -/
  | mpopTooMany (s m) (hc : s.c = .idle) (h : s.sh.inn - s.cout < m) :
      Step fifo s { s with c := .bulkTooMany }
  /-- `MPop`: `size = r.Len()` (fix.go:88), the second load. -/
  | mpopCut (s) (hc : s.c = .bulkTooMany) :
      Step fifo s { s with c := if s.sh.inn - s.cout = 0 then .idle else .bulkCopy (s.sh.inn - s.cout) [] }
  /-- `MPop`: one cell of the two `copy`s (fix.go:95-96, 105-106). -/
  | mpopCell (s m buf v) (hc : s.c = .bulkCopy m buf) (hb : buf.length < m)
      (hv : s.sh.data[(s.cout % s.sh.size + buf.length) % s.sh.size]? = some v) :
      Step fifo s { s with c := .bulkCopy m (buf ++ [v]) }
  /-- `MPop`: `r.out += size` (fix.go:97, 107). -/
  | mpopDone (s m buf) (hc : s.c = .bulkCopy m buf) (hb : buf.length = m) :
      Step fifo s { s with c := .idle, cb := s.cb ++ [s.cout + m], consumed := s.consumed ++ buf }
  /-- A store of the producer arrives: the oldest one, or without `fifo` one that no older store to the same place precedes. -/
  | arriveP (s a w b) (hb : s.pb = a ++ w :: b) (ho : a = [] ∨ fifo = false ∧ a.all (fun u => !same u w) = true) :
      Step fifo s { s with sh := apply s.sh w, pb := a ++ b }
  /-- The oldest store of the consumer arrives. -/
  | arriveC (s n b) (hb : s.cb = n :: b) :
      Step fifo s { s with sh := { s.sh with out := n }, cb := b }

/-- The states that can be reached. -/
inductive Reach (fifo : Bool) (zero : T) (size : Nat) : State T → Prop
  | init : Reach fifo zero size (init zero size)
  | step {s s'} : Reach fifo zero size s → Step fifo s s' → Reach fifo zero size s'

end Verif.RingTSO
