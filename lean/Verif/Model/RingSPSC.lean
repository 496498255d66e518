import Verif.Go.Prelude
import Mathlib.Data.Nat.Basic

/-!
# The bounded rings under one producer and one consumer

fix.go:12-13 and roud.go:8-9 promise that the ring is safe with one producing and one consuming goroutine (without
`Reset`).  The two goroutines are interleaved statement by statement; every load and store of a shared field or slice
cell is one atomic step (sequential consistency — the Go memory model gives racy programs even less).  The counters are
natural numbers here: wrap-around is treated in C19/C22.  The index `x % size` (fix) and `x & mask` (round, size a
power of two) are the same number.
-/

namespace Verif.RingSPSC

variable {T : Type}

/-- The shared fields of the ring: fix.go:14-19, roud.go:10-16. -/
structure Shared (T : Type) where
  inn : Nat
  out : Nat
  size : Nat
  data : List T

/-- Program counter of the producer.  `push*` are the points inside `Push` (fix.go:59-66), `bulk*` those inside `MPush`
(fix.go:69-83). -/
inductive PPc (T : Type) where
  | idle
  /-- after the `Full` check -/
  | pushChecked (e : T)
  /-- after `r.in++`; the slot index was computed before -/
  | pushCounted (e : T) (slot : Nat)
  /-- after the first `Avail()` of `MPush`, when the batch was found too large -/
  | bulkTooLarge (es : List T)
  /-- copying; `j` cells are written -/
  | bulkCopy (es : List T) (j : Nat)
  /-- `elems[:size]` out of range -/
  | panicked

/-- Program counter of the consumer: `Pop` (fix.go:41-48), `MPop` (fix.go:86-99), `MPopCopy` (fix.go:102-108). -/
inductive CPc (T : Type) where
  | idle
  /-- after the `Empty` check -/
  | popChecked
  /-- after `r.out++` -/
  | popCounted (slot : Nat)
  /-- after the first `Len()` of `MPop`, when more was asked for -/
  | bulkTooMany
  /-- copying `m` cells out; `buf` are those read so far -/
  | bulkCopy (m : Nat) (buf : List T)

/-- The machine: shared fields, both program counters, and two logs (not part of the program): what the producer has
pushed, in the order of its calls, and what the consumer has obtained. -/
structure State (T : Type) where
  sh : Shared T
  p : PPc T
  c : CPc T
  produced : List T
  consumed : List T

/-- A new ring of the given size. -/
def init (zero : T) (size : Nat) : State T :=
  ⟨⟨0, 0, size, List.replicate size zero⟩, .idle, .idle, [], []⟩

/-- Which calls the two goroutines make. -/
structure Client where
  push : Prop
  mpush : Prop
  pop : Prop
  mpop : Prop

/-- One atomic step of either goroutine. -/
inductive Step (k : Client) : State T → State T → Prop
  /-- `Push`: `r.Full()` is false (fix.go:60). -/
  | pushCheck (s e) (hk : k.push) (hp : s.p = .idle) (h : s.sh.inn - s.sh.out < s.sh.size) :
      Step k s { s with p := .pushChecked e, produced := s.produced ++ [e] }
  /-- `Push`: `in := r.in % r.size; r.in++` (fix.go:63-64). -/
  | pushCount (s e) (hp : s.p = .pushChecked e) :
      Step k s { s with p := .pushCounted e (s.sh.inn % s.sh.size), sh := { s.sh with inn := s.sh.inn + 1 } }
  /-- `Push`: `r.data[in] = e` (fix.go:65). -/
  | pushStore (s e i) (hp : s.p = .pushCounted e i) :
      Step k s { s with p := .idle, sh := { s.sh with data := s.sh.data.set i e } }
  /-- `MPush`: the batch fits (fix.go:72 false); an empty batch returns at once (fix.go:76-78). -/
  | mpushFits (s es) (hk : k.mpush) (hp : s.p = .idle) (h : es.length ≤ s.sh.size - (s.sh.inn - s.sh.out)) :
      Step k s { s with p := if es = [] then .idle else .bulkCopy es 0 }
  /-- `MPush`: the batch does not fit (fix.go:72 true). -/
  | mpushTooLarge (s es) (hk : k.mpush) (hp : s.p = .idle) (h : s.sh.size - (s.sh.inn - s.sh.out) < es.length) :
      Step k s { s with p := .bulkTooLarge es }
  /-- `MPush`: `size = r.Avail(); elems = elems[:size]` (fix.go:73-74), the second load of the counters; the slice
  expression is in range (the capacity of `elems` is taken to be its length). -/
  | mpushCut (s es) (hp : s.p = .bulkTooLarge es) (h : s.sh.size - (s.sh.inn - s.sh.out) ≤ es.length) :
      Step k s { s with p := if es.take (s.sh.size - (s.sh.inn - s.sh.out)) = [] then .idle
                             else .bulkCopy (es.take (s.sh.size - (s.sh.inn - s.sh.out))) 0 }
  /-- `MPush`: `elems[:size]` (fix.go:74) is out of range because the consumer has made room in between. -/
  | mpushPanic (s es) (hp : s.p = .bulkTooLarge es) (h : es.length < s.sh.size - (s.sh.inn - s.sh.out)) :
      Step k s { s with p := .panicked }
  /-- `MPush`: one cell of the two `copy`s (fix.go:80-81). -/
  | mpushCell (s es j e) (hp : s.p = .bulkCopy es j) (he : es[j]? = some e) :
      Step k s { s with p := .bulkCopy es (j + 1),
                        sh := { s.sh with data := s.sh.data.set ((s.sh.inn % s.sh.size + j) % s.sh.size) e } }
  /-- `MPush`: `r.in += size` (fix.go:82). -/
  | mpushDone (s es) (hp : s.p = .bulkCopy es es.length) :
      Step k s { s with p := .idle, sh := { s.sh with inn := s.sh.inn + es.length }, produced := s.produced ++ es }
  /-- `Pop`: `r.Empty()` is false (fix.go:42). -/
  | popCheck (s) (hk : k.pop) (hc : s.c = .idle) (h : s.sh.inn ≠ s.sh.out) :
      Step k s { s with c := .popChecked }
  /-- `Pop`: `out := r.out % r.size; r.out++` (fix.go:45-46). -/
  | popCount (s) (hc : s.c = .popChecked) :
      Step k s { s with c := .popCounted (s.sh.out % s.sh.size), sh := { s.sh with out := s.sh.out + 1 } }
  /-- `Pop`: `return r.data[out]` (fix.go:47). -/
  | popLoad (s i v) (hc : s.c = .popCounted i) (hv : s.sh.data[i]? = some v) :
      Step k s { s with c := .idle, consumed := s.consumed ++ [v] }
  /-- `MPop`/`MPopCopy`: at most `Len()` elements are asked for (fix.go:87 false; fix.go:104). -/
  | mpopFits (s m) (hk : k.mpop) (hc : s.c = .idle) (h : m ≤ s.sh.inn - s.sh.out) :
      Step k s { s with c := if m = 0 then .idle else .bulkCopy m [] }
  /-- `MPop`: more than `Len()` elements are asked for (fix.go:87 true). -/
  | mpopTooMany (s m) (hk : k.mpop) (hc : s.c = .idle) (h : s.sh.inn - s.sh.out < m) :
      Step k s { s with c := .bulkTooMany }
  /-- `MPop`: `size = r.Len()` (fix.go:88), the second load. -/
  | mpopCut (s) (hc : s.c = .bulkTooMany) :
      Step k s { s with c := if s.sh.inn - s.sh.out = 0 then .idle else .bulkCopy (s.sh.inn - s.sh.out) [] }
  /-- `MPop`: one cell of the two `copy`s (fix.go:95-96, 105-106). -/
  | mpopCell (s m buf v) (hc : s.c = .bulkCopy m buf) (hb : buf.length < m)
      (hv : s.sh.data[(s.sh.out % s.sh.size + buf.length) % s.sh.size]? = some v) :
      Step k s { s with c := .bulkCopy m (buf ++ [v]) }
  /-- `MPop`: `r.out += size` (fix.go:97, 107). -/
  | mpopDone (s m buf) (hc : s.c = .bulkCopy m buf) (hb : buf.length = m) :
      Step k s { s with c := .idle, sh := { s.sh with out := s.sh.out + m }, consumed := s.consumed ++ buf }

/-- States reachable by some interleaving. -/
inductive Reach (k : Client) (zero : T) (size : Nat) : State T → Prop
  | init : Reach k zero size (init zero size)
  | step {s s'} : Reach k zero size s → Step k s s' → Reach k zero size s'

end Verif.RingSPSC
