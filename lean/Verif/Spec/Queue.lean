import Verif.Model.Ring

/-!
# Bounded and unbounded FIFO queues

The specification the rings are compared with: a queue is the list of its elements, oldest first.
-/

namespace Verif.Ring.Spec

variable {T : Type}

/-- One call on a FIFO queue of capacity `c`. -/
def bounded (c : Nat) (q : List T) : Op T → List T × Obs T
  | .push e => if q.length < c then (q ++ [e], .unit) else (q, .panic (.explicit "ring full"))
  | .pop => match q with
    | [] => ([], .panic (.explicit "ring emtpy"))
    | x :: q => (q, .val x)
  | .peek => match q with
    | [] => ([], .panic (.explicit "ring emtpy"))
    | x :: q => (x :: q, .val x)
  | .mpush es => (q ++ es.take (c - q.length), .unit)
  | .mpop n => (q.drop n.toNat, .vals (q.take n.toNat))
  | .mpopCopy dst => (q.drop dst.length, .vals (q.take dst.length ++ dst.drop q.length))
  | .reset => ([], .unit)
  | .len => (q, .num q.length)
  | .avail => (q, .num (c - q.length))
  | .empty => (q, .flag q.isEmpty)
  | .full => (q, .flag (q.length == c))
  | .cap => (q, .num c)
  | .grow _ => (q, .unit)

/-- A history of calls on a FIFO queue of capacity `c`. -/
def runBounded (c : Nat) (q : List T) : List (Op T) → List T × List (Obs T)
  | [] => (q, [])
  | op :: ops =>
    let (q', o) := bounded c q op
    let (q'', os) := runBounded c q' ops
    (q'', o :: os)

/-- Number of elements accepted since the last `Reset`, `k` of them before this history. -/
def accepted (c : Nat) (k : Nat) (q : List T) : List (Op T) → Nat
  | [] => k
  | op :: ops =>
    let q' := (bounded c q op).1
    match op with
    | .reset => Nat.max k (accepted c 0 q' ops)
    | .push _ => accepted c (k + (q'.length - q.length)) q' ops
    | .mpush _ => accepted c (k + (q'.length - q.length)) q' ops
    | _ => accepted c k q' ops

/-- The slices passed by the client are Go slices: their length is an `int`. -/
def ArgOk : Op T → Prop
  | .mpush es => es.length < 2 ^ 63
  | .mpopCopy dst => dst.length < 2 ^ 63
  | _ => True

/-- One call on an unbounded FIFO queue, as a relation: `Push` and `MPush` may report that the size limit
is reached, without effect, but only when the queue would hold at least 2^62 elements; so may `Grow`; everything that does not mention the capacity is determined. -/
inductive Unbounded : List T → Op T → List T → Obs T → Prop
  | push (q e) : Unbounded q (.push e) (q ++ [e]) .unit
  | pushLimit (q e) (h : 2 ^ 62 ≤ q.length + 1) : Unbounded q (.push e) q (.panic (.explicit "size is too large"))
  | pop (x q) : Unbounded (x :: q) .pop q (.val x)
  | popEmpty : Unbounded [] .pop [] (.panic (.explicit "ring emtpy"))
  | peek (x q) : Unbounded (x :: q) .peek (x :: q) (.val x)
  | peekEmpty : Unbounded [] .peek [] (.panic (.explicit "ring emtpy"))
  | mpush (q es) : Unbounded q (.mpush es) (q ++ es) .unit
  | mpushLimit (q es) (h : 2 ^ 62 ≤ q.length + es.length) : Unbounded q (.mpush es) q (.panic (.explicit "size is too large"))
  | mpop (q n) : Unbounded q (.mpop n) (q.drop n.toNat) (.vals (q.take n.toNat))
  | mpopCopy (q dst) : Unbounded q (.mpopCopy dst) (q.drop dst.length) (.vals (q.take dst.length ++ dst.drop q.length))
  | reset (q) : Unbounded q .reset [] .unit
  | len (q) : Unbounded q .len q (.num q.length)
  | avail (q n) : Unbounded q .avail q (.num n)
  | empty (q) : Unbounded q .empty q (.flag q.isEmpty)
  | full (q b) : Unbounded q .full q (.flag b)
  | cap (q n) (h : q.length ≤ n) : Unbounded q .cap q (.num n)
  | grow (q n) : Unbounded q (.grow n) q .unit
  | growLimit (q n) : Unbounded q (.grow n) q (.panic (.explicit "size is too large"))

/-- A history of calls on an unbounded FIFO queue. -/
inductive RunUnbounded : List T → List (Op T) → List (Obs T) → List T → Prop
  | nil (q) : RunUnbounded q [] [] q
  | cons {q op q' o ops os q''} : Unbounded q op q' o → RunUnbounded q' ops os q'' →
      RunUnbounded q (op :: ops) (o :: os) q''

/-- Number of elements offered by a history. -/
def offered : List (Op T) → Nat
  | [] => 0
  | .push _ :: ops => 1 + offered ops
  | .mpush es :: ops => es.length + offered ops
  | _ :: ops => offered ops

end Verif.Ring.Spec
