import Verif.Props.Heap
import Verif.Props.MathFloat

/-!
# C194: heaps of floating point numbers
-/

namespace Verif.Heap

open MathFloat (IsNaN)

/-- The `float64` that are not NaN. -/
abbrev Num := {a : BitVec 64 // ¬ IsNaN a}

/-- `a < b` of `float64`, as a `less` function. -/
def numLt (a b : Num) : Bool := MathFloat.lt a.1 b.1

theorem numLt_order : StrictWeakOrder numLt := by
  have key : ∀ a b : Num, numLt a b = true ↔ ¬ MathFloat.Le (MathFloat.val b.1) (MathFloat.val a.1) := by
    rintro ⟨a, ha⟩ ⟨b, hb⟩
    unfold IsNaN at ha hb
    show MathFloat.lt a b = true ↔ ¬ MathFloat.Le (MathFloat.val b) (MathFloat.val a)
    unfold MathFloat.lt
    cases h1 : MathFloat.val a with
    | nan => exact absurd h1 ha
    | inf n =>
      cases h2 : MathFloat.val b with
      | nan => exact absurd h2 hb
      | inf m => cases n <;> cases m <;> simp [MathFloat.Le]
      | fin r => cases n <;> simp [MathFloat.Le]
    | fin q =>
      cases h2 : MathFloat.val b with
      | nan => exact absurd h2 hb
      | inf m => cases m <;> simp [MathFloat.Le]
      | fin r => simp [MathFloat.Le]
  have key' : ∀ a b : Num, numLt a b = false ↔ MathFloat.Le (MathFloat.val b.1) (MathFloat.val a.1) := by
    intro a b
    rw [← Bool.not_eq_true, key, not_not]
  have tr : ∀ x y z, MathFloat.Le x y → MathFloat.Le y z → MathFloat.Le x z := by
    intro x y z h1 h2
    cases x with
    | nan => exact h1.elim
    | inf n =>
      cases y with
      | nan => cases n <;> exact h1.elim
      | inf m =>
        cases z with
        | nan => cases m <;> exact h2.elim
        | inf k => cases n <;> cases m <;> cases k <;> first | trivial | exact h1.elim | exact h2.elim
        | fin r => cases n <;> cases m <;> first | trivial | exact h1.elim | exact h2.elim
      | fin q =>
        cases z with
        | nan => exact h2.elim
        | inf k => cases n <;> cases k <;> first | trivial | exact h1.elim | exact h2.elim
        | fin r => cases n <;> first | trivial | exact h1.elim
    | fin p =>
      cases y with
      | nan => exact h1.elim
      | inf m =>
        cases z with
        | nan => cases m <;> exact h2.elim
        | inf k => cases m <;> cases k <;> first | trivial | exact h1.elim | exact h2.elim
        | fin r => cases m <;> first | exact h1.elim | exact h2.elim
      | fin q =>
        cases z with
        | nan => exact h2.elim
        | inf k => cases k <;> first | trivial | exact h2.elim
        | fin r => exact le_trans h1 h2
  have tot : ∀ a b : Num, MathFloat.Le (MathFloat.val a.1) (MathFloat.val b.1) ∨ MathFloat.Le (MathFloat.val b.1) (MathFloat.val a.1) := by
    intro a b
    have := (key a b)
    by_cases h : MathFloat.Le (MathFloat.val b.1) (MathFloat.val a.1)
    · exact Or.inr h
    · exact Or.inl (MathFloat.lt_le (this.2 h))
  refine ⟨fun a => (key' a a).2 (MathFloat.le_refl a.2), ?_, ?_⟩
  · intro a b c h1 h2
    rw [key] at h1 h2 ⊢
    intro h
    rcases tot b a with h3 | h3
    · exact h1 h3
    · exact h2 (tr _ _ _ h h3)
  · rintro a b c ⟨h1, h2⟩ ⟨h3, h4⟩
    rw [key'] at h1 h2 h3 h4 ⊢
    rw [key']
    exact ⟨tr _ _ _ h3 h1, tr _ _ _ h2 h4⟩

/-! The heap sees elements only through `less`, so it does the same with the elements of a subtype as with them as they are. -/

section natural
variable {S T : Type} (f : S → T) (lt : T → T → Bool)

theorem idx_map (h : List S) (i : Nat) : Go.idx (h.map f) i = (Go.idx h i).map f := by
  unfold Go.idx
  rw [List.getElem?_map]
  cases h[i]? <;> rfl

theorem less_map (h : List S) (i j : Nat) : less lt (h.map f) i j = less (fun a b => lt (f a) (f b)) h i j := by
  unfold less
  rw [idx_map, idx_map]
  cases Go.idx h i <;> cases Go.idx h j <;> rfl

theorem swap_map (h : List S) (i j : Nat) : swap (h.map f) i j = (swap h i j).map (List.map f) := by
  unfold swap
  rw [idx_map, idx_map]
  cases Go.idx h i with
  | error e => rfl
  | ok a =>
    cases Go.idx h j with
    | error e => rfl
    | ok b =>
      show Except.ok _ = Except.ok _
      rw [← List.map_set, ← List.map_set]

theorem downLoop_map (n : Nat) : ∀ fuel (h : List S) i, downLoop (listOps lt) n fuel (h.map f) i =
    (downLoop (listOps fun a b => lt (f a) (f b)) n fuel h i).map fun r => (r.1.map f, r.2) := by
  intro fuel
  induction fuel with
  | zero => intro h i; rfl
  | succ fuel ih =>
    intro h i
    unfold downLoop
    dsimp only
    split
    · rfl
    have key : ∀ j, (do
        if !(← (listOps lt).less (h.map f) j i) then pure (h.map f, i) else
        let h ← (listOps lt).swap (h.map f) i j
        downLoop (listOps lt) n fuel h j : Go (List T × Nat)) = Except.map (fun r => (r.1.map f, r.2)) (do
        if !(← (listOps fun a b => lt (f a) (f b)).less h j i) then pure (h, i) else
        let h ← (listOps fun a b => lt (f a) (f b)).swap h i j
        downLoop (listOps fun a b => lt (f a) (f b)) n fuel h j : Go (List S × Nat)) := by
      intro j
      simp only [listOps]
      rw [less_map]
      cases less (fun a b => lt (f a) (f b)) h j i with
      | error e => rfl
      | ok b =>
        cases b with
        | false => rfl
        | true =>
          simp only [bind, Except.bind, Bool.not_true, Bool.false_eq_true, if_false]
          rw [swap_map]
          cases swap h i j with
          | error e => rfl
          | ok h1 => exact ih h1 _
    split
    · rw [show (listOps lt).less (h.map f) (2 * i + 1 + 1) (2 * i + 1) = (listOps fun a b => lt (f a) (f b)).less h (2 * i + 1 + 1) (2 * i + 1) from
        less_map f lt h _ _]
      cases (listOps fun a b => lt (f a) (f b)).less h (2 * i + 1 + 1) (2 * i + 1) with
      | error e => rfl
      | ok right => exact key _
    · exact key _

theorem down_map (h : List S) (i n : Nat) : down (listOps lt) (h.map f) i n =
    (down (listOps fun a b => lt (f a) (f b)) h i n).map fun r => (r.1.map f, r.2) := by
  unfold down
  rw [downLoop_map]
  cases downLoop (listOps fun a b => lt (f a) (f b)) n (n + 1) h i <;> rfl

theorem initLoop_map (n : Nat) : ∀ i (h : List S), initLoop lt n i (h.map f) = (initLoop (fun a b => lt (f a) (f b)) n i h).map (List.map f) := by
  intro i
  induction i with
  | zero => intro h; rfl
  | succ i ih =>
    intro h
    unfold initLoop
    rw [down_map]
    cases down (listOps fun a b => lt (f a) (f b)) h i n with
    | error e => rfl
    | ok r => exact ih r.1

theorem new_map (h : List S) : new lt (h.map f) = (new (fun a b => lt (f a) (f b)) h).map (List.map f) := by
  unfold new
  rw [List.length_map, initLoop_map]

theorem pop_map (h : List S) : pop lt (h.map f) = (pop (fun a b => lt (f a) (f b)) h).map fun r => (f r.1, r.2.map f) := by
  unfold pop
  rw [List.length_map]
  dsimp only
  rw [swap_map]
  cases swap h 0 (h.length - 1) with
  | error e => rfl
  | ok h1 =>
    show (down (listOps lt) (h1.map f) 0 (h.length - 1) >>= _) = Except.map _ (down (listOps fun a b => lt (f a) (f b)) h1 0 (h.length - 1) >>= _)
    rw [down_map]
    cases down (listOps fun a b => lt (f a) (f b)) h1 0 (h.length - 1) with
    | error e => rfl
    | ok r =>
      show popRaw (r.1.map f) = Except.map _ (popRaw r.1)
      unfold popRaw
      rw [List.length_map, idx_map]
      cases Go.idx r.1 (r.1.length - 1) with
      | error e => rfl
      | ok x =>
        show Except.ok _ = Except.ok _
        dsimp only
        rw [List.map_take]

theorem drain_map : ∀ n (h : List S), drain lt n (h.map f) = (drain (fun a b => lt (f a) (f b)) n h).map (List.map f) := by
  intro n
  induction n with
  | zero => intro h; cases h <;> simp [drain, empty, len] <;> rfl
  | succ n ih =>
    intro h
    unfold drain
    rw [show empty (h.map f) = empty h by simp [empty, len]]
    split
    · rfl
    rw [pop_map]
    cases pop (fun a b => lt (f a) (f b)) h with
    | error e => rfl
    | ok r =>
      show (drain lt n (r.2.map f) >>= _) = Except.map _ (drain (fun a b => lt (f a) (f b)) n r.2 >>= _)
      rw [ih]
      cases drain (fun a b => lt (f a) (f b)) n r.2 <;> rfl

theorem upLoop_map : ∀ fuel (h : List S) j, upLoop (listOps lt) fuel (h.map f) j =
    (upLoop (listOps fun a b => lt (f a) (f b)) fuel h j).map (List.map f) := by
  intro fuel
  induction fuel with
  | zero => intro h j; rfl
  | succ fuel ih =>
    intro h j
    unfold upLoop
    dsimp only
    split
    · rfl
    simp only [listOps]
    rw [less_map]
    cases less (fun a b => lt (f a) (f b)) h j ((j - 1) / 2) with
    | error e => rfl
    | ok b =>
      cases b with
      | false => rfl
      | true =>
        simp only [bind, Except.bind, Bool.not_true, Bool.false_eq_true, if_false]
        rw [swap_map]
        cases swap h ((j - 1) / 2) j with
        | error e => rfl
        | ok h1 => exact ih h1 _

theorem push_map (h : List S) (x : S) : push lt (h.map f) (f x) = (push (fun a b => lt (f a) (f b)) h x).map (List.map f) := by
  unfold push up
  rw [show pushRaw (h.map f) (f x) = (pushRaw h x).map f by simp [pushRaw], List.length_map]
  exact upLoop_map f lt _ _ _

/-- `down`, and `up` if nothing has moved. -/
theorem downUp_map (h : List S) (i n : Nat) : (do
      let (h, moved) ← down (listOps lt) (h.map f) i n
      if !moved then up (listOps lt) h i else pure h : Go (List T)) = Except.map (List.map f) (do
      let (h, moved) ← down (listOps fun a b => lt (f a) (f b)) h i n
      if !moved then up (listOps fun a b => lt (f a) (f b)) h i else pure h : Go (List S)) := by
  rw [down_map]
  cases down (listOps fun a b => lt (f a) (f b)) h i n with
  | error e => rfl
  | ok r =>
    obtain ⟨h1, m⟩ := r
    cases m with
    | true => rfl
    | false => exact upLoop_map f lt _ _ _

theorem fix_map (h : List S) (i : Int) : fix lt (h.map f) i = (fix (fun a b => lt (f a) (f b)) h i).map (List.map f) := by
  unfold fix
  split
  · rfl
  split
  · rfl
  rw [List.length_map]
  exact downUp_map f lt h _ _

theorem remove_map (h : List S) (i : Int) :
    remove lt (h.map f) i = (remove (fun a b => lt (f a) (f b)) h i).map fun r => (f r.1, r.2.map f) := by
  unfold remove
  split
  · rfl
  have e : removeAt (listOps lt) (h.map f) (h.map f).length i.toNat =
      (removeAt (listOps fun a b => lt (f a) (f b)) h h.length i.toNat).map (List.map f) := by
    unfold removeAt
    rw [List.length_map]
    dsimp only
    split
    · rw [show (listOps lt).swap (h.map f) i.toNat (h.length - 1) = (swap h i.toNat (h.length - 1)).map (List.map f) from swap_map f h _ _]
      rw [show (listOps fun a b => lt (f a) (f b)).swap h i.toNat (h.length - 1) = swap h i.toNat (h.length - 1) from rfl]
      cases swap h i.toNat (h.length - 1) with
      | error e => rfl
      | ok h1 => exact downUp_map f lt h1 _ _
    · rfl
  rw [e]
  cases removeAt (listOps fun a b => lt (f a) (f b)) h h.length i.toNat with
  | error e => rfl
  | ok h1 =>
    show popRaw (h1.map f) = Except.map _ (popRaw h1)
    unfold popRaw
    rw [List.length_map, idx_map]
    cases Go.idx h1 (h1.length - 1) with
    | error e => rfl
    | ok x =>
      show Except.ok _ = Except.ok _
      dsimp only
      rw [List.map_take]

/-- The call with other elements. -/
def opMap : HeapOp S → HeapOp T
  | .push x => .push (f x)
  | .pop => .pop
  | .peek => .peek
  | .remove i => .remove i
  | .update i y => .update i (f y)

theorem step_map (h : List S) (op : HeapOp S) : step lt (h.map f) (opMap f op) =
    (step (fun a b => lt (f a) (f b)) h op).map fun r => (r.1.map f, r.2.map f) := by
  cases op with
  | push x =>
    show (push lt (h.map f) (f x) >>= _) = _
    rw [push_map]
    simp only [step]
    cases push (fun a b => lt (f a) (f b)) h x <;> rfl
  | pop =>
    show (pop lt (h.map f) >>= _) = _
    rw [pop_map]
    simp only [step]
    cases pop (fun a b => lt (f a) (f b)) h <;> rfl
  | peek =>
    show (Go.idx (h.map f) 0 >>= _) = _
    rw [idx_map]
    simp only [step, peek]
    cases Go.idx h 0 <;> rfl
  | remove i =>
    show (remove lt (h.map f) i >>= _) = _
    rw [remove_map]
    simp only [step]
    cases remove (fun a b => lt (f a) (f b)) h i <;> rfl
  | update i y =>
    have e : Go.set (h.map f) i (f y) = (Go.set h i y).map (List.map f) := by
      unfold Go.set
      rw [List.length_map]
      split
      · rw [← List.map_set]; rfl
      · rfl
    show (Go.set (h.map f) i (f y) >>= _) = _
    rw [e]
    simp only [step]
    cases Go.set h i y with
    | error e => rfl
    | ok h1 =>
      show (fix lt (h1.map f) i >>= _) = Except.map _ (fix (fun a b => lt (f a) (f b)) h1 i >>= _)
      rw [fix_map]
      cases fix (fun a b => lt (f a) (f b)) h1 i <;> rfl

theorem run_map : ∀ (ops : List (HeapOp S)) (h : List S), run lt (h.map f) (ops.map (opMap f)) =
    (run (fun a b => lt (f a) (f b)) h ops).map fun r => (r.1.map f, r.2.map (Option.map f)) := by
  intro ops
  induction ops with
  | nil => intro h; rfl
  | cons op ops ih =>
    intro h
    rw [List.map_cons]
    unfold run
    rw [step_map]
    cases step (fun a b => lt (f a) (f b)) h op with
    | error e => rfl
    | ok r =>
      show (run lt (r.1.map f) (ops.map (opMap f)) >>= _) = Except.map _ (run (fun a b => lt (f a) (f b)) r.1 ops >>= _)
      rw [ih]
      cases run (fun a b => lt (f a) (f b)) r.1 ops <;> rfl

end natural

/-- **C194 (sorted).** If there is no NaN among them, popping everything gives the elements in ascending order. -/
theorem C194_sorts (xs : List (BitVec 64)) (hxs : ∀ x ∈ xs, ¬ IsNaN x) : ∃ h ys, new MathFloat.lt xs = .ok h ∧ drain MathFloat.lt xs.length h = .ok ys ∧ ys.Perm xs ∧
    ys.Pairwise (fun a b => MathFloat.Le (MathFloat.val a) (MathFloat.val b)) := by
  obtain ⟨zs, rfl⟩ : ∃ zs : List Num, xs = zs.map Subtype.val := ⟨xs.attachWith _ hxs, by simp⟩
  obtain ⟨h, ys, e1, e2, p, s⟩ := C09_drain_sorts numLt_order zs
  have e1' := new_map Subtype.val MathFloat.lt zs
  have e2' := drain_map Subtype.val MathFloat.lt zs.length h
  rw [show (fun a b : Num => MathFloat.lt a.1 b.1) = numLt from rfl, e1] at e1'
  rw [show (fun a b : Num => MathFloat.lt a.1 b.1) = numLt from rfl, e2] at e2'
  refine ⟨h.map Subtype.val, ys.map Subtype.val, e1', by rw [List.length_map]; exact e2', p.map _, ?_⟩
  rw [List.pairwise_map]
  refine s.imp ?_
  intro a b hab
  refine MathFloat.not_lt_le b.2 a.2 ?_
  show ¬ numLt b a = true
  rw [hab]
  simp

/-- The call brings no NaN. -/
def NoNaN : HeapOp (BitVec 64) → Prop
  | .push x => ¬ IsNaN x
  | .update _ y => ¬ IsNaN y
  | _ => True

/-- **C194 (minimum).** If no NaN was in the slice or in a call, after every history `Peek` returns an element that is not above any other. -/
theorem C194_minimum (xs h0 h : List (BitVec 64)) (ops : List (HeapOp (BitVec 64))) (outs : List (Option (BitVec 64))) (hxs : ∀ x ∈ xs, ¬ IsNaN x)
    (hops : ∀ op ∈ ops, NoNaN op) (hnew : new MathFloat.lt xs = .ok h0) (hrun : run MathFloat.lt h0 ops = .ok (h, outs)) (x : BitVec 64)
    (hpeek : peek h = .ok x) : x ∈ h ∧ ∀ y ∈ h, MathFloat.Le (MathFloat.val x) (MathFloat.val y) := by
  obtain ⟨zs, rfl⟩ : ∃ zs : List Num, xs = zs.map Subtype.val := ⟨xs.attachWith _ hxs, by simp⟩
  obtain ⟨qs, rfl⟩ : ∃ qs : List (HeapOp Num), ops = qs.map (opMap Subtype.val) := by
    clear hrun
    induction ops with
    | nil => exact ⟨[], rfl⟩
    | cons op ops ih =>
      obtain ⟨qs, rfl⟩ := ih (fun o ho => hops o (List.mem_cons_of_mem _ ho))
      have h1 := hops op List.mem_cons_self
      cases op with
      | push x => exact ⟨.push ⟨x, h1⟩ :: qs, rfl⟩
      | pop => exact ⟨.pop :: qs, rfl⟩
      | peek => exact ⟨.peek :: qs, rfl⟩
      | remove i => exact ⟨.remove i :: qs, rfl⟩
      | update i y => exact ⟨.update i ⟨y, h1⟩ :: qs, rfl⟩
  have e1 := new_map Subtype.val MathFloat.lt zs
  rw [show (fun a b : Num => MathFloat.lt a.1 b.1) = numLt from rfl, hnew] at e1
  cases hz : new numLt zs with
  | error e => rw [hz] at e1; cases e1
  | ok z0 =>
    rw [hz] at e1
    injection e1 with e1
    subst e1
    have e2 := run_map Subtype.val MathFloat.lt qs z0
    rw [show (fun a b : Num => MathFloat.lt a.1 b.1) = numLt from rfl, hrun] at e2
    cases hr : run numLt z0 qs with
    | error e => rw [hr] at e2; cases e2
    | ok r =>
      rw [hr] at e2
      injection e2 with e2
      injection e2 with e3 e4
      subst e3
      obtain ⟨w, wouts⟩ := r
      have e5 := idx_map Subtype.val w 0
      unfold peek at hpeek
      rw [hpeek] at e5
      cases hw : Go.idx w 0 with
      | error e => rw [hw] at e5; cases e5
      | ok u =>
        rw [hw] at e5
        injection e5 with e5
        subst e5
        obtain ⟨h1, h2⟩ := C07_peek_is_minimum numLt_order zs z0 w qs wouts hz hr u hw
        refine ⟨List.mem_map_of_mem h1, ?_⟩
        intro y hy
        obtain ⟨v, hv, rfl⟩ := List.mem_map.1 hy
        refine MathFloat.not_lt_le v.2 u.2 ?_
        show ¬ numLt v u = true
        rw [h2 v hv]
        simp

/-- **C194 (refuted: the least number comes first).** A NaN hides smaller numbers: of `b`, NaN and `a` the heap returns `b` first, also if `a < b`. For all numbers and every NaN. -/
theorem C194_nan_refuted (a b n : BitVec 64) (hn : IsNaN n) :
    ∃ h, new MathFloat.lt [b, n, a] = .ok h ∧ peek h = .ok b ∧ ∃ h', pop MathFloat.lt h = .ok (b, h') ∧ a ∈ h' := by
  have h1 : MathFloat.lt a n = false := MathFloat.lt_nan_right a hn
  have h2 : MathFloat.lt n b = false := MathFloat.lt_nan_left b hn
  have h3 : MathFloat.lt n a = false := MathFloat.lt_nan_left a hn
  refine ⟨[b, n, a], ?_, rfl, [a, n], ?_, by simp⟩
  · simp [new, initLoop, down, downLoop, listOps, less, Go.idx, h1, h2, bind, Except.bind, pure, Except.pure]
  · simp [pop, popRaw, down, downLoop, listOps, less, swap, Go.idx, h3, bind, Except.bind, pure, Except.pure]

/-- Non-vacuity: 1 and 2 are numbers with `1 < 2`; there is a NaN. -/
example : ∃ a b : Num, numLt a b = true ∧ IsNaN 0x7FF8000000000001#64 := by
  have h1 : MathFloat.val 0x3FF0000000000000#64 = .fin 1 := by
    unfold MathFloat.val MathFloat.size
    rw [if_neg (by decide), if_neg (by decide), if_neg (by decide)]
    norm_num [MathFloat.fraction, MathFloat.magnitude, MathFloat.exponent]
  have h2 : MathFloat.val 0x4000000000000000#64 = .fin 2 := by
    unfold MathFloat.val MathFloat.size
    rw [if_neg (by decide), if_neg (by decide), if_neg (by decide)]
    norm_num [MathFloat.fraction, MathFloat.magnitude, MathFloat.exponent]
  refine ⟨⟨_, by unfold IsNaN; rw [h1]; simp⟩, ⟨_, by unfold IsNaN; rw [h2]; simp⟩, ?_, ?_⟩
  · show MathFloat.lt _ _ = true
    unfold MathFloat.lt
    rw [h1, h2]
    norm_num
  · unfold IsNaN MathFloat.val
    rw [if_pos (by decide), if_neg (by decide)]

end Verif.Heap
