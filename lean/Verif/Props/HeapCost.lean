import Verif.Proof.HeapCost

/-!
# C163: the costs that the comments of heap.go promise (O(log n) and O(n)), as exact bounds on the calls of `less` and `swap`

`erase` forgets the counters. The bounds hold for every comparator, also one that is not an order.
-/

namespace Verif.Heap

variable {T : Type} {lt : T → T → Bool}

/-- **C163.** The functions with counters are the functions of Model/Heap: the loops for every container that has `less` and `swap` (so also
for Reap and Meap), and the operations of `Heap`. -/
theorem C163_same {S : Type} (o : Ops S) (s : S) (j len : Nat) (h : List T) (x : T) (i : Int) :
    erase (upC o s j) = up o s j ∧ erase (downC o s j len) = down o s j len ∧ erase (fixAtC o s len j) = fixAt o s len j ∧
    erase (removeAtC o s len j) = removeAt o s len j ∧ erase (newC lt h) = new lt h ∧ erase (pushC lt h x) = push lt h x ∧
    erase (popC lt h) = pop lt h ∧ erase (removeC lt h i) = remove lt h i ∧ erase (fixC lt h i) = fix lt h i := by
  refine ⟨upC_erase _ _, downC_erase _ _ _, fixAtC_erase _ _ _, removeAtC_erase _ _ _, initLoopC_erase _ _ _, upC_erase _ _, ?_, ?_, ?_⟩
  · unfold popC pop
    dsimp only
    cases swap h 0 (h.length - 1) with
    | error e => rfl
    | ok h1 =>
      simp only [Go.bind_ok]
      rw [← downC_erase]
      cases downC (listOps lt) h1 0 (h.length - 1) with
      | error e => rfl
      | ok p =>
        obtain ⟨⟨h2, m⟩, c⟩ := p
        simp only [erase, Except.map, Go.bind_ok]
        cases popRaw h2 with
        | error e => rfl
        | ok r => rfl
  · unfold removeC remove
    split
    · rfl
    · rw [← removeAtC_erase]
      cases removeAtC (listOps lt) h h.length i.toNat with
      | error e => rfl
      | ok p =>
        obtain ⟨h2, c⟩ := p
        simp only [erase, Except.map, Go.bind_ok]
        cases popRaw h2 with
        | error e => rfl
        | ok r => rfl
  · unfold fixC fix
    split
    · rfl
    · split
      · rfl
      · exact fixAtC_erase _ _ _

/-- **C163.** `Push` onto `n` elements makes at most `log2 (n + 1)` comparisons and as many swaps. -/
theorem C163_push {h h' : List T} {x : T} {c : Cost} (e : pushC lt h x = .ok (h', c)) :
    c.cmp ≤ (h.length + 1).log2 ∧ c.swp ≤ (h.length + 1).log2 := by
  have := upLoopC_bound e
  simpa [pushRaw] using this

/-- **C163.** `Pop` of `n` elements makes at most `2 * log2 (n - 1)` comparisons and `log2 (n - 1) + 1` swaps. -/
theorem C163_pop {h h' : List T} {x : T} {c : Cost} (e : popC lt h = .ok ((x, h'), c)) :
    c.cmp ≤ 2 * (h.length - 1).log2 ∧ c.swp ≤ (h.length - 1).log2 + 1 := by
  unfold popC at e
  dsimp only at e
  cases hs : swap h 0 (h.length - 1) with
  | error e' => rw [hs] at e; cases e
  | ok h1 =>
    rw [hs] at e
    simp only [Go.bind_ok] at e
    cases hd : downC (listOps lt) h1 0 (h.length - 1) with
    | error e' => rw [hd] at e; cases e
    | ok p =>
      obtain ⟨⟨h2, m⟩, c2⟩ := p
      rw [hd] at e
      simp only [Go.bind_ok] at e
      cases hp : popRaw h2 with
      | error e' => rw [hp] at e; cases e
      | ok r =>
        rw [hp] at e
        cases e
        have := downC_bound hd
        simp only [height, Nat.zero_add, Nat.div_one] at this
        simp only [Cost.add]
        omega

/-- **C163.** `Remove` from `n` elements makes at most `2 * log2 (n - 1)` comparisons and `log2 (n - 1) + 1` swaps. -/
theorem C163_remove {h h' : List T} {x : T} {i : Int} {c : Cost} (e : removeC lt h i = .ok ((x, h'), c)) :
    c.cmp ≤ 2 * (h.length - 1).log2 ∧ c.swp ≤ (h.length - 1).log2 + 1 := by
  unfold removeC at e
  split at e
  · cases e
  · cases hd : removeAtC (listOps lt) h h.length i.toNat with
    | error e' => rw [hd] at e; cases e
    | ok p =>
      obtain ⟨h2, c2⟩ := p
      rw [hd] at e
      simp only [Go.bind_ok] at e
      cases hp : popRaw h2 with
      | error e' => rw [hp] at e; cases e
      | ok r =>
        rw [hp] at e
        cases e
        by_cases hi : i.toNat < h.length
        · exact removeAtC_bound hi hd
        · unfold removeAtC at hd
          dsimp only at hd
          split at hd
          · have : swap h i.toNat (h.length - 1) = .error .index := by
              unfold swap
              rw [Go.idx_of_ge h i.toNat (by omega)]
              rfl
            rw [show (listOps lt).swap h i.toNat (h.length - 1) = _ from this] at hd
            cases hd
          · cases hd
            exact ⟨Nat.zero_le _, Nat.zero_le _⟩

/-- **C163.** `Fix` among `n` elements makes at most `2 * log2 n` comparisons and `log2 n` swaps. -/
theorem C163_fix {h h' : List T} {i : Int} {c : Cost} (e : fixC lt h i = .ok (h', c)) :
    c.cmp ≤ 2 * h.length.log2 ∧ c.swp ≤ h.length.log2 := by
  unfold fixC at e
  split at e
  · cases e; exact ⟨Nat.zero_le _, Nat.zero_le _⟩
  · split at e
    · cases e
    · by_cases hi : i.toNat < h.length
      · exact fixAtC_bound hi e
      · generalize i.toNat = k at *
        have hd : downC (listOps lt) h k h.length = .ok ((h, false), ⟨0, 0⟩) := by
          unfold downC
          rw [downLoopC]
          dsimp only
          rw [if_pos (by omega)]
          simp
        unfold fixAtC at e
        rw [hd] at e
        simp only [Go.bind_ok, Bool.not_false, if_true] at e
        unfold upC at e
        rw [upLoopC] at e
        dsimp only at e
        split at e
        · cases e; exact ⟨Nat.zero_le _, Nat.zero_le _⟩
        · have : less lt h k ((k - 1) / 2) = .error .index := by
            unfold less
            rw [Go.idx_of_ge h k (by omega)]
            rfl
          rw [show (listOps lt).less h k ((k - 1) / 2) = _ from this] at e
          cases e

/-- **C163.** `New` of `n ≥ 1` elements is linear: at most `n - 1` swaps and `2 * (n - 1)` comparisons. -/
theorem C163_new {h h' : List T} {c : Cost} (hn : h ≠ []) (e : newC lt h = .ok (h', c)) :
    c.cmp ≤ 2 * (h.length - 1) ∧ c.swp ≤ h.length - 1 := by
  have := initLoopC_bound e
  have := height_sum h.length (h.length / 2) (List.length_pos_iff.2 hn)
  omega

/-- **C163.** The same bounds for the loops over every container with `less` and `swap`, so also for the operations of Reap and Meap: `up` from
the position after `n` elements, `down` from the root, `Fix` and `Remove` at a position. -/
theorem C163_loops {S : Type} {o : Ops S} {s s' : S} {c : Cost} :
    (∀ n, upC o s n = .ok (s', c) → c.cmp ≤ (n + 1).log2 ∧ c.swp ≤ (n + 1).log2) ∧
    (∀ n m, downC o s 0 n = .ok ((s', m), c) → c.cmp ≤ 2 * n.log2 ∧ c.swp ≤ n.log2) ∧
    (∀ n i, i < n → fixAtC o s n i = .ok (s', c) → c.cmp ≤ 2 * n.log2 ∧ c.swp ≤ n.log2) ∧
    (∀ n i, i < n → removeAtC o s n i = .ok (s', c) → c.cmp ≤ 2 * (n - 1).log2 ∧ c.swp ≤ (n - 1).log2 + 1) := by
  refine ⟨fun n e => upLoopC_bound e, fun n m e => ?_, fun n i hi e => fixAtC_bound hi e, fun n i hi e => removeAtC_bound hi e⟩
  have := downC_bound e
  simp only [height, Nat.zero_add, Nat.div_one] at this
  exact ⟨this.1, this.2.1⟩

/-- The bounds are reached: pushing the smallest onto 7 elements, popping 8 elements, and building a heap of 7 in falling order takes all
`2 * 4 = 8` comparisons that 4 swaps leave room for. -/
example : (pushC (fun a b : Nat => decide (a < b)) [1, 2, 3, 4, 5, 6, 7] 0).map (·.2) = .ok ⟨3, 3⟩ ∧
    (popC (fun a b : Nat => decide (a < b)) [1, 2, 3, 4, 5, 6, 7, 8]).map (·.2) = .ok ⟨4, 3⟩ ∧
    (fixC (fun a b : Nat => decide (a < b)) [9, 2, 3, 4, 5, 6, 7] 0).map (·.2) = .ok ⟨4, 2⟩ ∧
    (removeC (fun a b : Nat => decide (a < b)) [1, 2, 3, 4, 5, 6, 7, 8] 1).map (·.2) = .ok ⟨2, 2⟩ ∧
    (newC (fun a b : Nat => decide (a < b)) [7, 6, 5, 4, 3, 2, 1]).map (·.2) = .ok ⟨8, 4⟩ := by decide

/-- An element that moves up: the comparisons of both loops are counted. -/
example : (removeC (fun a b : Nat => decide (a < b)) [0, 10, 1, 11, 12, 2, 3] 3).map (·.2) = .ok ⟨2, 2⟩ ∧
    (fixC (fun a b : Nat => decide (a < b)) [1, 2, 3, 4, 5, 6, 0] 6).map (·.2) = .ok ⟨2, 2⟩ ∧
    (removeNC (fun a b : Nat => decide (a < b)) 2 [0, 10, 1, 11, 12, 2, 3] 3).map (·.2) = .ok ⟨2, 2⟩ ∧
    (fixNC (fun a b : Nat => decide (a < b)) 2 [1, 2, 3, 4, 5, 6, 0] 6).map (·.2) = .ok ⟨2, 2⟩ ∧
    (removeNC (fun a b : Nat => decide (a < b)) 2 [0, 10, 1, 11, 12, 2, 3] 0).map (·.2) = .ok ⟨5, 3⟩ := by decide

/-! ### The number of swaps, seen from outside -/

/-- A container that keeps count of the calls of its `swap`. -/
def tallied {S : Type} (o : Ops S) : Ops (S × Nat) :=
  ⟨fun s i j => o.less s.1 i j, fun s i j => (o.swap s.1 i j).map (fun t => (t, s.2 + 1))⟩

theorem upLoop_tallied {S : Type} (o : Ops S) (fuel : Nat) (s : S) (k j : Nat) :
    upLoop (tallied o) fuel (s, k) j = (upLoopC o fuel s j).map (fun r => (r.1, k + r.2.swp)) := by
  induction fuel generalizing s k j with
  | zero => rfl
  | succ fuel ih =>
    rw [upLoopC, upLoop]
    dsimp only [tallied]
    split
    · rfl
    · cases hl : o.less s j ((j - 1) / 2) with
      | error e => rfl
      | ok b =>
        cases b with
        | false => rfl
        | true =>
          simp only [Go.bind_ok, Bool.not_true, Bool.false_eq_true, if_false]
          cases hs : o.swap s ((j - 1) / 2) j with
          | error e => rfl
          | ok s' =>
            refine (ih s' (k + 1) ((j - 1) / 2)).trans ?_
            simp only [Go.bind_ok]
            cases upLoopC o fuel s' ((j - 1) / 2) with
            | error e => rfl
            | ok p =>
              simp only [Except.map, Go.bind_ok, pure, Except.pure, Cost.add]
              congr 2
              omega

theorem downLoop_tallied {S : Type} (o : Ops S) (n fuel : Nat) (s : S) (k i : Nat) :
    downLoop (tallied o) n fuel (s, k) i = (downLoopC o n fuel s i).map (fun r => ((r.1.1, k + r.2.swp), r.1.2)) := by
  induction fuel generalizing s k i with
  | zero => rfl
  | succ fuel ih =>
    rw [downLoopC, downLoop]
    dsimp only [tallied]
    split
    · rfl
    · rw [ite_bind, ite_bind]
      cases hl : (if 2 * i + 1 + 1 < n then o.less s (2 * i + 1 + 1) (2 * i + 1) else pure false : Go Bool) with
      | error e => rfl
      | ok right =>
        simp only [Go.bind_ok]
        generalize hj : (if right = true then 2 * i + 1 + 1 else 2 * i + 1) = j
        cases hl2 : o.less s j i with
        | error e => rfl
        | ok b =>
          cases b with
          | false => rfl
          | true =>
            simp only [Go.bind_ok, Bool.not_true, Bool.false_eq_true, if_false]
            cases hs : o.swap s i j with
            | error e => rfl
            | ok s' =>
              refine (ih s' (k + 1) j).trans ?_
              simp only [Go.bind_ok]
              cases downLoopC o n fuel s' j with
              | error e => rfl
              | ok p =>
                simp only [Except.map, Go.bind_ok, pure, Except.pure, Cost.add]
                congr 3
                omega

/-- **C163 (the swaps).** Let the container itself count the calls of its `swap`, and run the functions of Model/Heap, which have no counters:
the count goes up by exactly what the functions with counters say, and they panic alike. -/
theorem C163_swaps {S : Type} (o : Ops S) (s : S) (k len i : Nat) :
    up (tallied o) (s, k) i = (upC o s i).map (fun r => (r.1, k + r.2.swp)) ∧
    down (tallied o) (s, k) i len = (downC o s i len).map (fun r => ((r.1.1, k + r.2.swp), r.1.2)) ∧
    fixAt (tallied o) (s, k) len i = (fixAtC o s len i).map (fun r => (r.1, k + r.2.swp)) ∧
    removeAt (tallied o) (s, k) len i = (removeAtC o s len i).map (fun r => (r.1, k + r.2.swp)) := by
  have hu : ∀ s k i, up (tallied o) (s, k) i = (upC o s i).map (fun r => (r.1, k + r.2.swp)) := fun s k i => upLoop_tallied o _ s k i
  have hd : ∀ s k i n, down (tallied o) (s, k) i n = (downC o s i n).map (fun r => ((r.1.1, k + r.2.swp), r.1.2)) := by
    intro s k i n
    unfold down downC
    rw [downLoop_tallied]
    cases downLoopC o n (n + 1) s i <;> rfl
  refine ⟨hu s k i, hd s k i len, ?_, ?_⟩
  · unfold fixAt fixAtC
    rw [hd]
    cases downC o s i len with
    | error e => rfl
    | ok r =>
      obtain ⟨⟨s', m⟩, c⟩ := r
      cases m with
      | true => rfl
      | false =>
        simp only [Except.map, Go.bind_ok, Bool.not_false, if_true]
        rw [hu]
        cases upC o s' i with
        | error e => rfl
        | ok p =>
          simp only [Except.map, Go.bind_ok, pure, Except.pure, Cost.add]
          congr 2
          omega
  · unfold removeAt removeAtC
    dsimp only
    split
    · have ht : (tallied o).swap (s, k) i (len - 1) = (o.swap s i (len - 1)).map (fun t => (t, k + 1)) := rfl
      rw [ht]
      cases o.swap s i (len - 1) with
      | error e => rfl
      | ok s1 =>
        simp only [Except.map, Go.bind_ok]
        rw [hd]
        cases downC o s1 i (len - 1) with
        | error e => rfl
        | ok r =>
          obtain ⟨⟨s', m⟩, c⟩ := r
          cases m with
          | true =>
            simp only [Except.map, Go.bind_ok, Bool.not_true, Bool.false_eq_true, if_false, pure, Except.pure, Cost.add]
            congr 2
            omega
          | false =>
            simp only [Except.map, Go.bind_ok, Bool.not_false, if_true]
            rw [hu]
            cases upC o s' i with
            | error e => rfl
            | ok p =>
              simp only [Except.map, Go.bind_ok, pure, Except.pure, Cost.add]
              congr 2
              omega
    · rfl

/-- **C163.** The same for `HeapN`: the functions with counters are the functions of Model/Heap. -/
theorem C163_n_same (d : Nat) (h : List T) (x : T) (i : Int) (k : Nat) :
    erase (pushNC lt d h x) = pushN lt d h x ∧ erase (popNC lt d h) = popN lt d h ∧ erase (removeNC lt d h i) = removeN lt d h i ∧
    erase (fixNC lt d h k) = fixN lt d h k := by
  refine ⟨upNC_erase _ _, ?_, ?_, settleNC_erase _ _ _⟩
  · unfold popNC popN
    dsimp only
    cases swap h 0 (h.length - 1) with
    | error e => rfl
    | ok h1 =>
      simp only [Go.bind_ok]
      rw [← downNC_erase]
      cases downNC lt d h1 0 (h.length - 1) with
      | error e => rfl
      | ok p =>
        obtain ⟨⟨h2, m⟩, c⟩ := p
        simp only [erase, Except.map, Go.bind_ok]
        cases popRaw h2 with
        | error e => rfl
        | ok r => rfl
  · unfold removeNC removeN
    split
    · rfl
    · dsimp only
      split
      · cases swap h i.toNat (h.length - 1) with
        | error e => rfl
        | ok h1 =>
          simp only [Go.bind_ok]
          have hs := settleNC_erase (lt := lt) (d := d) h1 i.toNat (h.length - 1)
          cases hx : settleNC lt d h1 i.toNat (h.length - 1) with
          | error e =>
            rw [hx] at hs
            cases hd : downN lt d h1 i.toNat (h.length - 1) with
            | error e' => rw [hd] at hs; cases hs; rfl
            | ok p =>
              obtain ⟨h2, m⟩ := p
              rw [hd] at hs
              cases m with
              | true => cases hs
              | false =>
                simp only [erase, Except.map, Go.bind_ok, Bool.not_false, if_true] at hs ⊢
                rw [← hs]; rfl
          | ok q =>
            obtain ⟨h3, c⟩ := q
            rw [hx] at hs
            cases hd : downN lt d h1 i.toNat (h.length - 1) with
            | error e' => rw [hd] at hs; cases hs
            | ok p =>
              obtain ⟨h2, m⟩ := p
              rw [hd] at hs
              cases m with
              | true =>
                cases hs
                change _ = popRaw h3
                simp only [erase, Except.map, Go.bind_ok]
                cases popRaw h3 with
                | error e => rfl
                | ok r => rfl
              | false =>
                simp only [erase, Except.map, Go.bind_ok, Bool.not_false, if_true] at hs ⊢
                rw [← hs]
                simp only [Go.bind_ok]
                cases popRaw h3 with
                | error e => rfl
                | ok r => rfl
      · change _ = popRaw h
        simp only [erase]
        cases popRaw h with
        | error e => rfl
        | ok r => rfl

/-- **C163.** In a `HeapN` of arity `d ≥ 2`, whose last level for `n` elements has number `log_d ((n - 1) * (d - 1) + 1)`: `Push` onto `n`
elements makes at most one comparison and one swap a level, `Pop` and `Remove` at most four comparisons and one swap a level of the elements that
stay, and one swap, `Fix` at most four comparisons and one swap a level. -/
theorem C163_n_bounds {d : Nat} (hd : 2 ≤ d) {h h' : List T} {x y : T} {c : Cost} :
    (pushNC lt d h x = .ok (h', c) →
      c.cmp ≤ Nat.log d (h.length * (d - 1) + 1) ∧ c.swp ≤ Nat.log d (h.length * (d - 1) + 1)) ∧
    (popNC lt d h = .ok ((y, h'), c) →
      c.cmp ≤ 4 * Nat.log d ((h.length - 1 - 1) * (d - 1) + 1) ∧ c.swp ≤ Nat.log d ((h.length - 1 - 1) * (d - 1) + 1) + 1) ∧
    (∀ i, removeNC lt d h i = .ok ((y, h'), c) →
      c.cmp ≤ 4 * Nat.log d ((h.length - 1 - 1) * (d - 1) + 1) ∧ c.swp ≤ Nat.log d ((h.length - 1 - 1) * (d - 1) + 1) + 1) ∧
    (∀ i, i < h.length → fixNC lt d h i = .ok (h', c) →
      c.cmp ≤ 4 * Nat.log d ((h.length - 1) * (d - 1) + 1) ∧ c.swp ≤ Nat.log d ((h.length - 1) * (d - 1) + 1)) := by
  refine ⟨fun e => ?_, fun e => ?_, fun i e => ?_, fun i hi e => settleNC_bound hd hi e⟩
  · have := upLoopNC_bound hd e
    simpa [pushRaw, level, num] using this
  · unfold popNC at e
    dsimp only at e
    cases hs : swap h 0 (h.length - 1) with
    | error e' => rw [hs] at e; cases e
    | ok h1 =>
      rw [hs] at e
      simp only [Go.bind_ok] at e
      cases hx : downNC lt d h1 0 (h.length - 1) with
      | error e' => rw [hx] at e; cases e
      | ok p =>
        obtain ⟨⟨h2, m⟩, c2⟩ := p
        rw [hx] at e
        simp only [Go.bind_ok] at e
        cases hp : popRaw h2 with
        | error e' => rw [hp] at e; cases e
        | ok r =>
          rw [hp] at e
          cases e
          have := downNC_bound hd hx
          change _ ≤ 4 * level d (h.length - 1 - 1) ∧ _ ≤ level d (h.length - 1 - 1) + 1
          simp only [Cost.add]
          omega
  · unfold removeNC at e
    split at e
    · cases e
    · split at e
      · cases hs : swap h i.toNat (h.length - 1) with
        | error e' => rw [hs] at e; cases e
        | ok h1 =>
          have hi : i.toNat < h.length := by
            by_contra hc
            unfold swap at hs
            rw [Go.idx_of_ge h i.toNat (by omega)] at hs
            cases hs
          rw [hs] at e
          simp only [Go.bind_ok] at e
          cases hx : settleNC lt d h1 i.toNat (h.length - 1) with
          | error e' => rw [hx] at e; cases e
          | ok p =>
            obtain ⟨h2, c2⟩ := p
            rw [hx] at e
            simp only [Go.bind_ok] at e
            cases hp : popRaw h2 with
            | error e' => rw [hp] at e; cases e
            | ok r =>
              rw [hp] at e
              cases e
              have := settleNC_bound hd (by omega) hx
              change _ ≤ 4 * level d (h.length - 1 - 1) ∧ _ ≤ level d (h.length - 1 - 1) + 1
              simp only [Cost.add]
              omega
      · cases hp : popRaw h with
        | error e' => rw [hp] at e; cases e
        | ok r =>
          rw [hp] at e
          cases e
          exact ⟨Nat.zero_le _, Nat.zero_le _⟩

/-- With arity 4: pushing the smallest onto 5 elements, which makes a third level, and `Pop` with a full first level. -/
example : (pushNC (fun a b : Nat => decide (a < b)) 4 [1, 2, 3, 4, 5] 0).map (·.2) = .ok ⟨2, 2⟩ ∧ Nat.log 4 (5 * 3 + 1) = 2 ∧
    (popNC (fun a b : Nat => decide (a < b)) 4 [1, 2, 3, 4, 5, 6]).map (·.2) = .ok ⟨4, 2⟩ ∧ Nat.log 4 ((6 - 1 - 1) * 3 + 1) = 1 := by decide

end Verif.Heap
