import Verif.Model.HeapCost
import Mathlib.Data.Nat.Log
import Mathlib.Tactic.Ring
import Mathlib.Algebra.BigOperators.Intervals
import Mathlib.Algebra.Order.BigOperators.Group.Finset

/-!
# Proofs about Model/HeapCost
-/

namespace Verif.Heap

variable {S : Type} {o : Ops S}

/-! ## Without the counters -/

/-- Forget the counters. -/
def erase {α : Type} (x : Go (α × Cost)) : Go α := x.map (·.1)

theorem upLoopC_erase (fuel : Nat) (h : S) (j : Nat) : erase (upLoopC o fuel h j) = upLoop o fuel h j := by
  induction fuel generalizing h j with
  | zero => rfl
  | succ fuel ih =>
    rw [upLoopC, upLoop]
    dsimp only
    split
    · rfl
    · cases hl : o.less h j ((j - 1) / 2) with
      | error e => rfl
      | ok b =>
        cases b with
        | false => rfl
        | true =>
          simp only [Go.bind_ok, Bool.not_true, Bool.false_eq_true, if_false]
          cases hs : o.swap h ((j - 1) / 2) j with
          | error e => rfl
          | ok h' =>
            simp only [Go.bind_ok]
            rw [← ih]
            cases upLoopC o fuel h' ((j - 1) / 2) with
            | error e => rfl
            | ok p => rfl

theorem ite_bind {α β : Type} (c : Prop) [Decidable c] (a b : Go α) (f : α → Go β) :
    (if c then a >>= f else b >>= f) = (if c then a else b) >>= f := by
  split <;> rfl

theorem downLoopC_erase (n fuel : Nat) (h : S) (i : Nat) : erase (downLoopC o n fuel h i) = downLoop o n fuel h i := by
  induction fuel generalizing h i with
  | zero => rfl
  | succ fuel ih =>
    rw [downLoopC, downLoop]
    dsimp only
    split
    · rfl
    · rw [ite_bind, ite_bind]
      cases hl : (if 2 * i + 1 + 1 < n then o.less h (2 * i + 1 + 1) (2 * i + 1) else pure false : Go Bool) with
      | error e => rfl
      | ok right =>
        simp only [Go.bind_ok]
        generalize (if right then 2 * i + 1 + 1 else 2 * i + 1) = j
        cases hl : o.less h j i with
        | error e => rfl
        | ok b =>
          cases b with
          | false => rfl
          | true =>
            simp only [Go.bind_ok, Bool.not_true, Bool.false_eq_true, if_false]
            cases hs : o.swap h i j with
            | error e => rfl
            | ok h' =>
              simp only [Go.bind_ok]
              rw [← ih]
              cases downLoopC o n fuel h' j with
              | error e => rfl
              | ok p => rfl

theorem upC_erase (h : S) (j : Nat) : erase (upC o h j) = up o h j := upLoopC_erase _ _ _

theorem downC_erase (h : S) (i n : Nat) : erase (downC o h i n) = down o h i n := by
  unfold downC down
  rw [← downLoopC_erase]
  cases downLoopC o n (n + 1) h i with
  | error e => rfl
  | ok p => rfl

theorem fixAtC_erase (h : S) (len i : Nat) : erase (fixAtC o h len i) = fixAt o h len i := by
  unfold fixAtC fixAt
  rw [← downC_erase]
  cases downC o h i len with
  | error e => rfl
  | ok p =>
    obtain ⟨⟨h', m⟩, c⟩ := p
    simp only [erase, Except.map, Go.bind_ok]
    cases m with
    | true => rfl
    | false =>
      simp only [Bool.not_false, if_true]
      have := upC_erase (o := o) h' i
      rw [← this]
      cases upC o h' i with
      | error e => rfl
      | ok p => rfl

theorem removeAtC_erase (h : S) (len i : Nat) : erase (removeAtC o h len i) = removeAt o h len i := by
  unfold removeAtC removeAt
  dsimp only
  split
  · cases o.swap h i (len - 1) with
    | error e => rfl
    | ok h =>
      simp only [Go.bind_ok]
      rw [← downC_erase]
      cases downC o h i (len - 1) with
      | error e => rfl
      | ok p =>
        obtain ⟨⟨h', m⟩, c⟩ := p
        simp only [erase, Except.map, Go.bind_ok]
        cases m with
        | true => rfl
        | false =>
          simp only [Bool.not_false, if_true]
          have := upC_erase (o := o) h' i
          rw [← this]
          cases upC o h' i with
          | error e => rfl
          | ok p => rfl
  · rfl

section
variable {T : Type} {lt : T → T → Bool}

theorem initLoopC_erase (n k : Nat) (h : List T) : erase (initLoopC lt n k h) = initLoop lt n k h := by
  induction k generalizing h with
  | zero => rfl
  | succ k ih =>
    rw [initLoopC, initLoop, ← downC_erase]
    cases downC (listOps lt) h k n with
    | error e => rfl
    | ok p =>
      obtain ⟨⟨h', m⟩, c⟩ := p
      simp only [erase, Except.map, Go.bind_ok]
      have := ih h'
      rw [← this]
      cases initLoopC lt n k h' with
      | error e => rfl
      | ok p => rfl

end

/-! ## Bounds -/

theorem log2_half {a : Nat} (h : 2 ≤ a) : a.log2 = (a / 2).log2 + 1 := by
  rw [Nat.log2_def a, if_pos h]

theorem log2_mono {a b : Nat} (h : a ≤ b) : a.log2 ≤ b.log2 := by
  by_cases ha : a = 0
  · subst ha; simp
  · have hb : b ≠ 0 := by omega
    rw [Nat.le_log2 hb]
    exact Nat.le_trans (Nat.log2_self_le ha) h

theorem log2_mul {a b : Nat} (ha : a ≠ 0) (hb : b ≠ 0) : a.log2 + b.log2 ≤ (a * b).log2 := by
  rw [Nat.le_log2 (Nat.mul_ne_zero ha hb), Nat.pow_add]
  exact Nat.mul_le_mul (Nat.log2_self_le ha) (Nat.log2_self_le hb)

theorem upLoopC_bound {fuel : Nat} {h h' : S} {j : Nat} {c : Cost} (e : upLoopC o fuel h j = .ok (h', c)) :
    c.cmp ≤ (j + 1).log2 ∧ c.swp ≤ (j + 1).log2 := by
  induction fuel generalizing h h' j c with
  | zero => cases e
  | succ fuel ih =>
    rw [upLoopC] at e
    dsimp only at e
    split at e
    · cases e; exact ⟨Nat.zero_le _, Nat.zero_le _⟩
    · rename_i hne
      have hj : j ≠ 0 := by rintro rfl; exact hne rfl
      have hp : (j - 1) / 2 + 1 = (j + 1) / 2 := by omega
      have hl := log2_half (a := j + 1) (by omega)
      cases hb : o.less h j ((j - 1) / 2) with
      | error x => rw [hb] at e; cases e
      | ok b =>
        rw [hb] at e
        cases b with
        | false =>
          cases e
          exact ⟨by dsimp only; omega, Nat.zero_le _⟩
        | true =>
          simp only [Go.bind_ok, Bool.not_true, Bool.false_eq_true, if_false] at e
          cases hs : o.swap h ((j - 1) / 2) j with
          | error x => rw [hs] at e; cases e
          | ok h1 =>
            rw [hs] at e
            simp only [Go.bind_ok] at e
            cases hu : upLoopC o fuel h1 ((j - 1) / 2) with
            | error x => rw [hu] at e; cases e
            | ok p =>
              obtain ⟨h2, c2⟩ := p
              rw [hu] at e
              cases e
              have := ih hu
              rw [hp] at this
              simp only [Cost.add]
              omega

/-- The levels below `i` in a heap of `n` elements. -/
def height (n i : Nat) : Nat := (n / (i + 1)).log2

theorem height_child {n i j : Nat} (hn : 2 * i + 1 < n) (hj : 2 * i + 1 ≤ j) : height n j + 1 ≤ height n i := by
  unfold height
  have h2 : 2 ≤ n / (i + 1) := by
    rw [Nat.le_div_iff_mul_le (by omega)]
    omega
  rw [log2_half h2, Nat.div_div_eq_div_mul]
  have : n / (j + 1) ≤ n / ((i + 1) * 2) := Nat.div_le_div_left (by omega) (by omega)
  have := log2_mono this
  omega

theorem downLoopC_bound {n fuel : Nat} {h h' : S} {i i' : Nat} {c : Cost} (e : downLoopC o n fuel h i = .ok ((h', i'), c)) :
    c.cmp ≤ 2 * height n i ∧ c.swp ≤ height n i ∧ i ≤ i' ∧ (i' = i → c.swp = 0) := by
  induction fuel generalizing h h' i i' c with
  | zero => cases e
  | succ fuel ih =>
    rw [downLoopC] at e
    dsimp only at e
    split at e
    · cases e; exact ⟨Nat.zero_le _, Nat.zero_le _, Nat.le_refl _, fun _ => rfl⟩
    · rename_i hn
      have hc := height_child (n := n) (i := i) (j := 2 * i + 1) (by omega) (by omega)
      rw [ite_bind] at e
      cases hl : (if 2 * i + 1 + 1 < n then o.less h (2 * i + 1 + 1) (2 * i + 1) else pure false : Go Bool) with
      | error x => rw [hl] at e; cases e
      | ok right =>
        rw [hl] at e
        simp only [Go.bind_ok] at e
        have hk : (if 2 * i + 1 + 1 < n then 1 else 0) ≤ 1 := by split <;> omega
        generalize hkk : (if 2 * i + 1 + 1 < n then 1 else 0) = k at *
        have hj : 2 * i + 1 ≤ (if right then 2 * i + 1 + 1 else 2 * i + 1) := by split <;> omega
        generalize (if right then 2 * i + 1 + 1 else 2 * i + 1) = j at *
        cases hb : o.less h j i with
        | error x => rw [hb] at e; cases e
        | ok b =>
          rw [hb] at e
          cases b with
          | false =>
            cases e
            exact ⟨by dsimp only; omega, Nat.zero_le _, Nat.le_refl _, fun _ => rfl⟩
          | true =>
            simp only [Go.bind_ok, Bool.not_true, Bool.false_eq_true, if_false] at e
            cases hs : o.swap h i j with
            | error x => rw [hs] at e; cases e
            | ok h1 =>
              rw [hs] at e
              simp only [Go.bind_ok] at e
              cases hu : downLoopC o n fuel h1 j with
              | error x => rw [hu] at e; cases e
              | ok p =>
                obtain ⟨⟨h2, i2⟩, c2⟩ := p
                rw [hu] at e
                cases e
                have := ih hu
                have := height_child (n := n) (i := i) (j := j) (by omega) hj
                simp only [Cost.add]
                omega

theorem downC_bound {n : Nat} {h h' : S} {i : Nat} {m : Bool} {c : Cost} (e : downC o h i n = .ok ((h', m), c)) :
    c.cmp ≤ 2 * height n i ∧ c.swp ≤ height n i ∧ (m = false → c.swp = 0) := by
  unfold downC at e
  cases hd : downLoopC o n (n + 1) h i with
  | error x => rw [hd] at e; cases e
  | ok p =>
    obtain ⟨⟨h1, i1⟩, c1⟩ := p
    rw [hd] at e
    cases e
    obtain ⟨b1, b2, b3, b4⟩ := downLoopC_bound hd
    refine ⟨b1, b2, fun hm => b4 ?_⟩
    simp only [decide_eq_false_iff_not] at hm
    omega

theorem height_log {n i : Nat} (h : i < n) : height n i + (i + 1).log2 ≤ n.log2 := by
  unfold height
  have h1 : n / (i + 1) ≠ 0 := by
    have : 0 < n / (i + 1) := Nat.div_pos (by omega) (by omega)
    omega
  refine Nat.le_trans (log2_mul h1 (by omega)) (log2_mono (Nat.div_mul_le_self _ _))

theorem fixAtC_bound {h h' : S} {len i : Nat} {c : Cost} (hi : i < len) (e : fixAtC o h len i = .ok (h', c)) :
    c.cmp ≤ 2 * len.log2 ∧ c.swp ≤ len.log2 := by
  have hh := height_log hi
  unfold fixAtC at e
  cases hd : downC o h i len with
  | error x => rw [hd] at e; cases e
  | ok p =>
    obtain ⟨⟨h1, m⟩, c1⟩ := p
    rw [hd] at e
    obtain ⟨b1, b2, b3⟩ := downC_bound hd
    simp only [Go.bind_ok] at e
    cases m with
    | true => cases e; omega
    | false =>
      simp only [Bool.not_false, if_true] at e
      cases hu : upC o h1 i with
      | error x => rw [hu] at e; cases e
      | ok p =>
        obtain ⟨h2, c2⟩ := p
        rw [hu] at e
        cases e
        have := upLoopC_bound hu
        have := b3 rfl
        simp only [Cost.add]
        omega

theorem removeAtC_bound {h h' : S} {len i : Nat} {c : Cost} (hi : i < len) (e : removeAtC o h len i = .ok (h', c)) :
    c.cmp ≤ 2 * (len - 1).log2 ∧ c.swp ≤ (len - 1).log2 + 1 := by
  unfold removeAtC at e
  dsimp only at e
  split at e
  · rename_i hne
    have hh := height_log (n := len - 1) (i := i) (by omega)
    cases hs : o.swap h i (len - 1) with
    | error x => rw [hs] at e; cases e
    | ok h0 =>
      rw [hs] at e
      simp only [Go.bind_ok] at e
      cases hd : downC o h0 i (len - 1) with
      | error x => rw [hd] at e; cases e
      | ok p =>
        obtain ⟨⟨h1, m⟩, c1⟩ := p
        rw [hd] at e
        obtain ⟨b1, b2, b3⟩ := downC_bound hd
        simp only [Go.bind_ok] at e
        cases m with
        | true => cases e; simp only [Cost.add]; omega
        | false =>
          simp only [Bool.not_false, if_true] at e
          cases hu : upC o h1 i with
          | error x => rw [hu] at e; cases e
          | ok p =>
            obtain ⟨h2, c2⟩ := p
            rw [hu] at e
            cases e
            have := upLoopC_bound hu
            have := b3 rfl
            simp only [Cost.add]
            omega
  · cases e; exact ⟨Nat.zero_le _, Nat.zero_le _⟩

/-! ## Building a heap is linear -/

open Finset

theorem initLoopC_bound {T : Type} {lt : T → T → Bool} {n k : Nat} {h h' : List T} {c : Cost} (e : initLoopC lt n k h = .ok (h', c)) :
    c.cmp ≤ 2 * ∑ i ∈ range k, height n i ∧ c.swp ≤ ∑ i ∈ range k, height n i := by
  induction k generalizing h h' c with
  | zero => cases e; exact ⟨Nat.zero_le _, Nat.zero_le _⟩
  | succ k ih =>
    rw [initLoopC] at e
    cases hd : downC (listOps lt) h k n with
    | error x => rw [hd] at e; cases e
    | ok p =>
      obtain ⟨⟨h1, m⟩, c1⟩ := p
      rw [hd] at e
      obtain ⟨b1, b2, -⟩ := downC_bound hd
      simp only [Go.bind_ok] at e
      cases hu : initLoopC lt n k h1 with
      | error x => rw [hu] at e; cases e
      | ok p =>
        obtain ⟨h2, c2⟩ := p
        rw [hu] at e
        cases e
        have := ih hu
        rw [sum_range_succ]
        simp only [Cost.add]
        omega

/-- `log2 a` counts the powers of two up to `a`. -/
theorem log2_sum (a L : Nat) (hL : a.log2 ≤ L) : a.log2 = ∑ e ∈ range L, if 2 ^ (e + 1) ≤ a then 1 else 0 := by
  rw [← card_filter]
  have : (range L).filter (fun e => 2 ^ (e + 1) ≤ a) = range a.log2 := by
    ext e
    simp only [mem_filter, mem_range]
    by_cases ha : a = 0
    · subst ha
      have : 0 < 2 ^ (e + 1) := Nat.pow_pos (by omega)
      simp only [Nat.log2_zero]
      omega
    · rw [← Nat.le_log2 ha]
      omega
  rw [this, card_range]

theorem halves (n L : Nat) (hn : 0 < n) : ∑ e ∈ range L, n / 2 ^ (e + 1) + 1 ≤ n := by
  induction L generalizing n with
  | zero => simp only [range_zero, sum_empty]; omega
  | succ L ih =>
    rw [sum_range_succ']
    have h1 : ∀ e, n / 2 ^ (e + 1 + 1) = n / 2 / 2 ^ (e + 1) := by
      intro e
      rw [Nat.div_div_eq_div_mul, Nat.pow_succ 2 (e + 1), Nat.mul_comm]
    simp only [h1, Nat.zero_add, Nat.pow_one]
    by_cases h2 : 0 < n / 2
    · have := ih (n / 2) h2
      omega
    · have h0 : n / 2 = 0 := by omega
      rw [h0]
      simp only [Nat.zero_div, sum_const_zero]
      omega

theorem height_sum (n k : Nat) (hn : 0 < n) : ∑ i ∈ range k, height n i + 1 ≤ n := by
  have h1 : ∀ i ∈ range k, height n i = ∑ e ∈ range n.log2, if 2 ^ (e + 1) ≤ n / (i + 1) then 1 else 0 :=
    fun i _ => log2_sum _ _ (log2_mono (Nat.div_le_self _ _))
  rw [sum_congr rfl h1, sum_comm]
  have h2 : ∀ e ∈ range n.log2, (∑ i ∈ range k, if 2 ^ (e + 1) ≤ n / (i + 1) then 1 else 0) ≤ n / 2 ^ (e + 1) := by
    intro e _
    rw [← card_filter]
    have : (range k).filter (fun i => 2 ^ (e + 1) ≤ n / (i + 1)) ⊆ range (n / 2 ^ (e + 1)) := by
      intro i hi
      simp only [mem_filter, mem_range] at hi ⊢
      have h3 := (Nat.le_div_iff_mul_le (by omega)).1 hi.2
      have : i + 1 ≤ n / 2 ^ (e + 1) := by
        rw [Nat.le_div_iff_mul_le (Nat.pow_pos (by omega)), Nat.mul_comm]
        exact h3
      omega
    have := card_le_card this
    rwa [card_range] at this
  have h3 := sum_le_sum h2
  have h4 := halves n n.log2 hn
  omega

/-! ## `HeapN` -/

section
variable {T : Type} {lt : T → T → Bool} {d : Nat}

theorem scanC_erase (n w : Nat) (h : List T) (j1 j : Nat) : erase (scanC lt n w h j1 j) = scan lt n w h j1 j := by
  induction w generalizing j1 j with
  | zero => rfl
  | succ w ih =>
    rw [scanC, scan]
    split
    · cases less lt h j1 j with
      | error e => rfl
      | ok b =>
        simp only [Go.bind_ok]
        rw [← ih]
        cases scanC lt n w h (j1 + 1) (if b then j1 else j) with
        | error e => rfl
        | ok p => rfl
    · rfl

theorem upLoopNC_erase (fuel : Nat) (h : List T) (j : Nat) : erase (upLoopNC lt d fuel h j) = upLoopN lt d fuel h j := by
  induction fuel generalizing h j with
  | zero => rfl
  | succ fuel ih =>
    rw [upLoopNC, upLoopN]
    dsimp only
    split
    · rfl
    · cases hl : less lt h j ((j - 1) / d) with
      | error e => rfl
      | ok b =>
        cases b with
        | false => rfl
        | true =>
          simp only [Go.bind_ok, Bool.not_true, Bool.false_eq_true, if_false]
          cases hs : swap h ((j - 1) / d) j with
          | error e => rfl
          | ok h' =>
            simp only [Go.bind_ok]
            rw [← ih]
            cases upLoopNC lt d fuel h' ((j - 1) / d) with
            | error e => rfl
            | ok p => rfl

theorem upNC_erase (h : List T) (j : Nat) : erase (upNC lt d h j) = upN lt d h j := upLoopNC_erase _ _ _

theorem downLoopNC_erase (n fuel : Nat) (h : List T) (i : Nat) : erase (downLoopNC lt d n fuel h i) = downLoopN lt d 4 n fuel h i := by
  induction fuel generalizing h i with
  | zero => rfl
  | succ fuel ih =>
    rw [downLoopNC, downLoopN]
    dsimp only
    split
    · rfl
    · rw [show 4 - 1 = 3 from rfl, ← scanC_erase]
      cases scanC lt n 3 h (d * i + 1 + 1) (d * i + 1) with
      | error e => rfl
      | ok p =>
        obtain ⟨j, c⟩ := p
        simp only [erase, Except.map, Go.bind_ok]
        cases hl : less lt h j i with
        | error e => rfl
        | ok b =>
          cases b with
          | false => rfl
          | true =>
            simp only [Go.bind_ok, Bool.not_true, Bool.false_eq_true, if_false]
            cases hs : swap h i j with
            | error e => rfl
            | ok h' =>
              simp only [Go.bind_ok]
              have := ih h' j
              rw [← this]
              cases downLoopNC lt d n fuel h' j with
              | error e => rfl
              | ok p => rfl

theorem downNC_erase (h : List T) (i n : Nat) : erase (downNC lt d h i n) = downN lt d h i n := by
  unfold downNC downN
  rw [← downLoopNC_erase]
  cases downLoopNC lt d n (n + 1) h i with
  | error e => rfl
  | ok p => rfl

theorem settleNC_erase (h : List T) (i n : Nat) : erase (settleNC lt d h i n) =
    (do let (h, moved) ← downN lt d h i n; if !moved then upN lt d h i else pure h) := by
  unfold settleNC
  rw [← downNC_erase]
  cases downNC lt d h i n with
  | error e => rfl
  | ok p =>
    obtain ⟨⟨h', m⟩, c⟩ := p
    simp only [erase, Except.map, Go.bind_ok]
    cases m with
    | true => rfl
    | false =>
      simp only [Bool.not_false, if_true]
      have := upNC_erase (lt := lt) (d := d) h' i
      rw [← this]
      cases upNC lt d h' i with
      | error e => rfl
      | ok p => rfl

/-- The number of the element at `i` counted so that its children have `d` times that number. -/
def num (d i : Nat) : Nat := i * (d - 1) + 1

theorem num_child (hd : 2 ≤ d) {i j : Nat} (h : d * i + 1 ≤ j) : d * num d i ≤ num d j := by
  unfold num
  obtain ⟨e, rfl⟩ : ∃ e, d = e + 1 := ⟨d - 1, by omega⟩
  simp only [Nat.add_sub_cancel]
  have := Nat.mul_le_mul_right e h
  have h2 : (e + 1) * (i * e + 1) = ((e + 1) * i + 1) * e + 1 := by ring
  omega

/-- The level of the element at `i`. -/
def level (d i : Nat) : Nat := Nat.log d (num d i)

theorem level_child (hd : 2 ≤ d) {i j : Nat} (h : d * i + 1 ≤ j) : level d i + 1 ≤ level d j := by
  unfold level
  have h1 : Nat.log d (num d i * d) = Nat.log d (num d i) + 1 := Nat.log_mul_base hd (by unfold num; omega)
  rw [← h1]
  exact Nat.log_mono_right (by rw [Nat.mul_comm]; exact num_child hd h)

theorem level_mono {i j : Nat} (h : i ≤ j) : level d i ≤ level d j := by
  unfold level num
  exact Nat.log_mono_right (Nat.add_le_add_right (Nat.mul_le_mul_right _ h) 1)

theorem upLoopNC_bound (hd : 2 ≤ d) {fuel : Nat} {h h' : List T} {j : Nat} {c : Cost} (e : upLoopNC lt d fuel h j = .ok (h', c)) :
    c.cmp ≤ level d j ∧ c.swp ≤ level d j := by
  induction fuel generalizing h h' j c with
  | zero => cases e
  | succ fuel ih =>
    rw [upLoopNC] at e
    dsimp only at e
    split at e
    · cases e; exact ⟨Nat.zero_le _, Nat.zero_le _⟩
    · rename_i hne
      have hj : j ≠ 0 := by rintro rfl; exact hne (by simp)
      have hp : d * ((j - 1) / d) + 1 ≤ j := by
        have := Nat.mul_div_le (j - 1) d
        omega
      have hl := level_child hd hp
      cases hb : less lt h j ((j - 1) / d) with
      | error x => rw [hb] at e; cases e
      | ok b =>
        rw [hb] at e
        cases b with
        | false =>
          cases e
          exact ⟨by dsimp only; omega, Nat.zero_le _⟩
        | true =>
          simp only [Go.bind_ok, Bool.not_true, Bool.false_eq_true, if_false] at e
          cases hs : swap h ((j - 1) / d) j with
          | error x => rw [hs] at e; cases e
          | ok h1 =>
            rw [hs] at e
            simp only [Go.bind_ok] at e
            cases hu : upLoopNC lt d fuel h1 ((j - 1) / d) with
            | error x => rw [hu] at e; cases e
            | ok p =>
              obtain ⟨h2, c2⟩ := p
              rw [hu] at e
              cases e
              have := ih hu
              simp only [Cost.add]
              omega

theorem scanC_bound {n w : Nat} {h : List T} {j1 j r : Nat} {c : Cost} (e : scanC lt n w h j1 j = .ok (r, c)) (hj : j < j1) (hn : j < n) :
    c.cmp ≤ w ∧ c.swp = 0 ∧ j ≤ r ∧ r < n := by
  induction w generalizing j1 j r c with
  | zero => cases e; exact ⟨Nat.le_refl _, rfl, Nat.le_refl _, hn⟩
  | succ w ih =>
    rw [scanC] at e
    split at e
    · cases hb : less lt h j1 j with
      | error x => rw [hb] at e; cases e
      | ok b =>
        rw [hb] at e
        simp only [Go.bind_ok] at e
        cases hs : scanC lt n w h (j1 + 1) (if b then j1 else j) with
        | error x => rw [hs] at e; cases e
        | ok p =>
          obtain ⟨r', c'⟩ := p
          rw [hs] at e
          cases e
          have := ih hs (by split <;> omega) (by split <;> omega)
          have hle : j ≤ (if b then j1 else j) := by split <;> omega
          simp only [Cost.add]
          omega
    · cases e; exact ⟨Nat.zero_le _, rfl, Nat.le_refl _, hn⟩

/-- Levels from that of `i` to the last of `n` elements. -/
theorem downLoopNC_bound (hd : 2 ≤ d) {n fuel : Nat} {h h' : List T} {i i' : Nat} {c : Cost}
    (e : downLoopNC lt d n fuel h i = .ok ((h', i'), c)) :
    c.cmp ≤ 4 * (level d (n - 1) - level d i) ∧ c.swp ≤ level d (n - 1) - level d i ∧ i ≤ i' ∧ (i' = i → c.swp = 0 ∧ c.cmp ≤ 4) ∧
    (n ≤ d * i + 1 → c.cmp = 0) := by
  induction fuel generalizing h h' i i' c with
  | zero => cases e
  | succ fuel ih =>
    rw [downLoopNC] at e
    dsimp only at e
    split at e
    · cases e; exact ⟨Nat.zero_le _, Nat.zero_le _, Nat.le_refl _, fun _ => ⟨rfl, Nat.zero_le _⟩, fun _ => rfl⟩
    · rename_i hn
      cases hsc : scanC lt n 3 h (d * i + 1 + 1) (d * i + 1) with
      | error x => rw [hsc] at e; cases e
      | ok p =>
        obtain ⟨j, c1⟩ := p
        rw [hsc] at e
        simp only [Go.bind_ok] at e
        obtain ⟨b1, b2, b3, b4⟩ := scanC_bound hsc (by omega) (by omega)
        have hl := level_child hd b3
        have hm := level_mono (d := d) (i := j) (j := n - 1) (by omega)
        cases hb : less lt h j i with
        | error x => rw [hb] at e; cases e
        | ok b =>
          rw [hb] at e
          cases b with
          | false =>
            cases e
            simp only [Cost.add]
            omega
          | true =>
            simp only [Go.bind_ok, Bool.not_true, Bool.false_eq_true, if_false] at e
            cases hs : swap h i j with
            | error x => rw [hs] at e; cases e
            | ok h1 =>
              rw [hs] at e
              simp only [Go.bind_ok] at e
              cases hu : downLoopNC lt d n fuel h1 j with
              | error x => rw [hu] at e; cases e
              | ok p =>
                obtain ⟨⟨h2, i2⟩, c2⟩ := p
                rw [hu] at e
                cases e
                have := ih hu
                have hij : i < j := by
                  have : 1 * i ≤ d * i := Nat.mul_le_mul_right _ (by omega)
                  omega
                simp only [Cost.add]
                omega

theorem downNC_bound (hd : 2 ≤ d) {n : Nat} {h h' : List T} {i : Nat} {m : Bool} {c : Cost} (e : downNC lt d h i n = .ok ((h', m), c)) :
    c.cmp ≤ 4 * (level d (n - 1) - level d i) ∧ c.swp ≤ level d (n - 1) - level d i ∧ (m = false → c.swp = 0 ∧ c.cmp ≤ 4) := by
  unfold downNC at e
  cases hx : downLoopNC lt d n (n + 1) h i with
  | error x => rw [hx] at e; cases e
  | ok p =>
    obtain ⟨⟨h1, i1⟩, c1⟩ := p
    rw [hx] at e
    cases e
    obtain ⟨b1, b2, b3, b4, -⟩ := downLoopNC_bound hd hx
    refine ⟨b1, b2, fun hm => b4 ?_⟩
    simp only [decide_eq_false_iff_not] at hm
    omega

theorem settleNC_bound (hd : 2 ≤ d) {n : Nat} {h h' : List T} {i : Nat} {c : Cost} (hi : i < n) (e : settleNC lt d h i n = .ok (h', c)) :
    c.cmp ≤ 4 * level d (n - 1) ∧ c.swp ≤ level d (n - 1) := by
  have hm := level_mono (d := d) (i := i) (j := n - 1) (by omega)
  unfold settleNC at e
  cases hx : downNC lt d h i n with
  | error x => rw [hx] at e; cases e
  | ok p =>
    obtain ⟨⟨h1, m⟩, c1⟩ := p
    rw [hx] at e
    obtain ⟨b1, b2, b3⟩ := downNC_bound hd hx
    simp only [Go.bind_ok] at e
    cases m with
    | true => cases e; omega
    | false =>
      simp only [Bool.not_false, if_true] at e
      cases hu : upNC lt d h1 i with
      | error x => rw [hu] at e; cases e
      | ok p =>
        obtain ⟨h2, c2⟩ := p
        rw [hu] at e
        cases e
        have := upLoopNC_bound hd hu
        have := b3 rfl
        simp only [Cost.add]
        omega

end

end Verif.Heap
