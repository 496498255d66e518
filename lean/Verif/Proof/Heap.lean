import Verif.Model.Heap
import Mathlib.Tactic.Linarith
import Mathlib.Tactic.Ring

/-!
# Theory of d-ary sift-up / sift-down, shared by all heap models
-/

namespace Verif

namespace StrictWeakOrder
variable {T : Type} {lt : T → T → Bool}

theorem asymm (h : StrictWeakOrder lt) {a b : T} (hab : lt a b = true) : lt b a = false := by
  cases hba : lt b a with
  | false => rfl
  | true => have := h.trans _ _ _ hab hba; rw [h.irrefl] at this; exact absurd this (by simp)

theorem negTrans (h : StrictWeakOrder lt) {a b c : T} (hab : lt a b = false) (hbc : lt b c = false) :
    lt a c = false := by
  cases hac : lt a c with
  | false => rfl
  | true =>
    exfalso
    have hba : lt b a = false := by
      cases hba : lt b a with
      | false => rfl
      | true => rw [h.trans _ _ _ hba hac] at hbc; exact absurd hbc (by simp)
    have hcb : lt c b = false := by
      cases hcb : lt c b with
      | false => rfl
      | true => rw [h.trans _ _ _ hac hcb] at hab; exact absurd hab (by simp)
    have := (h.incomp_trans a b c ⟨hab, hba⟩ ⟨hbc, hcb⟩).1
    rw [hac] at this; exact absurd this (by simp)

end StrictWeakOrder

namespace Heap
variable {T : Type} {lt : T → T → Bool}

/-- Parent index of a `d`-ary heap. -/
def par (d j : Nat) : Nat := (j - 1) / d

/-- The edge between `j` and its parent respects the order. -/
def EdgeOk (lt : T → T → Bool) (d : Nat) (h : List T) (j : Nat) : Prop :=
  ∀ x y, h[j]? = some x → h[par d j]? = some y → lt x y = false

/-- Entry `c` is not less than entry `p`. -/
def NotLess (lt : T → T → Bool) (h : List T) (c p : Nat) : Prop :=
  ∀ x y, h[c]? = some x → h[p]? = some y → lt x y = false

/-- The first `n` entries are heap ordered. -/
def HeapN (lt : T → T → Bool) (d n : Nat) (h : List T) : Prop :=
  ∀ j, 0 < j → j < n → NotLess lt h j (par d j)

theorem swap_ok (h : List T) (i j : Nat) (hi : i < h.length) (hj : j < h.length) :
    swap h i j = .ok ((h.set i h[j]).set j h[i]) := by
  simp [swap, hi, hj]

theorem swap_perm (h : List T) (i j : Nat) (hi : i < h.length) (hj : j < h.length) :
    ((h.set i h[j]).set j h[i]).Perm h := List.set_set_perm hi hj

theorem swap_get (h : List T) (i j k : Nat) (hi : i < h.length) (hj : j < h.length) :
    ((h.set i h[j]).set j h[i])[k]? = if k = j then h[i]? else if k = i then h[j]? else h[k]? := by
  simp only [List.getElem?_set, List.length_set]
  grind

theorem less_ok (h : List T) (i j : Nat) (hi : i < h.length) (hj : j < h.length) :
    less lt h i j = .ok (lt h[i] h[j]) := by
  simp [less, hi, hj]

/-! ## Totality and conservation, for an arbitrary `lt` -/

theorem scan_total (lt : T → T → Bool) (n : Nat) (h : List T) (hn : n ≤ h.length) :
    ∀ (w j1 j : Nat), j < n → ∃ j', scan lt n w h j1 j = .ok j' ∧ j' < n ∧ (j' = j ∨ j1 ≤ j' ∧ j' < j1 + w)
  | 0, j1, j, hj => ⟨j, rfl, hj, Or.inl rfl⟩
  | w + 1, j1, j, hj => by
    unfold scan
    by_cases h1 : j1 < n
    · rw [if_pos h1, less_ok h j1 j (by omega) (by omega)]
      simp only [Go.bind_ok]
      obtain ⟨j', e, hl, hc⟩ := scan_total lt n h hn w (j1 + 1)
        (if lt (h[j1]'(by omega)) (h[j]'(by omega)) = true then j1 else j) (by split <;> omega)
      refine ⟨j', e, hl, ?_⟩
      split at hc <;> omega
    · rw [if_neg h1]; exact ⟨j, rfl, hj, Or.inl rfl⟩

/-- The candidate found by `scan` is minimal among the first one and the scanned ones. -/
theorem scan_min (o : StrictWeakOrder lt) (n : Nat) (h : List T) (hn : n ≤ h.length) :
    ∀ (w j1 j j' : Nat), j < n → scan lt n w h j1 j = .ok j' →
      NotLess lt h j j' ∧ ∀ c, j1 ≤ c → c < j1 + w → c < n → NotLess lt h c j'
  | 0, j1, j, j', hj, e => by
    simp only [scan, Except.ok.injEq] at e; subst e
    refine ⟨fun x y hx hy => ?_, fun c h1 h2 => by omega⟩
    rw [hx] at hy; cases hy; exact o.irrefl _
  | w + 1, j1, j, j', hj, e => by
    unfold scan at e
    by_cases h1 : j1 < n
    · rw [if_pos h1, less_ok h j1 j (by omega) (by omega)] at e
      simp only [Go.bind_ok] at e
      by_cases hl : lt (h[j1]'(by omega)) (h[j]'(by omega)) = true
      · rw [if_pos hl] at e
        obtain ⟨a, b⟩ := scan_min o n h hn w (j1 + 1) j1 j' h1 e
        refine ⟨fun x y hx hy => ?_, fun c c1 c2 c3 => ?_⟩
        · have hj1 : h[j1]? = some (h[j1]'(by omega)) := by simp; 
          have hjj : h[j]? = some (h[j]'(by omega)) := by simp; 
          rw [hjj] at hx; cases hx
          exact o.negTrans (o.asymm hl) (a _ _ hj1 hy)
        · by_cases hc : c = j1
          · subst hc; exact a
          · exact b c (by omega) (by omega) c3
      · rw [if_neg hl] at e
        obtain ⟨a, b⟩ := scan_min o n h hn w (j1 + 1) j j' hj e
        refine ⟨a, fun c c1 c2 c3 => ?_⟩
        by_cases hc : c = j1
        · subst hc
          intro x y hx hy
          have hcc : h[c]? = some (h[c]'(by omega)) := by simp; 
          have hjj : h[j]? = some (h[j]'(by omega)) := by simp; 
          rw [hcc] at hx; cases hx
          exact o.negTrans (by simpa using hl) (a _ _ hjj hy)
        · exact b c (by omega) (by omega) c3
    · rw [if_neg h1] at e; cases e
      refine ⟨fun x y hx hy => ?_, fun c h1 h2 => by omega⟩
      rw [hx] at hy; cases hy; exact o.irrefl _

/-- `h'` is a rearrangement of `h` that leaves positions from `n` on alone. -/
structure Rearr (n : Nat) (h h' : List T) : Prop where
  perm : h'.Perm h
  tail : ∀ k, n ≤ k → h'[k]? = h[k]?

theorem Rearr.length {n : Nat} {h h' : List T} (r : Rearr n h h') : h'.length = h.length := r.perm.length_eq

theorem Rearr.refl (n : Nat) (h : List T) : Rearr n h h := ⟨List.Perm.refl _, fun _ _ => rfl⟩

theorem Rearr.trans {n : Nat} {a b c : List T} (r : Rearr n a b) (s : Rearr n b c) : Rearr n a c :=
  ⟨s.perm.trans r.perm, fun k hk => (s.tail k hk).trans (r.tail k hk)⟩

theorem Rearr.swap {n : Nat} (h : List T) (i j : Nat) (hi : i < n) (hj : j < n) (hn : n ≤ h.length) :
    Rearr n h ((h.set i (h[j]'(by omega))).set j (h[i]'(by omega))) := by
  refine ⟨swap_perm h i j (by omega) (by omega), fun k hk => ?_⟩
  rw [swap_get h i j k (by omega) (by omega), if_neg (by omega), if_neg (by omega)]

theorem downLoopN_total (lt : T → T → Bool) (d w n : Nat) (hd : 0 < d) :
    ∀ (fuel : Nat) (h : List T) (i : Nat), n ≤ h.length → n < i + fuel → 0 < fuel →
      ∃ h' i', downLoopN lt d w n fuel h i = .ok (h', i') ∧ Rearr n h h' ∧ i ≤ i' ∧ (i' = i → h' = h)
  | 0, _, _, _, _, hf => absurd hf (by omega)
  | fuel + 1, h, i, hn, hf, _ => by
    unfold downLoopN
    by_cases h1 : d * i + 1 ≥ n
    · simp only [if_pos h1]
      exact ⟨h, i, rfl, Rearr.refl _ _, le_rfl, fun _ => rfl⟩
    · have hdi : i ≤ d * i := Nat.le_mul_of_pos_left _ hd
      simp only [if_neg h1]
      obtain ⟨j, ej, hjn, hj⟩ := scan_total lt n h hn (w - 1) (d * i + 1 + 1) (d * i + 1) (by omega)
      rw [ej]
      simp only [Go.bind_ok]
      rw [less_ok h j i (by omega) (by omega)]
      simp only [Go.bind_ok]
      cases hlt : lt (h[j]'(by omega)) (h[i]'(by omega)) with
      | false => exact ⟨h, i, rfl, Rearr.refl _ _, le_rfl, fun _ => rfl⟩
      | true =>
        simp only [Bool.not_true, Bool.false_eq_true, if_false]
        rw [swap_ok h i j (by omega) (by omega)]
        simp only [Go.bind_ok]
        have r := Rearr.swap h i j (by omega) hjn hn
        obtain ⟨h', i', e, r', hi', _⟩ := downLoopN_total lt d w n hd fuel
          ((h.set i (h[j]'(by omega))).set j (h[i]'(by omega))) j (by simpa using hn) (by omega) (by omega)
        exact ⟨h', i', e, r.trans r', by omega, by omega⟩

theorem upLoopN_total (lt : T → T → Bool) (d n : Nat) (hd : 0 < d) :
    ∀ (fuel : Nat) (h : List T) (j : Nat), j < n → n ≤ h.length → j < fuel →
      ∃ h', upLoopN lt d fuel h j = .ok h' ∧ Rearr n h h'
  | 0, _, _, _, _, hf => absurd hf (by omega)
  | fuel + 1, h, j, hj, hn, hf => by
    unfold upLoopN
    by_cases h1 : (j - 1) / d = j
    · simp only [if_pos h1]; exact ⟨h, rfl, Rearr.refl _ _⟩
    · simp only [if_neg h1]
      have hle : (j - 1) / d ≤ j - 1 := Nat.div_le_self _ _
      have hlt' : (j - 1) / d < j := by omega
      rw [less_ok h j _ (by omega) (by omega)]
      simp only [Go.bind_ok]
      cases hlt : lt (h[j]'(by omega)) (h[(j - 1) / d]'(by omega)) with
      | false => exact ⟨h, rfl, Rearr.refl _ _⟩
      | true =>
        simp only [Bool.not_true, Bool.false_eq_true, if_false]
        rw [swap_ok h _ j (by omega) (by omega)]
        simp only [Go.bind_ok]
        have r := Rearr.swap h ((j - 1) / d) j (by omega) hj hn
        obtain ⟨h', e, r'⟩ := upLoopN_total lt d n hd fuel
          ((h.set ((j - 1) / d) (h[j]'(by omega))).set j (h[(j - 1) / d]'(by omega))) ((j - 1) / d)
          (by omega) (by simpa using hn) (by omega)
        exact ⟨h', e, r.trans r'⟩

/-! ## The heap invariant with a hole -/

/-- Position `q` may be out of order with its parent and children; everything else (with parent at or above `lo`) is in order,
and every candidate of `q` is not less than the parent of `q`. -/
structure Hole (lt : T → T → Bool) (d w n lo : Nat) (h : List T) (q : Nat) : Prop where
  edges : ∀ j, 0 < j → j < n → lo ≤ par d j → par d j ≠ q → j ≠ q → NotLess lt h j (par d j)
  cands : 0 < q → lo ≤ par d q → ∀ c, d * q + 1 ≤ c → c < d * q + 1 + w → c < n → NotLess lt h c (par d q)

theorem par_lt (d j : Nat) (hj : 0 < j) : par d j < j := by
  have : par d j ≤ j - 1 := Nat.div_le_self _ _
  omega

theorem par_eq_iff (d j q : Nat) (hd : 0 < d) (hj : 0 < j) : par d j = q ↔ d * q + 1 ≤ j ∧ j ≤ d * q + d := by
  unfold par
  rw [Nat.div_eq_iff hd, Nat.mul_comm q d]
  omega

/-- The situations in which a window of `w` candidates is adequate for arity `d`. -/
def Adequate (d w lo : Nat) : Prop := 0 < d ∧ (w = d ∨ (d = 3 ∧ w = 4 ∧ lo = 0))

theorem downLoopN_heap (o : StrictWeakOrder lt) (d w n lo : Nat) (hw : Adequate d w lo) :
    ∀ (fuel : Nat) (h : List T) (q : Nat) (h' : List T) (i' : Nat), n ≤ h.length → n < q + fuel → lo ≤ q →
      Hole lt d w n lo h q → downLoopN lt d w n fuel h q = .ok (h', i') →
      (i' = q ∧ h' = h ∧ ∀ c, 0 < c → c < n → par d c = q → NotLess lt h c q) ∨
      (q < i' ∧ ∀ j, 0 < j → j < n → lo ≤ par d j → NotLess lt h' j (par d j))
  | 0, _, _, _, _, _, _, _, _, e => by simp [downLoopN] at e
  | fuel + 1, h, q, h', i', hn, hf, hlo, hole, e => by
    obtain ⟨hd, hw'⟩ := hw
    have hdw : d ≤ w := by omega
    have hdq : q ≤ d * q := Nat.le_mul_of_pos_left _ hd
    unfold downLoopN at e
    by_cases h1 : d * q + 1 ≥ n
    · simp only [if_pos h1, Except.ok.injEq, Prod.mk.injEq] at e
      obtain ⟨rfl, rfl⟩ := e
      refine Or.inl ⟨rfl, rfl, fun c c0 c1 c2 => ?_⟩
      have := (par_eq_iff d c q hd c0).1 c2
      omega
    · simp only [if_neg h1] at e
      obtain ⟨j, ej, hjn, hj⟩ := scan_total lt n h hn (w - 1) (d * q + 1 + 1) (d * q + 1) (by omega)
      obtain ⟨m1, m2⟩ := scan_min o n h hn (w - 1) (d * q + 1 + 1) (d * q + 1) j (by omega) ej
      have hmin : ∀ c, d * q + 1 ≤ c → c < d * q + 1 + w → c < n → NotLess lt h c j := by
        intro c c1 c2 c3
        by_cases hc : c = d * q + 1
        · subst hc; exact m1
        · exact m2 c (by omega) (by omega) c3
      have hjw : d * q + 1 ≤ j ∧ j < d * q + 1 + w := by omega
      rw [ej] at e
      simp only [Go.bind_ok] at e
      rw [less_ok h j q (by omega) (by omega)] at e
      simp only [Go.bind_ok] at e
      have gj : h[j]? = some (h[j]'(by omega)) := by simp
      have gq : h[q]? = some (h[q]'(by omega)) := by simp
      cases hlt : lt (h[j]'(by omega)) (h[q]'(by omega)) with
      | false =>
        simp only [hlt, Bool.not_false, if_true, Go.pure_eq, Except.ok.injEq, Prod.mk.injEq] at e
        obtain ⟨rfl, rfl⟩ := e
        refine Or.inl ⟨rfl, rfl, fun c c0 c1 c2 => ?_⟩
        have hc := (par_eq_iff d c q hd c0).1 c2
        intro x y hx hy
        rw [gq] at hy; cases hy
        exact o.negTrans (hmin c (by omega) (by omega) c1 _ _ hx gj) hlt
      | true =>
        simp only [hlt, Bool.not_true, Bool.false_eq_true, if_false] at e
        rw [swap_ok h q j (by omega) (by omega)] at e
        simp only [Go.bind_ok] at e
        have hqj : q < j := by omega
        generalize hh2 : (h.set q (h[j]'(by omega))).set j (h[q]'(by omega)) = h2 at e
        have get2 : ∀ k, h2[k]? = if k = j then h[q]? else if k = q then h[j]? else h[k]? := by
          intro k; rw [← hh2]; exact swap_get h q j k (by omega) (by omega)
        have len2 : h2.length = h.length := by rw [← hh2]; simp
        have hole2 : Hole lt d w n lo h2 j := by
          refine ⟨fun k k0 kn klo kp kj => ?_, fun j0 jlo c c1 c2 c3 => ?_⟩
          · intro x y hx hy
            have hpk := par_lt d k k0
            rw [get2 k, if_neg kj] at hx
            rw [get2 (par d k), if_neg kp] at hy
            by_cases hkq : k = q
            · subst hkq
              rw [if_pos rfl] at hx
              rw [if_neg (by omega)] at hy
              exact hole.cands k0 klo j hjw.1 hjw.2 hjn x y hx hy
            · rw [if_neg hkq] at hx
              by_cases hpq : par d k = q
              · rw [if_pos hpq] at hy
                have := (par_eq_iff d k q hd k0).1 hpq
                exact hmin k (by omega) (by omega) kn x y hx hy
              · rw [if_neg hpq] at hy
                exact hole.edges k k0 kn klo hpq hkq x y hx hy
          · intro x y hx hy
            have hdj : j ≤ d * j := Nat.le_mul_of_pos_left _ hd
            have hpj := par_lt d j j0
            rw [get2 c, if_neg (by omega), if_neg (by omega)] at hx
            rw [get2 (par d j), if_neg (by omega)] at hy
            -- `y` is not greater than the old `h[j]`
            have hyj : lt (h[j]'(by omega)) y = false := by
              by_cases hpq : par d j = q
              · rw [if_pos hpq, gj] at hy; cases hy; exact o.irrefl _
              · rw [if_neg hpq] at hy
                exact hole.edges j j0 hjn jlo hpq (by omega) _ _ gj hy
            have hcj : d * j + 1 ≤ c := c1
            have hc0 : 0 < c := by omega
            by_cases hpc : par d c = j
            · exact o.negTrans (hole.edges c hc0 c3 (by omega) (by omega) (by omega) x _ hx (by rw [hpc]; exact gj)) hyj
            · -- a cousin: only possible for d = 3, w = 4
              rcases hw' with rfl | ⟨rfl, rfl, rfl⟩
              · exact absurd ((par_eq_iff w c j hd hc0).2 (by omega)) hpc
              · have hc : c = 3 * j + 4 := by
                  have : ¬ (3 * j + 1 ≤ c ∧ c ≤ 3 * j + 3) := fun h => hpc ((par_eq_iff 3 c j hd hc0).2 h)
                  omega
                have hpc' : par 3 c = j + 1 := (par_eq_iff 3 c (j + 1) hd hc0).2 (by omega)
                have gj1 : h[j + 1]? = some (h[j + 1]'(by omega)) := by simp
                have hx1 := hole.edges c hc0 c3 (by omega) (by omega) (by omega) x _ hx (by rw [hpc']; exact gj1)
                refine o.negTrans hx1 ?_
                by_cases hpq : par 3 j = q
                · rw [if_pos hpq] at hy
                  have := (par_eq_iff 3 j q hd j0).1 hpq
                  exact hmin (j + 1) (by omega) (by omega) (by omega) _ y gj1 hy
                · rw [if_neg hpq] at hy
                  have hj4 : j = 3 * q + 4 := by
                    have : ¬ (3 * q + 1 ≤ j ∧ j ≤ 3 * q + 3) := fun h => hpq ((par_eq_iff 3 j q hd j0).2 h)
                    omega
                  have hpj1 : par 3 (j + 1) = q + 1 := (par_eq_iff 3 (j + 1) (q + 1) hd (by omega)).2 (by omega)
                  have hpj0 : par 3 j = q + 1 := (par_eq_iff 3 j (q + 1) hd (by omega)).2 (by omega)
                  refine hole.edges (j + 1) (by omega) (by omega) (by omega) (by omega) (by omega) _ y gj1 ?_
                  rw [hpj1, ← hpj0]; exact hy
        -- the edge above the new hole is in order
        have edgej : NotLess lt h2 j (par d j) := by
          intro x y hx hy
          have hpj := par_lt d j (by omega)
          rw [get2 j, if_pos rfl, gq] at hx; cases hx
          rw [get2 (par d j), if_neg (by omega)] at hy
          by_cases hpq : par d j = q
          · rw [if_pos hpq, gj] at hy; cases hy; exact o.asymm hlt
          · rw [if_neg hpq] at hy
            have hge : lo ≤ par d j := by
              rcases hw' with rfl | ⟨rfl, rfl, rfl⟩
              · exact absurd ((par_eq_iff w j q hd (by omega)).2 (by omega)) hpq
              · omega
            exact o.negTrans (o.asymm hlt) (hole.edges j (by omega) hjn hge hpq (by omega) _ _ gj hy)
        rcases downLoopN_heap o d w n lo ⟨hd, hw'⟩ fuel h2 j h' i' (by omega) (by omega) (by omega) hole2 e with
          ⟨rfl, rfl, hch⟩ | ⟨hlt', hall⟩
        · refine Or.inr ⟨by omega, fun k k0 kn klo => ?_⟩
          by_cases hk : k = i'
          · subst hk; exact edgej
          · by_cases hp : par d k = i'
            · have := hch k k0 kn hp
              rw [hp]; exact this
            · exact hole2.edges k k0 kn klo hp hk
        · exact Or.inr ⟨by omega, hall⟩

theorem upLoopN_heap (o : StrictWeakOrder lt) (d n : Nat) (hd : 0 < d) :
    ∀ (fuel : Nat) (h : List T) (j : Nat) (h' : List T), j < n → n ≤ h.length → j < fuel →
      (∀ k, 0 < k → k < n → k ≠ j → NotLess lt h k (par d k)) →
      (0 < j → ∀ c, 0 < c → c < n → par d c = j → NotLess lt h c (par d j)) →
      upLoopN lt d fuel h j = .ok h' → HeapN lt d n h'
  | 0, _, _, _, _, _, hf, _, _, _ => absurd hf (by omega)
  | fuel + 1, h, j, h', hj, hn, hf, hedges, hgp, e => by
    unfold upLoopN at e
    by_cases h1 : (j - 1) / d = j
    · simp only [if_pos h1, Except.ok.injEq] at e; subst e
      have : (j - 1) / d ≤ j - 1 := Nat.div_le_self _ _
      intro k k0 kn
      exact hedges k k0 kn (by omega)
    · simp only [if_neg h1] at e
      have hle : (j - 1) / d ≤ j - 1 := Nat.div_le_self _ _
      have hlt' : (j - 1) / d < j := by omega
      rw [less_ok h j _ (by omega) (by omega)] at e
      simp only [Go.bind_ok] at e
      change par d j < j at hlt'
      change (if (!lt (h[j]'(by omega)) (h[par d j]'(by omega))) = true then _ else _) = _ at e
      have gj : h[j]? = some (h[j]'(by omega)) := by simp
      have gp : h[par d j]? = some (h[par d j]'(by omega)) := by simp
      cases hlt : lt (h[j]'(by omega)) (h[par d j]'(by omega)) with
      | false =>
        simp only [hlt, Bool.not_false, if_true, Go.pure_eq, Except.ok.injEq] at e
        subst e
        intro k k0 kn
        by_cases hk : k = j
        · subst hk; intro x y hx hy; rw [gj] at hx; rw [gp] at hy; cases hx; cases hy; exact hlt
        · exact hedges k k0 kn hk
      | true =>
        simp only [hlt, Bool.not_true, Bool.false_eq_true, if_false] at e
        change ((swap h (par d j) j).bind fun h => upLoopN lt d fuel h (par d j)) = _ at e
        rw [swap_ok h _ j (by omega) (by omega)] at e
        simp only [Except.bind] at e
        generalize hh2 : (h.set (par d j) (h[j]'(by omega))).set j (h[par d j]'(by omega)) = h2 at e
        have get2 : ∀ k, h2[k]? = if k = j then h[par d j]? else if k = par d j then h[j]? else h[k]? := by
          intro k; rw [← hh2]; exact swap_get h (par d j) j k (by omega) (by omega)
        have len2 : h2.length = h.length := by rw [← hh2]; simp
        refine upLoopN_heap o d n hd fuel h2 (par d j) h' (by omega) (by omega) (by omega) ?_ ?_ e
        · intro k k0 kn kp x y hx hy
          have hpk := par_lt d k k0
          rw [get2] at hx hy
          by_cases hkj : k = j
          · subst hkj
            rw [if_pos rfl] at hx; rw [if_neg (by omega), if_pos rfl] at hy
            rw [gj] at hy; rw [gp] at hx; cases hx; cases hy; exact o.asymm hlt
          · rw [if_neg hkj, if_neg kp] at hx
            by_cases hpj : par d k = j
            · rw [if_pos hpj] at hy
              exact hgp (by omega) k k0 kn hpj x y hx hy
            · rw [if_neg hpj] at hy
              by_cases hpp : par d k = par d j
              · rw [if_pos hpp, gj] at hy; cases hy
                have := hedges k k0 kn hkj x _ hx (by rw [hpp]; exact gp)
                exact o.negTrans this (o.asymm hlt)
              · rw [if_neg hpp] at hy
                exact hedges k k0 kn hkj x y hx hy
        · intro p0 c c0 cn hcp x y hx hy
          have hpc := par_lt d c c0
          have hpp := par_lt d (par d j) p0
          rw [get2] at hx hy
          rw [if_neg (by omega), if_neg (by omega)] at hy
          have hpe := hedges (par d j) p0 (by omega) (by omega) _ y gp hy
          by_cases hcj : c = j
          · rw [if_pos hcj, gp] at hx; cases hx; exact hpe
          · rw [if_neg hcj, if_neg (by omega)] at hx
            have := hedges c c0 cn hcj x _ hx (by rw [hcp]; exact gp)
            exact o.negTrans this hpe

/-! ## Consequences of the invariant -/

theorem HeapN.root_min (o : StrictWeakOrder lt) {d n : Nat} {h : List T} (hh : HeapN lt d n h) (hn : n ≤ h.length) :
    ∀ j, j < n → NotLess lt h j 0 := by
  intro j
  induction j using Nat.strong_induction_on with
  | _ j ih =>
    intro hj x y hx hy
    by_cases h0 : j = 0
    · subst h0; rw [hx] at hy; cases hy; exact o.irrefl _
    · have hp := par_lt d j (by omega)
      have gp : h[par d j]? = some (h[par d j]'(by omega)) := by simp
      exact o.negTrans (hh j (by omega) hj x _ hx gp) (ih _ hp (by omega) _ y gp hy)

/-- A heap with the entry at `q` overwritten has a hole at `q`. -/
theorem Hole.of_heap (o : StrictWeakOrder lt) {d n q : Nat} (hd : 0 < d) {h h2 : List T} (hq : q < n) (hn : n ≤ h.length)
    (hh : HeapN lt d n h) (heq : ∀ k, k < n → k ≠ q → h2[k]? = h[k]?) : Hole lt d d n 0 h2 q := by
  have gq : h[q]? = some (h[q]'(by omega)) := by simp
  refine ⟨fun j j0 jn _ hp hj x y hx hy => ?_, fun q0 _ c c1 c2 c3 x y hx hy => ?_⟩
  · have := par_lt d j j0
    rw [heq j jn hj] at hx; rw [heq _ (by omega) hp] at hy
    exact hh j j0 jn x y hx hy
  · have := par_lt d q q0
    have hdq : q ≤ d * q := Nat.le_mul_of_pos_left _ hd
    rw [heq c c3 (by omega)] at hx; rw [heq _ (by omega) (by omega)] at hy
    have hpc : par d c = q := (par_eq_iff d c q hd (by omega)).2 (by omega)
    exact o.negTrans (hh c (by omega) c3 x _ hx (by rw [hpc]; exact gq)) (hh q q0 hq _ y gq hy)

theorem Hole.root {d w n : Nat} {h h2 : List T} (hh : HeapN lt d n h)
    (heq : ∀ k, k < n → k ≠ 0 → h2[k]? = h[k]?) : Hole lt d w n 0 h2 0 := by
  refine ⟨fun j j0 jn _ hp hj x y hx hy => ?_, fun q0 => absurd q0 (by omega)⟩
  have := par_lt d j j0
  rw [heq j jn hj] at hx; rw [heq _ (by omega) hp] at hy
  exact hh j j0 jn x y hx hy

theorem HeapN.mono {d n m : Nat} {h : List T} (hh : HeapN lt d n h) (hm : m ≤ n) : HeapN lt d m h :=
  fun j j0 jm => hh j j0 (by omega)

theorem HeapN.congr {d n : Nat} {h h2 : List T} (hh : HeapN lt d n h) (heq : ∀ k, k < n → h2[k]? = h[k]?) :
    HeapN lt d n h2 := by
  intro j j0 jn x y hx hy
  have := par_lt d j j0
  rw [heq j jn] at hx; rw [heq _ (by omega)] at hy
  exact hh j j0 jn x y hx hy

/-- down then (if it did not move) up, started on a heap with a hole at `i`, gives a heap. -/
theorem downUp_heap (o : StrictWeakOrder lt) (d n : Nat) (hd : 0 < d) {h h1 h' : List T} {i i' : Nat}
    (hi : i < n) (hn : n ≤ h.length) (hole : Hole lt d d n 0 h i)
    (e1 : downLoopN lt d d n (n + 1) h i = .ok (h1, i'))
    (e2 : (if i' = i then upLoopN lt d (i + 1) h1 i else .ok h1) = .ok h') : HeapN lt d n h' := by
  rcases downLoopN_heap o d d n 0 ⟨hd, Or.inl rfl⟩ (n + 1) h i h1 i' hn (by omega) (by omega) hole e1 with
    ⟨rfl, rfl, hch⟩ | ⟨hlt, hall⟩
  · rw [if_pos rfl] at e2
    refine upLoopN_heap o d n hd (i' + 1) h1 i' h' hi hn (by omega) ?_ ?_ e2
    · intro k k0 kn hk
      by_cases hp : par d k = i'
      · have := hch k k0 kn hp
        rw [hp]; exact this
      · exact hole.edges k k0 kn (by omega) hp hk
    · intro i0 c c0 cn hc
      have := (par_eq_iff d c i' hd c0).1 hc
      exact hole.cands i0 (by omega) c (by omega) (by omega) cn
  · rw [if_neg (by omega)] at e2; cases e2
    exact fun j j0 jn => hall j j0 jn (by omega)

/-! ## The operations, for any arity `d` and candidate window `w` -/

/-- `Pop` with window `w`. -/
def popG (lt : T → T → Bool) (d w : Nat) (h : List T) : Go (T × List T) := do
  let n := h.length - 1
  let h ← swap h 0 n
  let (h, _) ← downLoopN lt d w n (n + 1) h 0
  popRaw h

/-- `Fix` with window `w`. -/
def fixG (lt : T → T → Bool) (d w : Nat) (h : List T) (n i : Nat) : Go (List T) := do
  let (h, i') ← downLoopN lt d w n (n + 1) h i
  if i' = i then upLoopN lt d (i + 1) h i else pure h

/-- `Remove` with window `w`. -/
def removeG (lt : T → T → Bool) (d w : Nat) (h : List T) (i : Nat) : Go (T × List T) := do
  let n := h.length - 1
  let h ← if n ≠ i then do
      let h ← swap h i n
      fixG lt d w h n i
    else pure h
  popRaw h

theorem popRaw_ok (h : List T) (hne : 0 < h.length) :
    popRaw h = .ok (h[h.length - 1], h.take (h.length - 1)) := by
  have : h.length - 1 < h.length := by omega
  simp [popRaw, this]

theorem popRaw_perm (h : List T) (hne : 0 < h.length) :
    (h[h.length - 1] :: h.take (h.length - 1)).Perm h := by
  have e : h.take (h.length - 1) ++ [h[h.length - 1]] = h := by
    have := List.take_append_getElem (l := h) (i := h.length - 1) (by omega)
    rw [this, List.take_of_length_le (by omega)]
  conv_rhs => rw [← e]
  exact (List.perm_append_singleton _ _).symm

theorem fixG_total (lt : T → T → Bool) (d w n : Nat) (hd : 0 < d) (h : List T) (i : Nat) (hi : i < n)
    (hn : n ≤ h.length) : ∃ h', fixG lt d w h n i = .ok h' ∧ Rearr n h h' := by
  obtain ⟨h1, i', e, r, _, _⟩ := downLoopN_total lt d w n hd (n + 1) h i hn (by omega) (by omega)
  unfold fixG
  rw [e]
  simp only [Go.bind_ok]
  by_cases hii : i' = i
  · rw [if_pos hii]
    obtain ⟨h', e', r'⟩ := upLoopN_total lt d n hd (i + 1) h1 i hi (by rw [r.length]; exact hn) (by omega)
    exact ⟨h', e', r.trans r'⟩
  · rw [if_neg hii]; exact ⟨h1, rfl, r⟩

theorem fixG_heap_of_hole (o : StrictWeakOrder lt) (d n : Nat) (hd : 0 < d) {h h' : List T} {i : Nat}
    (hi : i < n) (hn : n ≤ h.length) (hole : Hole lt d d n 0 h i) (e : fixG lt d d h n i = .ok h') : HeapN lt d n h' := by
  obtain ⟨h1, i', e1, _, _, _⟩ := downLoopN_total lt d d n hd (n + 1) h i hn (by omega) (by omega)
  unfold fixG at e
  rw [e1] at e
  exact downUp_heap o d n hd hi hn hole e1 e

theorem fixG_heap (o : StrictWeakOrder lt) (d n : Nat) (hd : 0 < d) {h0 h h' : List T} {i : Nat}
    (hi : i < n) (hn : n ≤ h.length) (hn0 : n ≤ h0.length) (hh : HeapN lt d n h0)
    (heq : ∀ k, k < n → k ≠ i → h[k]? = h0[k]?) (e : fixG lt d d h n i = .ok h') : HeapN lt d n h' :=
  fixG_heap_of_hole o d n hd hi hn (Hole.of_heap o hd hi hn0 hh heq) e

theorem popG_total (lt : T → T → Bool) (d w : Nat) (hd : 0 < d) (h : List T) (hne : 0 < h.length) :
    ∃ h', popG lt d w h = .ok (h[0], h') ∧ (h[0] :: h').Perm h := by
  unfold popG
  simp only
  rw [swap_ok h 0 (h.length - 1) hne (by omega)]
  simp only [Go.bind_ok]
  generalize hs : (h.set 0 (h[h.length - 1]'(by omega))).set (h.length - 1) (h[0]'(by omega)) = s
  have len : s.length = h.length := by rw [← hs]; simp
  have get : s[h.length - 1]? = h[0]? := by
    rw [← hs, swap_get h 0 (h.length - 1) _ hne (by omega), if_pos rfl]
  have perm : s.Perm h := by rw [← hs]; exact swap_perm h 0 (h.length - 1) hne (by omega)
  obtain ⟨h1, i', e, r, _, _⟩ := downLoopN_total lt d w (h.length - 1) hd (h.length - 1 + 1) s 0
    (by omega) (by omega) (by omega)
  rw [e]
  simp only [Go.bind_ok]
  have l1 : h1.length = h.length := by rw [r.length, len]
  have g1 : h1[h1.length - 1]'(by omega) = h[0] := by
    have := r.tail (h.length - 1) le_rfl
    rw [get, ← l1, List.getElem?_eq_getElem (by omega), List.getElem?_eq_getElem (by omega)] at this
    exact Option.some.inj this
  rw [popRaw_ok h1 (by omega), g1]
  refine ⟨_, rfl, ?_⟩
  have := popRaw_perm h1 (by omega)
  rw [g1] at this
  exact this.trans (r.perm.trans perm)

theorem popG_heap (o : StrictWeakOrder lt) (d w : Nat) (hw : Adequate d w 0) {h h' : List T} {x : T}
    (hh : HeapN lt d h.length h) (e : popG lt d w h = .ok (x, h')) : HeapN lt d h'.length h' := by
  have hd := hw.1
  have hne : 0 < h.length := by
    by_contra hc
    have : h = [] := List.length_eq_zero_iff.1 (by omega)
    subst this
    simp [popG, swap, Go.idx] at e
  unfold popG at e
  simp only at e
  rw [swap_ok h 0 (h.length - 1) hne (by omega)] at e
  simp only [Go.bind_ok] at e
  generalize hs : (h.set 0 (h[h.length - 1]'(by omega))).set (h.length - 1) (h[0]'(by omega)) = s at e
  have len : s.length = h.length := by rw [← hs]; simp
  have get : ∀ k, k < h.length - 1 → k ≠ 0 → s[k]? = h[k]? := by
    intro k hk hk0
    rw [← hs, swap_get h 0 (h.length - 1) _ hne (by omega), if_neg (by omega), if_neg hk0]
  obtain ⟨h1, i', e1, r, _, _⟩ := downLoopN_total lt d w (h.length - 1) hd (h.length - 1 + 1) s 0
    (by omega) (by omega) (by omega)
  rw [e1] at e
  simp only [Go.bind_ok] at e
  have l1 : h1.length = h.length := by rw [r.length, len]
  rw [popRaw_ok h1 (by omega)] at e
  simp only [Except.ok.injEq, Prod.mk.injEq] at e
  obtain ⟨_, rfl⟩ := e
  have hole : Hole lt d w (h.length - 1) 0 s 0 := Hole.root (hh.mono (by omega)) get
  have hheap : HeapN lt d (h.length - 1) h1 := by
    rcases downLoopN_heap o d w (h.length - 1) 0 hw (h.length - 1 + 1) s 0 h1 i' (by omega) (by omega) (by omega)
      hole e1 with ⟨rfl, rfl, hch⟩ | ⟨_, hall⟩
    · intro k k0 kn
      by_cases hp : par d k = 0
      · have := hch k k0 kn hp
        rw [hp]; exact this
      · exact hole.edges k k0 kn (by omega) hp (by omega)
    · exact fun j j0 jn => hall j j0 jn (by omega)
  rw [List.length_take, l1]
  refine (hheap.mono (by omega)).congr fun k hk => ?_
  rw [List.getElem?_take, if_pos (by omega)]

theorem removeG_total (lt : T → T → Bool) (d w : Nat) (hd : 0 < d) (h : List T) (i : Nat) (hi : i < h.length) :
    ∃ h', removeG lt d w h i = .ok (h[i], h') ∧ (h[i] :: h').Perm h := by
  unfold removeG
  simp only
  by_cases hni : h.length - 1 = i
  · rw [if_neg (by omega)]
    subst hni
    simp only [Go.pure_eq, Go.bind_ok]
    rw [popRaw_ok h (by omega)]
    exact ⟨_, rfl, popRaw_perm h (by omega)⟩
  · rw [if_pos hni, swap_ok h i (h.length - 1) hi (by omega)]
    simp only [Go.bind_ok]
    generalize hs : (h.set i (h[h.length - 1]'(by omega))).set (h.length - 1) (h[i]'(by omega)) = s
    have len : s.length = h.length := by rw [← hs]; simp
    have get : s[h.length - 1]? = h[i]? := by
      rw [← hs, swap_get h i (h.length - 1) _ hi (by omega), if_pos rfl]
    have perm : s.Perm h := by rw [← hs]; exact swap_perm h i (h.length - 1) hi (by omega)
    obtain ⟨h1, e, r⟩ := fixG_total lt d w (h.length - 1) hd s i (by omega) (by omega)
    rw [e]
    simp only [Go.bind_ok]
    have l1 : h1.length = h.length := by rw [r.length, len]
    have g1 : h1[h1.length - 1]'(by omega) = h[i] := by
      have := r.tail (h.length - 1) le_rfl
      rw [get, ← l1, List.getElem?_eq_getElem (by omega), List.getElem?_eq_getElem (by omega)] at this
      exact Option.some.inj this
    rw [popRaw_ok h1 (by omega), g1]
    refine ⟨_, rfl, ?_⟩
    have := popRaw_perm h1 (by omega)
    rw [g1] at this
    exact this.trans (r.perm.trans perm)

theorem removeG_oob (lt : T → T → Bool) (d w : Nat) (h : List T) (i : Nat) (hi : h.length ≤ i) :
    removeG lt d w h i = .error .index := by
  unfold removeG
  simp only
  by_cases hni : h.length - 1 = i
  · rw [if_neg (by omega)]
    have : h = [] := List.length_eq_zero_iff.1 (by omega)
    subst this; rfl
  · rw [if_pos hni]
    simp [swap, Go.idx_of_ge h i hi]

theorem removeG_heap (o : StrictWeakOrder lt) (d : Nat) (hd : 0 < d) {h h' : List T} {x : T} {i : Nat}
    (hh : HeapN lt d h.length h) (e : removeG lt d d h i = .ok (x, h')) : HeapN lt d h'.length h' := by
  have hi : i < h.length := by
    by_contra hc
    rw [removeG_oob lt d d h i (by omega)] at e; cases e
  unfold removeG at e
  simp only at e
  by_cases hni : h.length - 1 = i
  · rw [if_neg (by omega)] at e
    simp only [Go.pure_eq, Go.bind_ok] at e
    rw [popRaw_ok h (by omega)] at e
    simp only [Except.ok.injEq, Prod.mk.injEq] at e
    obtain ⟨_, rfl⟩ := e
    rw [List.length_take]
    refine (hh.mono (by omega)).congr fun k hk => ?_
    rw [List.getElem?_take, if_pos (by omega)]
  · rw [if_pos hni, swap_ok h i (h.length - 1) hi (by omega)] at e
    simp only [Go.bind_ok] at e
    generalize hs : (h.set i (h[h.length - 1]'(by omega))).set (h.length - 1) (h[i]'(by omega)) = s at e
    have len : s.length = h.length := by rw [← hs]; simp
    have get : ∀ k, k < h.length - 1 → k ≠ i → s[k]? = h[k]? := by
      intro k hk hk0
      rw [← hs, swap_get h i (h.length - 1) _ hi (by omega), if_neg (by omega), if_neg hk0]
    obtain ⟨h1, e1, r⟩ := fixG_total lt d d (h.length - 1) hd s i (by omega) (by omega)
    rw [e1] at e
    simp only [Go.bind_ok] at e
    have l1 : h1.length = h.length := by rw [r.length, len]
    have hheap := fixG_heap o d (h.length - 1) hd (i := i) (by omega) (by omega) (by omega) (hh.mono (by omega)) get e1
    rw [popRaw_ok h1 (by omega)] at e
    simp only [Except.ok.injEq, Prod.mk.injEq] at e
    obtain ⟨_, rfl⟩ := e
    rw [List.length_take, l1]
    refine (hheap.mono (by omega)).congr fun k hk => ?_
    rw [List.getElem?_take, if_pos (by omega)]

theorem pushN_total (lt : T → T → Bool) (d : Nat) (hd : 0 < d) (h : List T) (x : T) :
    ∃ h', pushN lt d h x = .ok h' ∧ h'.Perm (x :: h) := by
  have hl : (h ++ [x]).length = h.length + 1 := by simp
  unfold pushN upN pushRaw
  obtain ⟨h', e, r⟩ := upLoopN_total lt d (h.length + 1) hd ((h ++ [x]).length - 1 + 1) (h ++ [x])
    ((h ++ [x]).length - 1) (by omega) (by omega) (by omega)
  exact ⟨h', e, r.perm.trans (List.perm_append_singleton _ _)⟩

theorem pushN_heap (o : StrictWeakOrder lt) (d : Nat) (hd : 0 < d) {h h' : List T} {x : T}
    (hh : HeapN lt d h.length h) (e : pushN lt d h x = .ok h') : HeapN lt d h'.length h' := by
  have hl : (h ++ [x]).length = h.length + 1 := by simp
  have hl' : h'.length = h.length + 1 := by
    obtain ⟨h'', e', p⟩ := pushN_total lt d hd h x
    rw [e] at e'; cases e'
    rw [p.length_eq]; simp
  unfold pushN upN pushRaw at e
  have g : ∀ k, k < h.length → (h ++ [x])[k]? = h[k]? := fun k hk => List.getElem?_append_left hk
  rw [hl']
  refine upLoopN_heap o d (h.length + 1) hd _ _ _ h' (by omega) (by omega) (by omega) ?_ ?_ e
  · intro k k0 kn hk x y hx hy
    have := par_lt d k k0
    rw [g k (by omega)] at hx; rw [g _ (by omega)] at hy
    exact hh k k0 (by omega) x y hx hy
  · intro _ c c0 cn hc
    have := par_lt d c c0
    omega

/-! ## The binary heap is the instance `d = w = 2` -/

theorem upLoop_eq (lt : T → T → Bool) : ∀ (fuel : Nat) (h : List T) (j : Nat),
    upLoop (listOps lt) fuel h j = upLoopN lt 2 fuel h j
  | 0, _, _ => rfl
  | fuel + 1, h, j => by
    unfold upLoop upLoopN
    simp only [listOps]
    split
    · rfl
    · congr 1; funext b; split
      · rfl
      · congr 1; funext h'; exact upLoop_eq lt fuel h' _

theorem downLoop_eq (lt : T → T → Bool) (n : Nat) : ∀ (fuel : Nat) (h : List T) (i : Nat),
    downLoop (listOps lt) n fuel h i = downLoopN lt 2 2 n fuel h i
  | 0, _, _ => rfl
  | fuel + 1, h, i => by
    unfold downLoop downLoopN
    simp only [listOps, scan, Nat.add_one_sub_one]
    split
    · rfl
    · split
      · cases less lt h (2 * i + 1 + 1) (2 * i + 1) with
        | error e => rfl
        | ok b =>
          simp only [Go.bind_ok]
          congr 1; funext b'; split
          · rfl
          · congr 1; funext h'; exact downLoop_eq lt n fuel h' _
      · simp only [Go.pure_eq, Go.bind_ok, Bool.false_eq_true, if_false]
        congr 1; funext b'; split
        · rfl
        · congr 1; funext h'; exact downLoop_eq lt n fuel h' _

theorem push_eq (lt : T → T → Bool) (h : List T) (x : T) : push lt h x = pushN lt 2 h x := upLoop_eq lt _ _ _

theorem pop_eq (lt : T → T → Bool) (h : List T) : pop lt h = popG lt 2 2 h := by
  unfold pop popG down
  simp only [downLoop_eq]
  congr 1; funext s
  cases downLoopN lt 2 2 (h.length - 1) (h.length - 1 + 1) s 0 <;> rfl

theorem popN_eq (lt : T → T → Bool) (d : Nat) (h : List T) : popN lt d h = popG lt d 4 h := by
  unfold popN popG downN
  simp only
  congr 1; funext s
  cases downLoopN lt d 4 (h.length - 1) (h.length - 1 + 1) s 0 <;> rfl

theorem fixAt_eq (lt : T → T → Bool) (h : List T) (n i : Nat) (hn : n ≤ h.length) :
    fixAt (listOps lt) h n i = fixG lt 2 2 h n i := by
  unfold fixAt fixG down up
  simp only [downLoop_eq, upLoop_eq]
  obtain ⟨h1, i', e, _, hle, _⟩ := downLoopN_total lt 2 2 n (by omega) (n + 1) h i hn (by omega) (by omega)
  rw [e]
  simp only [Go.bind_ok, Go.pure_eq]
  by_cases hii : i' = i
  · simp [hii]
  · rw [if_neg (by simp; omega), if_neg hii]

theorem fixN_eq (lt : T → T → Bool) (d : Nat) (hd : 0 < d) (h : List T) (i : Nat) :
    fixN lt d h i = fixG lt d 4 h h.length i := by
  unfold fixN fixG downN upN
  obtain ⟨h1, i', e, _, hle, _⟩ := downLoopN_total lt d 4 h.length hd (h.length + 1) h i le_rfl (by omega) (by omega)
  rw [e]
  simp only [Go.bind_ok, Go.pure_eq]
  by_cases hii : i' = i
  · simp [hii]
  · rw [if_neg (by simp; omega), if_neg hii]

theorem remove_eq (lt : T → T → Bool) (h : List T) (i : Nat) : remove lt h i = removeG lt 2 2 h i := by
  unfold remove removeG removeAt
  rw [if_neg (by omega)]
  simp only [Int.toNat_natCast]
  by_cases hni : h.length - 1 = i
  · rw [if_neg (by omega), if_neg (by omega)]
  · rw [if_pos hni, if_pos hni]
    simp only [listOps]
    by_cases hi : i < h.length
    · rw [swap_ok h i (h.length - 1) hi (by omega)]
      simp only [Go.bind_ok]
      rw [← fixAt_eq lt _ _ _ (by simp)]
      rfl
    · simp [swap, Go.idx_of_ge h i (by omega)]

theorem removeN_eq (lt : T → T → Bool) (d : Nat) (hd : 0 < d) (h : List T) (i : Nat) :
    removeN lt d h i = removeG lt d 4 h i := by
  unfold removeN removeG
  rw [if_neg (by omega)]
  simp only [Int.toNat_natCast]
  by_cases hni : h.length - 1 = i
  · rw [if_neg (by omega), if_neg (by omega)]
  · rw [if_pos hni, if_pos hni]
    by_cases hi : i < h.length
    · rw [swap_ok h i (h.length - 1) hi (by omega)]
      simp only [Go.bind_ok]
      unfold fixG downN upN
      generalize hs : (h.set i (h[h.length - 1]'(by omega))).set (h.length - 1) (h[i]'(by omega)) = s
      have len : s.length = h.length := by rw [← hs]; simp
      obtain ⟨h1, i', e, _, hle, _⟩ := downLoopN_total lt d 4 (h.length - 1) hd (h.length - 1 + 1) s i (by omega)
        (by omega) (by omega)
      rw [e]
      simp only [Go.bind_ok, Go.pure_eq]
      by_cases hii : i' = i
      · simp [hii]
      · rw [if_neg (by simp; omega), if_neg hii]; rfl
    · simp [swap, Go.idx_of_ge h i (by omega)]

/-! ## Heapify -/

theorem initLoop_total (lt : T → T → Bool) (n : Nat) : ∀ (k : Nat) (h : List T), n ≤ h.length →
    ∃ h', initLoop lt n k h = .ok h' ∧ h'.Perm h
  | 0, h, _ => ⟨h, rfl, List.Perm.refl _⟩
  | k + 1, h, hn => by
    unfold initLoop down
    rw [downLoop_eq]
    obtain ⟨h1, i', e, r, _, _⟩ := downLoopN_total lt 2 2 n (by omega) (n + 1) h k hn (by omega) (by omega)
    rw [e]
    simp only [Go.bind_ok, Go.pure_eq]
    obtain ⟨h', e', p⟩ := initLoop_total lt n k h1 (by rw [r.length]; exact hn)
    exact ⟨h', e', p.trans r.perm⟩

theorem initLoop_heap (o : StrictWeakOrder lt) (n : Nat) : ∀ (k : Nat) (h h' : List T), n ≤ h.length →
    (∀ j, 0 < j → j < n → k ≤ par 2 j → NotLess lt h j (par 2 j)) → initLoop lt n k h = .ok h' → HeapN lt 2 n h'
  | 0, h, h', _, hk, e => by
    simp only [initLoop, Except.ok.injEq] at e; subst e
    exact fun j j0 jn => hk j j0 jn (by omega)
  | k + 1, h, h', hn, hk, e => by
    unfold initLoop down at e
    rw [downLoop_eq] at e
    obtain ⟨h1, i', e1, r, _, _⟩ := downLoopN_total lt 2 2 n (by omega) (n + 1) h k hn (by omega) (by omega)
    rw [e1] at e
    simp only [Go.bind_ok, Go.pure_eq] at e
    refine initLoop_heap o n k h1 h' (by rw [r.length]; exact hn) ?_ e
    have hole : Hole lt 2 2 n k h k := by
      refine ⟨fun j j0 jn jlo hp _ => hk j j0 jn (by omega), fun k0 hlo => ?_⟩
      have := par_lt 2 k k0
      omega
    rcases downLoopN_heap o 2 2 n k ⟨by omega, Or.inl rfl⟩ (n + 1) h k h1 i' hn (by omega) (by omega) hole e1 with
      ⟨rfl, rfl, hch⟩ | ⟨_, hall⟩
    · intro j j0 jn hp
      by_cases hpj : par 2 j = i'
      · have := hch j j0 jn hpj
        rw [hpj]; exact this
      · exact hk j j0 jn (by omega)
    · exact hall

theorem new_total (lt : T → T → Bool) (h : List T) : ∃ h', new lt h = .ok h' ∧ h'.Perm h :=
  initLoop_total lt _ _ _ le_rfl

theorem new_heap (o : StrictWeakOrder lt) {h h' : List T} (e : new lt h = .ok h') : HeapN lt 2 h'.length h' := by
  have hl : h'.length = h.length := by
    obtain ⟨h'', e', p⟩ := new_total lt h
    rw [e] at e'; cases e'; exact p.length_eq
  rw [hl]
  refine initLoop_heap o _ _ _ _ le_rfl ?_ e
  intro j j0 jn hp
  exfalso
  have := (par_eq_iff 2 j (par 2 j) (by omega) j0).1 rfl
  omega

end Heap
end Verif
