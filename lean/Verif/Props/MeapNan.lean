import Verif.Model.MeapNan
import Verif.Props.Meap

/-!
# C138: keys that are not equal to themselves
-/

namespace Verif.MeapNan

open Heap

variable {K V : Type} [DecidableEq K] {rfx : K → Bool} {lt : K × V → K × V → Bool}

/-! ## Specification: every such key is a new one -/

/-- The key without its number. -/
def bare (e : (K × Nat) × V) : K × V := (e.1.1, e.2)

/-- The same history with keys that are equal to themselves: the number of a key is 0 if it is equal to itself; of the others each one that is pushed
gets a number of its own (`n + 1`, …), and those that are asked for get 0, which is none of them. -/
def numbered (rfx : K → Bool) : Nat → List (MapHeapOp K V) → List (MapHeapOp (K × Nat) V)
  | _, [] => []
  | n, .push k v :: ops => if rfx k then .push (k, 0) v :: numbered rfx n ops else .push (k, n + 1) v :: numbered rfx (n + 1) ops
  | n, .pop :: ops => .pop :: numbered rfx n ops
  | n, .peek :: ops => .peek :: numbered rfx n ops
  | n, .remove k :: ops => .remove (k, 0) :: numbered rfx n ops
  | n, .get k :: ops => .get (k, 0) :: numbered rfx n ops
  | n, .contains k :: ops => .contains (k, 0) :: numbered rfx n ops
  | n, .len :: ops => .len :: numbered rfx n ops

/-- A result without the number. -/
def bareOut : MapHeapOut (K × Nat) V → MapHeapOut K V
  | .unit => .unit
  | .entry e => .entry (bare e)
  | .val v => .val v
  | .flag b => .flag b
  | .num n => .num n

/-! ## Two views of a state -/

/-- What the operations see of a state: the slice and the places that can be found. -/
structure View (K V : Type) where
  h : List (K × V)
  m : K → Option Nat

def view (rfx : K → Bool) (s : State K V) : View K V := ⟨s.h, fun k => if rfx k then s.m.found k else none⟩

def viewN (rfx : K → Bool) (t : Meap.State (K × Nat) V) : View K V := ⟨t.h.map bare, fun k => if rfx k then t.m (k, 0) else none⟩

/-- Assignment to a place. -/
def putV (rfx : K → Bool) (m : K → Option Nat) (k : K) (i : Nat) : K → Option Nat := fun k' => if rfx k' then if k' = k then some i else m k' else none

def swapV (rfx : K → Bool) (s : View K V) (i j : Nat) : Go (View K V) := do
  let h ← Heap.swap s.h i j
  let a ← Go.idx h i
  let b ← Go.idx h j
  pure ⟨h, putV rfx (putV rfx s.m a.1 i) b.1 j⟩

def opsV (rfx : K → Bool) (lt : K × V → K × V → Bool) : Ops (View K V) := ⟨fun s => Heap.less lt s.h, swapV rfx⟩

theorem view_put (m : Index K) (k : K) (i : Nat) :
    (fun k' => if rfx k' then (m.put rfx k i).found k' else none) = putV rfx (fun k' => if rfx k' then m.found k' else none) k i := by
  funext k'
  unfold Index.put putV
  by_cases hk : rfx k = true
  · rw [if_pos hk]
    unfold Meap.upd
    by_cases hk' : rfx k' = true
    · simp only [hk', if_true]
    · simp [hk']
  · rw [if_neg hk]
    by_cases hk' : rfx k' = true
    · have : k' ≠ k := by rintro rfl; exact hk hk'
      simp [hk', this]
    · simp [hk']

theorem lost_put (m : Index K) (k : K) (i : Nat) : m.lost ≤ (m.put rfx k i).lost := by
  unfold Index.put
  split
  · exact le_refl _
  · exact Nat.le_succ _

theorem opsSim (rfx : K → Bool) (lt : K × V → K × V → Bool) (n : Nat) :
    OpsSim (ops rfx lt) (opsV rfx lt) (fun s => n ≤ s.m.lost) (view rfx) where
  less := fun _ _ _ _ => rfl
  swap := by
    intro s i j hn
    show SimG _ _ (swap rfx s i j) (swapV rfx (view rfx s) i j)
    unfold swap swapV
    rw [show (view rfx s).h = s.h from rfl]
    cases h1 : Heap.swap s.h i j with
    | error e => rfl
    | ok h =>
      simp only [Go.bind_ok]
      cases h2 : Go.idx h i with
      | error e => rfl
      | ok a =>
        simp only [Go.bind_ok]
        cases h3 : Go.idx h j with
        | error e => rfl
        | ok b =>
          refine ⟨le_trans hn (le_trans (lost_put _ _ _) (lost_put _ _ _)), ?_⟩
          simp only [Go.bind_ok, Go.pure_eq]
          unfold view
          simp only
          rw [view_put, view_put]

/-- The numbers are in use as they should. -/
structure Numbers (rfx : K → Bool) (n : Nat) (t : Meap.State (K × Nat) V) : Prop where
  inner : ∀ e ∈ t.h, (rfx e.1.1 = true ∧ e.1.2 = 0) ∨ (rfx e.1.1 = false ∧ 0 < e.1.2 ∧ e.1.2 ≤ n)
  free : ∀ k m, rfx k = false → (m = 0 ∨ n < m) → t.m (k, m) = none

theorem viewN_put {n : Nat} (m : K × Nat → Option Nat) (x : K × Nat) (i : Nat)
    (hx : (rfx x.1 = true ∧ x.2 = 0) ∨ (rfx x.1 = false ∧ 0 < x.2 ∧ x.2 ≤ n)) :
    (fun k' => if rfx k' then Meap.upd m x i (k', 0) else none) = putV rfx (fun k' => if rfx k' then m (k', 0) else none) x.1 i := by
  funext k'
  unfold putV Meap.upd
  obtain ⟨a, b⟩ := x
  simp only at hx
  by_cases hk' : rfx k' = true
  · simp only [hk', if_true]
    rcases hx with ⟨h1, rfl⟩ | ⟨h1, h2, _⟩
    · simp
    · have : k' ≠ a := by rintro rfl; rw [hk'] at h1; cases h1
      simp [this]
  · simp [hk']

theorem free_put {n : Nat} {m : K × Nat → Option Nat} (hf : ∀ k j, rfx k = false → (j = 0 ∨ n < j) → m (k, j) = none) (x : K × Nat) (i : Nat)
    (hx : (rfx x.1 = true ∧ x.2 = 0) ∨ (rfx x.1 = false ∧ 0 < x.2 ∧ x.2 ≤ n)) :
    ∀ k j, rfx k = false → (j = 0 ∨ n < j) → Meap.upd m x i (k, j) = none := by
  intro k j hk hj
  unfold Meap.upd
  rw [if_neg ?_]
  · exact hf k j hk hj
  · rintro rfl
    simp only at hx
    rcases hx with ⟨h1, _⟩ | ⟨_, h2, h3⟩
    · rw [hk] at h1; cases h1
    · omega

theorem idx_map' {α β : Type} (f : α → β) (l : List α) (i : Nat) :
    Go.idx (l.map f) i = (match Go.idx l i with | .ok a => .ok (f a) | .error e => .error e) := by
  unfold Go.idx
  rw [List.getElem?_map]
  cases l[i]? <;> rfl

theorem idx_mem' {α : Type} {l : List α} {i : Nat} {a : α} (h : Go.idx l i = .ok a) : a ∈ l := by
  unfold Go.idx at h
  cases hl : l[i]? with
  | none => rw [hl] at h; cases h
  | some b => rw [hl] at h; cases h; exact List.mem_of_getElem? hl

theorem swap_map' {α β : Type} (f : α → β) (l : List α) (i j : Nat) :
    Heap.swap (l.map f) i j = (match Heap.swap l i j with | .ok a => .ok (a.map f) | .error e => .error e) := by
  unfold Heap.swap
  rw [idx_map', idx_map']
  cases Go.idx l i with
  | error e => rfl
  | ok a =>
    cases Go.idx l j with
    | error e => rfl
    | ok b => simp [Go.bind_ok, Go.pure_eq, List.map_set]

theorem swap_mem' {α : Type} {l l' : List α} {i j : Nat} (h : Heap.swap l i j = .ok l') : ∀ a ∈ l', a ∈ l := by
  unfold Heap.swap at h
  cases h1 : Go.idx l i with
  | error e => rw [h1] at h; cases h
  | ok a =>
    cases h2 : Go.idx l j with
    | error e => rw [h1, h2] at h; cases h
    | ok b =>
      rw [h1, h2] at h
      simp only [Go.bind_ok, Go.pure_eq, Except.ok.injEq] at h
      subst h
      intro x hx
      rcases List.mem_or_eq_of_mem_set hx with hx | rfl
      · rcases List.mem_or_eq_of_mem_set hx with hx | rfl
        · exact hx
        · exact idx_mem' h2
      · exact idx_mem' h1

/-- The order on entries with numbered keys. -/
def ltN (lt : K × V → K × V → Bool) (a b : (K × Nat) × V) : Bool := lt (bare a) (bare b)

theorem opsSimN (rfx : K → Bool) (lt : K × V → K × V → Bool) (n : Nat) :
    OpsSim (Meap.ops (ltN lt)) (opsV rfx lt) (Numbers rfx n) (viewN rfx) where
  less := by
    intro t i j _
    show Heap.less (ltN lt) t.h i j = Heap.less lt (t.h.map bare) i j
    unfold Heap.less
    rw [idx_map', idx_map']
    cases Go.idx t.h i with
    | error e => rfl
    | ok a =>
      cases Go.idx t.h j with
      | error e => rfl
      | ok b => rfl
  swap := by
    intro t i j ht
    show SimG _ _ (Meap.swap t i j) (swapV rfx (viewN rfx t) i j)
    unfold Meap.swap swapV
    rw [show (viewN rfx t).h = t.h.map bare from rfl, swap_map']
    cases h1 : Heap.swap t.h i j with
    | error e => rfl
    | ok h =>
      simp only [Go.bind_ok]
      rw [idx_map', idx_map']
      cases h2 : Go.idx h i with
      | error e => rfl
      | ok a =>
        simp only [Go.bind_ok]
        cases h3 : Go.idx h j with
        | error e => rfl
        | ok b =>
          simp only [Go.bind_ok, Go.pure_eq]
          have ha := ht.inner a (swap_mem' h1 a (idx_mem' h2))
          have hb := ht.inner b (swap_mem' h1 b (idx_mem' h3))
          refine ⟨⟨fun e he => ht.inner e (swap_mem' h1 e he), ?_⟩, ?_⟩
          · exact free_put (free_put ht.free a.1 i ha) b.1 j hb
          · unfold viewN
            simp only
            rw [viewN_put _ _ _ hb, viewN_put _ _ _ ha]
            rfl

/-! ## The operations side by side -/

/-- The two states look the same; at least `n` entries of the map are lost. -/
def Same (rfx : K → Bool) (n : Nat) (s : State K V) (t : Meap.State (K × Nat) V) : Prop :=
  view rfx s = viewN rfx t ∧ Numbers rfx n t ∧ n ≤ s.m.lost

/-- Both succeed with states that look the same, or both panic in the same way. -/
def Both {A B : Type} (R : A → B → Prop) (r1 : Go A) (r2 : Go B) : Prop :=
  match r1 with
  | .ok a => ∃ b, r2 = .ok b ∧ R a b
  | .error e => r2 = .error e

theorem both_of_sims {n : Nat} {r1 : Go (State K V)} {r2 : Go (View K V)} {r3 : Go (Meap.State (K × Nat) V)}
    (h1 : SimG (fun s => n ≤ s.m.lost) (view rfx) r1 r2) (h2 : SimG (Numbers rfx n) (viewN rfx) r3 r2) : Both (Same rfx n) r1 r3 := by
  cases r1 with
  | error e =>
    simp only [SimG] at h1
    cases r3 with
    | error e' => simp only [SimG] at h2; rw [h1] at h2; cases h2; rfl
    | ok t => simp only [SimG] at h2; rw [h1] at h2; cases h2.2
  | ok s =>
    simp only [SimG] at h1
    cases r3 with
    | error e' => simp only [SimG] at h2; rw [h1.2] at h2; cases h2
    | ok t =>
      simp only [SimG] at h2
      rw [h1.2] at h2
      exact ⟨t, rfl, Except.ok.inj h2.2, h2.1, h1.1⟩

theorem both_of_simsP {A : Type} {n : Nat} {r1 : Go (State K V × A)} {r2 : Go (View K V × A)} {r3 : Go (Meap.State (K × Nat) V × A)}
    (h1 : SimP (fun s => n ≤ s.m.lost) (view rfx) r1 r2) (h2 : SimP (Numbers rfx n) (viewN rfx) r3 r2) :
    Both (fun a b => Same rfx n a.1 b.1 ∧ a.2 = b.2) r1 r3 := by
  cases r1 with
  | error e =>
    simp only [SimP] at h1
    cases r3 with
    | error e' => simp only [SimP] at h2; rw [h1] at h2; cases h2; rfl
    | ok t => simp only [SimP] at h2; rw [h1] at h2; cases h2.2
  | ok s =>
    simp only [SimP] at h1
    cases r3 with
    | error e' => simp only [SimP] at h2; rw [h1.2] at h2; cases h2
    | ok t =>
      simp only [SimP] at h2
      rw [h1.2] at h2
      have := h2.2
      simp only [Except.ok.injEq, Prod.mk.injEq] at this
      exact ⟨t, rfl, ⟨this.1, h2.1, h1.1⟩, this.2⟩

theorem Both.bind {A B C D : Type} {R : A → B → Prop} {Q : C → D → Prop} {r1 : Go A} {r2 : Go B} {f : A → Go C} {g : B → Go D}
    (h : Both R r1 r2) (hf : ∀ a b, R a b → Both Q (f a) (g b)) : Both Q (r1 >>= f) (r2 >>= g) := by
  cases r1 with
  | error e => simp only [Both] at h; rw [h]; rfl
  | ok a =>
    obtain ⟨b, rfl, hr⟩ := h
    exact hf a b hr

theorem Same.h {n : Nat} {s : State K V} {t : Meap.State (K × Nat) V} (h : Same rfx n s t) : s.h = t.h.map bare :=
  congrArg View.h h.1

theorem Same.len {n : Nat} {s : State K V} {t : Meap.State (K × Nat) V} (h : Same rfx n s t) : s.h.length = t.h.length := by
  rw [h.h, List.length_map]

theorem Same.get {n : Nat} {s : State K V} {t : Meap.State (K × Nat) V} (h : Same rfx n s t) (k : K) : s.m.get rfx k = t.m (k, 0) := by
  have h1 := congrFun (congrArg View.m h.1) k
  simp only [view, viewN] at h1
  unfold Index.get
  rw [h1]
  by_cases hk : rfx k = true
  · rw [if_pos hk]
  · rw [if_neg hk]
    exact (h.2.1.free k 0 (by simpa using hk) (Or.inl rfl)).symm

theorem Same.found {n : Nat} {s : State K V} {t : Meap.State (K × Nat) V} (h : Same rfx n s t) :
    (fun k => if rfx k then s.m.found k else none) = fun k => if rfx k then t.m (k, 0) else none := congrArg View.m h.1

theorem view_del (m : Index K) (k : K) : (fun k' => if rfx k' then (m.del rfx k).found k' else none) =
    fun k' => if k' = k then none else if rfx k' then m.found k' else none := by
  funext k'
  unfold Index.del
  by_cases hk : rfx k = true
  · rw [if_pos hk]
    unfold Meap.del
    by_cases hk' : rfx k' = true <;> simp [hk']
  · rw [if_neg hk]
    by_cases hk' : k' = k
    · subst hk'; simp [hk]
    · simp [hk']

theorem viewN_del {n : Nat} (m : K × Nat → Option Nat) (x : K × Nat)
    (hx : (rfx x.1 = true ∧ x.2 = 0) ∨ (rfx x.1 = false ∧ 0 < x.2 ∧ x.2 ≤ n)) :
    (fun k' => if rfx k' then Meap.del m x (k', 0) else none) = fun k' => if k' = x.1 then none else if rfx k' then m (k', 0) else none := by
  funext k'
  obtain ⟨a, b⟩ := x
  simp only at hx
  unfold Meap.del
  rcases hx with ⟨h1, rfl⟩ | ⟨h1, h2, _⟩
  · by_cases hk' : k' = a
    · simp [hk']
    · simp [hk']
  · have h3 : (k', 0) ≠ (a, b) := by
      intro hc
      simp only [Prod.mk.injEq] at hc
      omega
    rw [if_neg h3]
    by_cases hk' : k' = a
    · subst hk'; simp [h1]
    · simp [hk']

theorem both_popRaw {n : Nat} {s : State K V} {t : Meap.State (K × Nat) V} (h : Same rfx n s t) :
    Both (fun a b => Same rfx n a.1 b.1 ∧ a.2 = bare b.2) (popRaw rfx s) (Meap.popRaw t) := by
  unfold popRaw Meap.popRaw
  rw [h.h, idx_map', List.length_map]
  cases h1 : Go.idx t.h (t.h.length - 1) with
  | error e => rfl
  | ok e =>
    refine ⟨_, rfl, ⟨?_, ?_, ?_⟩, rfl⟩
    · have he := h.2.1.inner e (idx_mem' h1)
      unfold view viewN
      simp only [View.mk.injEq, List.map_take, true_and]
      rw [view_del, viewN_del _ _ he]
      funext k
      have hfk : (if rfx k then s.m.found k else none) = if rfx k then t.m (k, 0) else none := congrFun h.found k
      rw [hfk]
      rfl
    · refine ⟨fun x hx => h.2.1.inner x (List.mem_of_mem_take hx), fun k m hk hm => ?_⟩
      simp only [Meap.del]
      split
      · rfl
      · exact h.2.1.free k m hk hm
    · simp only [Index.del]
      split <;> exact h.2.2

theorem both_pop {n : Nat} {s : State K V} {t : Meap.State (K × Nat) V} (h : Same rfx n s t) :
    Both (fun a b => Same rfx n a.1 b.1 ∧ a.2 = bare b.2) (pop rfx lt s) (Meap.pop (ltN lt) t) := by
  unfold pop Meap.pop
  simp only
  rw [h.len]
  have h1 : Both (Same rfx n) (swap rfx s 0 (t.h.length - 1)) (Meap.swap t 0 (t.h.length - 1)) := by
    have a := (opsSim rfx lt _).swap s 0 (t.h.length - 1) h.2.2
    rw [h.1] at a
    exact both_of_sims a ((opsSimN rfx lt n).swap t 0 (t.h.length - 1) h.2.1)
  refine h1.bind fun s1 t1 h2 => ?_
  have h3 : Both (fun a b => Same rfx n a.1 b.1 ∧ a.2 = b.2) (down (ops rfx lt) s1 0 (t.h.length - 1))
      (down (Meap.ops (ltN lt)) t1 0 (t.h.length - 1)) := by
    have a := down_sim (opsSim rfx lt _) s1 0 (t.h.length - 1) h2.2.2
    rw [h2.1] at a
    exact both_of_simsP a (down_sim (opsSimN rfx lt n) t1 0 (t.h.length - 1) h2.2.1)
  exact h3.bind fun a b h4 => both_popRaw h4.1

theorem both_remove {n : Nat} {s : State K V} {t : Meap.State (K × Nat) V} (h : Same rfx n s t) (k : K) :
    Both (Same rfx n) (remove rfx lt s k) (Meap.remove (ltN lt) t (k, 0)) := by
  unfold remove Meap.remove
  rw [h.get k]
  cases t.m (k, 0) with
  | none => exact ⟨t, rfl, h⟩
  | some i =>
    dsimp only
    rw [h.len]
    have h1 : Both (Same rfx n) (removeAt (ops rfx lt) s t.h.length i) (removeAt (Meap.ops (ltN lt)) t t.h.length i) := by
      have a := removeAt_sim (opsSim rfx lt _) s t.h.length i h.2.2
      rw [h.1] at a
      exact both_of_sims a (removeAt_sim (opsSimN rfx lt n) t t.h.length i h.2.1)
    refine h1.bind fun s1 t1 h2 => ?_
    exact (both_popRaw h2).bind fun a b h3 => ⟨b.1, rfl, h3.1⟩

theorem Numbers.mono {n m : Nat} (hnm : n ≤ m) {t : Meap.State (K × Nat) V} (h : Numbers rfx n t) : Numbers rfx m t :=
  ⟨fun e he => (h.inner e he).imp id (fun ⟨a, b, c⟩ => ⟨a, b, by omega⟩), fun k j hk hj => h.free k j hk (by omega)⟩

theorem both_push {n : Nat} {s : State K V} {t : Meap.State (K × Nat) V} (h : Same rfx n s t) (k : K) (v : V) :
    Both (Same rfx (if rfx k then n else n + 1)) (push rfx lt s k v) (Meap.push (ltN lt) t (k, if rfx k then 0 else n + 1) v) := by
  unfold push Meap.push
  have hx : (rfx k = true ∧ (if rfx k then 0 else n + 1) = 0) ∨
      (rfx k = false ∧ 0 < (if rfx k then 0 else n + 1) ∧ (if rfx k then 0 else n + 1) ≤ (if rfx k then n else n + 1)) := by
    by_cases hk : rfx k = true
    · exact Or.inl ⟨hk, by simp [hk]⟩
    · refine Or.inr ⟨by simpa using hk, ?_, ?_⟩ <;> simp [hk]
  have hget : s.m.get rfx k = t.m (k, if rfx k then 0 else n + 1) := by
    by_cases hk : rfx k = true
    · rw [if_pos hk]; exact h.get k
    · rw [if_neg hk, h.2.1.free k (n + 1) (by simpa using hk) (Or.inr (by omega))]
      unfold Index.get
      rw [if_neg hk]
  have hmono := h.2.1.mono (m := if rfx k then n else n + 1) (by split <;> omega)
  rw [hget]
  have hlost : (if rfx k then n else n + 1) ≤ (s.m.put rfx k s.h.length).lost := by
    have := h.2.2
    unfold Index.put
    by_cases hk : rfx k = true <;> simp [hk] <;> omega
  have hnone : t.m (k, if rfx k then 0 else n + 1) ≠ none → (if rfx k then n else n + 1) ≤ s.m.lost := by
    intro hm
    by_cases hk : rfx k = true
    · rw [if_pos hk]; exact h.2.2
    · rw [if_neg hk, h.2.1.free k (n + 1) (by simpa using hk) (Or.inr (by omega))] at hm
      exact absurd rfl hm
  generalize (if rfx k then n else n + 1) = n' at hx hmono hlost hnone ⊢
  generalize (if rfx k then 0 else n + 1) = z at hx hnone ⊢
  cases hm : t.m (k, z) with
  | some i =>
    dsimp only
    rw [h.h, idx_map']
    cases h1 : Go.idx t.h i with
    | error e => rfl
    | ok e =>
      simp only [Go.bind_ok, List.length_set, List.length_map]
      have hs : Same rfx n' (⟨(t.h.map bare).set i ((bare e).1, v), s.m⟩ : State K V) ⟨t.h.set i (e.1, v), t.m⟩ := by
        refine ⟨?_, ⟨?_, hmono.free⟩, hnone (by rw [hm]; simp)⟩
        · unfold view viewN
          simp only [List.map_set, View.mk.injEq]
          exact ⟨rfl, h.found⟩
        · intro x hx
          rcases List.mem_or_eq_of_mem_set hx with hx | rfl
          · exact hmono.inner x hx
          · exact hmono.inner e (idx_mem' h1)
      have a := fixAt_sim (opsSim rfx lt _) (⟨(t.h.map bare).set i ((bare e).1, v), s.m⟩ : State K V) t.h.length i hs.2.2
      rw [hs.1] at a
      exact both_of_sims a (fixAt_sim (opsSimN rfx lt n') _ t.h.length i hs.2.1)
  | none =>
    dsimp only
    have hs : Same rfx n' (pushRaw rfx s k v) (Meap.pushRaw t (k, z) v) := by
      unfold pushRaw Meap.pushRaw
      refine ⟨?_, ⟨?_, ?_⟩, hlost⟩
      · unfold view viewN
        simp only [View.mk.injEq]
        refine ⟨by rw [h.h, List.map_append]; rfl, ?_⟩
        rw [view_put, viewN_put _ _ _ hx, h.found, h.len]
      · intro x hxm
        simp only [List.mem_append, List.mem_singleton] at hxm
        rcases hxm with hxm | rfl
        · exact hmono.inner x hxm
        · exact hx
      · exact free_put hmono.free _ _ hx
    have hl : (pushRaw rfx s k v).h.length = (Meap.pushRaw t (k, z) v).h.length := hs.len
    rw [hl]
    have a := up_sim (opsSim rfx lt _) (pushRaw rfx s k v) ((Meap.pushRaw t (k, z) v).h.length - 1) hs.2.2
    rw [hs.1] at a
    exact both_of_sims a (up_sim (opsSimN rfx lt n') _ _ hs.2.1)

/-- The number of the last key after a call. -/
def after (rfx : K → Bool) (n : Nat) : MapHeapOp K V → Nat
  | .push k _ => if rfx k then n else n + 1
  | _ => n

/-- The call with a numbered key. -/
def number (rfx : K → Bool) (n : Nat) : MapHeapOp K V → MapHeapOp (K × Nat) V
  | .push k v => .push (k, if rfx k then 0 else n + 1) v
  | .pop => .pop
  | .peek => .peek
  | .remove k => .remove (k, 0)
  | .get k => .get (k, 0)
  | .contains k => .contains (k, 0)
  | .len => .len

theorem numbered_cons (n : Nat) (op : MapHeapOp K V) (ops : List (MapHeapOp K V)) :
    numbered rfx n (op :: ops) = number rfx n op :: numbered rfx (after rfx n op) ops := by
  cases op with
  | push k v =>
    by_cases hk : rfx k = true <;> simp [numbered, number, after, hk]
  | _ => rfl

theorem both_step {n : Nat} {s : State K V} {t : Meap.State (K × Nat) V} (h : Same rfx n s t) (op : MapHeapOp K V) :
    Both (fun a b => Same rfx (after rfx n op) a.1 b.1 ∧ a.2 = bareOut b.2) (step rfx lt s op) (Meap.step (ltN lt) t (number rfx n op)) := by
  cases op with
  | push k v => exact (both_push h k v).bind fun a b h1 => ⟨_, rfl, h1, rfl⟩
  | pop =>
    refine (both_pop (lt := lt) h).bind fun a b h1 => ⟨_, rfl, h1.1, ?_⟩
    rw [h1.2]; rfl
  | peek =>
    unfold step Meap.step number peek Meap.peek
    dsimp only
    rw [h.h, idx_map']
    cases Go.idx t.h 0 with
    | error e => rfl
    | ok e => exact ⟨_, rfl, h, rfl⟩
  | remove k => exact (both_remove h k).bind fun a b h1 => ⟨_, rfl, h1, rfl⟩
  | get k =>
    unfold step Meap.step number get Meap.get
    dsimp only
    rw [h.get k]
    cases t.m (k, 0) with
    | none => exact ⟨_, rfl, h, rfl⟩
    | some i =>
      dsimp only
      rw [h.h, idx_map']
      cases Go.idx t.h i with
      | error e => rfl
      | ok e => exact ⟨_, rfl, h, rfl⟩
  | contains k =>
    refine ⟨_, rfl, h, ?_⟩
    unfold contains Meap.contains
    rw [h.get k]; rfl
  | len =>
    refine ⟨_, rfl, h, ?_⟩
    unfold Meap.len
    rw [h.len]; rfl

theorem both_run : ∀ (ops : List (MapHeapOp K V)) (n : Nat) (s : State K V) (t : Meap.State (K × Nat) V), Same rfx n s t →
    Both (fun a b => (∃ m, Same rfx m a.1 b.1) ∧ a.2 = b.2.map bareOut) (run rfx lt s ops) (Meap.run (ltN lt) t (numbered rfx n ops))
  | [], n, s, t, h => ⟨_, rfl, ⟨n, h⟩, rfl⟩
  | op :: ops, n, s, t, h => by
    rw [numbered_cons]
    unfold run Meap.run
    refine (both_step h op).bind fun a b h1 => ?_
    refine (both_run ops _ a.1 b.1 h1.1).bind fun c d h2 => ?_
    refine ⟨_, rfl, h2.1, ?_⟩
    rw [List.map_cons, ← h1.2, ← h2.2]

theorem same_new : Same rfx 0 (new K V) (Meap.new (K × Nat) V) :=
  ⟨rfl, ⟨by simp [Meap.new], fun _ _ _ _ => rfl⟩, le_refl _⟩

/-! ## Ordinary keys -/

/-- The state as Model/Meap has it. -/
def plain (s : State K V) : Meap.State K V := ⟨s.h, s.m.found⟩

theorem opsSimP (hr : ∀ k, rfx k = true) (lt : K × V → K × V → Bool) : OpsSim (ops rfx lt) (Meap.ops lt) (fun _ => True) plain where
  less := fun _ _ _ _ => rfl
  swap := by
    intro s i j _
    show SimG _ _ (swap rfx s i j) (Meap.swap (plain s) i j)
    unfold swap Meap.swap
    rw [show (plain s).h = s.h from rfl]
    cases h1 : Heap.swap s.h i j with
    | error e => rfl
    | ok h =>
      simp only [Go.bind_ok]
      cases h2 : Go.idx h i with
      | error e => rfl
      | ok a =>
        simp only [Go.bind_ok]
        cases h3 : Go.idx h j with
        | error e => rfl
        | ok b =>
          refine ⟨trivial, ?_⟩
          simp [Index.put, hr, plain]

theorem popRaw_plain (hr : ∀ k, rfx k = true) (s : State K V) :
    SimP (fun _ => True) plain (popRaw rfx s) (Meap.popRaw (plain s)) := by
  unfold popRaw Meap.popRaw
  rw [show (plain s).h = s.h from rfl]
  cases Go.idx s.h (s.h.length - 1) with
  | error e => rfl
  | ok e => exact ⟨trivial, by simp [Index.del, hr, plain]⟩

theorem SimP.bind {S1 S2 A B : Type} {I : S1 → Prop} {φ : S1 → S2} {r1 : Go (S1 × A)} {r2 : Go (S2 × A)} {f : S1 × A → Go (S1 × B)}
    {g : S2 × A → Go (S2 × B)} (h : SimP I φ r1 r2) (hf : ∀ s a, I s → SimP I φ (f (s, a)) (g (φ s, a))) :
    SimP I φ (r1 >>= f) (r2 >>= g) := by
  cases r1 with
  | error e => simp only [SimP] at h; rw [h]; rfl
  | ok a => simp only [SimP] at h; rw [h.2]; exact hf a.1 a.2 h.1

theorem SimG.bindP {S1 S2 B : Type} {I : S1 → Prop} {φ : S1 → S2} {r1 : Go S1} {r2 : Go S2} {f : S1 → Go (S1 × B)}
    {g : S2 → Go (S2 × B)} (h : SimG I φ r1 r2) (hf : ∀ s, I s → SimP I φ (f s) (g (φ s))) : SimP I φ (r1 >>= f) (r2 >>= g) := by
  cases r1 with
  | error e => simp only [SimG] at h; rw [h]; rfl
  | ok a => simp only [SimG] at h; rw [h.2]; exact hf a h.1

theorem get_plain (hr : ∀ k, rfx k = true) (s : State K V) (k : K) : s.m.get rfx k = (plain s).m k := by simp [Index.get, hr, plain]

theorem step_plain (hr : ∀ k, rfx k = true) (s : State K V) (op : MapHeapOp K V) :
    SimP (fun _ => True) plain (step rfx lt s op) (Meap.step lt (plain s) op) := by
  cases op with
  | push k v =>
    refine SimG.bindP (I := fun _ => True) (φ := plain) ?_ (fun s _ => ⟨trivial, rfl⟩)
    unfold push Meap.push
    rw [get_plain hr]
    cases (plain s).m k with
    | none =>
      have : plain (pushRaw rfx s k v) = Meap.pushRaw (plain s) k v := by simp [pushRaw, Meap.pushRaw, Index.put, hr, plain]
      dsimp only
      rw [← this]
      exact up_sim (opsSimP hr lt) (pushRaw rfx s k v) _ trivial
    | some i =>
      dsimp only
      rw [show (plain s).h = s.h from rfl]
      cases Go.idx s.h i with
      | error e => rfl
      | ok e => exact fixAt_sim (opsSimP hr lt) (⟨s.h.set i (e.1, v), s.m⟩ : State K V) _ i trivial
  | pop =>
    refine SimP.bind (I := fun _ => True) (φ := plain) ?_ (fun s a _ => ⟨trivial, rfl⟩)
    unfold pop Meap.pop
    refine SimG.bindP (I := fun _ => True) (φ := plain) ((opsSimP hr lt).swap s 0 _ trivial) (fun s1 _ => ?_)
    exact SimP.bind (I := fun _ => True) (φ := plain) (down_sim (opsSimP hr lt) s1 0 _ trivial) (fun s2 _ _ => popRaw_plain hr s2)
  | peek =>
    unfold step Meap.step peek Meap.peek
    dsimp only
    rw [show (plain s).h = s.h from rfl]
    cases Go.idx s.h 0 with
    | error e => rfl
    | ok e => exact ⟨trivial, rfl⟩
  | remove k =>
    refine SimG.bindP (I := fun _ => True) (φ := plain) ?_ (fun s _ => ⟨trivial, rfl⟩)
    unfold remove Meap.remove
    rw [get_plain hr]
    cases (plain s).m k with
    | none => exact ⟨trivial, rfl⟩
    | some i =>
      dsimp only
      have h1 := removeAt_sim (opsSimP hr lt) s s.h.length i trivial
      rw [show (plain s).h = s.h from rfl]
      cases h2 : removeAt (ops rfx lt) s s.h.length i with
      | error e => rw [h2] at h1; simp only [SimG] at h1; rw [h1]; rfl
      | ok s1 =>
        rw [h2] at h1
        simp only [SimG] at h1
        rw [h1.2]
        simp only [Go.bind_ok]
        have h3 := popRaw_plain hr s1
        cases h4 : popRaw rfx s1 with
        | error e => rw [h4] at h3; simp only [SimP] at h3; rw [h3]; rfl
        | ok r => rw [h4] at h3; simp only [SimP] at h3; rw [h3.2]; exact ⟨trivial, rfl⟩
  | get k =>
    unfold step Meap.step get Meap.get
    dsimp only
    rw [get_plain hr]
    cases (plain s).m k with
    | none => exact ⟨trivial, rfl⟩
    | some i =>
      dsimp only
      rw [show (plain s).h = s.h from rfl]
      cases Go.idx s.h i with
      | error e => rfl
      | ok e => exact ⟨trivial, rfl⟩
  | contains k =>
    refine ⟨trivial, ?_⟩
    unfold contains
    rw [get_plain hr]; rfl
  | len => exact ⟨trivial, rfl⟩

theorem run_plain (hr : ∀ k, rfx k = true) : ∀ (ops : List (MapHeapOp K V)) (s : State K V),
    SimP (fun _ => True) plain (run rfx lt s ops) (Meap.run lt (plain s) ops)
  | [], s => ⟨trivial, rfl⟩
  | op :: ops, s => by
    unfold run Meap.run
    refine SimP.bind (I := fun _ => True) (φ := plain) (step_plain hr s op) (fun s1 a _ => ?_)
    exact SimP.bind (I := fun _ => True) (φ := plain) (run_plain hr ops s1) (fun s2 b _ => ⟨trivial, rfl⟩)

/-! ## The claims -/

/-- The results of a history. -/
def outcome (rfx : K → Bool) (lt : K × V → K × V → Bool) (ops : List (MapHeapOp K V)) : Go (List (MapHeapOut K V)) :=
  (run rfx lt (new K V) ops).map (·.2)

/-- **C138.** If all keys are equal to themselves, the results are those of Model/Meap (to which C15 and C16 apply). -/
theorem C138_ordinary (hr : ∀ k, rfx k = true) (lt : K × V → K × V → Bool) (ops : List (MapHeapOp K V)) :
    outcome rfx lt ops = (Meap.run lt (Meap.new K V) ops).map (·.2) := by
  have h := run_plain (lt := lt) hr ops (new K V)
  unfold outcome
  rw [show Meap.new K V = plain (new K V) from rfl]
  cases hx : run rfx lt (new K V) ops with
  | error e => rw [hx] at h; simp only [SimP] at h; rw [h]; rfl
  | ok r => rw [hx] at h; simp only [SimP] at h; rw [h.2]; rfl

/-- **C138 (what happens).** A key that is not equal to itself is a new key at every `Push`: the results are those of a history in which it has
a different number each time, and `Get`, `Contains` and `Remove` ask for a number that never occurs. The other keys are not disturbed. -/
theorem C138_new_keys (rfx : K → Bool) (lt : K × V → K × V → Bool) (ops : List (MapHeapOp K V)) :
    outcome rfx lt ops = (Meap.run (ltN lt) (Meap.new (K × Nat) V) (numbered rfx 0 ops)).map (fun r => r.2.map bareOut) := by
  have h := both_run (rfx := rfx) (lt := lt) ops 0 _ _ same_new
  unfold outcome
  cases hx : run rfx lt (new K V) ops with
  | error e => rw [hx] at h; simp only [Both] at h; rw [h]; rfl
  | ok r =>
    rw [hx] at h
    obtain ⟨b, h1, -, h2⟩ := h
    rw [h1]
    exact congrArg Except.ok h2

/-- The number of pushes of keys that are not equal to themselves. -/
def odd (rfx : K → Bool) (ops : List (MapHeapOp K V)) : Nat :=
  ops.countP (fun op => match op with | .push k _ => !rfx k | _ => false)

theorem both_lost : ∀ (ops : List (MapHeapOp K V)) (n : Nat) (s : State K V) (t : Meap.State (K × Nat) V), Same rfx n s t →
    ∀ r, run rfx lt s ops = .ok r → ∃ t', Same rfx (n + odd rfx ops) r.1 t'
  | [], n, s, t, h, r, e => by
    unfold run at e
    cases e
    exact ⟨t, h⟩
  | op :: ops, n, s, t, h, r, e => by
    unfold run at e
    have h1 := both_step (lt := lt) h op
    cases hs : step rfx lt s op with
    | error x => rw [hs] at e; cases e
    | ok a =>
      rw [hs] at h1 e
      obtain ⟨b, -, h2, -⟩ := h1
      simp only [Go.bind_ok] at e
      cases hr : run rfx lt a.1 ops with
      | error x => rw [hr] at e; cases e
      | ok c =>
        rw [hr] at e
        simp only [Go.bind_ok, Go.pure_eq, Except.ok.injEq] at e
        obtain ⟨t', h3⟩ := both_lost ops _ a.1 b.1 h2 c hr
        refine ⟨t', ?_⟩
        rw [← e]
        have : n + odd rfx (op :: ops) = after rfx n op + odd rfx ops := by
          unfold odd after
          rw [List.countP_cons]
          cases op with
          | push k v => by_cases hk : rfx k = true <;> simp [hk] <;> omega
          | _ => simp
        rw [this]
        exact h3

/-- **C138 (refuted).** The map is not as large as the heap: each such key that was ever pushed leaves an entry behind for good, also when the
heap is empty again. -/
theorem C138_leak_refuted (rfx : K → Bool) (lt : K × V → K × V → Bool) (ops : List (MapHeapOp K V)) (s : State K V)
    (outs : List (MapHeapOut K V)) (h : run rfx lt (new K V) ops = .ok (s, outs)) : odd rfx ops ≤ s.m.lost := by
  obtain ⟨t, h1⟩ := both_lost (lt := lt) ops 0 _ _ same_new _ h
  have := h1.2.2
  simpa using this

/-- **C138 (refuted).** For a key that is not equal to itself: what was pushed is not found, a second `Push` does not replace the first,
`Remove` does not remove, and the only way out is `Pop`. Here keys are numbers, and 0 is not equal to itself. -/
theorem C138_lookup_refuted :
    outcome (fun k => k != 0) Meap.byValue [.push 0 5, .push 0 7, .contains 0, .get 0, .len, .remove 0, .len, .pop, .pop, .len] =
      .ok [.unit, .unit, .flag false, .val none, .num 2, .unit, .num 2, .entry (0, 5), .entry (0, 7), .num 0] ∧
    (run (fun k => k != 0) Meap.byValue (new Nat Nat) [.push 0 5, .push 0 7, .pop, .pop]).map (fun r => (r.1.h, r.1.m.lost)) =
      .ok ([], 6) := by decide

example : outcome (fun k => k != 0) Meap.byValue [.push 1 5, .push 0 3, .push 1 2, .push 0 1, .get 1, .remove 1, .len, .pop] =
      .ok [.unit, .unit, .unit, .unit, .val (some 2), .unit, .num 2, .entry (0, 1)] ∧
    odd (fun k : Nat => k != 0) [.push 1 5, .push 0 3, .push 1 2, .push 0 1, .get 1, .remove 1, .len, .pop] = 2 := by decide

end Verif.MeapNan
