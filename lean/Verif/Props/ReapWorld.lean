import Verif.Model.ReapWorld
import Verif.Props.Reap
import Mathlib.Data.List.Basic

/-!
# C137: entries and their heaps
-/

namespace Verif.ReapWorld

open Heap Reap

variable {T : Type} {lt : T → T → Bool}

/-! ## Specification: the heaps apart from each other -/

/-- The call that heap `i` alone would get, if every entry given to it is its own. -/
def alone (i : Nat) : Op T → Option (HandleOp T)
  | .push v => some (.push v)
  | .pop => some .pop
  | .peek => some .peek
  | .remove e => if e.heap = i then some (.remove e.no) else none
  | .setValue e v => if e.heap = i then some (.setValue e.no v) else none

/-- Each heap gets only its own entries. -/
def Proper (ops : List (Nat × Op T)) : Prop := ∀ c ∈ ops, (alone c.1 c.2).isSome

/-- The calls of heap `i`. -/
def calls (i : Nat) (ops : List (Nat × Op T)) : List (HandleOp T) :=
  ops.filterMap (fun c => if c.1 = i then alone c.1 c.2 else none)

/-- The results of heap `i`. -/
def results (i : Nat) (outs : List (Nat × HandleOut T)) : List (HandleOut T) :=
  outs.filterMap (fun c => if c.1 = i then some c.2 else none)

/-! ## One heap in a memory with other entries -/

/-- The heap in its own memory: the entries in the order in which they were returned. -/
def loc (own : List Nat) (s : State T) : State T := ⟨own.filterMap (s.ents[·]?), s.h.map (own.idxOf ·)⟩

/-- The heap works on `own`, the other entries are those of `mem`. -/
structure Own (own : List Nat) (mem : List (Entry T)) (s : State T) : Prop where
  nodup : own.Nodup
  valid : ∀ p ∈ own, p < s.ents.length
  inner : ∀ p ∈ s.h, p ∈ own
  len : s.ents.length = mem.length
  frame : ∀ p, p ∉ own → s.ents[p]? = mem[p]?

theorem filterMap_get {α β : Type} (f : α → Option β) : ∀ (l : List α), (∀ a ∈ l, (f a).isSome) → ∀ k : Nat, (l.filterMap f)[k]? = l[k]?.bind f
  | [], _, k => by simp
  | a :: l, h, k => by
    obtain ⟨b, hb⟩ := Option.isSome_iff_exists.1 (h a List.mem_cons_self)
    rw [List.filterMap_cons_some hb]
    cases k with
    | zero => simp [hb]
    | succ k =>
      simp only [List.getElem?_cons_succ]
      exact filterMap_get f l (fun a ha => h a (List.mem_cons_of_mem _ ha)) k

theorem Own.get {own : List Nat} {mem : List (Entry T)} {s : State T} (h : Own own mem s) (k : Nat) :
    (loc own s).ents[k]? = own[k]?.bind (s.ents[·]?) :=
  filterMap_get _ own (fun p hp => by simpa using h.valid p hp) k

theorem Own.len_loc {own : List Nat} {mem : List (Entry T)} {s : State T} (h : Own own mem s) : (loc own s).ents.length = own.length := by
  have h1 := h.get own.length
  have h2 : own[own.length]? = none := by simp
  rw [h2] at h1
  have h3 : (loc own s).ents.length ≤ own.length := by simpa using h1
  rcases Nat.lt_or_ge (loc own s).ents.length own.length with h4 | h4
  · have h5 := h.get (loc own s).ents.length
    rw [List.getElem?_eq_none (le_refl _), List.getElem?_eq_getElem h4] at h5
    have := h.valid _ (List.getElem_mem h4)
    rw [Option.bind_some, List.getElem?_eq_getElem this] at h5
    cases h5
  · omega

theorem getElem?_idxOf' {own : List Nat} {p : Nat} (hp : p ∈ own) : own[own.idxOf p]? = some p := by
  rw [List.getElem?_eq_getElem (List.idxOf_lt_length_of_mem hp), List.getElem_idxOf]

theorem Own.deref {own : List Nat} {mem : List (Entry T)} {s : State T} (h : Own own mem s) {p : Nat} (hp : p ∈ own) :
    deref (loc own s) (own.idxOf p) = deref s p := by
  unfold Reap.deref
  rw [h.get, getElem?_idxOf' hp]
  rfl

theorem Own.value {own : List Nat} {mem : List (Entry T)} {s : State T} (h : Own own mem s) {p : Nat} (hp : p ∈ own) :
    value (loc own s) (own.idxOf p) = value s p := by
  unfold Reap.value
  rw [h.deref hp]

/-- Assignment to a field of an own entry. -/
theorem Own.set {own : List Nat} {mem : List (Entry T)} {s : State T} (h : Own own mem s) {p : Nat} (hp : p ∈ own) (e : Entry T) :
    Own own mem { s with ents := s.ents.set p e } ∧
    loc own { s with ents := s.ents.set p e } = { loc own s with ents := (loc own s).ents.set (own.idxOf p) e } := by
  have h1 : Own own mem { s with ents := s.ents.set p e } := by
    refine ⟨h.nodup, fun q hq => by simpa using h.valid q hq, h.inner, by simpa using h.len, fun q hq => ?_⟩
    have : p ≠ q := by rintro rfl; exact hq hp
    simp only
    rw [List.getElem?_set_ne this]
    exact h.frame q hq
  refine ⟨h1, ?_⟩
  have : (loc own { s with ents := s.ents.set p e }).ents = (loc own s).ents.set (own.idxOf p) e := by
    apply List.ext_getElem?
    intro k
    rw [h1.get, List.getElem?_set, h.get, h.len_loc]
    simp only
    by_cases hk : own.idxOf p = k
    · subst hk
      rw [if_pos rfl, if_pos (List.idxOf_lt_length_of_mem hp), getElem?_idxOf' hp, Option.bind_some,
        List.getElem?_set_self (h.valid p hp)]
    · rw [if_neg hk]
      cases hq : own[k]? with
      | none => rfl
      | some q =>
        simp only [Option.bind_some]
        rw [List.getElem?_set_ne]
        rintro rfl
        apply hk
        obtain ⟨h2, h3⟩ := List.getElem?_eq_some_iff.1 hq
        rw [← h3]
        exact List.Nodup.idxOf_getElem h.nodup k h2
  show (⟨(loc own { s with ents := s.ents.set p e }).ents, _⟩ : State T) = _
  rw [this]
  rfl

theorem Own.setIndex {own : List Nat} {mem : List (Entry T)} {s : State T} (h : Own own mem s) {p : Nat} (hp : p ∈ own) (i : Int) :
    SimG (Own own mem) (loc own) (setIndex s p i) (setIndex (loc own s) (own.idxOf p) i) := by
  unfold Reap.setIndex
  rw [h.deref hp]
  cases hd : Reap.deref s p with
  | error e => rfl
  | ok e =>
    simp only [Go.bind_ok, Go.pure_eq]
    obtain ⟨a, b⟩ := h.set hp { e with index := i }
    exact ⟨a, by rw [b]⟩

theorem Own.setVal {own : List Nat} {mem : List (Entry T)} {s : State T} (h : Own own mem s) {p : Nat} (hp : p ∈ own) (v : T) :
    SimG (Own own mem) (loc own) (setVal s p v) (setVal (loc own s) (own.idxOf p) v) := by
  unfold Reap.setVal
  rw [h.deref hp]
  cases hd : Reap.deref s p with
  | error e => rfl
  | ok e =>
    simp only [Go.bind_ok, Go.pure_eq]
    obtain ⟨a, b⟩ := h.set hp { e with value := v }
    exact ⟨a, by rw [b]⟩

theorem idx_map {α β : Type} (f : α → β) (l : List α) (i : Nat) :
    Go.idx (l.map f) i = (match Go.idx l i with | .ok a => .ok (f a) | .error e => .error e) := by
  unfold Go.idx
  rw [List.getElem?_map]
  cases l[i]? <;> rfl

theorem idx_mem {α : Type} {l : List α} {i : Nat} {a : α} (h : Go.idx l i = .ok a) : a ∈ l := by
  unfold Go.idx at h
  cases hl : l[i]? with
  | none => rw [hl] at h; cases h
  | some b => rw [hl] at h; cases h; exact List.mem_of_getElem? hl

theorem swap_map {α β : Type} (f : α → β) (l : List α) (i j : Nat) :
    Heap.swap (l.map f) i j = (match Heap.swap l i j with | .ok a => .ok (a.map f) | .error e => .error e) := by
  unfold Heap.swap
  rw [idx_map, idx_map]
  cases Go.idx l i with
  | error e => rfl
  | ok a =>
    cases Go.idx l j with
    | error e => rfl
    | ok b => simp [Go.bind_ok, Go.pure_eq, List.map_set]

theorem swap_mem {α : Type} {l l' : List α} {i j : Nat} (h : Heap.swap l i j = .ok l') : ∀ a ∈ l', a ∈ l := by
  unfold Heap.swap at h
  cases h1 : Go.idx l i with
  | error e => rw [h1] at h; cases h
  | ok a =>
    cases h2 : Go.idx l j with
    | error e => rw [h1, h2] at h; cases h
    | ok b =>
      rw [h1, h2] at h
      simp only [Go.bind_ok, Go.pure_eq, Except.ok.injEq] at h
      subst h
      intro x hx
      rcases List.mem_or_eq_of_mem_set hx with hx | rfl
      · rcases List.mem_or_eq_of_mem_set hx with hx | rfl
        · exact hx
        · exact idx_mem h2
      · exact idx_mem h1

theorem opsSim (lt : T → T → Bool) (own : List Nat) (mem : List (Entry T)) : OpsSim (Reap.ops lt) (Reap.ops lt) (Own own mem) (loc own) where
  less := by
    intro s i j h
    show Reap.less lt s i j = Reap.less lt (loc own s) i j
    unfold Reap.less
    rw [show (loc own s).h = s.h.map (own.idxOf ·) from rfl, idx_map, idx_map]
    cases h1 : Go.idx s.h i with
    | error e => rfl
    | ok p =>
      cases h2 : Go.idx s.h j with
      | error e => rfl
      | ok q =>
        simp only [Go.bind_ok]
        rw [h.value (h.inner p (idx_mem h1)), h.value (h.inner q (idx_mem h2))]
  swap := by
    intro s i j h
    show SimG _ _ (Reap.swap s i j) (Reap.swap (loc own s) i j)
    unfold Reap.swap
    rw [show (loc own s).h = s.h.map (own.idxOf ·) from rfl, swap_map]
    cases h1 : Heap.swap s.h i j with
    | error e => rfl
    | ok h' =>
      simp only [Go.bind_ok]
      have hm := swap_mem h1
      have ho : Own own mem (⟨s.ents, h'⟩ : State T) := ⟨h.nodup, h.valid, fun p hp => h.inner p (hm p hp), h.len, h.frame⟩
      rw [idx_map]
      cases h2 : Go.idx h' i with
      | error e => rfl
      | ok p =>
        simp only [Go.bind_ok]
        have hs := ho.setIndex (ho.inner p (idx_mem h2)) i
        have e0 : ({ loc own s with h := h'.map (own.idxOf ·) } : State T) = loc own ⟨s.ents, h'⟩ := rfl
        have e1 : ({ s with h := h' } : State T) = ⟨s.ents, h'⟩ := rfl
        rw [e0, e1]
        cases h3 : setIndex (⟨s.ents, h'⟩ : State T) p i with
        | error e => rw [h3] at hs; simp only [SimG] at hs; rw [hs]; rfl
        | ok s2 =>
          rw [h3] at hs
          simp only [SimG] at hs
          rw [hs.2]
          simp only [Go.bind_ok]
          rw [show (loc own s2).h = s2.h.map (own.idxOf ·) from rfl, idx_map]
          cases h4 : Go.idx s2.h j with
          | error e => rfl
          | ok q => exact hs.1.setIndex (hs.1.inner q (idx_mem h4)) j

/-! ## The methods -/

theorem loc_h_length (own : List Nat) (s : State T) : (loc own s).h.length = s.h.length := by simp [loc]

theorem popRaw_sim {own : List Nat} {mem : List (Entry T)} {s : State T} (h : Own own mem s) :
    SimP (Own own mem) (loc own) (Reap.popRaw s) (Reap.popRaw (loc own s)) := by
  unfold Reap.popRaw
  rw [loc_h_length, show (loc own s).h = s.h.map (own.idxOf ·) from rfl, idx_map]
  cases h1 : Go.idx s.h (s.h.length - 1) with
  | error e => rfl
  | ok p =>
    simp only [Go.bind_ok]
    have hp : p ∈ own := h.inner p (idx_mem h1)
    have ho : Own own mem (⟨s.ents, s.h.take (s.h.length - 1)⟩ : State T) :=
      ⟨h.nodup, h.valid, fun q hq => h.inner q (List.mem_of_mem_take hq), h.len, h.frame⟩
    have hs := ho.setIndex hp (-1)
    have e0 : (⟨(loc own s).ents, (s.h.map (own.idxOf ·)).take (s.h.length - 1)⟩ : State T) =
        loc own ⟨s.ents, s.h.take (s.h.length - 1)⟩ := by
      unfold loc
      simp only [List.map_take]
    rw [e0]
    cases h3 : setIndex (⟨s.ents, s.h.take (s.h.length - 1)⟩ : State T) p (-1) with
    | error e => rw [h3] at hs; simp only [SimG] at hs; rw [hs]; rfl
    | ok s2 =>
      rw [h3] at hs
      simp only [SimG] at hs
      rw [hs.2]
      simp only [Go.bind_ok]
      rw [hs.1.value hp]
      cases value s2 p with
      | error e => rfl
      | ok v => exact ⟨hs.1, rfl⟩

theorem pop_sim (lt : T → T → Bool) {own : List Nat} {mem : List (Entry T)} {s : State T} (h : Own own mem s) :
    SimP (Own own mem) (loc own) (Reap.pop lt s) (Reap.pop lt (loc own s)) := by
  unfold Reap.pop
  rw [loc_h_length]
  simp only
  have h1 := (opsSim lt own mem).swap s 0 (s.h.length - 1) h
  change SimG _ _ (Reap.swap s 0 (s.h.length - 1)) (Reap.swap (loc own s) 0 (s.h.length - 1)) at h1
  cases hs : Reap.swap s 0 (s.h.length - 1) with
  | error e => rw [hs] at h1; simp only [SimG] at h1; rw [h1]; rfl
  | ok s1 =>
    rw [hs] at h1
    simp only [SimG] at h1
    rw [h1.2]
    simp only [Go.bind_ok]
    have h2 := down_sim (opsSim lt own mem) s1 0 (s.h.length - 1) h1.1
    cases hd : Heap.down (Reap.ops lt) s1 0 (s.h.length - 1) with
    | error e => rw [hd] at h2; simp only [SimP] at h2; rw [h2]; rfl
    | ok r =>
      rw [hd] at h2
      simp only [SimP] at h2
      rw [h2.2]
      exact popRaw_sim h2.1

theorem peek_sim {own : List Nat} {mem : List (Entry T)} {s : State T} (h : Own own mem s) : Reap.peek (loc own s) = Reap.peek s := by
  unfold Reap.peek
  rw [show (loc own s).h = s.h.map (own.idxOf ·) from rfl, idx_map]
  cases h1 : Go.idx s.h 0 with
  | error e => rfl
  | ok p =>
    simp only [Go.bind_ok]
    exact h.value (h.inner p (idx_mem h1))

theorem remove_sim (lt : T → T → Bool) {own : List Nat} {mem : List (Entry T)} {s : State T} (h : Own own mem s) {p : Nat} (hp : p ∈ own) :
    SimP (Own own mem) (loc own) (Reap.remove lt s p) (Reap.remove lt (loc own s) (own.idxOf p)) := by
  unfold Reap.remove
  rw [h.deref hp]
  cases hd : Reap.deref s p with
  | error e => rfl
  | ok e =>
    simp only [Go.bind_ok]
    split
    · exact ⟨h, rfl⟩
    · rw [loc_h_length]
      have h1 := removeAt_sim (opsSim lt own mem) s s.h.length e.index.toNat h
      cases hr : removeAt (Reap.ops lt) s s.h.length e.index.toNat with
      | error e => rw [hr] at h1; simp only [SimG] at h1; rw [h1]; rfl
      | ok s1 =>
        rw [hr] at h1
        simp only [SimG] at h1
        rw [h1.2]
        simp only [Go.bind_ok]
        have h2 := popRaw_sim h1.1
        cases hq : Reap.popRaw s1 with
        | error e => rw [hq] at h2; simp only [SimP] at h2; rw [h2]; rfl
        | ok r =>
          rw [hq] at h2
          simp only [SimP] at h2
          rw [h2.2]
          exact ⟨h2.1, rfl⟩

theorem setValue_sim (lt : T → T → Bool) {own : List Nat} {mem : List (Entry T)} {s : State T} (h : Own own mem s) {p : Nat} (hp : p ∈ own)
    (v : T) : SimP (Own own mem) (loc own) (Reap.setValue lt s p v) (Reap.setValue lt (loc own s) (own.idxOf p) v) := by
  unfold Reap.setValue
  rw [h.deref hp]
  cases hd : Reap.deref s p with
  | error e => rfl
  | ok e =>
    simp only [Go.bind_ok]
    split
    · exact ⟨h, rfl⟩
    · have h1 := h.setVal hp v
      cases hr : Reap.setVal s p v with
      | error e => rw [hr] at h1; simp only [SimG] at h1; rw [h1]; rfl
      | ok s1 =>
        rw [hr] at h1
        simp only [SimG] at h1
        rw [h1.2]
        simp only [Go.bind_ok]
        rw [h1.1.deref hp]
        cases hq : Reap.deref s1 p with
        | error e => rfl
        | ok e1 =>
          simp only [Go.bind_ok]
          rw [loc_h_length]
          have h2 := fixAt_sim (opsSim lt own mem) s1 s1.h.length e1.index.toNat h1.1
          cases hf : fixAt (Reap.ops lt) s1 s1.h.length e1.index.toNat with
          | error e => rw [hf] at h2; simp only [SimG] at h2; rw [h2]; rfl
          | ok s2 =>
            rw [hf] at h2
            simp only [SimG] at h2
            rw [h2.2]
            exact ⟨h2.1, rfl⟩

theorem push_sim (lt : T → T → Bool) {own : List Nat} {mem : List (Entry T)} {s : State T} (h : Own own mem s) (v : T) :
    match Reap.push lt s v with
    | .ok (s', p) => p = s.ents.length ∧ Own (own ++ [p]) (s.ents ++ [⟨v, 0⟩]) s' ∧
        Reap.push lt (loc own s) v = .ok (loc (own ++ [p]) s', own.length)
    | .error e => Reap.push lt (loc own s) v = .error e := by
  have hnot : s.ents.length ∉ own := fun hc => absurd (h.valid _ hc) (by omega)
  have hloc : (Reap.pushRaw (loc own s) v).1 = loc (own ++ [s.ents.length]) (Reap.pushRaw s v).1 := by
    unfold Reap.pushRaw
    rw [h.len_loc, loc_h_length]
    unfold loc
    simp only [State.mk.injEq]
    constructor
    · rw [List.filterMap_append]
      have : own.filterMap (fun p => (s.ents ++ [⟨v, (s.h.length : Int)⟩])[p]?) = own.filterMap (s.ents[·]?) := by
        apply List.filterMap_congr
        intro p hp
        rw [List.getElem?_append_left (h.valid p hp)]
      rw [this]
      simp
    · rw [List.map_append]
      congr 1
      · apply List.map_congr_left
        intro p hp
        rw [List.idxOf_append_of_mem (h.inner p hp)]
      · rw [List.map_singleton, List.idxOf_append_of_notMem hnot]
        simp
  have ho : Own (own ++ [s.ents.length]) (s.ents ++ [⟨v, 0⟩]) (Reap.pushRaw s v).1 := by
    unfold Reap.pushRaw
    refine ⟨?_, ?_, ?_, by simp, ?_⟩
    · rw [List.nodup_append]
      refine ⟨h.nodup, by simp, ?_⟩
      rintro a ha b hb rfl
      rw [List.mem_singleton] at hb
      subst hb
      exact hnot ha
    · intro p hp
      rw [List.mem_append, List.mem_singleton] at hp
      simp only [List.length_append, List.length_singleton]
      rcases hp with hp | hp
      · have := h.valid p hp; omega
      · omega
    · intro p hp
      simp only [List.mem_append, List.mem_singleton] at hp ⊢
      rcases hp with hp | hp
      · exact Or.inl (h.inner p hp)
      · exact Or.inr hp
    · intro p hp
      rw [List.mem_append, List.mem_singleton, not_or] at hp
      simp only
      rw [List.getElem?_append, List.getElem?_append]
      split
      · rfl
      · rename_i h1
        rw [List.getElem?_eq_none (by simp; omega), List.getElem?_eq_none (by simp; omega)]
  have h2 := up_sim (opsSim lt _ _) (Reap.pushRaw s v).1 ((Reap.pushRaw s v).1.h.length - 1) ho
  unfold Reap.push
  have e1 : Reap.pushRaw s v = ((Reap.pushRaw s v).1, s.ents.length) := rfl
  have e2 : Reap.pushRaw (loc own s) v = ((Reap.pushRaw (loc own s) v).1, own.length) := by
    rw [← h.len_loc]; rfl
  rw [e1, e2, hloc]
  simp only
  rw [loc_h_length]
  cases hu : up (Reap.ops lt) (Reap.pushRaw s v).1 ((Reap.pushRaw s v).1.h.length - 1) with
  | error e => rw [hu] at h2; simp only [SimG] at h2; rw [h2]; rfl
  | ok s1 =>
    rw [hu] at h2
    simp only [SimG] at h2
    rw [h2.2]
    exact ⟨rfl, h2.1, rfl⟩

/-! ## All the heaps -/

/-- The entries belong to different heaps. -/
structure Parts (w : World T) : Prop where
  own : ∀ i, Own (w.given i) w.ents (w.at i)
  disjoint : ∀ i j, i ≠ j → ∀ p ∈ w.given i, p ∉ w.given j

/-- Heap `i` on its own. -/
def World.only (w : World T) (i : Nat) : State T := loc (w.given i) (w.at i)

theorem put_parts {w : World T} (hw : Parts w) {i : Nat} {s : State T} (h : Own (w.given i) w.ents s) :
    Parts (w.put i s) ∧ (w.put i s).only i = loc (w.given i) s ∧ ∀ j, j ≠ i → (w.put i s).only j = w.only j := by
  have hat : (w.put i s).at i = s := by unfold World.put World.at; simp
  have hatj : ∀ j, j ≠ i → (w.put i s).at j = ⟨s.ents, w.h j⟩ := by
    intro j hj; unfold World.put World.at; simp [hj]
  refine ⟨⟨fun j => ?_, hw.disjoint⟩, ?_, fun j hj => ?_⟩
  · show Own (w.given j) s.ents ((w.put i s).at j)
    by_cases hj : j = i
    · subst hj
      rw [hat]
      exact ⟨h.nodup, h.valid, h.inner, rfl, fun p _ => rfl⟩
    · rw [hatj j hj]
      have hj' := hw.own j
      exact ⟨hj'.nodup, fun p hp => by rw [h.len]; exact hj'.valid p hp, hj'.inner, rfl, fun p _ => rfl⟩
  · show loc (w.given i) ((w.put i s).at i) = _
    rw [hat]
  · show loc (w.given j) ((w.put i s).at j) = loc (w.given j) (w.at j)
    rw [hatj j hj]
    unfold loc
    congr 1
    apply List.filterMap_congr
    intro p hp
    exact h.frame p (fun hc => hw.disjoint j i hj p hp hc)

theorem only_push {w : World T} (hw : Parts w) {i : Nat} {s : State T} {v : T}
    (h : Own (w.given i ++ [w.ents.length]) (w.ents ++ [⟨v, 0⟩]) s) :
    let w' : World T := { w.put i s with given := fun j => if j = i then w.given i ++ [w.ents.length] else w.given j }
    Parts w' ∧ w'.only i = loc (w.given i ++ [w.ents.length]) s ∧ ∀ j, j ≠ i → w'.only j = w.only j := by
  intro w'
  have hgi : w'.given i = w.given i ++ [w.ents.length] := by simp [w']
  have hgj : ∀ j, j ≠ i → w'.given j = w.given j := by intro j hj; simp [w', hj]
  have hat : w'.at i = s := by simp [w', World.put, World.at]
  have hatj : ∀ j, j ≠ i → w'.at j = ⟨s.ents, w.h j⟩ := by
    intro j hj; simp [w', World.put, World.at, hj]
  have hlen : s.ents.length = w.ents.length + 1 := by simpa using h.len
  have hnew : ∀ j, w.ents.length ∉ w.given j := fun j hc => absurd ((hw.own j).valid _ hc) (by simp [World.at])
  refine ⟨⟨fun j => ?_, ?_⟩, ?_, fun j hj => ?_⟩
  · show Own (w'.given j) s.ents (w'.at j)
    by_cases hj : j = i
    · subst hj
      rw [hat, hgi]
      exact ⟨h.nodup, h.valid, h.inner, rfl, fun p _ => rfl⟩
    · rw [hatj j hj, hgj j hj]
      have hj' := hw.own j
      exact ⟨hj'.nodup, fun p hp => by have := hj'.valid p hp; simp only [World.at] at this; simp only; omega, hj'.inner, rfl, fun p _ => rfl⟩
  · intro a b hab p hp
    by_cases ha : a = i
    · subst ha
      rw [hgj b (Ne.symm hab)]
      rw [hgi, List.mem_append, List.mem_singleton] at hp
      rcases hp with hp | rfl
      · exact hw.disjoint a b hab p hp
      · exact hnew b
    · rw [hgj a ha] at hp
      by_cases hb : b = i
      · subst hb
        rw [hgi, List.mem_append, List.mem_singleton, not_or]
        refine ⟨hw.disjoint a b hab p hp, ?_⟩
        rintro rfl
        exact hnew a hp
      · rw [hgj b hb]
        exact hw.disjoint a b hab p hp
  · show loc (w'.given i) (w'.at i) = _
    rw [hat, hgi]
  · show loc (w'.given j) (w'.at j) = loc (w.given j) (w.at j)
    rw [hatj j hj, hgj j hj]
    unfold loc
    congr 1
    apply List.filterMap_congr
    intro p hp
    have hv : p < w.ents.length := (hw.own j).valid p hp
    have := h.frame p (by
      rw [List.mem_append, List.mem_singleton, not_or]
      exact ⟨fun hc => hw.disjoint j i hj p hp hc, by omega⟩)
    simp only
    rw [this, List.getElem?_append_left hv]
    rfl

theorem step_only (lt : T → T → Bool) {w : World T} (hw : Parts w) (i : Nat) (op : Op T) (o : HandleOp T) (ho : alone i op = some o) :
    match step lt w i op with
    | .ok (w', out) => Parts w' ∧ Reap.step lt (w.only i) o = .ok (w'.only i, out) ∧ ∀ j, j ≠ i → w'.only j = w.only j
    | .error e => Reap.step lt (w.only i) o = .error e := by
  have hi := hw.own i
  cases op with
  | push v =>
    simp only [alone, Option.some.injEq] at ho
    subst ho
    have h1 := push_sim lt hi v
    unfold step Reap.step
    dsimp only
    cases hp : Reap.push lt (w.at i) v with
    | error e => rw [hp] at h1; simp only at h1; unfold World.only; rw [h1]; rfl
    | ok r =>
      obtain ⟨s, p⟩ := r
      rw [hp] at h1
      simp only at h1
      obtain ⟨rfl, h2, h3⟩ := h1
      simp only [Go.bind_ok, Go.pure_eq]
      unfold World.only
      rw [h3]
      obtain ⟨a, b, c⟩ := only_push hw h2
      refine ⟨a, ?_, c⟩
      exact congrArg (fun x => Except.ok (x, HandleOut.handle (w.given i).length)) b.symm
  | pop =>
    simp only [alone, Option.some.injEq] at ho
    subst ho
    have h1 := pop_sim lt hi
    unfold step Reap.step
    dsimp only
    cases hp : Reap.pop lt (w.at i) with
    | error e => rw [hp] at h1; simp only [SimP] at h1; unfold World.only; rw [h1]; rfl
    | ok r =>
      rw [hp] at h1
      simp only [SimP] at h1
      obtain ⟨a, b, c⟩ := put_parts hw h1.1
      simp only [Go.bind_ok, Go.pure_eq]
      refine ⟨a, ?_, c⟩
      rw [b]
      unfold World.only
      rw [h1.2]; rfl
  | peek =>
    simp only [alone, Option.some.injEq] at ho
    subst ho
    have h1 := peek_sim hi
    unfold step Reap.step
    dsimp only
    unfold World.only
    rw [h1]
    cases hp : Reap.peek (w.at i) with
    | error e => rfl
    | ok v => exact ⟨hw, rfl, fun _ _ => rfl⟩
  | remove e =>
    simp only [alone] at ho
    split at ho
    · rename_i he
      simp only [Option.some.injEq] at ho
      subst ho
      obtain ⟨k, no⟩ := e
      simp only at he
      subst he
      unfold step Reap.step World.ptr
      dsimp only
      cases hg : (w.given k)[no]? with
      | none =>
        have : Reap.remove lt (w.only k) no = .error .nilDeref := by
          unfold Reap.remove Reap.deref World.only
          rw [hi.get, hg]; rfl
        rw [this]; rfl
      | some p =>
        have hp : p ∈ w.given k := List.mem_of_getElem? hg
        have hno : (w.given k).idxOf p = no := by
          obtain ⟨h2, h3⟩ := List.getElem?_eq_some_iff.1 hg
          rw [← h3]
          exact List.Nodup.idxOf_getElem hi.nodup no h2
        have h1 := remove_sim lt hi hp
        rw [hno] at h1
        simp only [Go.bind_ok]
        cases hr : Reap.remove lt (w.at k) p with
        | error e => rw [hr] at h1; simp only [SimP] at h1; unfold World.only; rw [h1]; rfl
        | ok r =>
          rw [hr] at h1
          simp only [SimP] at h1
          obtain ⟨a, b, c⟩ := put_parts hw h1.1
          simp only [Go.bind_ok, Go.pure_eq]
          refine ⟨a, ?_, c⟩
          rw [b]
          unfold World.only
          rw [h1.2]; rfl
    · cases ho
  | setValue e v =>
    simp only [alone] at ho
    split at ho
    · rename_i he
      simp only [Option.some.injEq] at ho
      subst ho
      obtain ⟨k, no⟩ := e
      simp only at he
      subst he
      unfold step Reap.step World.ptr
      dsimp only
      cases hg : (w.given k)[no]? with
      | none =>
        have : Reap.setValue lt (w.only k) no v = .error .nilDeref := by
          unfold Reap.setValue Reap.deref World.only
          rw [hi.get, hg]; rfl
        rw [this]; rfl
      | some p =>
        have hp : p ∈ w.given k := List.mem_of_getElem? hg
        have hno : (w.given k).idxOf p = no := by
          obtain ⟨h2, h3⟩ := List.getElem?_eq_some_iff.1 hg
          rw [← h3]
          exact List.Nodup.idxOf_getElem hi.nodup no h2
        have h1 := setValue_sim lt hi hp v
        rw [hno] at h1
        simp only [Go.bind_ok]
        cases hr : Reap.setValue lt (w.at k) p v with
        | error e => rw [hr] at h1; simp only [SimP] at h1; unfold World.only; rw [h1]; rfl
        | ok r =>
          rw [hr] at h1
          simp only [SimP] at h1
          obtain ⟨a, b, c⟩ := put_parts hw h1.1
          simp only [Go.bind_ok, Go.pure_eq]
          refine ⟨a, ?_, c⟩
          rw [b]
          unfold World.only
          rw [h1.2]; rfl
    · cases ho

theorem parts_start (T : Type) : Parts (start T) :=
  ⟨fun i => ⟨List.nodup_nil, by simp [start], by simp [start, World.at], rfl, fun _ _ => rfl⟩, by simp [start]⟩

theorem only_start (i : Nat) : (start T).only i = Reap.new T := rfl

theorem calls_cons_self (i : Nat) (op : Op T) (o : HandleOp T) (ho : alone i op = some o) (ops : List (Nat × Op T)) :
    calls i ((i, op) :: ops) = o :: calls i ops := by
  unfold calls
  rw [List.filterMap_cons_some (by simpa using ho)]

theorem calls_cons_ne {i j : Nat} (h : j ≠ i) (op : Op T) (ops : List (Nat × Op T)) : calls i ((j, op) :: ops) = calls i ops := by
  unfold calls
  rw [List.filterMap_cons_none (by simp [h])]

theorem results_cons_self (i : Nat) (out : HandleOut T) (outs : List (Nat × HandleOut T)) :
    results i ((i, out) :: outs) = out :: results i outs := by
  unfold results
  rw [List.filterMap_cons_some (b := out) (by simp)]

theorem results_cons_ne {i j : Nat} (h : j ≠ i) (out : HandleOut T) (outs : List (Nat × HandleOut T)) :
    results i ((j, out) :: outs) = results i outs := by
  unfold results
  rw [List.filterMap_cons_none (by simp [h])]

theorem run_only (lt : T → T → Bool) : ∀ (ops : List (Nat × Op T)) (w : World T), Parts w → Proper ops →
    match run lt w ops with
    | .ok (w', outs) => Parts w' ∧ ∀ i, Reap.run lt (w.only i) (calls i ops) = .ok (w'.only i, results i outs)
    | .error e => ∃ i, Reap.run lt (w.only i) (calls i ops) = .error e
  | [], w, hw, _ => by
    unfold run
    exact ⟨hw, fun i => rfl⟩
  | (j, op) :: ops, w, hw, hp => by
    obtain ⟨o, ho⟩ := Option.isSome_iff_exists.1 (hp _ List.mem_cons_self)
    have h1 := step_only lt hw j op o ho
    unfold run
    cases hs : step lt w j op with
    | error e =>
      rw [hs] at h1
      refine ⟨j, ?_⟩
      rw [calls_cons_self j op o ho]
      unfold Reap.run
      simp only at h1
      rw [h1]; rfl
    | ok r =>
      obtain ⟨w1, out⟩ := r
      rw [hs] at h1
      simp only at h1
      obtain ⟨hw1, e1, hf⟩ := h1
      have h2 := run_only lt ops w1 hw1 (fun c hc => hp c (List.mem_cons_of_mem _ hc))
      simp only [Go.bind_ok]
      cases hr : run lt w1 ops with
      | error e =>
        rw [hr] at h2
        obtain ⟨i, h2⟩ := h2
        refine ⟨i, ?_⟩
        by_cases hij : j = i
        · subst hij
          rw [calls_cons_self j op o ho]
          unfold Reap.run
          rw [e1]
          simp only [Go.bind_ok]
          rw [h2]; rfl
        · rw [calls_cons_ne hij, ← hf i (Ne.symm hij)]
          exact h2
      | ok r2 =>
        obtain ⟨w2, outs⟩ := r2
        rw [hr] at h2
        simp only at h2
        simp only [Go.bind_ok, Go.pure_eq]
        refine ⟨h2.1, fun i => ?_⟩
        by_cases hij : j = i
        · subst hij
          rw [calls_cons_self j op o ho, results_cons_self]
          unfold Reap.run
          rw [e1]
          simp only [Go.bind_ok]
          rw [h2.2 j]; rfl
        · rw [calls_cons_ne hij, results_cons_ne hij, ← hf i (Ne.symm hij)]
          exact h2.2 i

/-- **C137.** As long as every entry is given only to the heap that returned it, the heaps do not influence each other: each one gives the
results it would give alone. -/
theorem C137_apart (lt : T → T → Bool) (ops : List (Nat × Op T)) (hp : Proper ops) (w : World T) (outs : List (Nat × HandleOut T))
    (h : run lt (start T) ops = .ok (w, outs)) (i : Nat) : ∃ s, Reap.run lt (Reap.new T) (calls i ops) = .ok (s, results i outs) := by
  have h1 := run_only lt ops _ (parts_start T) hp
  rw [h] at h1
  exact ⟨_, h1.2 i⟩

/-- **C137.** And there is a panic only if one of the heaps would panic alone. -/
theorem C137_panics (lt : T → T → Bool) (ops : List (Nat × Op T)) (hp : Proper ops) :
    (∃ r, run lt (start T) ops = .ok r) ↔ ∀ i, ∃ r, Reap.run lt (Reap.new T) (calls i ops) = .ok r := by
  have h1 := run_only lt ops _ (parts_start T) hp
  cases hr : run lt (start T) ops with
  | error e =>
    rw [hr] at h1
    obtain ⟨i, h1⟩ := h1
    rw [only_start] at h1
    simp only [reduceCtorEq, exists_false, false_iff, not_forall, not_exists]
    exact ⟨i, fun r h2 => by rw [h1] at h2; cases h2⟩
  | ok r =>
    rw [hr] at h1
    exact ⟨fun _ i => ⟨_, h1.2 i⟩, fun _ => ⟨_, rfl⟩⟩

/-! ## Entries of other heaps -/

theorem only_wf (lt : T → T → Bool) {ops : List (Nat × Op T)} (hp : Proper ops) {w : World T} {outs : List (Nat × HandleOut T)}
    (h : run lt (start T) ops = .ok (w, outs)) (i : Nat) : Parts w ∧ WF (w.only i) := by
  have h1 := run_only lt ops _ (parts_start T) hp
  rw [h] at h1
  exact ⟨h1.1, (run_refines lt _ _ _ _ (wf_new T) (h1.2 i)).1⟩

/-- The entry at place `k` of a heap knows its place. -/
theorem index_at {w : World T} {i : Nat} (hw : Parts w) (hwf : WF (w.only i)) {k p : Nat} (hk : (w.h i)[k]? = some p) :
    ∃ v, w.ents[p]? = some ⟨v, k⟩ := by
  have hi := hw.own i
  have hp : p ∈ w.given i := hi.inner p (List.mem_of_getElem? hk)
  have h1 : (w.only i).h[k]? = some ((w.given i).idxOf p) := by
    show ((w.h i).map _)[k]? = _
    rw [List.getElem?_map, hk]; rfl
  obtain ⟨e, h2, h3⟩ := hwf.fwd k _ h1
  have h4 : (w.only i).ents[(w.given i).idxOf p]? = w.ents[p]? := by
    show (loc (w.given i) (w.at i)).ents[_]? = _
    rw [hi.get, getElem?_idxOf' hp]; rfl
  rw [h4] at h2
  obtain ⟨v, x⟩ := e
  simp only at h3
  subst h3
  exact ⟨v, h2⟩

theorem remove_by_index (lt : T → T → Bool) {s : State T} {p q : Nat} {a b : T} {k : Int} (hp : s.ents[p]? = some ⟨a, k⟩)
    (hq : s.ents[q]? = some ⟨b, k⟩) : Reap.remove lt s p = Reap.remove lt s q := by
  unfold Reap.remove
  rw [Reap.deref_ok hp, Reap.deref_ok hq]
  rfl

/-- The live entries of heap `i` and their values, numbered as the client knows them. -/
def bag (w : World T) (i : Nat) : HandleBag T := abs (w.only i)

/-- **C137 (what happens).** `Remove` of an entry that lives in another heap at place `k` removes the entry `q` at the same place of this heap,
if there is one, and reports success; the other heap keeps the entry. -/
theorem C137_foreign_exact (lt : T → T → Bool) (ops : List (Nat × Op T)) (hp : Proper ops) (w : World T) (outs : List (Nat × HandleOut T))
    (h : run lt (start T) ops = .ok (w, outs)) (i : Nat) (e : Ref) (p k : Nat) (he : w.ptr e = .ok p) (hk : (w.h e.heap)[k]? = some p)
    (hlt : k < (w.h i).length) :
    ∃ (q : Nat) (w' : World T), w.ptr ⟨i, q⟩ = .ok ((w.h i)[k]) ∧ ((bag w i).live q).isSome ∧
      step lt w i (.remove e) = .ok (w', .flag true) ∧ bag w' i = (bag w i).set q none ∧ ∀ j, j ≠ i → bag w' j = bag w j := by
  obtain ⟨hw, hwf⟩ := only_wf lt hp h i
  have hwf' := (only_wf lt hp h e.heap).2
  obtain ⟨a, ha⟩ := index_at hw hwf' hk
  obtain ⟨b, hb⟩ := index_at hw hwf (List.getElem?_eq_getElem hlt)
  have hi := hw.own i
  have hmem : (w.h i)[k] ∈ w.given i := hi.inner _ (List.getElem_mem hlt)
  have hptr : w.ptr ⟨i, (w.given i).idxOf (w.h i)[k]⟩ = .ok (w.h i)[k] := by
    unfold World.ptr
    simp only
    rw [getElem?_idxOf' hmem]
  have heq : step lt w i (.remove e) = step lt w i (.remove ⟨i, (w.given i).idxOf (w.h i)[k]⟩) := by
    unfold step
    dsimp only
    rw [he, hptr]
    simp only [Go.bind_ok]
    rw [remove_by_index lt (s := w.at i) ha hb]
  have hs := step_only lt hw i (.remove ⟨i, (w.given i).idxOf (w.h i)[k]⟩) (.remove ((w.given i).idxOf (w.h i)[k])) (by simp [alone])
  have hl : (w.given i).idxOf (w.h i)[k] ∈ (w.only i).h := List.mem_map.2 ⟨_, List.getElem_mem hlt, rfl⟩
  obtain ⟨s1, e1, -, ha1, -⟩ := Reap.remove_spec lt hwf hl
  have hstep : Reap.step lt (w.only i) (.remove ((w.given i).idxOf (w.h i)[k])) = .ok (s1, .flag true) := by
    unfold Reap.step; dsimp only; rw [e1]; rfl
  obtain ⟨v, -, hv⟩ := live_of_mem hwf hl
  cases hr : step lt w i (.remove ⟨i, (w.given i).idxOf (w.h i)[k]⟩) with
  | error x => rw [hr] at hs; simp only at hs; rw [hstep] at hs; cases hs
  | ok r =>
    obtain ⟨w', out⟩ := r
    rw [hr] at hs
    simp only at hs
    obtain ⟨-, hs2, hs3⟩ := hs
    rw [hstep] at hs2
    simp only [Except.ok.injEq, Prod.mk.injEq] at hs2
    obtain ⟨rfl, rfl⟩ := hs2
    refine ⟨_, w', hptr, by unfold bag; rw [hv]; rfl, heq.trans hr, ha1, fun j hj => ?_⟩
    unfold bag
    rw [hs3 j hj]

/-- **C137 (what happens).** If this heap has no entry at that place, `Remove` panics. -/
theorem C137_foreign_panic (lt : T → T → Bool) (ops : List (Nat × Op T)) (hp : Proper ops) (w : World T) (outs : List (Nat × HandleOut T))
    (h : run lt (start T) ops = .ok (w, outs)) (i : Nat) (e : Ref) (p k : Nat) (he : w.ptr e = .ok p) (hk : (w.h e.heap)[k]? = some p)
    (hge : (w.h i).length ≤ k) : step lt w i (.remove e) = .error .index := by
  obtain ⟨hw, hwf⟩ := only_wf lt hp h e.heap
  obtain ⟨a, ha⟩ := index_at hw hwf hk
  unfold step
  dsimp only
  rw [he]
  simp only [Go.bind_ok]
  unfold Reap.remove
  rw [Reap.deref_ok (show (w.at i).ents[p]? = some ⟨a, k⟩ from ha)]
  simp only [Go.bind_ok]
  rw [if_neg (by omega), Int.toNat_natCast, show (w.at i).h = w.h i from rfl]
  unfold removeAt
  by_cases hk0 : (w.h i).length - 1 = k
  · have h0 : w.h i = [] := List.length_eq_zero_iff.1 (by omega)
    simp only
    rw [if_neg (by omega)]
    simp only [Go.pure_eq, Go.bind_ok]
    unfold Reap.popRaw
    rw [show (w.at i).h = w.h i from rfl, h0]
    rfl
  · simp only
    rw [if_pos hk0]
    have : Reap.swap (w.at i) k ((w.h i).length - 1) = .error .index := by
      unfold Reap.swap Heap.swap
      rw [show (w.at i).h = w.h i from rfl, Go.idx_of_ge _ _ hge]
      rfl
    rw [show (Reap.ops lt).swap (w.at i) k ((w.h i).length - 1) = .error .index from this]
    rfl

/-- **C137.** An entry that was popped or removed is harmless everywhere. -/
theorem C137_dead (lt : T → T → Bool) (ops : List (Nat × Op T)) (hp : Proper ops) (w : World T) (outs : List (Nat × HandleOut T))
    (h : run lt (start T) ops = .ok (w, outs)) (i : Nat) (e : Ref) (p : Nat) (he : w.ptr e = .ok p) (hd : p ∉ w.h e.heap) (v : T) :
    ∃ w1 w2, step lt w i (.remove e) = .ok (w1, .flag false) ∧ step lt w i (.setValue e v) = .ok (w2, .flag false) ∧
      ∀ j, bag w1 j = bag w j ∧ bag w2 j = bag w j := by
  obtain ⟨hw, hwf⟩ := only_wf lt hp h e.heap
  have hi := hw.own e.heap
  have hmem : p ∈ w.given e.heap := by
    unfold World.ptr at he
    cases hg : (w.given e.heap)[e.no]? with
    | none => rw [hg] at he; cases he
    | some q => rw [hg] at he; cases he; exact List.mem_of_getElem? hg
  have hlt : p < w.ents.length := hi.valid p hmem
  have h1 : (w.only e.heap).ents[(w.given e.heap).idxOf p]? = some w.ents[p] := by
    show (loc (w.given e.heap) (w.at e.heap)).ents[_]? = _
    rw [hi.get, getElem?_idxOf' hmem]
    show w.ents[p]? = _
    simp
  have h2 : (w.given e.heap).idxOf p ∉ (w.only e.heap).h := by
    intro hc
    obtain ⟨q, hq, hqp⟩ := List.mem_map.1 hc
    have hq' : q ∈ w.given e.heap := hi.inner q hq
    have := getElem?_idxOf' hq'
    rw [hqp, getElem?_idxOf' hmem] at this
    cases this
    exact hd hq
  have h3 := dead_index hwf h1 h2
  have hput : w.put i (w.at i) = w := by
    unfold World.put World.at
    obtain ⟨a, b, c⟩ := w
    simp only [World.mk.injEq, true_and, and_true]
    funext j
    split
    · rename_i hj; rw [hj]
    · rfl
  have hdr : Reap.deref (w.at i) p = .ok w.ents[p] := Reap.deref_ok (by show w.ents[p]? = _; simp)
  refine ⟨w, w, ?_, ?_, fun j => ⟨rfl, rfl⟩⟩
  · unfold step Reap.remove
    dsimp only
    rw [he]
    simp only [Go.bind_ok]
    rw [hdr]
    simp only [Go.bind_ok]
    rw [if_pos h3]
    simp only [Go.bind_ok, Go.pure_eq, hput]
  · unfold step Reap.setValue
    dsimp only
    rw [he]
    simp only [Go.bind_ok]
    rw [hdr]
    simp only [Go.bind_ok]
    rw [if_pos h3]
    simp only [Go.bind_ok, Go.pure_eq, hput]

/-- The results of a program, without the heaps. -/
def outcome (ops : List (Nat × Op Nat)) : Go (List (HandleOut Nat)) := (run natLt (start Nat) ops).map (fun r => r.2.map (·.2))

/-- **C137 (refuted).** `Remove` of an entry of another heap removes an element that was not named, and `SetValue` leaves the other heap
out of order: it gives 5 although it has 0. -/
theorem C137_foreign_refuted :
    outcome [(0, .push 5), (0, .push 7), (1, .push 1), (1, .push 2), (1, .remove ⟨0, 0⟩), (1, .pop), (0, .pop)] =
      .ok [.handle 0, .handle 1, .handle 0, .handle 1, .flag true, .val 2, .val 5] ∧
    outcome [(0, .push 5), (0, .push 7), (1, .push 1), (1, .push 2), (1, .setValue ⟨0, 1⟩ 0), (0, .pop), (0, .pop)] =
      .ok [.handle 0, .handle 1, .handle 0, .handle 1, .flag true, .val 5, .val 0] ∧
    outcome [(0, .push 5), (1, .remove ⟨0, 0⟩)] = .error .index := by decide

example : Proper [(0, .push 5), (1, .push 1), (0, .setValue ⟨0, 0⟩ 9), (1, .remove ⟨1, 0⟩), (0, .pop)] ∧
    calls 1 [(0, .push 5), (1, .push 1), (0, .setValue ⟨0, 0⟩ 9), (1, .remove ⟨1, 0⟩), (0, .pop)] = [.push 1, .remove 0] ∧
    outcome [(0, .push 5), (1, .push 1), (0, .setValue ⟨0, 0⟩ 9), (1, .remove ⟨1, 0⟩), (0, .pop)] =
      .ok [.handle 0, .handle 0, .flag true, .flag true, .val 9] := by
  refine ⟨by simp [Proper, alone], rfl, by decide⟩

end Verif.ReapWorld
