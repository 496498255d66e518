import Verif.Proof.HeapSim
import Verif.Model.Reap

namespace Verif.Reap
open Heap

variable {T : Type} {lt : T → T → Bool}

/-- Comparison extended with a greatest element, to compare pointers by the values they designate. -/
def optLt (lt : T → T → Bool) : Option T → Option T → Bool
  | some a, some b => lt a b
  | some _, none => true
  | none, _ => false

theorem optLt_swo (o : StrictWeakOrder lt) : StrictWeakOrder (optLt lt) where
  irrefl a := by cases a <;> simp [optLt, o.irrefl]
  trans a b c h1 h2 := by
    cases a <;> cases b <;> cases c <;> simp_all [optLt]
    exact o.trans _ _ _ h1 h2
  incomp_trans a b c h1 h2 := by
    cases a <;> cases b <;> cases c <;> simp_all [optLt]
    exact o.incomp_trans _ _ _ ⟨h1.1, h1.2⟩ ⟨h2.1, h2.2⟩

/-- Values of all entries. -/
def vals (s : State T) : List T := s.ents.map (·.value)

/-- Comparison of pointers through a list of values. -/
def cmp (lt : T → T → Bool) (vs : List T) (p q : Nat) : Bool := optLt lt vs[p]? vs[q]?

theorem cmp_swo (o : StrictWeakOrder lt) (vs : List T) : StrictWeakOrder (cmp lt vs) where
  irrefl _ := (optLt_swo o).irrefl _
  trans _ _ _ := (optLt_swo o).trans _ _ _
  incomp_trans _ _ _ := (optLt_swo o).incomp_trans _ _ _

/-- The two-way link between positions and entries. -/
structure WF (s : State T) : Prop where
  fwd : ∀ (k p : Nat), s.h[k]? = some p → ∃ e, s.ents[p]? = some e ∧ e.index = k
  bwd : ∀ (p : Nat) (e : Entry T), s.ents[p]? = some e → e.index = -1 ∧ p ∉ s.h ∨ ∃ k : Nat, e.index = k ∧ s.h[k]? = some p

theorem WF.inj {s : State T} (w : WF s) {k k' p : Nat} (h1 : s.h[k]? = some p) (h2 : s.h[k']? = some p) : k = k' := by
  obtain ⟨e, he, hi⟩ := w.fwd k p h1
  obtain ⟨e', he', hi'⟩ := w.fwd k' p h2
  rw [he] at he'; cases he'
  omega

theorem WF.nodup {s : State T} (w : WF s) : s.h.Nodup := by
  rw [List.nodup_iff_pairwise_ne, List.pairwise_iff_getElem]
  intro i j hi hj hij he
  have h1 : s.h[i]? = some s.h[i] := by simp
  have h2 : s.h[j]? = some s.h[i] := by rw [he]; simp
  have := w.inj h1 h2
  omega

theorem deref_ok {s : State T} {p : Nat} {e : Entry T} (h : s.ents[p]? = some e) : deref s p = .ok e := by
  simp [deref, h]

/-- The invariant carried by the simulation. -/
def Inv (vs : List T) (s : State T) : Prop := WF s ∧ vals s = vs

theorem vals_get (s : State T) (p : Nat) : (vals s)[p]? = s.ents[p]?.map (·.value) := by
  simp [vals]

theorem less_sim (lt : T → T → Bool) (s : State T) (w : WF s) (i j : Nat) :
    less lt s i j = Heap.less (cmp lt (vals s)) s.h i j := by
  unfold less Heap.less
  by_cases hi : i < s.h.length
  · by_cases hj : j < s.h.length
    · obtain ⟨e1, h1, _⟩ := w.fwd i s.h[i] (by simp)
      obtain ⟨e2, h2, _⟩ := w.fwd j s.h[j] (by simp)
      simp [hi, hj, value, deref_ok h1, deref_ok h2, cmp, optLt, vals_get, h1, h2]
    · simp [hi, Go.idx_of_ge s.h j (by omega)]
  · simp [Go.idx_of_ge s.h i (by omega)]

theorem swap_sim (s : State T) (vs : List T) (hs : Inv vs s) (i j : Nat) :
    SimG (Inv vs) (·.h) (swap s i j) (Heap.swap s.h i j) := by
  obtain ⟨w, hv⟩ := hs
  unfold swap
  by_cases hi : i < s.h.length
  · by_cases hj : j < s.h.length
    · rw [swap_ok s.h i j hi hj]
      simp only [Go.bind_ok]
      generalize hh2 : (s.h.set i s.h[j]).set j s.h[i] = h2
      have get2 : ∀ k, h2[k]? = if k = j then s.h[i]? else if k = i then s.h[j]? else s.h[k]? := by
        intro k; rw [← hh2]; exact swap_get s.h i j k hi hj
      have len2 : h2.length = s.h.length := by rw [← hh2]; simp
      obtain ⟨e1, h1, x1⟩ := w.fwd i s.h[i] (by simp)
      obtain ⟨e2, h3, x2⟩ := w.fwd j s.h[j] (by simp)
      have gi : Go.idx h2 i = .ok s.h[j] := by
        simp only [Go.idx, get2]
        by_cases hij : i = j
        · subst hij; simp [hi]
        · simp [hij, hj]
      have gj : Go.idx h2 j = .ok s.h[i] := by
        simp only [Go.idx, get2]; simp [hi]
      simp only [gi, Go.bind_ok, setIndex]
      have d2 : deref ⟨s.ents, h2⟩ s.h[j] = .ok e2 := deref_ok h3
      rw [d2]
      simp only [Go.bind_ok, Go.pure_eq, gj]
      have hlj : s.h[j] < s.ents.length := by
        rw [List.getElem?_eq_some_iff] at h3; exact h3.1
      have hli : s.h[i] < s.ents.length := by
        rw [List.getElem?_eq_some_iff] at h1; exact h1.1
      by_cases hij : i = j
      · subst hij
        rw [h1] at h3; cases h3
        have d1 : deref ⟨s.ents.set s.h[i] { e1 with index := i }, h2⟩ s.h[i] = .ok { e1 with index := i } := by
          apply deref_ok; simp [hli]
        rw [d1]
        simp only [Go.bind_ok]
        have hset : (s.ents.set s.h[i] { e1 with index := (i : Int) }).set s.h[i]
            { value := e1.value, index := (i : Int) } = s.ents := by
          rw [List.set_set]
          apply List.ext_getElem?
          intro k
          rw [List.getElem?_set]
          split
          · rename_i hk; subst hk; rw [h1]; cases e1; simp_all
          · rfl
        have hh : h2 = s.h := by
          apply List.ext_getElem?
          intro k; rw [get2]; split <;> simp_all
        refine ⟨?_, rfl⟩
        rw [hset, hh]
        exact ⟨w, hv⟩
      · have hne : s.h[i] ≠ s.h[j] := by
          intro hc
          exact hij (w.inj (k := i) (k' := j) (p := s.h[i]) (by simp) (by rw [hc]; simp))
        have d1 : deref ⟨s.ents.set s.h[j] { e2 with index := i }, h2⟩ s.h[i] = .ok e1 := by
          apply deref_ok; simp only [List.getElem?_set, if_neg (Ne.symm hne)]; exact h1
        rw [d1]
        simp only [Go.bind_ok]
        refine ⟨⟨⟨?_, ?_⟩, ?_⟩, rfl⟩
        · intro k p hk
          simp only at hk ⊢
          rw [get2] at hk
          simp only [List.getElem?_set, List.length_set]
          by_cases hkj : k = j
          · rw [if_pos hkj] at hk
            have : p = s.h[i] := by rw [List.getElem?_eq_getElem hi] at hk; exact (Option.some.inj hk).symm
            subst this
            rw [if_pos rfl, if_pos hli]
            exact ⟨_, rfl, by simp [hkj]⟩
          · rw [if_neg hkj] at hk
            by_cases hki : k = i
            · rw [if_pos hki] at hk
              have : p = s.h[j] := by rw [List.getElem?_eq_getElem hj] at hk; exact (Option.some.inj hk).symm
              subst this
              rw [if_neg hne, if_pos rfl, if_pos hlj]
              exact ⟨_, rfl, by simp [hki]⟩
            · rw [if_neg hki] at hk
              obtain ⟨e, he, hidx⟩ := w.fwd k p hk
              have p1 : s.h[i] ≠ p := fun hc => hki (w.inj hk (by rw [← hc]; simp))
              have p2 : s.h[j] ≠ p := fun hc => hkj (w.inj hk (by rw [← hc]; simp))
              rw [if_neg p1, if_neg p2]
              exact ⟨e, he, hidx⟩
        · intro p e hp
          simp only [List.getElem?_set, List.length_set] at hp ⊢
          by_cases hpi : s.h[i] = p
          · rw [if_pos hpi, if_pos (hpi ▸ hli)] at hp
            cases hp
            right; exact ⟨j, rfl, by rw [get2, if_pos rfl, ← hpi]; simp⟩
          · rw [if_neg hpi] at hp
            by_cases hpj : s.h[j] = p
            · rw [if_pos hpj, if_pos (hpj ▸ hlj)] at hp
              cases hp
              right; exact ⟨i, rfl, by rw [get2, if_neg hij, if_pos rfl, ← hpj]; simp⟩
            · rw [if_neg hpj] at hp
              rcases w.bwd p e hp with ⟨a, b⟩ | ⟨k, a, b⟩
              · left
                refine ⟨a, fun hm => b ?_⟩
                have hperm : h2.Perm s.h := by rw [← hh2]; exact swap_perm s.h i j hi hj
                exact hperm.subset hm
              · right
                refine ⟨k, a, ?_⟩
                have k1 : k ≠ i := by
                  rintro rfl; rw [List.getElem?_eq_getElem hi] at b; exact hpi (Option.some.inj b)
                have k2 : k ≠ j := by
                  rintro rfl; rw [List.getElem?_eq_getElem hj] at b; exact hpj (Option.some.inj b)
                rw [get2, if_neg k2, if_neg k1]; exact b
        · rw [← hv]
          apply List.ext_getElem?
          intro k
          simp only [vals_get, List.getElem?_set, List.length_set]
          split
          · rename_i hk; subst hk; rw [h1]; rfl
          · split
            · rename_i hk; subst hk; rw [h3]; rfl
            · rfl
    · have : Heap.swap s.h i j = .error .index := by simp [Heap.swap, hi, Go.idx_of_ge s.h j (by omega)]
      rw [this]; rfl
  · have : Heap.swap s.h i j = .error .index := by simp [Heap.swap, Go.idx_of_ge s.h i (by omega)]
    rw [this]; rfl

theorem opsSim (lt : T → T → Bool) (vs : List T) :
    OpsSim (ops lt) (listOps (cmp lt vs)) (Inv vs) (·.h) where
  less s i j hs := by
    obtain ⟨w, hv⟩ := hs
    show less lt s i j = _
    rw [less_sim lt s w, hv]; rfl
  swap s i j hs := swap_sim s vs hs i j

/-- The handle-bag view of a state. -/
def abs (s : State T) : HandleBag T :=
  ⟨s.ents.length, fun e => if e ∈ s.h then (vals s)[e]? else none⟩

theorem abs_eq_of_perm {s s' : State T} (hv : vals s' = vals s) (hp : s'.h.Perm s.h) : abs s' = abs s := by
  unfold abs
  have hl : s'.ents.length = s.ents.length := by
    have := congrArg List.length hv
    simpa [vals] using this
  rw [hl, hv]
  congr 1
  funext e
  simp only [hp.mem_iff]

/-- The order invariant: pointers are heap ordered by the values they designate. -/
def Ordered (lt : T → T → Bool) (s : State T) : Prop := HeapN (cmp lt (vals s)) 2 s.h.length s.h

theorem HeapN.change {T : Type} {lt lt' : T → T → Bool} {d n : Nat} {h : List T} (hh : HeapN lt d n h)
    (hc : ∀ a ∈ h, ∀ b ∈ h, lt' a b = lt a b) : HeapN lt' d n h := by
  intro j j0 jn x y hx hy
  rw [hc x (List.mem_of_getElem? hx) y (List.mem_of_getElem? hy)]
  exact hh j j0 jn x y hx hy

theorem popRaw_spec {s : State T} (w : WF s) {h' : List Nat} {p : Nat} (hh : s.h = h' ++ [p]) :
    ∃ s' v, popRaw s = .ok (s', v) ∧ WF s' ∧ vals s' = vals s ∧ s'.h = h' ∧ (vals s)[p]? = some v := by
  have hlast : s.h[s.h.length - 1]? = some p := by rw [hh]; simp
  have htake : s.h.take (s.h.length - 1) = h' := by rw [hh]; simp
  obtain ⟨e, he, hidx⟩ := w.fwd _ p hlast
  have hlp : p < s.ents.length := by rw [List.getElem?_eq_some_iff] at he; exact he.1
  unfold popRaw
  have hi : Go.idx s.h (s.h.length - 1) = .ok p := by simp [Go.idx, hlast]
  rw [hi]
  simp only [Go.bind_ok, htake]
  have d1 : deref ⟨s.ents, h'⟩ p = .ok e := deref_ok he
  simp only [setIndex, d1, Go.bind_ok, Go.pure_eq, value]
  have d2 : deref ⟨s.ents.set p { value := e.value, index := -1 }, h'⟩ p = .ok { value := e.value, index := -1 } := by
    apply deref_ok; simp [hlp]
  rw [d2]
  simp only [Go.bind_ok]
  have hnd := w.nodup
  rw [hh] at hnd
  have hpn : p ∉ h' := by
    intro hm
    rw [List.nodup_append] at hnd
    exact hnd.2.2 p hm p (by simp) rfl
  have hge : ∀ k q : Nat, h'[k]? = some q → s.h[k]? = some q := by
    intro k q hk
    have : k < h'.length := by rw [List.getElem?_eq_some_iff] at hk; exact hk.1
    rw [hh, List.getElem?_append_left this]; exact hk
  refine ⟨_, _, rfl, ⟨?_, ?_⟩, ?_, rfl, ?_⟩
  · intro k q hk
    simp only at hk ⊢
    obtain ⟨e', he', hx⟩ := w.fwd k q (hge k q hk)
    have : p ≠ q := by rintro rfl; exact hpn (List.mem_of_getElem? hk)
    exact ⟨e', by simp only [List.getElem?_set, if_neg this]; exact he', hx⟩
  · intro q e' hq
    simp only [List.getElem?_set] at hq ⊢
    by_cases hpq : p = q
    · subst hpq
      rw [if_pos rfl, if_pos hlp] at hq; cases hq
      exact Or.inl ⟨rfl, hpn⟩
    · rw [if_neg hpq] at hq
      rcases w.bwd q e' hq with ⟨a, b⟩ | ⟨k, a, b⟩
      · exact Or.inl ⟨a, fun hm => b (by rw [hh]; simp [hm])⟩
      · right
        refine ⟨k, a, ?_⟩
        have hk : k < s.h.length := by rw [List.getElem?_eq_some_iff] at b; exact b.1
        have : k ≠ s.h.length - 1 := by
          rintro rfl; rw [hlast] at b; exact hpq (Option.some.inj b)
        have hl : s.h.length = h'.length + 1 := by rw [hh]; simp
        rw [hh, List.getElem?_append_left (by omega)] at b; exact b
  · apply List.ext_getElem?
    intro k
    simp only [vals_get, List.getElem?_set]
    split
    · rename_i hk; subst hk; rw [he]; rfl
    · rfl
  · rw [vals_get, he]; rfl

theorem abs_remove {s s' : State T} (hv : vals s' = vals s) {p : Nat} (w : WF s) (hp : (p :: s'.h).Perm s.h) :
    abs s' = (abs s).set p none := by
  unfold abs HandleBag.set
  have hl : s'.ents.length = s.ents.length := by
    have := congrArg List.length hv
    simpa [vals] using this
  have hnd : (p :: s'.h).Nodup := hp.nodup_iff.2 w.nodup
  simp only [hl, hv]
  congr 1
  funext e
  by_cases hep : e = p
  · subst hep
    rw [if_pos rfl, if_neg]
    exact (List.nodup_cons.1 hnd).1
  · rw [if_neg hep]
    have : e ∈ s.h ↔ e ∈ s'.h := by
      rw [← hp.mem_iff]; simp [hep]
    simp only [this]

/-! ## The operations -/

theorem push_spec (lt : T → T → Bool) {s : State T} (w : WF s) (v : T) :
    ∃ s', push lt s v = .ok (s', s.ents.length) ∧ WF s' ∧
      abs s' = { (abs s).set s.ents.length (some v) with next := s.ents.length + 1 } ∧
      (StrictWeakOrder lt → Ordered lt s → Ordered lt s') := by
  unfold push pushRaw
  simp only
  have hfresh : s.ents.length ∉ s.h := by
    intro hm
    obtain ⟨k, hk⟩ := List.getElem?_of_mem hm
    obtain ⟨e, he, _⟩ := w.fwd k _ hk
    rw [List.getElem?_eq_some_iff] at he
    exact absurd he.1 (by omega)
  let s1 : State T := ⟨s.ents ++ [⟨v, s.h.length⟩], s.h ++ [s.ents.length]⟩
  have w1 : WF s1 := by
    refine ⟨fun k p hk => ?_, fun p e hp => ?_⟩
    · simp only [s1] at hk ⊢
      by_cases hkl : k < s.h.length
      · rw [List.getElem?_append_left hkl] at hk
        obtain ⟨e, he, hi⟩ := w.fwd k p hk
        have : p < s.ents.length := by rw [List.getElem?_eq_some_iff] at he; exact he.1
        exact ⟨e, by rw [List.getElem?_append_left this]; exact he, hi⟩
      · have hkl' : k < (s.h ++ [s.ents.length]).length := by rw [List.getElem?_eq_some_iff] at hk; exact hk.1
        have : k = s.h.length := by simp at hkl'; omega
        subst this
        simp only [List.getElem?_concat_length, Option.some.injEq] at hk
        subst hk
        exact ⟨⟨v, s.h.length⟩, by simp, rfl⟩
    · simp only [s1] at hp ⊢
      by_cases hpl : p < s.ents.length
      · rw [List.getElem?_append_left hpl] at hp
        rcases w.bwd p e hp with ⟨a, b⟩ | ⟨k, a, b⟩
        · left; refine ⟨a, ?_⟩; simp [b]; omega
        · right
          have : k < s.h.length := by rw [List.getElem?_eq_some_iff] at b; exact b.1
          exact ⟨k, a, by rw [List.getElem?_append_left this]; exact b⟩
      · have hpl' : p < (s.ents ++ [(⟨v, s.h.length⟩ : Entry T)]).length := by
          rw [List.getElem?_eq_some_iff] at hp; exact hp.1
        have : p = s.ents.length := by simp at hpl'; omega
        subst this
        simp only [List.getElem?_concat_length, Option.some.injEq] at hp
        subst hp
        right; exact ⟨s.h.length, rfl, by simp⟩
  have hv1 : vals s1 = vals s ++ [v] := by simp [vals, s1]
  have hsim := up_sim (opsSim lt (vals s1)) s1 s.h.length ⟨w1, rfl⟩
  obtain ⟨h', e, p, ho⟩ := Heap.push_spec (cmp lt (vals s1)) s.h s.ents.length
  obtain ⟨s', e1, ⟨w', hv'⟩, hφ⟩ := hsim.of_ok e
  have hlen : (s.h ++ [s.ents.length]).length - 1 = s.h.length := by simp
  rw [hlen]
  refine ⟨s', by rw [show (⟨s.ents ++ [⟨v, s.h.length⟩], s.h ++ [s.ents.length]⟩ : State T) = s1 from rfl, e1]; rfl,
    w', ?_, fun o hh => ?_⟩
  · have hl : s'.ents.length = s.ents.length + 1 := by
      have := congrArg List.length hv'
      rw [hv1] at this
      simpa [vals] using this
    unfold abs HandleBag.set
    simp only [hl, hv', hv1]
    congr 1
    funext x
    have hmem : x ∈ s'.h ↔ x = s.ents.length ∨ x ∈ s.h := by rw [hφ, p.mem_iff]; simp
    have hvl : (vals s).length = s.ents.length := by simp [vals]
    by_cases hx : x = s.ents.length
    · rw [if_pos hx, if_pos (hmem.2 (Or.inl hx)), hx, ← hvl]; simp
    · rw [if_neg hx]
      by_cases hxs : x ∈ s.h
      · rw [if_pos hxs, if_pos (hmem.2 (Or.inr hxs))]
        obtain ⟨k, hk⟩ := List.getElem?_of_mem hxs
        obtain ⟨e, he, _⟩ := w.fwd k _ hk
        have : x < s.ents.length := by rw [List.getElem?_eq_some_iff] at he; exact he.1
        rw [List.getElem?_append_left (by omega)]
      · rw [if_neg hxs, if_neg (fun h => (hmem.1 h).elim hx hxs)]
  · unfold Ordered
    rw [hv', hφ]
    refine ho (cmp_swo o _) (HeapN.change hh ?_)
    intro a ha b hb
    have hvl : (vals s).length = s.ents.length := by simp [vals]
    have hlt : ∀ x ∈ s.h, x < (vals s).length := by
      intro x hx
      obtain ⟨k, hk⟩ := List.getElem?_of_mem hx
      obtain ⟨e, he, _⟩ := w.fwd k _ hk
      rw [hvl]; rw [List.getElem?_eq_some_iff] at he; exact he.1
    unfold cmp
    rw [hv1, List.getElem?_append_left (hlt a ha), List.getElem?_append_left (hlt b hb)]

theorem live_of_mem {s : State T} (w : WF s) {p : Nat} (hp : p ∈ s.h) :
    ∃ v, (vals s)[p]? = some v ∧ (abs s).live p = some v := by
  obtain ⟨k, hk⟩ := List.getElem?_of_mem hp
  obtain ⟨e, he, _⟩ := w.fwd k _ hk
  have hv : (vals s)[p]? = some e.value := by rw [vals_get, he]; rfl
  exact ⟨e.value, hv, by simp [abs, hp, hv]⟩

theorem pop_spec (lt : T → T → Bool) {s : State T} (w : WF s) (hne : 0 < s.h.length) :
    ∃ s' v, pop lt s = .ok (s', v) ∧ WF s' ∧ (vals s)[s.h[0]]? = some v ∧ abs s' = (abs s).set s.h[0] none ∧
      (StrictWeakOrder lt → Ordered lt s → Ordered lt s') := by
  obtain ⟨h', e, p, ho⟩ := popPrep_spec (cmp lt (vals s)) s.h hne
  obtain ⟨s1, e1, ⟨w1, hv1⟩, hφ⟩ := (popPrep_sim (opsSim lt (vals s)) s (s.h.length - 1) ⟨w, rfl⟩).of_ok e
  obtain ⟨s', v, e2, w', hv', hh', hval⟩ := popRaw_spec w1 hφ
  refine ⟨s', v, ?_, w', by rw [← hv1]; exact hval, ?_, fun o hh => ?_⟩
  · have : pop lt s = (popPrep (ops lt) s (s.h.length - 1) >>= popRaw) := by
      unfold pop popPrep
      simp only [ops]
      cases swap s 0 (s.h.length - 1) with
      | error e => rfl
      | ok s2 =>
        simp only [Go.bind_ok]
        cases down (⟨less lt, swap⟩ : Ops (State T)) s2 0 (s.h.length - 1) <;> rfl
    rw [this, e1]; exact e2
  · exact abs_remove (hv'.trans hv1) w (by rw [hh']; exact p)
  · unfold Ordered
    rw [hv'.trans hv1, hh']
    exact ho (cmp_swo o _) hh

theorem remove_spec (lt : T → T → Bool) {s : State T} (w : WF s) {p : Nat} (hp : p ∈ s.h) :
    ∃ s', remove lt s p = .ok (s', true) ∧ WF s' ∧ abs s' = (abs s).set p none ∧
      (StrictWeakOrder lt → Ordered lt s → Ordered lt s') := by
  obtain ⟨k, hk⟩ := List.getElem?_of_mem hp
  obtain ⟨e, he, hidx⟩ := w.fwd k _ hk
  have hkl : k < s.h.length := by rw [List.getElem?_eq_some_iff] at hk; exact hk.1
  have hkp : s.h[k] = p := by rw [List.getElem?_eq_getElem hkl] at hk; exact Option.some.inj hk
  obtain ⟨h', e0, pm, ho⟩ := removeAt_spec (cmp lt (vals s)) s.h k hkl
  obtain ⟨s1, e1, ⟨w1, hv1⟩, hφ⟩ := (removeAt_sim (opsSim lt (vals s)) s s.h.length k ⟨w, rfl⟩).of_ok e0
  obtain ⟨s', v, e2, w', hv', hh', _⟩ := popRaw_spec w1 hφ
  refine ⟨s', ?_, w', ?_, fun o hh => ?_⟩
  · unfold remove
    rw [deref_ok he]
    simp only [Go.bind_ok]
    rw [if_neg (by omega), hidx, Int.toNat_natCast, e1]
    simp only [Go.bind_ok, e2]; rfl
  · exact abs_remove (hv'.trans hv1) w (by rw [hh', ← hkp]; exact pm)
  · unfold Ordered
    rw [hv'.trans hv1, hh']
    exact ho (cmp_swo o _) hh

theorem dead_index {s : State T} (w : WF s) {p : Nat} {e : Entry T} (he : s.ents[p]? = some e) (hp : p ∉ s.h) :
    e.index = -1 := by
  rcases w.bwd p e he with ⟨a, _⟩ | ⟨k, _, b⟩
  · exact a
  · exact absurd (List.mem_of_getElem? b) hp

/-- Changing one value leaves a hole at its position. -/
theorem hole_of_change {lt : T → T → Bool} (o : StrictWeakOrder lt) {h : List T} {lt' : T → T → Bool} {i : Nat}
    (hi : i < h.length) (hh : HeapN lt 2 h.length h) (hnd : ∀ k x, h[k]? = some x → k ≠ i → x ≠ h[i])
    (hc : ∀ a ∈ h, ∀ b ∈ h, a ≠ h[i] → b ≠ h[i] → lt' a b = lt a b) : Hole lt' 2 2 h.length 0 h i := by
  have hole := Hole.of_heap (d := 2) (h2 := h) o (by omega) hi le_rfl hh (fun _ _ _ => rfl)
  have conv : ∀ a b, a ≠ i → b ≠ i → NotLess lt h a b → NotLess lt' h a b := by
    intro a b ha hb hn x y hx hy
    rw [hc x (List.mem_of_getElem? hx) y (List.mem_of_getElem? hy) (hnd a x hx ha) (hnd b y hy hb)]
    exact hn x y hx hy
  refine ⟨fun j j0 jn jl jp ji => conv _ _ ji jp (hole.edges j j0 jn jl jp ji), fun q0 ql c c1 c2 c3 => ?_⟩
  have := par_lt 2 i q0
  exact conv _ _ (by omega) (by omega) (hole.cands q0 ql c c1 c2 c3)

theorem setValue_spec (lt : T → T → Bool) {s : State T} (w : WF s) {p : Nat} (v : T) (hp : p ∈ s.h) :
    ∃ s', setValue lt s p v = .ok (s', true) ∧ WF s' ∧ abs s' = (abs s).set p (some v) ∧
      (StrictWeakOrder lt → Ordered lt s → Ordered lt s') := by
  obtain ⟨k, hk⟩ := List.getElem?_of_mem hp
  obtain ⟨e, he, hidx⟩ := w.fwd k _ hk
  have hkl : k < s.h.length := by rw [List.getElem?_eq_some_iff] at hk; exact hk.1
  have hkp : s.h[k] = p := by rw [List.getElem?_eq_getElem hkl] at hk; exact Option.some.inj hk
  have hlp : p < s.ents.length := by rw [List.getElem?_eq_some_iff] at he; exact he.1
  let s1 : State T := { s with ents := s.ents.set p { e with value := v } }
  have he1 : s1.ents[p]? = some { e with value := v } := by simp [s1, hlp]
  have w1 : WF s1 := by
    refine ⟨fun k' q hq => ?_, fun q e' hq => ?_⟩
    · obtain ⟨e', he', hi'⟩ := w.fwd k' q hq
      simp only [s1, List.getElem?_set]
      by_cases hpq : p = q
      · subst hpq
        rw [if_pos rfl, if_pos hlp]
        rw [he] at he'; cases he'
        exact ⟨_, rfl, hi'⟩
      · rw [if_neg hpq]; exact ⟨e', he', hi'⟩
    · simp only [s1, List.getElem?_set] at hq ⊢
      by_cases hpq : p = q
      · subst hpq
        rw [if_pos rfl, if_pos hlp] at hq; cases hq
        exact w.bwd p e he
      · rw [if_neg hpq] at hq; exact w.bwd q e' hq
  have hvs : ∀ q, (vals s1)[q]? = if q = p then some v else (vals s)[q]? := by
    intro q
    simp only [vals_get, s1, List.getElem?_set]
    by_cases hpq : p = q
    · subst hpq; simp [hlp]
    · rw [if_neg hpq, if_neg (Ne.symm hpq)]
  obtain ⟨h', e0, pm, ho⟩ := fixAt_spec (cmp lt (vals s1)) s.h k hkl
  obtain ⟨s', e1, ⟨w', hv1⟩, hφ⟩ := (fixAt_sim (opsSim lt (vals s1)) s1 s.h.length k ⟨w1, rfl⟩).of_ok e0
  refine ⟨s', ?_, w', ?_, fun o hh => ?_⟩
  · unfold setValue
    simp only [deref_ok he, Go.bind_ok]
    rw [if_neg (by omega)]
    simp only [setVal, deref_ok he, Go.bind_ok, Go.pure_eq]
    rw [show ({ s with ents := s.ents.set p { e with value := v } } : State T) = s1 from rfl, deref_ok he1]
    simp only [Go.bind_ok]
    rw [hidx, Int.toNat_natCast, show s1.h.length = s.h.length from rfl, e1]; rfl
  · rw [abs_eq_of_perm (s := s1) hv1 (by rw [hφ]; exact pm)]
    unfold abs HandleBag.set
    simp only
    rw [show s1.ents.length = s.ents.length by simp [s1], show s1.h = s.h from rfl]
    congr 1
    funext x
    rw [hvs]
    by_cases hx : x = p
    · subst hx; simp [hp]
    · simp [hx]
  · unfold Ordered
    rw [hv1, hφ]
    refine ho (cmp_swo o _) (hole_of_change (cmp_swo o (vals s)) hkl hh ?_ ?_)
    · intro k' x hx hne hc
      exact hne (w.inj hx (by rw [hc, hkp]; exact hk))
    · intro a ha b hb hna hnb
      rw [hkp] at hna hnb
      unfold cmp
      rw [hvs, hvs, if_neg hna, if_neg hnb]

theorem peek_spec {s : State T} (w : WF s) (hne : 0 < s.h.length) :
    ∃ v, peek s = .ok v ∧ (abs s).live s.h[0] = some v := by
  obtain ⟨e, he, _⟩ := w.fwd 0 s.h[0] (by simp)
  refine ⟨e.value, ?_, ?_⟩
  · simp [peek, hne, value, deref_ok he]
  · simp [abs, vals_get, he]

theorem isMin_of_ordered (o : StrictWeakOrder lt) {s : State T} (hh : Ordered lt s) (hne : 0 < s.h.length)
    {v : T} (hv : (vals s)[s.h[0]]? = some v) : (abs s).IsMin lt s.h[0] v := by
  refine ⟨by simp [abs, hv], fun e' v' hl => ?_⟩
  have he' : e' ∈ s.h := by
    by_contra hc
    simp [abs, hc] at hl
  have hv' : (vals s)[e']? = some v' := by simpa [abs, he'] using hl
  obtain ⟨k, hk⟩ := List.getElem?_of_mem he'
  have hkl : k < s.h.length := by rw [List.getElem?_eq_some_iff] at hk; exact hk.1
  have := HeapN.root_min (cmp_swo o _) hh le_rfl k hkl e' s.h[0] hk (by simp)
  simpa [cmp, hv, hv', optLt] using this

end Verif.Reap
