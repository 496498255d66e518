import Verif.Proof.HeapSim
import Verif.Model.Meap

set_option linter.unusedSectionVars false

namespace Verif.Meap
open Heap

variable {K V : Type} [DecidableEq K] {lt : K × V → K × V → Bool}

/-- The two-way link between the slice and the map. -/
structure WF (s : State K V) : Prop where
  fwd : ∀ (i : Nat) (e : K × V), s.h[i]? = some e → s.m e.1 = some i
  bwd : ∀ (k : K) (i : Nat), s.m k = some i → ∃ v, s.h[i]? = some (k, v)

theorem WF.inj {s : State K V} (w : WF s) {i j : Nat} {a b : K × V} (hi : s.h[i]? = some a) (hj : s.h[j]? = some b)
    (hk : a.1 = b.1) : i = j := by
  have h1 := w.fwd i a hi
  have h2 := w.fwd j b hj
  rw [hk, h2] at h1
  exact (Option.some.inj h1).symm

theorem swap_sim (s : State K V) (w : WF s) (i j : Nat) : SimG WF (·.h) (swap s i j) (Heap.swap s.h i j) := by
  unfold swap
  by_cases hi : i < s.h.length
  · by_cases hj : j < s.h.length
    · rw [swap_ok s.h i j hi hj]
      simp only [Go.bind_ok]
      generalize hh2 : (s.h.set i s.h[j]).set j s.h[i] = h2
      have get2 : ∀ k, h2[k]? = if k = j then s.h[i]? else if k = i then s.h[j]? else s.h[k]? := by
        intro k; rw [← hh2]; exact swap_get s.h i j k hi hj
      have ei : s.h[i]? = some s.h[i] := by simp
      have ej : s.h[j]? = some s.h[j] := by simp
      have gi : Go.idx h2 i = .ok s.h[j] := by
        simp only [Go.idx, get2]
        by_cases hij : i = j
        · subst hij; simp [hi]
        · simp [hij, hj]
      have gj : Go.idx h2 j = .ok s.h[i] := by
        simp only [Go.idx, get2]; simp [hi]
      simp only [gi, gj, Go.bind_ok]
      refine ⟨⟨fun k e hk => ?_, fun key k hm => ?_⟩, rfl⟩
      · simp only at hk ⊢
        rw [get2] at hk
        unfold upd
        by_cases hkj : k = j
        · rw [if_pos hkj, ei] at hk
          cases hk
          rw [if_pos rfl, hkj]
        · rw [if_neg hkj] at hk
          by_cases hki : k = i
          · rw [if_pos hki, ej] at hk
            cases hk
            rw [if_neg, if_pos rfl, hki]
            intro hc
            exact hkj (hki.trans (w.inj ei ej hc.symm))
          · rw [if_neg hki] at hk
            rw [if_neg (fun hc => hki (w.inj hk ei hc)), if_neg (fun hc => hkj (w.inj hk ej hc))]
            exact w.fwd k e hk
      · simp only [upd] at hm ⊢
        by_cases h1 : key = s.h[i].1
        · rw [if_pos h1] at hm
          cases hm
          exact ⟨s.h[i].2, by rw [get2, if_pos rfl, ei, h1]⟩
        · rw [if_neg h1] at hm
          by_cases h2' : key = s.h[j].1
          · rw [if_pos h2'] at hm
            cases hm
            refine ⟨s.h[j].2, ?_⟩
            have hij : i ≠ j := by rintro rfl; exact h1 h2'
            rw [get2, if_neg hij, if_pos rfl, ej, h2']
          · rw [if_neg h2'] at hm
            obtain ⟨v, hv⟩ := w.bwd key k hm
            refine ⟨v, ?_⟩
            have k1 : k ≠ j := by rintro rfl; rw [ej] at hv; apply h2'; rw [Option.some.inj hv]
            have k2 : k ≠ i := by rintro rfl; rw [ei] at hv; apply h1; rw [Option.some.inj hv]
            rw [get2, if_neg k1, if_neg k2]; exact hv
    · have : Heap.swap s.h i j = .error .index := by simp [Heap.swap, hi, Go.idx_of_ge s.h j (by omega)]
      rw [this]; rfl
  · have : Heap.swap s.h i j = .error .index := by simp [Heap.swap, Go.idx_of_ge s.h i (by omega)]
    rw [this]; rfl

theorem opsSim (lt : K × V → K × V → Bool) : OpsSim (ops lt) (listOps lt) (WF (K := K) (V := V)) (·.h) where
  less _ _ _ _ := rfl
  swap s i j hs := swap_sim s hs i j

/-- The map view of a state. -/
def abs (s : State K V) : K → Option V := fun k => (s.m k).bind fun i => s.h[i]?.map (·.2)

theorem abs_some_iff {s : State K V} (w : WF s) (k : K) (v : V) : abs s k = some v ↔ (k, v) ∈ s.h := by
  unfold abs
  constructor
  · intro h
    cases hm : s.m k with
    | none => simp [hm] at h
    | some i =>
      obtain ⟨v', hv⟩ := w.bwd k i hm
      simp only [hm, Option.bind_some, hv, Option.map_some, Option.some.injEq] at h
      subst h
      exact List.mem_of_getElem? hv
  · intro h
    obtain ⟨i, hi⟩ := List.getElem?_of_mem h
    have := w.fwd i _ hi
    simp only at this
    simp [this, hi]

theorem abs_isSome_iff {s : State K V} (w : WF s) (k : K) : (abs s k).isSome ↔ (s.m k).isSome := by
  cases hm : s.m k with
  | none => simp [abs, hm]
  | some i => obtain ⟨v, hv⟩ := w.bwd k i hm; simp [abs, hm, hv]

theorem abs_eq_of_perm {s s' : State K V} (w : WF s) (w' : WF s') (hp : s'.h.Perm s.h) : abs s' = abs s := by
  funext k
  cases h : abs s k with
  | some v => rw [abs_some_iff w', hp.mem_iff]; exact (abs_some_iff w k v).1 h
  | none =>
    cases h' : abs s' k with
    | none => rfl
    | some v =>
      rw [abs_some_iff w', hp.mem_iff] at h'
      rw [(abs_some_iff w k v).2 h'] at h; cases h

theorem WF.keys_nodup {s : State K V} (w : WF s) : (s.h.map (·.1)).Nodup := by
  rw [List.nodup_iff_pairwise_ne, List.pairwise_iff_getElem]
  intro i j hi hj hij he
  simp only [List.length_map] at hi hj
  simp only [List.getElem_map] at he
  have := w.inj (i := i) (j := j) (a := s.h[i]) (b := s.h[j]) (by simp) (by simp) he
  omega

theorem mem_keys_iff {s : State K V} (w : WF s) (k : K) : k ∈ s.h.map (·.1) ↔ (abs s k).isSome := by
  rw [Option.isSome_iff_exists]
  constructor
  · intro h
    obtain ⟨e, he, rfl⟩ := List.mem_map.1 h
    exact ⟨e.2, (abs_some_iff w _ _).2 he⟩
  · rintro ⟨v, hv⟩
    exact List.mem_map.2 ⟨_, (abs_some_iff w _ _).1 hv, rfl⟩

theorem abs_remove {s s' : State K V} {x : K × V} (w : WF s) (w' : WF s') (hp : (x :: s'.h).Perm s.h) :
    abs s' = mapSet (abs s) x.1 none := by
  have hnd : ((x :: s'.h).map (·.1)).Nodup := (hp.map _).nodup_iff.2 w.keys_nodup
  simp only [List.map_cons, List.nodup_cons] at hnd
  funext k
  unfold mapSet
  by_cases hk : k = x.1
  · rw [if_pos hk]
    have : ¬ (abs s' k).isSome := by rw [← mem_keys_iff w', hk]; exact hnd.1
    simpa using this
  · rw [if_neg hk]
    cases h : abs s k with
    | some v =>
      rw [abs_some_iff w'] 
      have := (abs_some_iff w k v).1 h
      rw [← hp.mem_iff] at this
      rcases List.mem_cons.1 this with h' | h'
      · exact absurd (by rw [← h']) hk
      · exact h'
    | none =>
      cases h' : abs s' k with
      | none => rfl
      | some v =>
        have := (abs_some_iff w' k v).1 h'
        have := hp.subset (List.mem_cons_of_mem x this)
        rw [(abs_some_iff w k v).2 this] at h; cases h

theorem popRaw_spec {s : State K V} (w : WF s) {h' : List (K × V)} {x : K × V} (hh : s.h = h' ++ [x]) :
    ∃ s', popRaw s = .ok (s', x) ∧ WF s' ∧ s'.h = h' := by
  have hlast : s.h[s.h.length - 1]? = some x := by rw [hh]; simp
  have htake : s.h.take (s.h.length - 1) = h' := by rw [hh]; simp
  have hl : s.h.length = h'.length + 1 := by rw [hh]; simp
  unfold popRaw
  have hi : Go.idx s.h (s.h.length - 1) = .ok x := by simp [Go.idx, hlast]
  rw [hi]
  simp only [Go.bind_ok, htake, Go.pure_eq]
  have hge : ∀ (k : Nat) (q : K × V), h'[k]? = some q → s.h[k]? = some q ∧ k < h'.length := by
    intro k q hk
    have : k < h'.length := by rw [List.getElem?_eq_some_iff] at hk; exact hk.1
    rw [hh, List.getElem?_append_left this]; exact ⟨hk, this⟩
  refine ⟨_, rfl, ⟨fun k e hk => ?_, fun key k hm => ?_⟩, rfl⟩
  · obtain ⟨h1, h2⟩ := hge k e hk
    simp only [del]
    rw [if_neg]
    · exact w.fwd k e h1
    · intro hc
      have := w.inj h1 hlast hc
      omega
  · simp only [del] at hm ⊢
    by_cases hc : key = x.1
    · rw [if_pos hc] at hm; cases hm
    · rw [if_neg hc] at hm
      obtain ⟨v, hv⟩ := w.bwd key k hm
      refine ⟨v, ?_⟩
      have hk : k < s.h.length := by rw [List.getElem?_eq_some_iff] at hv; exact hv.1
      have : k ≠ s.h.length - 1 := by
        rintro rfl; rw [hlast] at hv; apply hc; rw [Option.some.inj hv]
      rw [hh, List.getElem?_append_left (by omega)] at hv; exact hv

/-- The order invariant. -/
def Ordered (lt : K × V → K × V → Bool) (s : State K V) : Prop := HeapN lt 2 s.h.length s.h

theorem pop_spec (lt : K × V → K × V → Bool) {s : State K V} (w : WF s) (hne : 0 < s.h.length) :
    ∃ s', pop lt s = .ok (s', s.h[0]) ∧ WF s' ∧ abs s' = mapSet (abs s) s.h[0].1 none ∧
      (StrictWeakOrder lt → Ordered lt s → Ordered lt s') := by
  obtain ⟨h', e, p, ho⟩ := popPrep_spec lt s.h hne
  obtain ⟨s1, e1, w1, hφ⟩ := (popPrep_sim (opsSim lt) s (s.h.length - 1) w).of_ok e
  obtain ⟨s', e2, w', hh'⟩ := popRaw_spec w1 hφ
  refine ⟨s', ?_, w', abs_remove w w' (by rw [hh']; exact p), fun o hh => ?_⟩
  · have : pop lt s = (popPrep (ops lt) s (s.h.length - 1) >>= popRaw) := by
      unfold pop popPrep
      simp only [ops]
      cases swap s 0 (s.h.length - 1) with
      | error e => rfl
      | ok s2 =>
        simp only [Go.bind_ok]
        cases down (⟨less lt, swap⟩ : Ops (State K V)) s2 0 (s.h.length - 1) <;> rfl
    rw [this, e1]; exact e2
  · unfold Ordered
    rw [hh']
    exact ho o hh

theorem remove_spec (lt : K × V → K × V → Bool) {s : State K V} (w : WF s) (k : K) :
    ∃ s', remove lt s k = .ok s' ∧ WF s' ∧ abs s' = mapSet (abs s) k none ∧
      (StrictWeakOrder lt → Ordered lt s → Ordered lt s') := by
  unfold remove
  cases hm : s.m k with
  | none =>
    refine ⟨s, rfl, w, ?_, fun _ h => h⟩
    funext k'
    unfold mapSet
    by_cases hk : k' = k
    · rw [if_pos hk, hk]; simp [abs, hm]
    · rw [if_neg hk]
  | some i =>
    obtain ⟨v, hv⟩ := w.bwd k i hm
    have hi : i < s.h.length := by rw [List.getElem?_eq_some_iff] at hv; exact hv.1
    have hiv : s.h[i] = (k, v) := by rw [List.getElem?_eq_getElem hi] at hv; exact Option.some.inj hv
    obtain ⟨h', e0, pm, ho⟩ := removeAt_spec lt s.h i hi
    obtain ⟨s1, e1, w1, hφ⟩ := (removeAt_sim (opsSim lt) s s.h.length i w).of_ok e0
    obtain ⟨s', e2, w', hh'⟩ := popRaw_spec w1 hφ
    refine ⟨s', ?_, w', ?_, fun o hh => ?_⟩
    · simp only [e1, Go.bind_ok, e2]; rfl
    · have := abs_remove w w' (by rw [hh']; exact pm)
      rw [hiv] at this; exact this
    · unfold Ordered
      rw [hh']
      exact ho o hh

theorem push_spec (lt : K × V → K × V → Bool) {s : State K V} (w : WF s) (k : K) (v : V) :
    ∃ s', push lt s k v = .ok s' ∧ WF s' ∧ abs s' = mapSet (abs s) k (some v) ∧
      (StrictWeakOrder lt → Ordered lt s → Ordered lt s') := by
  unfold push
  cases hm : s.m k with
  | none =>
    let s1 := pushRaw s k v
    have hl1 : s1.h.length - 1 = s.h.length := by simp [s1, pushRaw]
    have hnk : ∀ (i : Nat) (e : K × V), s.h[i]? = some e → e.1 ≠ k := by
      intro i e he hc
      have := w.fwd i e he
      rw [hc, hm] at this; cases this
    have w1 : WF s1 := by
      refine ⟨fun i e hi => ?_, fun key i hmi => ?_⟩
      · simp only [s1, pushRaw] at hi ⊢
        unfold upd
        by_cases hil : i < s.h.length
        · rw [List.getElem?_append_left hil] at hi
          rw [if_neg (hnk i e hi)]
          exact w.fwd i e hi
        · have hil' : i < (s.h ++ [(k, v)]).length := by rw [List.getElem?_eq_some_iff] at hi; exact hi.1
          have : i = s.h.length := by simp at hil'; omega
          subst this
          simp only [List.getElem?_concat_length, Option.some.injEq] at hi
          subst hi
          simp
      · simp only [s1, pushRaw, upd] at hmi ⊢
        by_cases hk : key = k
        · rw [if_pos hk] at hmi; cases hmi
          exact ⟨v, by simp [hk]⟩
        · rw [if_neg hk] at hmi
          obtain ⟨v', hv'⟩ := w.bwd key i hmi
          have : i < s.h.length := by rw [List.getElem?_eq_some_iff] at hv'; exact hv'.1
          exact ⟨v', by rw [List.getElem?_append_left this]; exact hv'⟩
    obtain ⟨h', e, p, ho⟩ := Heap.push_spec lt s.h (k, v)
    obtain ⟨s', e1, w', hφ⟩ := (up_sim (opsSim lt) s1 s.h.length w1).of_ok e
    refine ⟨s', by simp only; rw [show (pushRaw s k v) = s1 from rfl, hl1]; exact e1, w', ?_, fun o hh => ?_⟩
    · funext k'
      unfold mapSet
      have hmem : ∀ v', abs s' k' = some v' ↔ (k', v') = (k, v) ∨ (k', v') ∈ s.h := by
        intro v'; rw [abs_some_iff w', hφ, p.mem_iff, List.mem_cons]
      by_cases hk : k' = k
      · rw [if_pos hk, hmem, hk]; exact Or.inl rfl
      · rw [if_neg hk]
        cases h : abs s k' with
        | some v' => rw [hmem]; exact Or.inr ((abs_some_iff w _ _).1 h)
        | none =>
          cases h' : abs s' k' with
          | none => rfl
          | some v' =>
            rcases (hmem v').1 h' with hc | hc
            · exact absurd (congrArg Prod.fst hc) hk
            · rw [(abs_some_iff w _ _).2 hc] at h; cases h
    · unfold Ordered
      rw [hφ]
      exact ho o hh
  | some i =>
    obtain ⟨v0, hv0⟩ := w.bwd k i hm
    have hi : i < s.h.length := by rw [List.getElem?_eq_some_iff] at hv0; exact hv0.1
    have hix : Go.idx s.h i = .ok (k, v0) := by simp [Go.idx, hv0]
    simp only [hix, Go.bind_ok]
    let s1 : State K V := { s with h := s.h.set i (k, v) }
    have hl1 : s1.h.length = s.h.length := by simp [s1]
    have get1 : ∀ j, s1.h[j]? = if j = i then some (k, v) else s.h[j]? := by
      intro j
      simp only [s1, List.getElem?_set]
      by_cases hj : i = j
      · subst hj; simp [hi]
      · rw [if_neg hj, if_neg (Ne.symm hj)]
    have w1 : WF s1 := by
      refine ⟨fun j e hj => ?_, fun key j hmj => ?_⟩
      · rw [get1] at hj
        by_cases hji : j = i
        · rw [if_pos hji] at hj; cases hj; rw [hji]; exact hm
        · rw [if_neg hji] at hj; exact w.fwd j e hj
      · obtain ⟨v', hv'⟩ := w.bwd key j hmj
        rw [get1]
        by_cases hji : j = i
        · rw [if_pos hji]
          subst hji
          rw [hv0] at hv'
          have := congrArg Prod.fst (Option.some.inj hv')
          simp only at this
          exact ⟨v, by rw [this]⟩
        · rw [if_neg hji]; exact ⟨v', hv'⟩
    obtain ⟨h', e0, pm, ho⟩ := fixAt_spec lt s1.h i (by omega)
    obtain ⟨s', e1, w', hφ⟩ := (fixAt_sim (opsSim lt) s1 s1.h.length i w1).of_ok e0
    refine ⟨s', e1, w', ?_, fun o hh => ?_⟩
    · rw [abs_eq_of_perm w1 w' (by rw [hφ]; exact pm)]
      funext k'
      unfold mapSet abs
      simp only [get1]
      by_cases hk : k' = k
      · subst hk; simp [s1, hm]
      · rw [if_neg hk]
        cases hm' : s.m k' with
        | none => simp [s1, hm']
        | some j =>
          have : j ≠ i := by
            rintro rfl
            obtain ⟨v', hv'⟩ := w.bwd k' j hm'
            rw [hv0] at hv'
            exact hk (congrArg Prod.fst (Option.some.inj hv')).symm
          simp [s1, hm', this]
    · unfold Ordered
      rw [hφ]
      refine ho o ?_
      rw [hl1]
      exact Hole.of_heap o (by omega) hi le_rfl hh (fun j _ hj => by rw [get1, if_neg hj])

theorem isMin_of_ordered (o : StrictWeakOrder lt) {s : State K V} (w : WF s) (hh : Ordered lt s) (hne : 0 < s.h.length) :
    MapMin lt (abs s) s.h[0] := by
  refine ⟨(abs_some_iff w _ _).2 (by simp), fun k v hv => ?_⟩
  have hm := (abs_some_iff w k v).1 hv
  obtain ⟨i, hi⟩ := List.getElem?_of_mem hm
  have hil : i < s.h.length := by rw [List.getElem?_eq_some_iff] at hi; exact hi.1
  exact HeapN.root_min o hh le_rfl i hil _ _ hi (by simp)

theorem get_spec {s : State K V} (w : WF s) (k : K) : get s k = .ok (abs s k) := by
  unfold get abs
  cases hm : s.m k with
  | none => rfl
  | some i => obtain ⟨v, hv⟩ := w.bwd k i hm; simp [Go.idx, hv]

end Verif.Meap
