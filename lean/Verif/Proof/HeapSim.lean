import Verif.Proof.Heap

/-!
# Simulation: `up`/`down` on a richer state follow `up`/`down` on its projection
-/

namespace Verif.Heap

variable {S1 S2 : Type} {o1 : Ops S1} {o2 : Ops S2} {I : S1 → Prop} {φ : S1 → S2}

/-- Results correspond: both fail the same way, or both succeed in related states. -/
def SimG (I : S1 → Prop) (φ : S1 → S2) (r1 : Go S1) (r2 : Go S2) : Prop :=
  match r1 with
  | .ok s => I s ∧ r2 = .ok (φ s)
  | .error e => r2 = .error e

/-- As `SimG`, with an additional equal result. -/
def SimP {A : Type} (I : S1 → Prop) (φ : S1 → S2) (r1 : Go (S1 × A)) (r2 : Go (S2 × A)) : Prop :=
  match r1 with
  | .ok s => I s.1 ∧ r2 = .ok (φ s.1, s.2)
  | .error e => r2 = .error e

theorem SimG.of_ok {r1 : Go S1} {r2 : Go S2} {t : S2} (h : SimG I φ r1 r2) (e : r2 = .ok t) :
    ∃ s, r1 = .ok s ∧ I s ∧ φ s = t := by
  unfold SimG at h
  cases r1 with
  | ok s => simp only at h; rw [e] at h; exact ⟨s, rfl, h.1, (Except.ok.inj h.2).symm⟩
  | error x => simp only at h; rw [e] at h; cases h

theorem SimP.of_ok {A : Type} {r1 : Go (S1 × A)} {r2 : Go (S2 × A)} {t : S2} {a : A} (h : SimP I φ r1 r2)
    (e : r2 = .ok (t, a)) : ∃ s, r1 = .ok (s, a) ∧ I s ∧ φ s = t := by
  unfold SimP at h
  cases r1 with
  | ok s =>
    simp only at h; rw [e] at h
    obtain ⟨s, b⟩ := s
    have := Except.ok.inj h.2
    simp only [Prod.mk.injEq] at this
    exact ⟨s, by rw [this.2], h.1, this.1.symm⟩
  | error x => simp only at h; rw [e] at h; cases h

/-- The primitive operations correspond. -/
structure OpsSim (o1 : Ops S1) (o2 : Ops S2) (I : S1 → Prop) (φ : S1 → S2) : Prop where
  less : ∀ s i j, I s → o1.less s i j = o2.less (φ s) i j
  swap : ∀ s i j, I s → SimG I φ (o1.swap s i j) (o2.swap (φ s) i j)

theorem upLoop_sim (h : OpsSim o1 o2 I φ) : ∀ (fuel : Nat) (s : S1) (j : Nat), I s →
    SimG I φ (upLoop o1 fuel s j) (upLoop o2 fuel (φ s) j)
  | 0, _, _, _ => rfl
  | fuel + 1, s, j, hs => by
    unfold upLoop
    simp only
    split
    · exact ⟨hs, rfl⟩
    · rw [h.less s _ _ hs]
      cases o2.less (φ s) j ((j - 1) / 2) with
      | error e => rfl
      | ok b =>
        simp only [Go.bind_ok]
        split
        · exact ⟨hs, rfl⟩
        · have := h.swap s ((j - 1) / 2) j hs
          cases hsw : o1.swap s ((j - 1) / 2) j with
          | error e => rw [hsw] at this; simp only [SimG] at this; rw [this]; rfl
          | ok s' =>
            rw [hsw] at this
            simp only [SimG] at this
            rw [this.2]
            exact upLoop_sim h fuel s' _ this.1

theorem up_sim (h : OpsSim o1 o2 I φ) (s : S1) (j : Nat) (hs : I s) : SimG I φ (up o1 s j) (up o2 (φ s) j) :=
  upLoop_sim h _ _ _ hs

theorem downLoop_sim (h : OpsSim o1 o2 I φ) (n : Nat) : ∀ (fuel : Nat) (s : S1) (i : Nat), I s →
    SimP I φ (downLoop o1 n fuel s i) (downLoop o2 n fuel (φ s) i)
  | 0, _, _, _ => rfl
  | fuel + 1, s, i, hs => by
    unfold downLoop
    simp only
    split
    · exact ⟨hs, rfl⟩
    · have key : ∀ j, SimP I φ
          (do let b ← o1.less s j i; if !b then pure (s, i) else do let s' ← o1.swap s i j; downLoop o1 n fuel s' j)
          (do let b ← o2.less (φ s) j i
              if !b then pure (φ s, i) else do let s' ← o2.swap (φ s) i j; downLoop o2 n fuel s' j) := by
        intro j
        rw [h.less s _ _ hs]
        cases o2.less (φ s) j i with
        | error e => rfl
        | ok b =>
          simp only [Go.bind_ok]
          split
          · exact ⟨hs, rfl⟩
          · have := h.swap s i j hs
            cases hsw : o1.swap s i j with
            | error e => rw [hsw] at this; simp only [SimG] at this; rw [this]; rfl
            | ok s' =>
              rw [hsw] at this
              simp only [SimG] at this
              rw [this.2]
              exact downLoop_sim h n fuel s' _ this.1
      split
      · rw [h.less s _ _ hs]
        cases o2.less (φ s) (2 * i + 1 + 1) (2 * i + 1) with
        | error e => rfl
        | ok b => exact key _
      · exact key _

theorem down_sim (h : OpsSim o1 o2 I φ) (s : S1) (i n : Nat) (hs : I s) :
    SimP I φ (down o1 s i n) (down o2 (φ s) i n) := by
  unfold down
  have := downLoop_sim h n (n + 1) s i hs
  cases hd : downLoop o1 n (n + 1) s i with
  | error e => rw [hd] at this; simp only [SimP] at this; rw [this]; rfl
  | ok r =>
    rw [hd] at this; simp only [SimP] at this; rw [this.2]
    exact ⟨this.1, rfl⟩

theorem fixAt_sim (h : OpsSim o1 o2 I φ) (s : S1) (len i : Nat) (hs : I s) :
    SimG I φ (fixAt o1 s len i) (fixAt o2 (φ s) len i) := by
  unfold fixAt
  have := down_sim h s i len hs
  cases hd : down o1 s i len with
  | error e => rw [hd] at this; simp only [SimP] at this; rw [this]; rfl
  | ok r =>
    rw [hd] at this; simp only [SimP] at this; rw [this.2]
    simp only [Go.bind_ok]
    split
    · exact up_sim h _ _ this.1
    · exact ⟨this.1, rfl⟩

theorem removeAt_sim (h : OpsSim o1 o2 I φ) (s : S1) (len i : Nat) (hs : I s) :
    SimG I φ (removeAt o1 s len i) (removeAt o2 (φ s) len i) := by
  unfold removeAt
  simp only
  split
  · have := h.swap s i (len - 1) hs
    cases hsw : o1.swap s i (len - 1) with
    | error e => rw [hsw] at this; simp only [SimG] at this; rw [this]; rfl
    | ok s' =>
      rw [hsw] at this; simp only [SimG] at this; rw [this.2]
      simp only [Go.bind_ok]
      exact fixAt_sim h s' (len - 1) i this.1
  · exact ⟨hs, rfl⟩

/-! ## List-level operations split before the final `pop` -/

variable {T : Type}

/-- The part of `Pop` before `pop`: swap the root with the last element, sift down. -/
def popPrep (o : Ops S1) (s : S1) (n : Nat) : Go S1 := do
  let s ← o.swap s 0 n
  let (s, _) ← down o s 0 n
  pure s

theorem popPrep_sim (h : OpsSim o1 o2 I φ) (s : S1) (n : Nat) (hs : I s) :
    SimG I φ (popPrep o1 s n) (popPrep o2 (φ s) n) := by
  unfold popPrep
  have := h.swap s 0 n hs
  cases hsw : o1.swap s 0 n with
  | error e => rw [hsw] at this; simp only [SimG] at this; rw [this]; rfl
  | ok s' =>
    rw [hsw] at this; simp only [SimG] at this; rw [this.2]
    simp only [Go.bind_ok]
    have h2 := down_sim h s' 0 n this.1
    cases hd : down o1 s' 0 n with
    | error e => rw [hd] at h2; simp only [SimP] at h2; rw [h2]; rfl
    | ok r => rw [hd] at h2; simp only [SimP] at h2; rw [h2.2]; exact ⟨h2.1, rfl⟩

theorem pop_prep (lt : T → T → Bool) (h : List T) :
    pop lt h = (popPrep (listOps lt) h (h.length - 1) >>= popRaw) := by
  unfold pop popPrep
  simp only [listOps]
  cases swap h 0 (h.length - 1) with
  | error e => rfl
  | ok s =>
    simp only [Go.bind_ok]
    cases down (⟨less lt, swap⟩ : Ops (List T)) s 0 (h.length - 1) <;> rfl

theorem popRaw_inv {h : List T} {x : T} {h' : List T} (e : popRaw h = .ok (x, h')) : h = h' ++ [x] := by
  by_cases hne : 0 < h.length
  · rw [popRaw_ok h hne] at e
    simp only [Except.ok.injEq, Prod.mk.injEq] at e
    obtain ⟨rfl, rfl⟩ := e
    have := List.take_append_getElem (l := h) (i := h.length - 1) (by omega)
    rw [this, List.take_of_length_le (by omega)]
  · have : h = [] := List.length_eq_zero_iff.1 (by omega)
    subst this; simp [popRaw, Go.idx] at e

/-- `Pop` on a non-empty list: the prepared list ends with the old root. -/
theorem popPrep_spec (lt : T → T → Bool) (h : List T) (hne : 0 < h.length) :
    ∃ h', popPrep (listOps lt) h (h.length - 1) = .ok (h' ++ [h[0]]) ∧ (h[0] :: h').Perm h ∧
      (StrictWeakOrder lt → HeapN lt 2 h.length h → HeapN lt 2 h'.length h') := by
  obtain ⟨h', e, p⟩ := popG_total lt 2 2 (by omega) h hne
  have e0 := e
  rw [← pop_eq, pop_prep] at e
  cases hp : popPrep (listOps lt) h (h.length - 1) with
  | error x => rw [hp] at e; cases e
  | ok s =>
    rw [hp] at e
    simp only [Go.bind_ok] at e
    exact ⟨h', by rw [popRaw_inv e], p, fun o hh => popG_heap o 2 2 ⟨by omega, Or.inl rfl⟩ hh e0⟩

/-- `Remove(i)` in range: the prepared list ends with the old element `i`. -/
theorem removeAt_spec (lt : T → T → Bool) (h : List T) (i : Nat) (hi : i < h.length) :
    ∃ h', removeAt (listOps lt) h h.length i = .ok (h' ++ [h[i]]) ∧ (h[i] :: h').Perm h ∧
      (StrictWeakOrder lt → HeapN lt 2 h.length h → HeapN lt 2 h'.length h') := by
  obtain ⟨h', e, p⟩ := removeG_total lt 2 2 (by omega) h i hi
  have e0 := e
  rw [← remove_eq] at e
  unfold remove at e
  rw [if_neg (by omega), Int.toNat_natCast] at e
  cases hp : removeAt (listOps lt) h h.length i with
  | error x => rw [hp] at e; cases e
  | ok s =>
    rw [hp] at e
    simp only [Go.bind_ok] at e
    exact ⟨h', by rw [popRaw_inv e], p, fun o hh => removeG_heap o 2 (by omega) hh e0⟩

theorem fixAt_spec (lt : T → T → Bool) (h : List T) (i : Nat) (hi : i < h.length) :
    ∃ h', fixAt (listOps lt) h h.length i = .ok h' ∧ h'.Perm h ∧
      (StrictWeakOrder lt → Hole lt 2 2 h.length 0 h i → HeapN lt 2 h'.length h') := by
  obtain ⟨h', e, r⟩ := fixG_total lt 2 2 h.length (by omega) h i hi le_rfl
  refine ⟨h', by rw [fixAt_eq lt _ _ _ le_rfl]; exact e, r.perm, fun o hole => ?_⟩
  rw [r.length]
  exact fixG_heap_of_hole o 2 h.length (by omega) hi le_rfl hole e

theorem push_spec (lt : T → T → Bool) (h : List T) (x : T) :
    ∃ h', up (listOps lt) (h ++ [x]) h.length = .ok h' ∧ h'.Perm (x :: h) ∧
      (StrictWeakOrder lt → HeapN lt 2 h.length h → HeapN lt 2 h'.length h') := by
  obtain ⟨h', e, p⟩ := pushN_total lt 2 (by omega) h x
  refine ⟨h', ?_, p, fun o hh => pushN_heap o 2 (by omega) hh e⟩
  rw [← push_eq] at e
  unfold push pushRaw at e
  simpa using e

end Verif.Heap
