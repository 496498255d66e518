import Verif.Model.RWMutex
import Verif.Proof.Mutex

/-! # Every object protected by one read-write mutex is linearizable -/

namespace Verif.RWMutex

open Mutex (Body Vis Ev Phase Follows Seq Star Exec put put_self put_ne filter_snoc_self filter_snoc_ne done_snoc)

variable {σ Op L ρ : Type}

/-- The phase that belongs to a position. -/
def phaseOf : Pc Op L ρ → Phase Op ρ
  | .idle => .idle
  | .waiting op => .called op
  | .running op _ => .called op
  | .returning r => .effected r

structure Inv (B : Body σ Op L ρ) (reads : Op → Bool) (s0 : σ) (c : Config σ Op L ρ) (H : List (Ev Op ρ)) : Prop where
  vis : H.filterMap Ev.vis = c.hist
  follows : ∀ i, Follows (H.filter fun e => decide (e.tid = i)) (phaseOf (c.pc i))
  writer : ∀ i, c.writer = some i ↔ ∃ op l, c.pc i = .running op l ∧ reads op = false
  reader : ∀ i, c.reader i = true ↔ ∃ op l, c.pc i = .running op l ∧ reads op = true
  excl : c.writer ≠ none → ∀ i, c.reader i = false
  seq : ∃ s, Seq B s0 (H.filterMap Ev.done) s ∧ (c.writer = none → c.obj = s) ∧
    ∀ i op l, c.pc i = .running op l → ∃ l0, B.start op 0 l0 ∧ Star B (s, l0) (c.obj, l)

theorem Inv.init (B : Body σ Op L ρ) (reads : Op → Bool) (s0 : σ) : Inv B reads s0 (init s0) [] where
  vis := rfl
  follows := fun _ => .nil
  writer := by intro i; simp [RWMutex.init]
  reader := by intro i; simp [RWMutex.init]
  excl := fun h => absurd rfl h
  seq := ⟨s0, .nil s0, fun _ => rfl, by intro i op l h; simp [RWMutex.init] at h⟩

theorem Inv.step {B : Body σ Op L ρ} {reads : Op → Bool} (hro : ReadOnly B reads) {s0 : σ} {c c' : Config σ Op L ρ}
    {H : List (Ev Op ρ)} (h : Inv B reads s0 c H) (hs : Step B reads c c') : ∃ H', Inv B reads s0 c' H' := by
  obtain ⟨hvis, hfol, hwr, hrd, hex, ⟨s, hseq, hobj, hmid⟩⟩ := h
  cases hs with
  | call i op hi =>
    refine ⟨H ++ [.inv i op], ?_, ?_, ?_, ?_, hex, ?_⟩
    · rw [List.filterMap_append, hvis]; rfl
    · intro j
      by_cases hj : j = i
      · subst hj
        have := hfol j
        rw [hi] at this
        rw [filter_snoc_self H (.inv j op) (j := j) rfl]
        dsimp only
        rw [put_self]
        exact .inv op this
      · rw [filter_snoc_ne H (.inv i op) (Ne.symm hj)]
        dsimp only
        rw [put_ne _ _ hj]
        exact hfol j
    · intro j
      dsimp only
      by_cases hj : j = i
      · subst hj; rw [put_self, hwr j, hi]; simp
      · rw [put_ne _ _ hj]; exact hwr j
    · intro j
      dsimp only
      by_cases hj : j = i
      · subst hj; rw [put_self, hrd j, hi]; simp
      · rw [put_ne _ _ hj]; exact hrd j
    · rw [done_snoc H _ rfl]
      refine ⟨s, hseq, hobj, ?_⟩
      intro j op' l hj'
      dsimp only at hj' ⊢
      by_cases hj : j = i
      · subst hj; rw [put_self] at hj'; cases hj'
      · rw [put_ne _ _ hj] at hj'; exact hmid j op' l hj'
  | lock i op l hi hr hn hnr hst =>
    refine ⟨H, hvis, ?_, ?_, ?_, fun _ => hnr, ⟨s, hseq, ?_, ?_⟩⟩
    · intro j
      dsimp only
      by_cases hj : j = i
      · subst hj; rw [put_self]; have := hfol j; rw [hi] at this; exact this
      · rw [put_ne _ _ hj]; exact hfol j
    · intro j
      dsimp only
      by_cases hj : j = i
      · subst hj; rw [put_self]; exact ⟨fun _ => ⟨op, l, rfl, hr⟩, fun _ => rfl⟩
      · rw [put_ne _ _ hj, ← hwr j, hn]
        simp [Ne.symm hj]
    · intro j
      dsimp only
      by_cases hj : j = i
      · subst hj
        rw [put_self, hnr j]
        refine ⟨fun h => (by cases h), ?_⟩
        rintro ⟨op', l', he, h⟩
        cases he
        rw [hr] at h
        cases h
      · rw [put_ne _ _ hj]; exact hrd j
    · intro h; cases h
    · intro j op' l' hj'
      dsimp only at hj' ⊢
      by_cases hj : j = i
      · subst hj
        rw [put_self] at hj'
        cases hj'
        exact ⟨l, hst, by rw [hobj hn]; exact .refl _⟩
      · rw [put_ne _ _ hj] at hj'; exact hmid j op' l' hj'
  | rlock i op l hi hr hn hst =>
    refine ⟨H, hvis, ?_, ?_, ?_, ?_, ⟨s, hseq, hobj, ?_⟩⟩
    · intro j
      dsimp only
      by_cases hj : j = i
      · subst hj; rw [put_self]; have := hfol j; rw [hi] at this; exact this
      · rw [put_ne _ _ hj]; exact hfol j
    · intro j
      dsimp only
      by_cases hj : j = i
      · subst hj
        rw [put_self, hn]
        refine ⟨fun h => (by cases h), ?_⟩
        rintro ⟨op', l', he, h⟩
        cases he
        rw [hr] at h
        cases h
      · rw [put_ne _ _ hj]; exact hwr j
    · intro j
      dsimp only
      by_cases hj : j = i
      · subst hj; rw [put_self, put_self]; exact ⟨fun _ => ⟨op, l, rfl, hr⟩, fun _ => rfl⟩
      · rw [put_ne _ _ hj, put_ne _ _ hj]; exact hrd j
    · intro h; exact absurd hn h
    · intro j op' l' hj'
      dsimp only at hj' ⊢
      by_cases hj : j = i
      · subst hj
        rw [put_self] at hj'
        cases hj'
        exact ⟨l, hst, by rw [hobj hn]; exact .refl _⟩
      · rw [put_ne _ _ hj] at hj'; exact hmid j op' l' hj'
  | body i op l l' s' hi hst =>
    obtain ⟨l0, hl0, hstar⟩ := hmid i op l hi
    have hpc : ∀ j, phaseOf (put c.pc i (.running op l') j) = phaseOf (c.pc j) := by
      intro j
      by_cases hj : j = i
      · subst hj; rw [put_self, hi]; rfl
      · rw [put_ne _ _ hj]
    have hrun : ∀ j (q : Op → Prop), (∃ op₁ l₁, put c.pc i (.running op l') j = .running op₁ l₁ ∧ q op₁) ↔
        ∃ op₁ l₁, c.pc j = .running op₁ l₁ ∧ q op₁ := by
      intro j q
      by_cases hj : j = i
      · subst hj
        rw [put_self, hi]
        constructor
        · rintro ⟨a, b, he, hq⟩; cases he; exact ⟨_, _, rfl, hq⟩
        · rintro ⟨a, b, he, hq⟩; cases he; exact ⟨_, _, rfl, hq⟩
      · rw [put_ne _ _ hj]
    refine ⟨H, hvis, fun j => by rw [hpc j]; exact hfol j, fun j => (hwr j).trans (hrun j _).symm,
      fun j => (hrd j).trans (hrun j _).symm, hex, ⟨s, hseq, ?_, ?_⟩⟩
    · intro hn
      dsimp only at hn ⊢
      cases hr : reads op with
      | false =>
        have := (hwr i).2 ⟨op, l, hi, hr⟩
        rw [hn] at this
        cases this
      | true =>
        have ho := hobj hn
        rw [ho] at hstar hst
        exact hro op hr l0 s l s' l' hl0 hstar hst
    · intro j op' l₁ hj'
      dsimp only at hj' ⊢
      by_cases hj : j = i
      · subst hj
        rw [put_self] at hj'
        cases hj'
        exact ⟨l0, hl0, .tail hstar hst⟩
      · rw [put_ne _ _ hj] at hj'
        -- another goroutine is inside: both read
        have hboth : reads op = true := by
          cases hr : reads op with
          | true => rfl
          | false =>
            exfalso
            have hw := (hwr i).2 ⟨op, l, hi, hr⟩
            cases hr' : reads op' with
            | true =>
              have := (hrd j).2 ⟨op', l₁, hj', hr'⟩
              rw [hex (by rw [hw]; simp) j] at this
              cases this
            | false =>
              have := (hwr j).2 ⟨op', l₁, hj', hr'⟩
              rw [hw, Option.some.injEq] at this
              exact hj this.symm
        have hn : c.writer = none := by
          cases hc : c.writer with
          | none => rfl
          | some k =>
            have := hex (by rw [hc]; simp) i
            rw [(hrd i).2 ⟨op, l, hi, hboth⟩] at this
            cases this
        have ho := hobj hn
        rw [ho] at hstar hst
        rw [hro op hboth l0 s l s' l' hl0 hstar hst]
        obtain ⟨m0, h1, h2⟩ := hmid j op' l₁ hj'
        rw [ho] at h2
        exact ⟨m0, h1, h2⟩
  | unlock i op l r hi hr hf =>
    obtain ⟨l0, h1, h2⟩ := hmid i op l hi
    have hw := (hwr i).2 ⟨op, l, hi, hr⟩
    have hnor := hex (by rw [hw]; simp)
    have halone : ∀ j, j ≠ i → ∀ op' l', c.pc j ≠ .running op' l' := by
      intro j hj op' l' hp
      cases hr' : reads op' with
      | true =>
        have := (hrd j).2 ⟨op', l', hp, hr'⟩
        rw [hnor j] at this
        cases this
      | false =>
        have := (hwr j).2 ⟨op', l', hp, hr'⟩
        rw [hw, Option.some.injEq] at this
        exact hj this.symm
    refine ⟨H ++ [.lin i ⟨op, 0, r⟩], ?_, ?_, ?_, ?_, ?_, ?_⟩
    · rw [List.filterMap_append, hvis]; simp [Ev.vis]
    · intro j
      by_cases hj : j = i
      · subst hj
        have := hfol j
        rw [hi] at this
        rw [filter_snoc_self H (.lin j ⟨op, 0, r⟩) (j := j) rfl]
        dsimp only
        rw [put_self]
        exact .lin ⟨op, 0, r⟩ this
      · rw [filter_snoc_ne H (.lin i ⟨op, 0, r⟩) (Ne.symm hj)]
        dsimp only
        rw [put_ne _ _ hj]
        exact hfol j
    · intro j
      dsimp only
      refine ⟨fun h => (by cases h), ?_⟩
      rintro ⟨op', l', hp, -⟩
      by_cases hj : j = i
      · subst hj; rw [put_self] at hp; cases hp
      · rw [put_ne _ _ hj] at hp; exact absurd hp (halone j hj op' l')
    · intro j
      dsimp only
      rw [hnor j]
      refine ⟨fun h => (by cases h), ?_⟩
      rintro ⟨op', l', hp, -⟩
      by_cases hj : j = i
      · subst hj; rw [put_self] at hp; cases hp
      · rw [put_ne _ _ hj] at hp; exact absurd hp (halone j hj op' l')
    · intro h; exact absurd rfl h
    · rw [List.filterMap_append]
      refine ⟨c.obj, .snoc hseq ⟨l0, l, h1, h2, hf⟩, fun _ => rfl, ?_⟩
      intro j op' l' hp
      dsimp only at hp
      by_cases hj : j = i
      · subst hj; rw [put_self] at hp; cases hp
      · rw [put_ne _ _ hj] at hp; exact absurd hp (halone j hj op' l')
  | runlock i op l r hi hr hf =>
    obtain ⟨l0, h1, h2⟩ := hmid i op l hi
    have hn : c.writer = none := by
      cases hc : c.writer with
      | none => rfl
      | some k =>
        have := hex (by rw [hc]; simp) i
        rw [(hrd i).2 ⟨op, l, hi, hr⟩] at this
        cases this
    have ho := hobj hn
    rw [ho] at h2
    refine ⟨H ++ [.lin i ⟨op, 0, r⟩], ?_, ?_, ?_, ?_, ?_, ?_⟩
    · rw [List.filterMap_append, hvis]; simp [Ev.vis]
    · intro j
      by_cases hj : j = i
      · subst hj
        have := hfol j
        rw [hi] at this
        rw [filter_snoc_self H (.lin j ⟨op, 0, r⟩) (j := j) rfl]
        dsimp only
        rw [put_self]
        exact .lin ⟨op, 0, r⟩ this
      · rw [filter_snoc_ne H (.lin i ⟨op, 0, r⟩) (Ne.symm hj)]
        dsimp only
        rw [put_ne _ _ hj]
        exact hfol j
    · intro j
      dsimp only
      by_cases hj : j = i
      · subst hj; rw [put_self, hn]; simp
      · rw [put_ne _ _ hj]; exact hwr j
    · intro j
      dsimp only
      by_cases hj : j = i
      · subst hj; rw [put_self, put_self]; simp
      · rw [put_ne _ _ hj, put_ne _ _ hj]; exact hrd j
    · intro h; exact absurd hn h
    · rw [List.filterMap_append]
      refine ⟨s, .snoc hseq ⟨l0, l, h1, h2, hf⟩, fun _ => ho, ?_⟩
      intro j op' l' hp
      dsimp only at hp ⊢
      by_cases hj : j = i
      · subst hj; rw [put_self] at hp; cases hp
      · rw [put_ne _ _ hj] at hp; exact hmid j op' l' hp
  | ret i r hi =>
    refine ⟨H ++ [.res i r], ?_, ?_, ?_, ?_, hex, ?_⟩
    · rw [List.filterMap_append, hvis]; rfl
    · intro j
      by_cases hj : j = i
      · subst hj
        have := hfol j
        rw [hi] at this
        rw [filter_snoc_self H (.res j r) (j := j) rfl]
        dsimp only
        rw [put_self]
        exact .res r this
      · rw [filter_snoc_ne H (.res i r) (Ne.symm hj)]
        dsimp only
        rw [put_ne _ _ hj]
        exact hfol j
    · intro j
      dsimp only
      by_cases hj : j = i
      · subst hj; rw [put_self, hwr j, hi]; simp
      · rw [put_ne _ _ hj]; exact hwr j
    · intro j
      dsimp only
      by_cases hj : j = i
      · subst hj; rw [put_self, hrd j, hi]; simp
      · rw [put_ne _ _ hj]; exact hrd j
    · rw [done_snoc H _ rfl]
      refine ⟨s, hseq, hobj, ?_⟩
      intro j op' l hj'
      dsimp only at hj' ⊢
      by_cases hj : j = i
      · subst hj; rw [put_self] at hj'; cases hj'
      · rw [put_ne _ _ hj] at hj'; exact hmid j op' l hj'

theorem inv_of_reach (B : Body σ Op L ρ) (reads : Op → Bool) (hro : ReadOnly B reads) (s0 : σ) {c : Config σ Op L ρ}
    (h : Reach B reads s0 c) : ∃ H, Inv B reads s0 c H := by
  induction h with
  | init => exact ⟨[], Inv.init B reads s0⟩
  | step _ hs ih =>
    obtain ⟨H, hH⟩ := ih
    exact hH.step hro hs

/-- Every reachable configuration has an explanation; when no writer is inside, it leads to the object as it is. -/
theorem linearizable (B : Body σ Op L ρ) (reads : Op → Bool) (hro : ReadOnly B reads) (s0 : σ) {c : Config σ Op L ρ}
    (h : Reach B reads s0 c) : ∃ H s, Explains B s0 s c.hist H ∧ (c.writer = none → c.obj = s) := by
  obtain ⟨H, hH⟩ := inv_of_reach B reads hro s0 h
  obtain ⟨s, h1, h2, -⟩ := hH.seq
  exact ⟨H, s, ⟨hH.vis, fun i => ⟨_, hH.follows i⟩, h1⟩, h2⟩

end Verif.RWMutex
