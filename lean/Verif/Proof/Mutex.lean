import Verif.Model.Mutex
import Mathlib.Data.List.Basic

/-! # Every object protected by one mutex is linearizable -/

namespace Verif.Mutex

variable {σ Op L ρ : Type}

/-- The phase that belongs to a position. -/
def phaseOf : Pc Op L ρ → Phase Op ρ
  | .idle => .idle
  | .waiting op => .called op
  | .locked op => .called op
  | .running op _ _ => .called op
  | .returning r => .effected r

/-- The goroutine is between `Lock` and `Unlock`. -/
def inside : Pc Op L ρ → Prop
  | .locked _ => True
  | .running _ _ _ => True
  | _ => False

/-- The object while one goroutine is inside: `s` is the object after the completed calls. -/
def Mid (B : Body σ Op L ρ) (s : σ) (last : Int) (c : Config σ Op L ρ) : Pc Op L ρ → Prop
  | .locked _ => c.obj = s
  | .running op now l => (∃ l0, B.start op now l0 ∧ Star B (s, l0) (c.obj, l)) ∧ last ≤ now ∧ now ≤ c.clock
  | _ => True

/-- The last clock reading. -/
def lastNow (t0 : Int) (ds : List (Done Op ρ)) : Int := ((t0 :: ds.map (·.now)).getLast (by simp))

structure Inv (B : Body σ Op L ρ) (s0 : σ) (t0 : Int) (c : Config σ Op L ρ) (H : List (Ev Op ρ)) : Prop where
  vis : H.filterMap Ev.vis = c.hist
  follows : ∀ i, Follows (H.filter fun e => decide (e.tid = i)) (phaseOf (c.pc i))
  hold : ∀ i, inside (c.pc i) ↔ c.holder = some i
  seq : ∃ s, Seq B s0 (H.filterMap Ev.done) s ∧ (c.holder = none → c.obj = s) ∧
    ∀ i, inside (c.pc i) → Mid B s (lastNow t0 (H.filterMap Ev.done)) c (c.pc i)
  mono : (t0 :: (H.filterMap Ev.done).map (·.now)).Pairwise (· ≤ ·)
  clock : lastNow t0 (H.filterMap Ev.done) ≤ c.clock

theorem put_self {α : Type} (f : Nat → α) (i : Nat) (a : α) : put f i a i = a := by simp [put]

theorem put_ne {α : Type} (f : Nat → α) {i j : Nat} (a : α) (h : j ≠ i) : put f i a j = f j := by simp [put, h]

theorem lastNow_snoc (t0 : Int) (ds : List (Done Op ρ)) (d : Done Op ρ) : lastNow t0 (ds ++ [d]) = d.now := by
  unfold lastNow
  simp [List.getLast_cons]

theorem pairwise_snoc {t0 : Int} {ns : List Int} {n : Int} (h : (t0 :: ns).Pairwise (· ≤ ·))
    (hn : (t0 :: ns).getLast (by simp) ≤ n) : (t0 :: (ns ++ [n])).Pairwise (· ≤ ·) := by
  have : t0 :: (ns ++ [n]) = (t0 :: ns) ++ [n] := rfl
  rw [this, List.pairwise_append]
  refine ⟨h, by simp, ?_⟩
  intro a ha b hb
  simp only [List.mem_singleton] at hb
  subst hb
  have hle : ∀ (l : List Int) (hl : l ≠ []), l.Pairwise (· ≤ ·) → ∀ a ∈ l, a ≤ l.getLast hl := by
    intro l
    induction l with
    | nil => intro hl; exact absurd rfl hl
    | cons x xs ih =>
      intro _ hp a ha
      rw [List.pairwise_cons] at hp
      by_cases hx : xs = []
      · subst hx
        simp only [List.mem_singleton] at ha
        subst ha
        simp
      · rw [List.getLast_cons hx]
        rcases List.mem_cons.1 ha with h | h
        · subst h; exact hp.1 _ (List.getLast_mem hx)
        · exact ih hx hp.2 a h
  exact Int.le_trans (hle _ _ h a ha) hn

theorem filter_snoc_self (H : List (Ev Op ρ)) (e : Ev Op ρ) {j : Nat} (h : e.tid = j) :
    ((H ++ [e]).filter fun x => decide (x.tid = j)) = (H.filter fun x => decide (x.tid = j)) ++ [e] := by
  rw [List.filter_append]; simp [h]

theorem done_snoc (H : List (Ev Op ρ)) (e : Ev Op ρ) (h : e.done = none) :
    (H ++ [e]).filterMap Ev.done = H.filterMap Ev.done := by
  rw [List.filterMap_append, List.filterMap_cons_none h]; simp

theorem filter_snoc_ne (H : List (Ev Op ρ)) (e : Ev Op ρ) {j : Nat} (h : e.tid ≠ j) :
    ((H ++ [e]).filter fun x => decide (x.tid = j)) = H.filter fun x => decide (x.tid = j) := by
  rw [List.filter_append]; simp [h]

theorem Inv.init (B : Body σ Op L ρ) (s0 : σ) (t0 : Int) : Inv B s0 t0 (init s0 t0) [] where
  vis := rfl
  follows := fun _ => .nil
  hold := by intro i; simp [Mutex.init, inside]
  seq := ⟨s0, .nil s0, fun _ => rfl, by intro i h; simp [Mutex.init, inside] at h⟩
  mono := by simp
  clock := by simp [lastNow, Mutex.init]

theorem Inv.step {B : Body σ Op L ρ} {s0 : σ} {t0 : Int} {c c' : Config σ Op L ρ} {H : List (Ev Op ρ)}
    (h : Inv B s0 t0 c H) (hs : Step B c c') : ∃ H', Inv B s0 t0 c' H' := by
  obtain ⟨hvis, hfol, hhold, ⟨s, hseq, hobj, hmid⟩, hmono, hclock⟩ := h
  cases hs with
  | tick d hd =>
    refine ⟨H, hvis, hfol, hhold, ⟨s, hseq, hobj, ?_⟩, hmono, ?_⟩
    · intro i hi
      have := hmid i hi
      cases hp : c.pc i with
      | running op now l =>
        rw [hp] at this
        exact ⟨this.1, this.2.1, by have := this.2.2; show now ≤ c.clock + d; omega⟩
      | locked op => rw [hp] at this; exact this
      | idle => trivial
      | waiting op => trivial
      | returning r => trivial
    · show _ ≤ c.clock + d; omega
  | call i op hi =>
    refine ⟨H ++ [.inv i op], ?_, ?_, ?_, ?_, ?_, ?_⟩
    · rw [List.filterMap_append, hvis]; rfl
    · intro j
      by_cases hj : j = i
      · subst hj
        have := hfol j
        rw [hi] at this
        rw [filter_snoc_self H (.inv j op) (j := j) rfl]
        dsimp only
        rw [put_self]
        exact .inv op this
      · rw [filter_snoc_ne H (.inv i op) (Ne.symm hj)]
        dsimp only
        rw [put_ne _ _ hj]
        exact hfol j
    · intro j
      dsimp only
      by_cases hj : j = i
      · subst hj
        rw [put_self, ← hhold j, hi]
        simp [inside]
      · rw [put_ne _ _ hj]; exact hhold j
    · rw [done_snoc H _ rfl]
      refine ⟨s, hseq, hobj, ?_⟩
      intro j hj'
      dsimp only at hj' ⊢
      by_cases hj : j = i
      · subst hj; rw [put_self] at hj'; exact absurd hj' (by simp [inside])
      · rw [put_ne _ _ hj] at hj' ⊢
        have := hmid j hj'
        cases hp : c.pc j <;> rw [hp] at this <;> exact this
    · rw [done_snoc H _ rfl]; exact hmono
    · rw [done_snoc H _ rfl]; exact hclock
  | lock i op hi hn =>
    refine ⟨H, hvis, ?_, ?_, ⟨s, hseq, ?_, ?_⟩, hmono, hclock⟩
    · intro j
      dsimp only
      by_cases hj : j = i
      · subst hj; rw [put_self]; have := hfol j; rw [hi] at this; exact this
      · rw [put_ne _ _ hj]; exact hfol j
    · intro j
      dsimp only
      by_cases hj : j = i
      · subst hj; rw [put_self]; simp [inside]
      · rw [put_ne _ _ hj, hhold j, hn]
        simp [Ne.symm hj]
    · intro h; cases h
    · intro j hj'
      dsimp only at hj' ⊢
      by_cases hj : j = i
      · subst hj; rw [put_self]; exact hobj hn
      · rw [put_ne _ _ hj] at hj'
        rw [hhold j, hn] at hj'
        cases hj'
  | read i op l hi hst =>
    have hin : inside (c.pc i) := by rw [hi]; trivial
    refine ⟨H, hvis, ?_, ?_, ⟨s, hseq, hobj, ?_⟩, hmono, hclock⟩
    · intro j
      dsimp only
      by_cases hj : j = i
      · subst hj; rw [put_self]; have := hfol j; rw [hi] at this; exact this
      · rw [put_ne _ _ hj]; exact hfol j
    · intro j
      dsimp only
      by_cases hj : j = i
      · subst hj; rw [put_self]; simp only [inside, true_iff]; exact (hhold j).1 hin
      · rw [put_ne _ _ hj]; exact hhold j
    · intro j hj'
      dsimp only at hj' ⊢
      by_cases hj : j = i
      · subst hj
        rw [put_self]
        have := hmid j hin
        rw [hi] at this
        refine ⟨⟨l, hst, ?_⟩, hclock, Int.le_refl _⟩
        have he : c.obj = s := this
        dsimp only
        rw [he]; exact .refl _
      · rw [put_ne _ _ hj] at hj' ⊢
        have := hmid j hj'
        cases hp : c.pc j <;> rw [hp] at this <;> exact this
  | body i op now l l' s' hi hst =>
    have hin : inside (c.pc i) := by rw [hi]; trivial
    refine ⟨H, hvis, ?_, ?_, ⟨s, hseq, ?_, ?_⟩, hmono, hclock⟩
    · intro j
      dsimp only
      by_cases hj : j = i
      · subst hj; rw [put_self]; have := hfol j; rw [hi] at this; exact this
      · rw [put_ne _ _ hj]; exact hfol j
    · intro j
      dsimp only
      by_cases hj : j = i
      · subst hj; rw [put_self]; simp only [inside, true_iff]; exact (hhold j).1 hin
      · rw [put_ne _ _ hj]; exact hhold j
    · intro hn
      dsimp only at hn
      rw [(hhold i).1 hin] at hn
      cases hn
    · intro j hj'
      dsimp only at hj' ⊢
      by_cases hj : j = i
      · subst hj
        rw [put_self]
        have := hmid j hin
        rw [hi] at this
        obtain ⟨⟨l0, h1, h2⟩, h3, h4⟩ := this
        exact ⟨⟨l0, h1, .tail h2 hst⟩, h3, h4⟩
      · rw [put_ne _ _ hj] at hj'
        have h1 := (hhold i).1 hin
        rw [hhold j, h1] at hj'
        simp only [Option.some.injEq] at hj'
        exact absurd hj'.symm hj
  | unlock i op now l r hi hf =>
    have hin : inside (c.pc i) := by rw [hi]; trivial
    have hm := hmid i hin
    rw [hi] at hm
    obtain ⟨⟨l0, h1, h2⟩, h3, h4⟩ := hm
    have hh := (hhold i).1 hin
    refine ⟨H ++ [.lin i ⟨op, now, r⟩], ?_, ?_, ?_, ?_, ?_, ?_⟩
    · rw [List.filterMap_append, hvis]; simp [Ev.vis]
    · intro j
      by_cases hj : j = i
      · subst hj
        have := hfol j
        rw [hi] at this
        rw [filter_snoc_self H (.lin j ⟨op, now, r⟩) (j := j) rfl]
        dsimp only
        rw [put_self]
        exact .lin ⟨op, now, r⟩ this
      · rw [filter_snoc_ne H (.lin i ⟨op, now, r⟩) (Ne.symm hj)]
        dsimp only
        rw [put_ne _ _ hj]
        exact hfol j
    · intro j
      dsimp only
      by_cases hj : j = i
      · subst hj; rw [put_self]; simp [inside]
      · rw [put_ne _ _ hj, hhold j, hh]
        simp [Ne.symm hj]
    · rw [List.filterMap_append]
      refine ⟨c.obj, ?_, fun _ => rfl, ?_⟩
      · exact .snoc hseq ⟨l0, l, h1, h2, hf⟩
      · intro j hj'
        dsimp only at hj'
        by_cases hj : j = i
        · subst hj; rw [put_self] at hj'; exact absurd hj' (by simp [inside])
        · rw [put_ne _ _ hj, hhold j, hh] at hj'
          simp only [Option.some.injEq] at hj'
          exact absurd hj'.symm hj
    · rw [List.filterMap_append, List.map_append]
      exact pairwise_snoc hmono h3
    · rw [List.filterMap_append]
      simp only [List.filterMap_cons, Ev.done, List.filterMap_nil]
      rw [lastNow_snoc]
      exact h4
  | ret i r hi =>
    refine ⟨H ++ [.res i r], ?_, ?_, ?_, ?_, ?_, ?_⟩
    · rw [List.filterMap_append, hvis]; rfl
    · intro j
      by_cases hj : j = i
      · subst hj
        have := hfol j
        rw [hi] at this
        rw [filter_snoc_self H (.res j r) (j := j) rfl]
        dsimp only
        rw [put_self]
        exact .res r this
      · rw [filter_snoc_ne H (.res i r) (Ne.symm hj)]
        dsimp only
        rw [put_ne _ _ hj]
        exact hfol j
    · intro j
      dsimp only
      by_cases hj : j = i
      · subst hj
        rw [put_self, ← hhold j, hi]
        simp [inside]
      · rw [put_ne _ _ hj]; exact hhold j
    · rw [done_snoc H _ rfl]
      refine ⟨s, hseq, hobj, ?_⟩
      intro j hj'
      dsimp only at hj' ⊢
      by_cases hj : j = i
      · subst hj; rw [put_self] at hj'; exact absurd hj' (by simp [inside])
      · rw [put_ne _ _ hj] at hj' ⊢
        have := hmid j hj'
        cases hp : c.pc j <;> rw [hp] at this <;> exact this
    · rw [done_snoc H _ rfl]; exact hmono
    · rw [done_snoc H _ rfl]; exact hclock

/-- Every reachable configuration has an explanation. -/
theorem linearizable (B : Body σ Op L ρ) (s0 : σ) (t0 : Int) {c : Config σ Op L ρ} (h : Reach B s0 t0 c) :
    ∃ H, Explains B s0 t0 c.clock c.hist H := by
  have : ∃ H, Inv B s0 t0 c H := by
    induction h with
    | init => exact ⟨[], Inv.init B s0 t0⟩
    | step _ hs ih =>
      obtain ⟨H, hH⟩ := ih
      exact hH.step hs
  obtain ⟨H, hH⟩ := this
  obtain ⟨s, hs, _⟩ := hH.seq
  exact ⟨H, hH.vis, fun i => ⟨_, hH.follows i⟩, ⟨s, hs⟩, pairwise_snoc hH.mono hH.clock⟩

/-- When nobody is inside the method, the object is the outcome of the explanation. -/
theorem linearizable_state (B : Body σ Op L ρ) (s0 : σ) (t0 : Int) {c : Config σ Op L ρ} (h : Reach B s0 t0 c)
    (hn : c.holder = none) : ∃ H, Explains B s0 t0 c.clock c.hist H ∧ Seq B s0 (H.filterMap Ev.done) c.obj := by
  have : ∃ H, Inv B s0 t0 c H := by
    clear hn
    induction h with
    | init => exact ⟨[], Inv.init B s0 t0⟩
    | step _ hs ih =>
      obtain ⟨H, hH⟩ := ih
      exact hH.step hs
  obtain ⟨H, hH⟩ := this
  obtain ⟨s, hs, ho, _⟩ := hH.seq
  exact ⟨H, ⟨hH.vis, fun i => ⟨_, hH.follows i⟩, ⟨s, hs⟩, pairwise_snoc hH.mono hH.clock⟩, by rw [ho hn]; exact hs⟩

/-- Mutual exclusion: at most one goroutine is inside. -/
theorem exclusion (B : Body σ Op L ρ) (s0 : σ) (t0 : Int) {c : Config σ Op L ρ} (h : Reach B s0 t0 c) (i j : Nat)
    (hi : inside (c.pc i)) (hj : inside (c.pc j)) : i = j := by
  have : ∃ H, Inv B s0 t0 c H := by
    clear hi hj
    induction h with
    | init => exact ⟨[], Inv.init B s0 t0⟩
    | step _ hs ih =>
      obtain ⟨H, hH⟩ := ih
      exact hH.step hs
  obtain ⟨H, hH⟩ := this
  have h1 := (hH.hold i).1 hi
  have h2 := (hH.hold j).1 hj
  rw [h1] at h2
  simpa using h2

/-- A condition on results that every action keeps holds for every sequential execution. -/
theorem exec_post {B : Body σ Op L ρ} {Post : σ × L → σ × ρ → Prop}
    (hstep : ∀ x y, B.step x y → ∀ z, Post y z → Post x z)
    (hfin : ∀ s l r, B.final l = some r → Post (s, l) (s, r)) {op : Op} {now : Int} {s s' : σ} {r : ρ}
    (h : Exec B op now s s' r) : ∃ l, B.start op now l ∧ Post (s, l) (s', r) := by
  obtain ⟨l, l', h1, h2, h3⟩ := h
  refine ⟨l, h1, ?_⟩
  have : ∀ {x y}, Star B x y → ∀ z, Post y z → Post x z := by
    intro x y hxy
    induction hxy with
    | refl => exact fun z hz => hz
    | tail _ hs ih => exact fun z hz => ih z (hstep _ _ hs z hz)
  exact this h2 _ (hfin s' l' r h3)

end Verif.Mutex
