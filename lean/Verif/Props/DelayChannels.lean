import Verif.Model.DelayChannels
import Verif.Props.DelayChannel
import Mathlib.Data.List.Nodup

/-!
# C177: several channels on one delay queue
-/

namespace Verif.DelayQueue

open Mutex (put put_self put_ne)

variable {V : Type} {chan : Nat → Option Nat} {direct cancel : Prop} {reader : Nat → Prop}

/-- What goroutine `g` has taken from the queue, in order. -/
def tookBy (g : Nat) (t : List (Nat × Entry V)) : List (Entry V) := (t.filter fun p => p.1 = g).map (·.2)

/-! ## Proof -/

structure McInv (chan : Nat → Option Nat) (direct cancel : Prop) (q0 : State V) (s : McState V) : Prop where
  run : From (mcClient cancel) q0 s.q
  spot : ∀ g, chan g ≠ none → Spot (s.q.pc g) (s.at' g)
  fifo : ∀ g, chan g ≠ none → tookBy g s.took = s.received g ++ s.buf g ++ held (s.at' g)
  bound : ∀ g size, chan g = some size → (s.buf g).length ≤ size
  closed : ∀ g, s.at' g = .closed → s.cancelled g = true ∧ cancel
  sub : (s.took.map (·.2)).Sublist (taken s.q)
  others : direct ∨ ∀ j, chan j = none → ¬ inTake (s.q.pc j)

theorem taken_grows {k : Client} {q q' : State V} (hs : Step k q q') : (taken q).Sublist (taken q') := by
  cases hs with
  | takePop i e now x h' hp he =>
    unfold taken
    rw [List.filter_append, List.map_append]
    exact List.sublist_append_left _ _
  | opPop i h' e hp he =>
    unfold taken
    rw [List.filter_append, List.map_append]
    exact List.sublist_append_left _ _
  | _ => exact List.Sublist.refl _

theorem tookBy_append_self (g : Nat) (t : List (Nat × Entry V)) (e : Entry V) : tookBy g (t ++ [(g, e)]) = tookBy g t ++ [e] := by
  unfold tookBy
  rw [List.filter_append, List.map_append]
  simp

theorem tookBy_append_ne {g h : Nat} (hne : g ≠ h) (t : List (Nat × Entry V)) (e : Entry V) : tookBy h (t ++ [(g, e)]) = tookBy h t := by
  unfold tookBy
  rw [List.filter_append, List.map_append]
  simp [hne]

theorem mcInv_step {q0 : State V} {s s' : McState V} (i : McInv chan direct cancel q0 s) (hs : McStep chan direct cancel reader s s') :
    McInv chan direct cancel q0 s' := by
  have others_put : ∀ {g : Nat} {b : Pc V}, chan g ≠ none → (direct ∨ ∀ j, chan j = none → ¬ inTake (put s.q.pc g b j)) := by
    intro g b hg
    refine i.others.imp id fun h j hj => ?_
    rw [put_ne _ _ (fun e => by subst e; exact hg hj)]
    exact h j hj
  have spot_put : ∀ {g : Nat} {b : Pc V} {a : ChPc V}, Spot b a → ∀ h, chan h ≠ none → Spot (put s.q.pc g b h) (put s.at' g a h) := by
    intro g b a hb h hh
    by_cases e : h = g
    · subst e
      rw [put_self, put_self]
      exact hb
    · rw [put_ne _ _ e, put_ne _ _ e]
      exact i.spot h hh
  have spot_at : ∀ {g : Nat} {a : ChPc V}, (chan g ≠ none → Spot (s.q.pc g) a) → ∀ h, chan h ≠ none → Spot (s.q.pc h) (put s.at' g a h) := by
    intro g a hb h hh
    by_cases e : h = g
    · subst e
      rw [put_self]
      exact hb hh
    · rw [put_ne _ _ e]
      exact i.spot h hh
  have fifo_at : ∀ {g : Nat} {a : ChPc V}, held a = held (s.at' g) → ∀ h, chan h ≠ none → tookBy h s.took = s.received h ++ s.buf h ++ held (put s.at' g a h) := by
    intro g a ha h hh
    by_cases e : h = g
    · subst e
      rw [put_self, ha]
      exact i.fifo h hh
    · rw [put_ne _ _ e]
      exact i.fifo h hh
  have closed_at : ∀ {g : Nat} {a : ChPc V}, (a = .closed → s.cancelled g = true ∧ cancel) → ∀ h, put s.at' g a h = .closed → s.cancelled h = true ∧ cancel := by
    intro g a ha h hh
    by_cases e : h = g
    · subst e
      rw [put_self] at hh
      exact ha hh
    · rw [put_ne _ _ e] at hh
      exact i.closed h hh
  cases hs with
  | other q' h1 h2 h3 =>
    exact ⟨i.run.step h1, fun g hg => spot_same (i.spot g hg) (h2 g hg), i.fifo, i.bound, i.closed, i.sub.trans (taken_grows h1), h3⟩
  | call g hg h1 h2 =>
    have hs := Step.callTake (k := mcClient cancel) s.q g h2 (.inl trivial)
    exact ⟨i.run.step hs, spot_put ⟨trivial, by simp⟩, fifo_at (by rw [h1]; rfl), i.bound, closed_at (fun h => by cases h), i.sub, others_put hg⟩
  | pop g e now x h' hg h1 h2 h3 =>
    have hs := Step.takePop (k := mcClient cancel) s.q g e now x h' h2 h3
    refine ⟨i.run.step hs, spot_put rfl, fun h hh => ?_, i.bound, closed_at (fun h => by cases h), ?_, others_put hg⟩
    · by_cases e' : h = g
      · subst e'
        have := i.fifo h hh
        rw [h1] at this
        dsimp only
        rw [tookBy_append_self, put_self, this]
        simp [held]
      · dsimp only
        rw [tookBy_append_ne (fun h => e' h.symm), put_ne _ _ e']
        exact i.fifo h hh
    · dsimp only
      unfold taken
      rw [List.map_append, List.filter_append, List.map_append]
      exact List.Sublist.append i.sub (by simp)
  | ret g e hg h1 h2 =>
    have hs := Step.takeReturn (k := mcClient cancel) s.q g h2
    exact ⟨i.run.step hs, spot_put rfl, fifo_at (by rw [h1]; rfl), i.bound, closed_at (fun h => by cases h), i.sub, others_put hg⟩
  | giveUp g dl hg h1 h2 h3 h4 =>
    have hs := Step.cancel (k := mcClient cancel) s.q g dl h3 h4
    exact ⟨i.run.step hs, spot_put rfl, fifo_at (by rw [h1]; rfl), i.bound, closed_at (fun _ => ⟨h2, h3⟩), i.sub, others_put hg⟩
  | ctxCancel g h =>
    refine ⟨i.run, i.spot, i.fifo, i.bound, fun j hj => ?_, i.sub, i.others⟩
    refine ⟨?_, h⟩
    dsimp only
    by_cases e : j = g
    · subst e
      rw [put_self]
    · rw [put_ne _ _ e]
      exact (i.closed j hj).1
  | send g size e hg h1 h2 =>
    have hne : chan g ≠ none := by rw [hg]; simp
    refine ⟨i.run, spot_at fun _ => ?_, fun h hh => ?_, fun h sz hh => ?_, closed_at (fun h => by cases h), i.sub, i.others⟩
    · have := i.spot g hne
      rw [h1] at this
      exact this
    · dsimp only
      by_cases e' : h = g
      · subst e'
        have := i.fifo h hh
        rw [h1] at this
        rw [put_self, put_self, this]
        simp [held]
      · rw [put_ne _ _ e', put_ne _ _ e']
        exact i.fifo h hh
    · dsimp only
      by_cases e' : h = g
      · subst e'
        rw [hg] at hh
        cases hh
        rw [put_self, List.length_append, List.length_singleton]
        omega
      · rw [put_ne _ _ e']
        exact i.bound h sz hh
  | handoff g e hg hr h1 h2 =>
    refine ⟨i.run, spot_at fun _ => ?_, fun h hh => ?_, i.bound, closed_at (fun h => by cases h), i.sub, i.others⟩
    · have := i.spot g hg
      rw [h1] at this
      exact this
    · dsimp only
      by_cases e' : h = g
      · subst e'
        have := i.fifo h hh
        rw [h1, h2] at this
        rw [put_self, put_self, this, h2]
        simp [held]
      · rw [put_ne _ _ e', put_ne _ _ e']
        exact i.fifo h hh
  | recv g e b hr h1 =>
    refine ⟨i.run, i.spot, fun h hh => ?_, fun h sz hh => ?_, i.closed, i.sub, i.others⟩
    · dsimp only
      by_cases e' : h = g
      · subst e'
        have := i.fifo h hh
        rw [h1] at this
        rw [put_self, put_self, this]
        simp
      · rw [put_ne _ _ e', put_ne _ _ e']
        exact i.fifo h hh
    · dsimp only
      by_cases e' : h = g
      · subst e'
        have := i.bound h sz hh
        rw [h1, List.length_cons] at this
        rw [put_self]
        omega
      · rw [put_ne _ _ e']
        exact i.bound h sz hh

/-- The queue before the goroutines are started. -/
structure McStart (chan : Nat → Option Nat) (direct cancel : Prop) (t0 : Int) (q0 : State V) : Prop where
  reach : Reach (mcClient cancel) t0 q0
  idle : ∀ g, chan g ≠ none → q0.pc g = .idle
  others : direct ∨ ∀ j, ¬ inTake (q0.pc j)

theorem mcInv_reach {t0 : Int} {q0 : State V} {s : McState V} (h0 : McStart chan direct cancel t0 q0) (h : McFrom chan direct cancel reader (mcInit q0) s) :
    McInv chan direct cancel q0 s := by
  induction h with
  | refl =>
    exact ⟨.refl, h0.idle, fun g _ => by simp [mcInit, tookBy, held], fun _ _ _ => Nat.zero_le _, (fun g h => by cases h), List.nil_sublist _,
      h0.others.imp id fun h j _ => h j⟩
  | step _ hs ih => exact mcInv_step ih hs

/-- **C177 (order).** What the reader of a channel has got, then what is in the channel, then the entry in the hands of the goroutine, are exactly the entries
that this goroutine has taken from the queue, in that order. -/
theorem C177_fifo {t0 : Int} {q0 : State V} {s : McState V} (h0 : McStart chan direct cancel t0 q0) (h : McFrom chan direct cancel reader (mcInit q0) s)
    {g : Nat} (hg : chan g ≠ none) : tookBy g s.took = s.received g ++ s.buf g ++ held (s.at' g) := (mcInv_reach h0 h).fifo g hg

theorem took_nodup {t0 : Int} {q0 : State V} {s : McState V} (h0 : McStart chan direct cancel t0 q0) (h : McFrom chan direct cancel reader (mcInit q0) s) :
    (s.took.map fun p => p.2.id).Nodup := by
  have i := mcInv_reach h0 h
  obtain ⟨c1, c2, c3⟩ := C52_conserved (h0.reach.trans i.run)
  have hsub : (s.took.map (·.2)).Sublist (s.q.delivered.map (·.entry)) := i.sub.trans (List.filter_sublist.map _)
  have := (hsub.map (·.id)).nodup c3
  rwa [List.map_map] at this

/-- **C177 (once).** However many channels there are, and whoever else takes: an entry that a reader gets was pushed and has expired, it has left the queue, and
no entry comes twice, neither to one reader nor to two. -/
theorem C177_once {t0 : Int} {q0 : State V} {s : McState V} (h0 : McStart chan direct cancel t0 q0) (h : McFrom chan direct cancel reader (mcInit q0) s)
    {g : Nat} (hg : chan g ≠ none) :
    ((s.received g).map (·.id)).Nodup ∧ (∀ e ∈ s.received g, e ∈ s.q.pushed ∧ e ∉ s.q.heap ∧ e.exp < s.q.clock) ∧
      ∀ g', chan g' ≠ none → g' ≠ g → ∀ e ∈ s.received g, ∀ e' ∈ s.received g', e.id ≠ e'.id := by
  have i := mcInv_reach h0 h
  have hr := h0.reach.trans i.run
  obtain ⟨c1, c2, c3⟩ := C52_conserved hr
  have mem : ∀ g, chan g ≠ none → ∀ e ∈ s.received g, (g, e) ∈ s.took := by
    intro g hg e he
    have : e ∈ tookBy g s.took := by
      rw [i.fifo g hg]
      simp [he]
    unfold tookBy at this
    obtain ⟨p, hp, rfl⟩ := List.mem_map.1 this
    obtain ⟨hp1, hp2⟩ := List.mem_filter.1 hp
    have : p.1 = g := of_decide_eq_true hp2
    subst this
    exact hp1
  have nd := took_nodup h0 h
  refine ⟨?_, fun e he => ?_, fun g' hg' hne e he e' he' hid => ?_⟩
  · have h1 : ((tookBy g s.took).map (·.id)).Nodup := by
      unfold tookBy
      rw [List.map_map]
      exact (List.filter_sublist.map _).nodup nd
    rw [i.fifo g hg, List.append_assoc, List.map_append] at h1
    exact (List.nodup_append.1 h1).1
  · have h1 : e ∈ taken s.q := i.sub.subset (List.mem_map.2 ⟨(g, e), mem g hg e he, rfl⟩)
    have h2 : e ∈ s.q.delivered.map (·.entry) := (List.filter_sublist.map _).subset h1
    refine ⟨c1.mem_iff.2 (List.mem_append_left _ h2), ?_, ?_⟩
    · intro hh
      have h3 := (c1.map (·.id)).nodup_iff.1 c2
      rw [List.map_append, List.nodup_append] at h3
      exact h3.2.2 e.id (List.mem_map.2 ⟨e, h2, rfl⟩) e.id (List.mem_map.2 ⟨e, hh, rfl⟩) rfl
    · obtain ⟨d, hd, rfl⟩ := List.mem_map.1 h1
      obtain ⟨hd1, hd2⟩ := List.mem_filter.1 hd
      have h3 := (C51_not_early hr d hd1).2 hd2
      have h4 := (clock_reach hr).1 d hd1
      omega
  · have := List.inj_on_of_nodup_map nd (mem g hg e he) (mem g' hg' e' he') hid
    exact hne (congrArg Prod.fst this).symm

/-- **C177 (ahead).** Every channel keeps at most `size + 1` entries from its reader. -/
theorem C177_ahead {t0 : Int} {q0 : State V} {s : McState V} (h0 : McStart chan direct cancel t0 q0) (h : McFrom chan direct cancel reader (mcInit q0) s)
    {g size : Nat} (hg : chan g = some size) : (tookBy g s.took).length ≤ (s.received g).length + size + 1 := by
  have i := mcInv_reach h0 h
  have hb := i.bound g size hg
  have hh : (held (s.at' g)).length ≤ 1 := by cases s.at' g <;> simp [held]
  rw [i.fifo g (by rw [hg]; simp)]
  simp only [List.length_append]
  omega

/-! ## Entries that are due arrive -/

/-- The goroutine will look into the queue before it sleeps. -/
def awake : Pc V → Bool
  | .idle | .takeWait | .takeLocked | .takePeeked _ | .takeDue _ _ | .takeHave | .takeArm _ => true
  | _ => false

/-- The goroutine wakes up in time (or a `Push` is about to see to it). -/
def Sleeps (s : State V) : Pc V → Prop
  | .takeArmed dl | .select dl => Covered dl s.heap ∨ Deciding s dl
  | .fired => True
  | _ => False

/-- The goroutines of `C`, and only they, call `Take`, and they do nothing else. -/
def Roles (C : Nat → Prop) (s : State V) : Prop := ∀ j, (C j → s.pc j = .idle ∨ inTake (s.pc j)) ∧ (¬ C j → ¬ inTake (s.pc j))

structure Live (C : Nat → Prop) (s : State V) : Prop where
  arm : ∀ j dl, s.pc j = .takeArm dl → Covered dl s.heap
  off : s.sleeping = false → (∃ i, s.pc i = .pushSend) ∨ ∃ j, C j ∧ awake (s.pc j) = true
  on : s.sleeping = true → ∃ j, C j ∧ Sleeps s (s.pc j)

theorem live_keep {C : Nat → Prop} {s s' : State V} {i : Nat} {b : Pc V} (l : Live C s) (hp : s'.pc = put s.pc i b) (hh : s'.heap = s.heap)
    (hs : s'.sleeping = s.sleeping) (h1 : s.pc i ≠ .pushSend) (h2 : s.pc i ≠ .pushHead) (h3 : ∀ e, s.pc i ≠ .pushAdded e)
    (h4 : ∀ dl, b = .takeArm dl → Covered dl s.heap) (h5 : C i → awake (s.pc i) = true → awake b = true) (h6 : Sleeps s (s.pc i) → Sleeps s' b) :
    Live C s' := by
  have g : ∀ {q : Pc V}, s.pc i ≠ q → (∃ a, s.pc a = q) → ∃ a, s'.pc a = q := by
    rintro q hq ⟨a, ha⟩
    refine ⟨a, ?_⟩
    rw [hp, put_ne _ _ (fun e => hq (by rw [← e]; exact ha))]
    exact ha
  have gd : ∀ dl, Deciding s dl → Deciding s' dl := by
    rintro dl (⟨a, e, ha, hx⟩ | ha)
    · obtain ⟨a', ha'⟩ := g (h3 e) ⟨a, ha⟩
      exact .inl ⟨a', e, ha', by rw [hh]; exact hx⟩
    · exact .inr (g h2 ha)
  have gs : ∀ p, Sleeps s p → Sleeps s' p := by
    intro p h
    cases p <;> simp only [Sleeps] at h ⊢
    case takeArmed dl => rw [hh]; exact h.imp id (gd dl)
    case select dl => rw [hh]; exact h.imp id (gd dl)
  refine ⟨fun j dl hj => ?_, fun hf => ?_, fun hf => ?_⟩
  · rw [hp] at hj
    rw [hh]
    by_cases e : j = i
    · subst e
      rw [put_self] at hj
      exact h4 dl hj
    · rw [put_ne _ _ e] at hj
      exact l.arm j dl hj
  · rw [hs] at hf
    rcases l.off hf with h | ⟨j, hc, hj⟩
    · exact .inl (g h1 h)
    · refine .inr ⟨j, hc, ?_⟩
      rw [hp]
      by_cases e : j = i
      · subst e
        rw [put_self]
        exact h5 hc hj
      · rw [put_ne _ _ e]
        exact hj
  · rw [hs] at hf
    obtain ⟨j, hc, hj⟩ := l.on hf
    refine ⟨j, hc, ?_⟩
    rw [hp]
    by_cases e : j = i
    · subst e
      rw [put_self]
      exact h6 hj
    · rw [put_ne _ _ e]
      exact gs _ hj

/-- Entries leave the queue by a goroutine that holds the mutex. -/
theorem live_less {C : Nat → Prop} {s s' : State V} {i : Nat} {b : Pc V} (hold : Hold s) (l : Live C s) (hp : s'.pc = put s.pc i b)
    (hh : ∀ x ∈ s'.heap, x ∈ s.heap) (hs : s'.sleeping = s.sleeping) (hin : inside (s.pc i) = true) (h1 : s.pc i ≠ .pushSend) (h2 : s.pc i ≠ .pushHead)
    (h3 : ∀ e, s.pc i ≠ .pushAdded e) (h4 : ∀ dl, b ≠ .takeArm dl) (h5 : C i → awake (s.pc i) = true → awake b = true) (h6 : ¬ Sleeps s (s.pc i)) :
    Live C s' := by
  have no : ∀ {q : Pc V}, inside q = true → s.pc i ≠ q → ∀ a, s.pc a ≠ q := by
    intro q hq hne a ha
    have := hold.excl hin (show inside (s.pc a) = true by rw [ha]; exact hq)
    subst this
    exact hne ha
  have gc : ∀ dl, Covered dl s.heap ∨ Deciding s dl → Covered dl s'.heap := by
    rintro dl (h | ⟨a, e, ha, -⟩ | ⟨a, ha⟩)
    · exact fun x hx => h x (hh x hx)
    · exact (no rfl (h3 e) a ha).elim
    · exact (no rfl h2 a ha).elim
  refine ⟨fun j dl hj => ?_, fun hf => ?_, fun hf => ?_⟩
  · rw [hp] at hj
    by_cases e : j = i
    · subst e
      rw [put_self] at hj
      exact (h4 dl hj).elim
    · rw [put_ne _ _ e] at hj
      exact fun x hx => l.arm j dl hj x (hh x hx)
  · rw [hs] at hf
    rcases l.off hf with ⟨a, ha⟩ | ⟨j, hc, hj⟩
    · exact (no rfl h1 a ha).elim
    · refine .inr ⟨j, hc, ?_⟩
      rw [hp]
      by_cases e : j = i
      · subst e
        rw [put_self]
        exact h5 hc hj
      · rw [put_ne _ _ e]
        exact hj
  · rw [hs] at hf
    obtain ⟨j, hc, hj⟩ := l.on hf
    refine ⟨j, hc, ?_⟩
    rw [hp]
    by_cases e : j = i
    · subst e
      exact (h6 hj).elim
    · rw [put_ne _ _ e]
      cases hpj : s.pc j <;> rw [hpj] at hj <;> simp only [Sleeps] at hj ⊢
      case takeArmed dl => exact .inl (gc dl hj)
      case select dl => exact .inl (gc dl hj)

theorem live_step {k : Client} {C : Nat → Prop} {s s' : State V} (hk : ¬ k.cancel) (c : Cont s) (w : Wake s) (l : Live C s) (r' : Roles C s') (hs : Step k s s') :
    Live C s' := by
  have hold := c.hold
  /- a goroutine of `C` goes nowhere but into `Take` -/
  have role : ∀ {i : Nat} {b : Pc V}, s'.pc = put s.pc i b → b ≠ .idle → ¬ inTake b → ¬ C i := by
    intro i b hp h1 h2 hc
    have := (r' i).1 hc
    rw [hp, put_self] at this
    exact this.elim h1 h2
  have rolet : ∀ {i : Nat} {b : Pc V}, s'.pc = put s.pc i b → inTake b → C i := by
    intro i b hp h1
    refine Classical.byContradiction fun h => (r' i).2 h ?_
    rw [hp, put_self]
    exact h1
  have alone : ∀ {i : Nat}, inside (s.pc i) = true → ∀ {q : Pc V}, inside q = true → s.pc i ≠ q → ∀ a, s.pc a ≠ q := by
    intro i hin q hq hne a ha
    have := hold.excl hin (show inside (s.pc a) = true by rw [ha]; exact hq)
    subst this
    exact hne ha
  cases hs with
  | tick d _ =>
    refine ⟨l.arm, l.off, fun hf => ?_⟩
    obtain ⟨j, hc, hj⟩ := l.on hf
    refine ⟨j, hc, ?_⟩
    revert hj
    show Sleeps _ (s.pc j) → Sleeps _ (s.pc j)
    cases s.pc j <;> exact id
  | callPush i v delay hp =>
    exact live_keep l rfl rfl rfl (by simp [hp]) (by simp [hp]) (by simp [hp]) (fun _ h => by cases h)
      (fun hc => (role rfl (by simp) (by simp [inTake]) hc).elim) (by rw [hp]; exact False.elim)
  | pushLock i v delay hp hn =>
    exact live_keep l rfl rfl rfl (by simp [hp]) (by simp [hp]) (by simp [hp]) (fun _ h => by cases h)
      (fun hc => (role rfl (by simp) (by simp [inTake]) hc).elim) (by rw [hp]; exact False.elim)
  | pushAdd i v delay h' hp he =>
    obtain ⟨h'', e1, e2⟩ := push_ok s.heap ⟨s.next, v, s.clock + delay⟩
    cases he.symm.trans e1
    have hin : inside (s.pc i) = true := by rw [hp]; rfl
    refine ⟨fun j dl hj => ?_, fun hf => ?_, fun hf => ?_⟩
    · dsimp only at hj
      by_cases e : j = i
      · subst e
        rw [put_self] at hj
        cases hj
      · rw [put_ne _ _ e] at hj
        exact (alone hin rfl (by simp [hp]) j hj).elim
    · rcases l.off hf with ⟨a, ha⟩ | ⟨j, hc, hj⟩
      · exact (alone hin rfl (by simp [hp]) a ha).elim
      · refine .inr ⟨j, hc, ?_⟩
        dsimp only
        rw [put_ne _ _ (fun e => by subst e; rw [hp] at hj; cases hj)]
        exact hj
    · obtain ⟨j, hc, hj⟩ := l.on hf
      refine ⟨j, hc, ?_⟩
      dsimp only
      rw [put_ne _ _ (fun e => by subst e; rw [hp] at hj; exact hj)]
      have gc : ∀ dl, Covered dl s.heap ∨ Deciding s dl → Deciding
          { s with heap := h', next := s.next + 1, pushed := s.pushed ++ [⟨s.next, v, s.clock + delay⟩], pc := put s.pc i (.pushAdded ⟨s.next, v, s.clock + delay⟩) }
          dl := by
        rintro dl (h | ⟨a, e, ha, -⟩ | ⟨a, ha⟩)
        · refine .inl ⟨i, _, put_self _ _ _, fun x hx hid => ?_⟩
          rcases List.mem_cons.1 (e2.mem_iff.1 hx) with rfl | hx
          · exact absurd rfl hid
          · exact h x hx
        · exact (alone hin rfl (by simp [hp]) a ha).elim
        · exact (alone hin rfl (by simp [hp]) a ha).elim
      cases hpj : s.pc j <;> rw [hpj] at hj <;> simp only [Sleeps] at hj ⊢
      case takeArmed dl => exact .inr (gc dl hj)
      case select dl => exact .inr (gc dl hj)
  | pushIsHead i e x hp hx hid =>
    have hin : inside (s.pc i) = true := by rw [hp]; rfl
    refine ⟨fun j dl hj => ?_, fun hf => ?_, fun hf => ?_⟩
    · dsimp only at hj
      by_cases e : j = i
      · subst e
        rw [put_self] at hj
        cases hj
      · rw [put_ne _ _ e] at hj
        exact l.arm j dl hj
    · rcases l.off hf with ⟨a, ha⟩ | ⟨j, hc, hj⟩
      · exact (alone hin rfl (by simp [hp]) a ha).elim
      · refine .inr ⟨j, hc, ?_⟩
        dsimp only
        rw [put_ne _ _ (fun e => by subst e; rw [hp] at hj; cases hj)]
        exact hj
    · obtain ⟨j, hc, hj⟩ := l.on hf
      refine ⟨j, hc, ?_⟩
      dsimp only
      rw [put_ne _ _ (fun e => by subst e; rw [hp] at hj; exact hj)]
      cases hpj : s.pc j <;> rw [hpj] at hj <;> simp only [Sleeps] at hj ⊢
      case takeArmed dl => exact .inr (.inr ⟨i, put_self _ _ _⟩)
      case select dl => exact .inr (.inr ⟨i, put_self _ _ _⟩)
  | pushNotHead i e x hp hx hid =>
    have hin : inside (s.pc i) = true := by rw [hp]; rfl
    refine ⟨fun j dl hj => ?_, fun hf => ?_, fun hf => ?_⟩
    · dsimp only at hj
      by_cases e : j = i
      · subst e
        rw [put_self] at hj
        cases hj
      · rw [put_ne _ _ e] at hj
        exact l.arm j dl hj
    · rcases l.off hf with ⟨a, ha⟩ | ⟨j, hc, hj⟩
      · exact (alone hin rfl (by simp [hp]) a ha).elim
      · refine .inr ⟨j, hc, ?_⟩
        dsimp only
        rw [put_ne _ _ (fun e => by subst e; rw [hp] at hj; cases hj)]
        exact hj
    · obtain ⟨j, hc, hj⟩ := l.on hf
      refine ⟨j, hc, ?_⟩
      dsimp only
      rw [put_ne _ _ (fun e => by subst e; rw [hp] at hj; exact hj)]
      have gc : ∀ dl, Covered dl s.heap ∨ Deciding s dl → Covered dl s.heap := by
        rintro dl (h | ⟨a, e', ha, hx'⟩ | ⟨a, ha⟩)
        · exact h
        · have := hold.excl hin (show inside (s.pc a) = true by rw [ha]; rfl)
          subst this
          rw [hp] at ha
          cases ha
          obtain ⟨hxm, hxl⟩ := root_min c.heap (peek_iff.1 hx)
          obtain ⟨d, hd, hle⟩ := hx' x hxm hid
          exact fun y hy => ⟨d, hd, Int.le_trans hle (hxl y hy)⟩
        · exact (alone hin rfl (by simp [hp]) a ha).elim
      cases hpj : s.pc j <;> rw [hpj] at hj <;> simp only [Sleeps] at hj ⊢
      case takeArmed dl => exact .inl (gc dl hj)
      case select dl => exact .inl (gc dl hj)
  | pushCas i hp hsl =>
    refine ⟨fun j dl hj => ?_, fun _ => .inl ⟨i, put_self _ _ _⟩, (fun hf => by cases hf)⟩
    dsimp only at hj
    by_cases e : j = i
    · subst e
      rw [put_self] at hj
      cases hj
    · rw [put_ne _ _ e] at hj
      exact l.arm j dl hj
  | pushCasFail i hp hsl =>
    refine ⟨fun j dl hj => ?_, fun hf => ?_, (fun hf => by dsimp only at hf; rw [hsl] at hf; cases hf)⟩
    · dsimp only at hj
      by_cases e : j = i
      · subst e
        rw [put_self] at hj
        cases hj
      · rw [put_ne _ _ e] at hj
        exact l.arm j dl hj
    · rcases l.off hf with ⟨a, ha⟩ | ⟨j, hc, hj⟩
      · exact (alone (i := i) (by rw [hp]; rfl) rfl (by simp [hp]) a ha).elim
      · refine .inr ⟨j, hc, ?_⟩
        dsimp only
        rw [put_ne _ _ (fun e => by subst e; rw [hp] at hj; cases hj)]
        exact hj
  | wake i j dl hi hj =>
    have hcj : C j := by
      refine Classical.byContradiction fun h => (r' j).2 h ?_
      dsimp only
      rw [put_self]
      trivial
    refine ⟨fun a dl' ha => ?_, fun _ => .inr ⟨j, hcj, by dsimp only; rw [put_self]; rfl⟩,
      (fun hf => by dsimp only at hf; rw [(w.send i hi).1] at hf; cases hf)⟩
    dsimp only at ha
    by_cases e : a = j
    · subst e
      rw [put_self] at ha
      cases ha
    · rw [put_ne _ _ e] at ha
      by_cases e : a = i
      · subst e
        rw [put_self] at ha
        cases ha
      · rw [put_ne _ _ e] at ha
        exact l.arm a dl' ha
  | wakeDrain i j hi hj =>
    have hcj : C j := by
      refine Classical.byContradiction fun h => (r' j).2 h ?_
      dsimp only
      rw [put_self]
      trivial
    refine ⟨fun a dl' ha => ?_, fun _ => .inr ⟨j, hcj, by dsimp only; rw [put_self]; rfl⟩,
      (fun hf => by dsimp only at hf; rw [(w.send i hi).1] at hf; cases hf)⟩
    dsimp only at ha
    by_cases e : a = j
    · subst e
      rw [put_self] at ha
      cases ha
    · rw [put_ne _ _ e] at ha
      by_cases e : a = i
      · subst e
        rw [put_self] at ha
        cases ha
      · rw [put_ne _ _ e] at ha
        exact l.arm a dl' ha
  | pushUnlock i hp =>
    exact live_keep l rfl rfl rfl (by simp [hp]) (by simp [hp]) (by simp [hp]) (fun _ h => by cases h) (fun _ _ => rfl) (by rw [hp]; exact False.elim)
  | callTake i hp _ =>
    exact live_keep l rfl rfl rfl (by simp [hp]) (by simp [hp]) (by simp [hp]) (fun _ h => by cases h) (fun _ _ => rfl) (by rw [hp]; exact False.elim)
  | takeLock i hp hn =>
    exact live_keep l rfl rfl rfl (by simp [hp]) (by simp [hp]) (by simp [hp]) (fun _ h => by cases h) (fun _ _ => rfl) (by rw [hp]; exact False.elim)
  | takeEmpty i hp he =>
    refine live_keep l rfl rfl rfl (by simp [hp]) (by simp [hp]) (by simp [hp]) (fun dl _ => ?_) (fun _ _ => rfl) (by rw [hp]; exact False.elim)
    rw [empty_iff.1 he]
    intro x hx
    cases hx
  | takePeek i e hp _ he =>
    exact live_keep l rfl rfl rfl (by simp [hp]) (by simp [hp]) (by simp [hp]) (fun _ h => by cases h) (fun _ _ => rfl) (by rw [hp]; exact False.elim)
  | takeIsDue i e hp hc =>
    exact live_keep l rfl rfl rfl (by simp [hp]) (by simp [hp]) (by simp [hp]) (fun _ h => by cases h) (fun _ _ => rfl) (by rw [hp]; exact False.elim)
  | takeNotDue i e hp _ =>
    refine live_keep l rfl rfl rfl (by simp [hp]) (by simp [hp]) (by simp [hp]) (fun dl h => ?_) (fun _ _ => rfl) (by rw [hp]; exact False.elim)
    cases h
    have hkn := c.knows i
    rw [hp] at hkn
    exact fun x hx => ⟨_, rfl, by have := (root_min c.heap hkn).2 x hx; omega⟩
  | takePop i e now x h' hp he =>
    have hkn := c.knows i
    rw [hp] at hkn
    obtain ⟨h'', e1, e2⟩ := pop_ok hkn.1
    cases he.symm.trans e1
    exact live_less hold l rfl (fun x hx => e2.mem_iff.1 (List.mem_cons_of_mem _ hx)) rfl (by rw [hp]; rfl) (by simp [hp]) (by simp [hp]) (by simp [hp])
      (fun _ h => by cases h) (fun _ _ => rfl) (by rw [hp]; exact id)
  | takeReturn i hp =>
    exact live_keep l rfl rfl rfl (by simp [hp]) (by simp [hp]) (by simp [hp]) (fun _ h => by cases h) (fun _ _ => rfl) (by rw [hp]; exact False.elim)
  | takeStore i dl hp =>
    have hc := l.arm i dl hp
    have hci : C i := rolet (b := .takeArmed dl) rfl trivial
    refine ⟨fun j dl' hj => ?_, (fun hf => by cases hf), fun _ => ⟨i, hci, ?_⟩⟩
    · dsimp only at hj
      by_cases e : j = i
      · subst e
        rw [put_self] at hj
        cases hj
      · rw [put_ne _ _ e] at hj
        exact l.arm j dl' hj
    · dsimp only
      rw [put_self]
      exact .inl hc
  | takeUnlock i dl hp =>
    refine live_keep l rfl rfl rfl (by simp [hp]) (by simp [hp]) (by simp [hp]) (fun _ h => by cases h) (fun _ h => by rw [hp] at h; cases h) ?_
    rw [hp]
    rintro (h | ⟨a, e, ha, -⟩ | ⟨a, ha⟩)
    · exact .inl h
    · exact (alone (i := i) (by rw [hp]; rfl) rfl (by simp [hp]) a ha).elim
    · exact (alone (i := i) (by rw [hp]; rfl) rfl (by simp [hp]) a ha).elim
  | timer i d hp _ =>
    exact live_keep l rfl rfl rfl (by simp [hp]) (by simp [hp]) (by simp [hp]) (fun _ h => by cases h) (fun _ h => by rw [hp] at h; cases h) fun _ => trivial
  | swapWon i hp hsl =>
    have hci : C i := rolet (b := .takeWait) rfl trivial
    refine ⟨fun j dl' hj => ?_, fun _ => .inr ⟨i, hci, by dsimp only; rw [put_self]; rfl⟩, (fun hf => by cases hf)⟩
    dsimp only at hj
    by_cases e : j = i
    · subst e
      rw [put_self] at hj
      cases hj
    · rw [put_ne _ _ e] at hj
      exact l.arm j dl' hj
  | swapLost i hp hsl =>
    refine ⟨fun j dl' hj => ?_, fun hf => ?_, (fun hf => by dsimp only at hf; rw [hsl] at hf; cases hf)⟩
    · dsimp only at hj
      by_cases e : j = i
      · subst e
        rw [put_self] at hj
        cases hj
      · rw [put_ne _ _ e] at hj
        exact l.arm j dl' hj
    · rcases l.off hf with ⟨a, ha⟩ | ⟨j, hc, hj⟩
      · refine .inl ⟨a, ?_⟩
        dsimp only
        rw [put_ne _ _ (fun e => by subst e; rw [hp] at ha; cases ha)]
        exact ha
      · refine .inr ⟨j, hc, ?_⟩
        dsimp only
        rw [put_ne _ _ (fun e => by subst e; rw [hp] at hj; cases hj)]
        exact hj
  | cancel i dl hc hp => exact (hk hc).elim
  | callOp i b hp =>
    exact live_keep l rfl rfl rfl (by simp [hp]) (by simp [hp]) (by simp [hp]) (fun _ h => by cases h)
      (fun hc => (role rfl (by simp) (by simp [inTake]) hc).elim) (by rw [hp]; exact False.elim)
  | opLock i b hp hn =>
    exact live_keep l rfl rfl rfl (by simp [hp]) (by simp [hp]) (by simp [hp]) (fun _ h => by cases h)
      (fun hc => (role rfl (by simp) (by simp [inTake]) hc).elim) (by rw [hp]; exact False.elim)
  | opPop i h' e hp he =>
    rcases popBody_spec c.heap s.clock with ⟨e1, _⟩ | ⟨e', h'', _, e1, _, e2, _⟩
    · cases he.symm.trans e1
    · cases he.symm.trans e1
      exact live_less hold l rfl (fun x hx => e2.mem_iff.1 (List.mem_cons_of_mem _ hx)) rfl (by rw [hp]; rfl) (by simp [hp]) (by simp [hp]) (by simp [hp])
        (fun _ h => by cases h) (fun _ h => by rw [hp] at h; cases h) (by rw [hp]; exact id)
  | opPopNone i h' hp he =>
    rcases popBody_spec c.heap s.clock with ⟨e1, _⟩ | ⟨e', h'', _, e1, _, e2, _⟩
    · cases he.symm.trans e1
      exact live_keep l rfl rfl rfl (by simp [hp]) (by simp [hp]) (by simp [hp]) (fun _ h => by cases h)
        (fun _ h => by rw [hp] at h; cases h) (by rw [hp]; exact False.elim)
    · cases he.symm.trans e1
  | opRead i hp =>
    exact live_keep l rfl rfl rfl (by simp [hp]) (by simp [hp]) (by simp [hp]) (fun _ h => by cases h)
      (fun _ h => by rw [hp] at h; cases h) (by rw [hp]; exact False.elim)
  | opReturn i hp =>
    exact live_keep l rfl rfl rfl (by simp [hp]) (by simp [hp]) (by simp [hp]) (fun _ h => by cases h)
      (fun _ h => by rw [hp] at h; cases h) (by rw [hp]; exact False.elim)

theorem mc_queue {s s' : McState V} (hs : McStep chan direct cancel reader s s') : s'.q = s.q ∨ Step (mcClient cancel) s.q s'.q := by
  cases hs with
  | other q' h1 h2 h3 => exact .inr h1
  | call g hg h1 h2 => exact .inr (Step.callTake (k := mcClient cancel) s.q g h2 (.inl trivial))
  | pop g e now x h' hg h1 h2 h3 => exact .inr (Step.takePop (k := mcClient cancel) s.q g e now x h' h2 h3)
  | ret g e hg h1 h2 => exact .inr (Step.takeReturn (k := mcClient cancel) s.q g h2)
  | giveUp g dl hg h1 h2 h3 h4 => exact .inr (Step.cancel (k := mcClient cancel) s.q g dl h3 h4)
  | _ => exact .inl rfl

theorem McInv.roles {q0 : State V} {s : McState V} (i : McInv chan False cancel q0 s) : Roles (fun g => chan g ≠ none) s.q := by
  intro j
  refine ⟨fun hj => ?_, fun hj => i.others.resolve_left id j (Classical.byContradiction hj)⟩
  have := i.spot j hj
  revert this
  cases s.at' j <;> simp only [Spot] <;> intro h
  case taking => exact .inr h.1
  case popped => exact .inr (by rw [h]; trivial)
  all_goals exact .inl h

theorem mcStart_init (t0 : Int) : McStart chan direct cancel t0 (init t0 : State V) := ⟨.refl, fun _ _ => rfl, .inr fun _ => id⟩

theorem mcLive {t0 : Int} {s : McState V} (hc : ∃ g, chan g ≠ none) (h : McFrom chan False False reader (mcInit (init t0)) s) :
    Live (fun g => chan g ≠ none) s.q := by
  induction h with
  | refl =>
    obtain ⟨g, hg⟩ := hc
    exact ⟨(fun j dl h => by cases h), fun _ => .inr ⟨g, hg, rfl⟩, (fun h => by cases h)⟩
  | @step s s' h hs ih =>
    have i := mcInv_reach (mcStart_init t0) h
    have i' := mcInv_reach (mcStart_init t0) (.step h hs)
    have hr := (mcStart_init (chan := chan) (direct := False) (cancel := False) t0 (V := V)).reach.trans i.run
    rcases mc_queue hs with e | e
    · rw [e]
      exact ih
    · exact live_step (fun h => h) (cont_reach hr) (wake_reach (fun h => h) hr) ih i'.roles e

theorem McFrom.trans {s s' s'' : McState V} (h1 : McFrom chan direct cancel reader s s') (h2 : McFrom chan direct cancel reader s' s'') :
    McFrom chan direct cancel reader s s'' := by
  induction h2 with
  | refl => exact h1
  | step _ hs ih => exact .step ih hs

/-- A reader empties its channel. -/
theorem drained {g : Nat} (hr : reader g) (b : List (Entry V)) : ∀ {s : McState V}, s.buf g = b →
    ∃ s', McFrom chan direct cancel reader s s' ∧ s'.q = s.q ∧ s'.at' = s.at' ∧ s'.buf g = [] ∧ s'.received g = s.received g ++ b := by
  induction b with
  | nil => exact fun {s} hb => ⟨s, .refl, rfl, rfl, hb, by rw [List.append_nil]⟩
  | cons e b ih =>
    intro s hb
    obtain ⟨s', f, h1, h2, h3, h4⟩ := ih (s := { s with buf := put s.buf g b, received := put s.received g (s.received g ++ [e]) }) (put_self _ _ _)
    refine ⟨s', McFrom.trans (.step .refl (.recv s g e b hr hb)) f, h1, h2, h3, ?_⟩
    rw [h4]
    dsimp only
    rw [put_self, List.append_assoc]
    rfl

/-- A step of the goroutine of a channel inside `Take`. -/
theorem mc_in {q0 : State V} {s : McState V} {q' : State V} {g : Nat} {b : Pc V} (i : McInv chan direct cancel q0 s) (hg : chan g ≠ none)
    (hs : Step (mcClient cancel) s.q q') (hp : q'.pc = put s.q.pc g b) (h1 : inTake (s.q.pc g)) (h2 : s.q.pc g ≠ .takeHave) (h3 : inTake b)
    (h4 : b ≠ .takeHave) : McStep chan direct cancel reader s { s with q := q' } := by
  have idle : ∀ {p : Pc V}, inTake p → p ≠ .idle := by
    intro p hp e
    rw [e] at hp
    exact hp
  refine .other s q' hs (fun h _ => ?_) (i.others.imp id fun h j hj => ?_)
  · by_cases e : h = g
    · subst e
      have hb : q'.pc h = b := by rw [hp, put_self]
      exact ⟨⟨fun h => (idle h1 h).elim, fun h => (idle h3 (hb ▸ h)).elim⟩, ⟨fun _ => by rw [hb]; exact h3, fun _ => h1⟩,
        ⟨fun h => (h2 h).elim, fun h => (h4 (hb ▸ h)).elim⟩⟩
    · have hb : q'.pc h = s.q.pc h := by rw [hp, put_ne _ _ e]
      exact ⟨by rw [hb], by rw [hb], by rw [hb]⟩
  · rw [hp, put_ne _ _ (fun e => by subst e; exact hg hj)]
    exact h j hj

/-- From waiting for the mutex to the reader. -/
theorem brought {q0 : State V} {s : McState V} {g : Nat} (i : McInv chan direct cancel q0 s) (c : Cont s.q) (hg : chan g ≠ none) (hr : reader g)
    (ha : s.at' g = .taking) (hp : s.q.pc g = .takeWait) (hb : s.buf g = []) (hn : s.q.holder = none) {x : Entry V} (hx : x ∈ s.q.heap)
    (hexp : x.exp < s.q.clock) :
    ∃ s' e, McFrom chan direct cancel reader s s' ∧ s'.q.clock = s.q.clock ∧ s'.received g = s.received g ++ [e] ∧ e.exp ≤ x.exp := by
  have hne : 0 < s.q.heap.length := List.length_pos_of_mem hx
  have h0 : s.q.heap[0]? = some s.q.heap[0] := List.getElem?_eq_getElem hne
  have hmin := (root_min c.heap h0).2 x hx
  obtain ⟨h', e1, _⟩ := pop_ok h0
  have s1 := mc_in (reader := reader) i hg (.takeLock _ g hp hn) rfl (by rw [hp]; trivial) (by simp [hp]) (b := .takeLocked) trivial (by simp)
  have i1 := mcInv_step i s1
  have s2 := mc_in (reader := reader) i1 hg (.takePeek _ g s.q.heap[0] (put_self _ _ _) (by
    cases he : Heap.empty s.q.heap with
    | false => rfl
    | true => rw [empty_iff.1 he] at hne; simp at hne) (peek_iff.2 h0)) rfl (by dsimp only; rw [put_self]; trivial) (by dsimp only; rw [put_self]; simp)
    (b := .takePeeked s.q.heap[0]) trivial (by simp)
  have i2 := mcInv_step i1 s2
  have s3 := mc_in (reader := reader) i2 hg (.takeIsDue _ g s.q.heap[0] (put_self _ _ _) (show s.q.clock > s.q.heap[0].exp by omega)) rfl
    (by dsimp only; rw [put_self]; trivial) (by dsimp only; rw [put_self]; simp) (b := .takeDue s.q.heap[0] s.q.clock) trivial (by simp)
  have f := McFrom.step (.step (.step .refl s1) s2) s3
  have f := f.step (.pop _ g s.q.heap[0] s.q.clock s.q.heap[0] h' hg ha (put_self _ _ _) e1)
  have f := f.step (.ret _ g s.q.heap[0] hg (put_self _ _ _) (put_self _ _ _))
  have f := f.step (.handoff _ g s.q.heap[0] hg hr (put_self _ _ _) hb)
  exact ⟨_, s.q.heap[0], f, rfl, put_self _ _ _, hmin⟩

/-- **C177 (delivers).** If nobody else calls `Take`, no context is cancelled and every reader goes on reading: whenever nobody holds the mutex and something has
expired, one of the readers can get an entry that is due at least as early, without time going by. No wakeup is lost among the channels. -/
theorem C177_delivers {t0 : Int} {s : McState V} (hc : ∃ g, chan g ≠ none) (h : McFrom chan False False (fun _ => True) (mcInit (init t0)) s)
    (hn : s.q.holder = none) {x : Entry V} (hx : x ∈ s.q.heap) (hexp : x.exp < s.q.clock) :
    ∃ s' g e, McFrom chan False False (fun _ => True) s s' ∧ s'.q.clock = s.q.clock ∧ chan g ≠ none ∧
      s'.received g = s.received g ++ s.buf g ++ held (s.at' g) ++ [e] ∧ e.exp ≤ x.exp := by
  have i := mcInv_reach (mcStart_init t0) h
  have hr := (mcStart_init (chan := chan) (direct := False) (cancel := False) t0 (V := V)).reach.trans i.run
  have c := cont_reach hr
  have l := mcLive hc h
  have no : ∀ j, inside (s.q.pc j) = true → False := by
    intro j hj
    have := (c.hold j).1 hj
    rw [hn] at this
    cases this
  /- from waiting for the mutex -/
  have waits : ∀ s1 : McState V, McFrom chan False False (fun _ => True) s s1 → s1.q.holder = none → s1.q.heap = s.q.heap → s1.q.clock = s.q.clock → ∀ g,
      chan g ≠ none → s1.at' g = .taking → s1.q.pc g = .takeWait → s1.received g ++ s1.buf g = s.received g ++ s.buf g ++ held (s.at' g) →
      ∃ s' g e, McFrom chan False False (fun _ => True) s s' ∧ s'.q.clock = s.q.clock ∧ chan g ≠ none ∧
        s'.received g = s.received g ++ s.buf g ++ held (s.at' g) ++ [e] ∧ e.exp ≤ x.exp := by
    intro s1 f1 hn1 hh1 hc1 g hg ha hp hb
    obtain ⟨s2, f2, q2, a2, b2, r2⟩ := drained (chan := chan) (direct := False) (cancel := False) (reader := fun _ => True) (g := g) trivial _ (s := s1) rfl
    have f := McFrom.trans h (McFrom.trans f1 f2)
    have i2 := mcInv_reach (mcStart_init t0) f
    have hr2 := (mcStart_init (chan := chan) (direct := False) (cancel := False) t0 (V := V)).reach.trans i2.run
    obtain ⟨s3, e, f3, c3, r3, hle⟩ := brought (reader := fun _ => True) (g := g) (x := x) i2 (cont_reach hr2) hg trivial (by rw [a2, ha]) (by rw [q2, hp]) b2
      (by rw [q2, hn1]) (by rw [q2, hh1]; exact hx) (by rw [q2, hc1]; exact hexp)
    exact ⟨s3, g, e, McFrom.trans f1 (McFrom.trans f2 f3), by rw [c3, q2, hc1], hg, by rw [r3, r2, hb], hle⟩
  cases hsl : s.q.sleeping with
  | false =>
    rcases l.off hsl with ⟨j, hj⟩ | ⟨g, hg, hj⟩
    · exact (no j (by rw [hj]; rfl)).elim
    · have sp := i.spot g hg
      /- at the top of the loop -/
      have loops : ∀ s1 : McState V, McFrom chan False False (fun _ => True) s s1 → s1.q = s.q → s1.at' g = .loop → s.q.pc g = .idle →
          s1.received g ++ s1.buf g = s.received g ++ s.buf g ++ held (s.at' g) →
          ∃ s' g e, McFrom chan False False (fun _ => True) s s' ∧ s'.q.clock = s.q.clock ∧ chan g ≠ none ∧
            s'.received g = s.received g ++ s.buf g ++ held (s.at' g) ++ [e] ∧ e.exp ≤ x.exp := by
        intro s1 f1 q1 a1 p1 b1
        refine waits _ (f1.step (.call s1 g hg a1 (by rw [q1, p1]))) (by dsimp only; rw [q1, hn]) (by dsimp only; rw [q1]) (by dsimp only; rw [q1]) g hg
          (put_self _ _ _) (put_self _ _ _) b1
      cases ha : s.at' g with
      | loop =>
        rw [ha] at sp
        exact loops s .refl rfl ha sp (by rw [ha]; simp [held])
      | taking =>
        rw [ha] at sp
        have hw : s.q.pc g = .takeWait := by
          cases hp : s.q.pc g <;> rw [hp] at hj sp <;>
            first | rfl | (exfalso; exact sp.1) | (exfalso; apply no g; rw [hp]; rfl) | (exfalso; revert hj; simp [awake]; done)
        exact waits s .refl hn rfl rfl g hg ha hw (by rw [ha]; simp [held])
      | popped e =>
        rw [ha] at sp
        exact (no g (by rw [show s.q.pc g = .takeHave from sp]; rfl)).elim
      | holding e =>
        rw [ha] at sp
        obtain ⟨s1, f1, q1, a1, b1, r1⟩ := drained (chan := chan) (direct := False) (cancel := False) (reader := fun _ => True) (g := g) trivial _ (s := s) rfl
        refine loops _ (f1.step (.handoff s1 g e hg trivial (by rw [a1, ha]) b1)) q1 (put_self _ _ _) sp ?_
        dsimp only
        rw [put_self, b1, r1, ha]
        simp [held]
      | closed => exact (i.closed g ha).2.elim
  | true =>
    obtain ⟨g, hg, hj⟩ := l.on hsl
    have sp := i.spot g hg
    have tk : ∀ p, s.q.pc g = p → p ≠ .idle → p ≠ .takeHave → s.at' g = .taking := by
      intro p hp h1 h2
      cases ha : s.at' g <;> rw [ha, hp] at sp
      case popped => exact (h2 sp).elim
      all_goals exact (h1 sp).elim
    have fires : ∀ s1 : McState V, McFrom chan False False (fun _ => True) s s1 → s1.q.holder = none → s1.q.heap = s.q.heap → s1.q.clock = s.q.clock →
        s1.q.sleeping = true → s1.at' g = .taking → s1.q.pc g = .fired → s1.received g ++ s1.buf g = s.received g ++ s.buf g ++ held (s.at' g) →
        ∃ s' g e, McFrom chan False False (fun _ => True) s s' ∧ s'.q.clock = s.q.clock ∧ chan g ≠ none ∧
          s'.received g = s.received g ++ s.buf g ++ held (s.at' g) ++ [e] ∧ e.exp ≤ x.exp := by
      intro s1 f1 hn1 hh1 hc1 hs1 a1 p1 b1
      have i1 := mcInv_reach (mcStart_init t0) (McFrom.trans h f1)
      have st := mc_in (reader := fun _ => True) i1 hg (.swapWon _ g p1 hs1) rfl (by rw [p1]; trivial) (by simp [p1]) (b := .takeWait) trivial (by simp)
      exact waits _ (f1.step st) hn1 hh1 hc1 g hg a1 (put_self _ _ _) b1
    cases hp : s.q.pc g <;> rw [hp] at hj <;> simp only [Sleeps] at hj
    case takeArmed dl => exact (no g (by rw [hp]; rfl)).elim
    case select dl =>
      have ha := tk _ hp (by simp) (by simp)
      have hcov : Covered dl s.q.heap := by
        rcases hj with h | ⟨a, e, ha, -⟩ | ⟨a, ha⟩
        · exact h
        · exact (no a (by rw [ha]; rfl)).elim
        · exact (no a (by rw [ha]; rfl)).elim
      obtain ⟨d, rfl, hd⟩ := hcov x hx
      have st := mc_in (reader := fun _ => True) i hg (.timer _ g d hp (by omega)) rfl (by rw [hp]; trivial) (by simp [hp]) (b := .fired) trivial (by simp)
      exact fires _ (.step .refl st) hn rfl rfl hsl ha (put_self _ _ _) (by rw [ha]; simp [held])
    case fired =>
      have ha := tk _ hp (by simp) (by simp)
      exact fires s .refl hn rfl rfl hsl ha hp (by rw [ha]; simp [held])

/-! ## A reader that has gone -/

/-- Two channels without buffers. -/
def twoChans : Nat → Option Nat := fun g => if g < 2 then some 0 else none

/-- The first goroutine waits for its reader for ever, the second sleeps. -/
structure Slow (s : McState V) : Prop where
  lost : Lost s.q
  first : ∃ e, s.at' 0 = .holding e
  second : s.at' 1 = .taking
  empty : s.buf 1 = []
  nothing : s.received 1 = []

theorem twoChans_some {g : Nat} (h : twoChans g ≠ none) : g = 0 ∨ g = 1 := by
  unfold twoChans at h
  by_cases hg : g < 2
  · omega
  · rw [if_neg hg] at h
    exact (h rfl).elim

theorem to_single {q q' : State V} (hs : Step (mcClient False) q q') (hnt : ∀ j, j ≠ 1 → ¬ inTake (q'.pc j)) (hid : ¬ q.pc 1 = .idle) : Step single q q' := by
  cases hs with
  | callTake i hp hcl =>
    by_cases e : i = 1
    · subst e
      exact (hid hp).elim
    · exact (hnt i e (by dsimp only; rw [put_self]; trivial)).elim
  | tick d h => exact .tick _ _ h
  | callPush i v delay hp => exact .callPush _ _ _ _ hp
  | pushLock i v delay hp hn => exact .pushLock _ _ _ _ hp hn
  | pushAdd i v delay h' hp he => exact .pushAdd _ _ _ _ _ hp he
  | pushIsHead i e x hp h1 h2 => exact .pushIsHead _ _ _ _ hp h1 h2
  | pushNotHead i e x hp h1 h2 => exact .pushNotHead _ _ _ _ hp h1 h2
  | pushCas i hp hsl => exact .pushCas _ _ hp hsl
  | pushCasFail i hp h => exact .pushCasFail _ _ hp h
  | wake i j dl hi hj => exact .wake _ _ _ _ hi hj
  | wakeDrain i j hi hj => exact .wakeDrain _ _ _ hi hj
  | pushUnlock i hp => exact .pushUnlock _ _ hp
  | takeLock i hp hn => exact .takeLock _ _ hp hn
  | takeEmpty i hp h => exact .takeEmpty _ _ hp h
  | takePeek i e hp h he => exact .takePeek _ _ _ hp h he
  | takeIsDue i e hp hc => exact .takeIsDue _ _ _ hp hc
  | takeNotDue i e hp h => exact .takeNotDue _ _ _ hp h
  | takePop i e now x h' hp he => exact .takePop _ _ _ _ _ _ hp he
  | takeReturn i hp => exact .takeReturn _ _ hp
  | takeStore i dl hp => exact .takeStore _ _ _ hp
  | takeUnlock i dl hp => exact .takeUnlock _ _ _ hp
  | timer i d hp h => exact .timer _ _ _ hp h
  | swapWon i hp hsl => exact .swapWon _ _ hp hsl
  | swapLost i hp hsl => exact .swapLost _ _ hp hsl
  | cancel i dl hc hp => exact hc.elim
  | callOp i b hp => exact .callOp _ _ _ hp
  | opLock i b hp hn => exact .opLock _ _ _ hp hn
  | opPop i h' e hp he => exact .opPop _ _ _ _ hp he
  | opPopNone i h' hp he => exact .opPopNone _ _ _ hp he
  | opRead i hp => exact .opRead _ _ hp
  | opReturn i hp => exact .opReturn _ _ hp

theorem slow_step {s s' : McState V} (h : Slow s) (hs : McStep twoChans False False (fun g => g = 1) s s') : Slow s' := by
  obtain ⟨e0, he0⟩ := h.first
  cases hs with
  | other q' h1 h2 h3 =>
    refine ⟨lost_step h.lost (to_single h1 (fun j hj => ?_) (by rw [h.lost.sleeps]; simp)), h.first, h.second, h.empty, h.nothing⟩
    cases hc : twoChans j with
    | none => exact h3.resolve_left id j hc
    | some n =>
      have hc' : twoChans j ≠ none := by rw [hc]; simp
      exact fun ht => h.lost.notake j hj ((h2 j hc').take.2 ht)
  | call g hg h1 h2 =>
    rcases twoChans_some hg with rfl | rfl
    · rw [he0] at h1; cases h1
    · rw [h.second] at h1; cases h1
  | pop g e now x h' hg h1 h2 h3 =>
    rcases twoChans_some hg with rfl | rfl
    · rw [he0] at h1; cases h1
    · rw [h.lost.sleeps] at h2; cases h2
  | ret g e hg h1 h2 =>
    rcases twoChans_some hg with rfl | rfl
    · rw [he0] at h1; cases h1
    · rw [h.second] at h1; cases h1
  | giveUp g dl hg h1 h2 h3 h4 => exact h3.elim
  | ctxCancel g h => exact h.elim
  | send g size e hg h1 h2 =>
    rcases twoChans_some (g := g) (by rw [hg]; simp) with rfl | rfl
    · cases hg; exact (Nat.not_lt_zero _ h2).elim
    · cases hg; exact (Nat.not_lt_zero _ h2).elim
  | handoff g e hg hr h1 h2 =>
    subst hr
    rw [h.second] at h1
    cases h1
  | recv g e b hr h1 =>
    subst hr
    rw [h.empty] at h1
    cases h1

/-- **C177 (the channels do not hold up each other), refuted.** Two channels on one queue, no context cancelled. The reader of the first has gone (or is slow)
while its goroutine has an entry in its hands; the second goroutine sleeps and its reader waits. Whatever is pushed and falls due from now on, the second
reader gets nothing, ever: the flag that would wake the sleeper was taken back when the first was woken. -/
theorem C177_slow_refuted : ∃ (s : McState Nat) (x : Entry Nat), McFrom twoChans False False (fun g => g = 1) (mcInit (init 0)) s ∧ x ∈ s.q.heap ∧
    x.exp < s.q.clock ∧ s.q.holder = none ∧ s.q.pc 1 = .select none ∧
    ∀ s', McFrom twoChans False False (fun g => g = 1) s s' → s'.q.pc 1 = .select none ∧ s'.received 1 = [] := by
  have f : McFrom twoChans False False (fun g => g = 1) (mcInit (init 0 : State Nat)) (mcInit (init 0)) := .refl
  /- the clock, a step of a goroutine that pushes, of one inside `Take`, and waking the first -/
  have ticks : ∀ {s : McState Nat} (d : Int), McFrom twoChans False False (fun g => g = 1) (mcInit (init 0)) s → 0 ≤ d →
      McFrom twoChans False False (fun g => g = 1) (mcInit (init 0)) { s with q := { s.q with clock := s.q.clock + d } } := by
    intro s d f hd
    exact f.step (.other s _ (.tick _ d hd) (fun g _ => ⟨Iff.rfl, Iff.rfl, Iff.rfl⟩) (mcInv_reach (mcStart_init 0) f).others)
  have pushes : ∀ {s : McState Nat} {q' : State Nat} (b : Pc Nat), McFrom twoChans False False (fun g => g = 1) (mcInit (init 0)) s →
      Step (mcClient False) s.q q' → q'.pc = put s.q.pc 2 b → ¬ inTake b →
      McFrom twoChans False False (fun g => g = 1) (mcInit (init 0)) { s with q := q' } := by
    intro s q' b f hs hp hb
    refine f.step (.other s q' hs (fun g hg => ?_) (.inr fun j hj => ?_))
    · have : q'.pc g = s.q.pc g := by
        rw [hp, put_ne]
        rcases twoChans_some hg with rfl | rfl <;> decide
      exact ⟨by rw [this], by rw [this], by rw [this]⟩
    · rw [hp]
      by_cases e : j = 2
      · subst e
        rw [put_self]
        exact hb
      · rw [put_ne _ _ e]
        exact (mcInv_reach (mcStart_init 0) f).others.resolve_left id j hj
  have takes : ∀ {s : McState Nat} {q' : State Nat} (g : Nat) (b : Pc Nat), McFrom twoChans False False (fun g => g = 1) (mcInit (init 0)) s → g < 2 →
      Step (mcClient False) s.q q' → q'.pc = put s.q.pc g b → inTake (s.q.pc g) ∧ s.q.pc g ≠ .takeHave → inTake b ∧ b ≠ .takeHave →
      McFrom twoChans False False (fun g => g = 1) (mcInit (init 0)) { s with q := q' } := by
    intro s q' g b f hg hs hp h1 h2
    exact f.step (mc_in (mcInv_reach (mcStart_init 0) f) (by unfold twoChans; rw [if_pos hg]; simp) hs hp h1.1 h1.2 h2.1 h2.2)
  have wakes : ∀ {s : McState Nat}, McFrom twoChans False False (fun g => g = 1) (mcInit (init 0)) s → s.q.pc 2 = .pushSend → s.q.pc 0 = .select none →
      McFrom twoChans False False (fun g => g = 1) (mcInit (init 0)) { s with q := { s.q with pc := put (put s.q.pc 2 .pushUnlock) 0 .takeWait } } := by
    intro s f h1 h2
    refine f.step (.other s _ (.wake _ 2 0 none h1 h2) (fun g hg => ?_) (.inr fun j hj => ?_))
    · dsimp only
      rcases twoChans_some hg with rfl | rfl
      · refine ⟨?_, ?_, ?_⟩ <;> dsimp only <;> rw [put_self, h2] <;> simp [inTake]
      · refine ⟨?_, ?_, ?_⟩ <;> dsimp only <;> rw [put_ne _ _ (by decide), put_ne _ _ (by decide)]
    · dsimp only
      have h0 : j ≠ 0 := fun e => by subst e; cases hj
      rw [put_ne _ _ h0]
      by_cases e : j = 2
      · subst e
        rw [put_self]
        exact id
      · rw [put_ne _ _ e]
        exact (mcInv_reach (mcStart_init 0) f).others.resolve_left id j hj
  have ch : ∀ g, g < 2 → twoChans g ≠ none := fun g hg => by unfold twoChans; rw [if_pos hg]; simp
  /- both sleep -/
  have f := f.step (.call _ 0 (ch 0 (by decide)) rfl rfl)
  have f := takes 0 .takeLocked f (by decide) (.takeLock _ 0 rfl rfl) rfl ⟨trivial, by decide⟩ ⟨trivial, by decide⟩
  have f := takes 0 (.takeArm none) f (by decide) (.takeEmpty _ 0 rfl rfl) rfl ⟨trivial, by decide⟩ ⟨trivial, by decide⟩
  have f := takes 0 (.takeArmed none) f (by decide) (.takeStore _ 0 none rfl) rfl ⟨trivial, by decide⟩ ⟨trivial, by decide⟩
  have f := takes 0 (.select none) f (by decide) (.takeUnlock _ 0 none rfl) rfl ⟨trivial, by decide⟩ ⟨trivial, by decide⟩
  have f := f.step (.call _ 1 (ch 1 (by decide)) rfl rfl)
  have f := takes 1 .takeLocked f (by decide) (.takeLock _ 1 rfl rfl) rfl ⟨trivial, by decide⟩ ⟨trivial, by decide⟩
  have f := takes 1 (.takeArm none) f (by decide) (.takeEmpty _ 1 rfl rfl) rfl ⟨trivial, by decide⟩ ⟨trivial, by decide⟩
  have f := takes 1 (.takeArmed none) f (by decide) (.takeStore _ 1 none rfl) rfl ⟨trivial, by decide⟩ ⟨trivial, by decide⟩
  have f := takes 1 (.select none) f (by decide) (.takeUnlock _ 1 none rfl) rfl ⟨trivial, by decide⟩ ⟨trivial, by decide⟩
  /- a push wakes the first, which takes the entry -/
  have f := pushes (.pushWait 7 0) f (.callPush _ 2 7 0 rfl) rfl id
  have f := pushes (.pushLocked 7 0) f (.pushLock _ 2 7 0 rfl rfl) rfl id
  have f := pushes _ f (.pushAdd _ 2 7 0 _ rfl rfl) rfl id
  have f := pushes .pushHead f (.pushIsHead _ 2 _ _ rfl rfl rfl) rfl id
  have f := pushes .pushSend f (.pushCas _ 2 rfl rfl) rfl id
  have f := wakes f rfl rfl
  have f := pushes .idle f (.pushUnlock _ 2 rfl) rfl id
  have f := ticks 1 f (by decide)
  have f := takes 0 .takeLocked f (by decide) (.takeLock _ 0 rfl rfl) rfl ⟨trivial, by decide⟩ ⟨trivial, by decide⟩
  have f := takes 0 _ f (by decide) (.takePeek _ 0 _ rfl rfl rfl) rfl ⟨trivial, by decide⟩ ⟨trivial, by decide⟩
  have f := takes 0 _ f (by decide) (.takeIsDue _ 0 _ rfl (by decide)) rfl ⟨trivial, by decide⟩ ⟨trivial, by decide⟩
  have f := f.step (.pop _ 0 _ _ _ _ (ch 0 (by decide)) rfl rfl rfl)
  have f := f.step (.ret _ 0 _ (ch 0 (by decide)) rfl rfl)
  /- another push wakes nobody -/
  have f := pushes (.pushWait 8 0) f (.callPush _ 2 8 0 rfl) rfl id
  have f := pushes (.pushLocked 8 0) f (.pushLock _ 2 8 0 rfl rfl) rfl id
  have f := pushes _ f (.pushAdd _ 2 8 0 _ rfl rfl) rfl id
  have f := pushes .pushHead f (.pushIsHead _ 2 _ _ rfl rfl rfl) rfl id
  have f := pushes .pushUnlock f (.pushCasFail _ 2 rfl rfl) rfl id
  have f := pushes .idle f (.pushUnlock _ 2 rfl) rfl id
  have f := ticks 1 f (by decide)
  refine ⟨_, _, f, List.mem_cons_self .., by decide, rfl, rfl, fun s' f' => ?_⟩
  have hs : Slow s' := by
    induction f' with
    | refl =>
      refine ⟨⟨rfl, rfl, fun i => ?_, fun i h1 => ?_⟩, ⟨_, rfl⟩, rfl, rfl, rfl⟩
      · by_cases h0 : i = 0
        · subst h0; simp [put]
        by_cases h1 : i = 1
        · subst h1; simp [put]
        by_cases h2 : i = 2
        · subst h2; simp [put]
        simp [put, h0, h1, h2, mcInit, init]
      · by_cases h0 : i = 0
        · subst h0; exact id
        by_cases h2 : i = 2
        · subst h2; exact id
        simp [put, h0, h1, h2, mcInit, init, inTake]
    | step _ hs ih => exact slow_step ih hs
  exact ⟨hs.lost.sleeps, hs.nothing⟩

theorem mc_more {reader' : Nat → Prop} (hr : ∀ g, reader g → reader' g) {s s' : McState V} (h : McFrom chan direct cancel reader s s') :
    McFrom chan direct cancel reader' s s' := by
  induction h with
  | refl => exact .refl
  | step _ hs ih =>
    refine ih.step ?_
    cases hs with
    | other q' h1 h2 h3 => exact .other _ _ h1 h2 h3
    | call g hg h1 h2 => exact .call _ _ hg h1 h2
    | pop g e now x h' hg h1 h2 h3 => exact .pop _ _ _ _ _ _ hg h1 h2 h3
    | ret g e hg h1 h2 => exact .ret _ _ _ hg h1 h2
    | giveUp g dl hg h1 h2 h3 h4 => exact .giveUp _ _ _ hg h1 h2 h3 h4
    | ctxCancel g h => exact .ctxCancel _ _ h
    | send g size e hg h1 h2 => exact .send _ _ _ _ hg h1 h2
    | handoff g e hg h0 h1 h2 => exact .handoff _ _ _ hg (hr g h0) h1 h2
    | recv g e b h0 h1 => exact .recv _ _ _ _ (hr g h0) h1

/-- The hypotheses of `C177_delivers` are met in the state of `C177_slow_refuted`, if both readers go on reading: so there the entry can arrive, and it is
the missing reader that keeps it. -/
example : ∃ (s : McState Nat) (x : Entry Nat), McFrom twoChans False False (fun _ => True) (mcInit (init 0)) s ∧ x ∈ s.q.heap ∧ x.exp < s.q.clock ∧
    s.q.holder = none ∧ s.q.pc 1 = .select none ∧
    ∃ s' g e, McFrom twoChans False False (fun _ => True) s s' ∧ s'.q.clock = s.q.clock ∧ twoChans g ≠ none ∧
      s'.received g = s.received g ++ s.buf g ++ held (s.at' g) ++ [e] ∧ e.exp ≤ x.exp := by
  obtain ⟨s, x, f, hx, hexp, hn, hp, -⟩ := C177_slow_refuted
  have f' := mc_more (reader' := fun _ => True) (fun _ _ => trivial) f
  exact ⟨s, x, f', hx, hexp, hn, hp, C177_delivers ⟨0, by decide⟩ f' hn hx hexp⟩

/-! ## The end of a channel -/

theorem mc_trans {a b c : McState V} (h1 : McFrom chan direct cancel reader a b) (h2 : McFrom chan direct cancel reader b c) : McFrom chan direct cancel reader a c := by
  induction h2 with
  | refl => exact h1
  | step _ hs ih => exact .step ih hs

/-- A context is cancelled by a step. -/
theorem mc_cancelled {q0 : State V} {s : McState V} {g : Nat} (h : McFrom chan direct cancel reader (mcInit q0) s) (hc : s.cancelled g = true) :
    ∃ s1, McFrom chan direct cancel reader (mcInit q0) s1 ∧ s1.cancelled g = false ∧ cancel ∧
      McFrom chan direct cancel reader { s1 with cancelled := put s1.cancelled g true } s := by
  induction h with
  | refl => cases hc
  | @step s s' h hs ih =>
    by_cases h1 : s.cancelled g = true
    · obtain ⟨s1, a, b, c, d⟩ := ih h1
      exact ⟨s1, a, b, c, .step d hs⟩
    · cases hs with
      | ctxCancel g' hcan =>
        dsimp only at hc
        by_cases e : g = g'
        · subst e
          exact ⟨s, h, by simpa using h1, hcan, .refl⟩
        · rw [put_ne _ _ e] at hc
          exact absurd hc h1
      | _ => exact absurd hc h1

/-- **C177** A channel ends only after its own context was cancelled: there was a state in which it had neither ended nor was its context cancelled, and the next thing that happened was the cancellation. -/
theorem C177_closes_only {t0 : Int} {q0 : State V} {s : McState V} (h0 : McStart chan direct cancel t0 q0) (h : McFrom chan direct cancel reader (mcInit q0) s)
    {g : Nat} (hc : s.at' g = .closed) :
    ∃ s1, McFrom chan direct cancel reader (mcInit q0) s1 ∧ s1.cancelled g = false ∧ s1.at' g ≠ .closed ∧ cancel ∧
      McFrom chan direct cancel reader { s1 with cancelled := put s1.cancelled g true } s := by
  obtain ⟨s1, a, b, c, d⟩ := mc_cancelled h ((mcInv_reach h0 h).closed g hc).1
  refine ⟨s1, a, b, fun hx => ?_, c, d⟩
  have := ((mcInv_reach h0 a).closed g hx).1
  rw [b] at this
  cases this

/-- **C177** The others go on: the cancellation of one context ends no other channel. -/
theorem C177_others_open {t0 : Int} {q0 : State V} {s : McState V} (h0 : McStart chan direct cancel t0 q0) (h : McFrom chan direct cancel reader (mcInit q0) s)
    {g : Nat} (hc : s.cancelled g = false) : s.at' g ≠ .closed := fun hx => by
  have := ((mcInv_reach h0 h).closed g hx).1
  rw [hc] at this
  cases this

end Verif.DelayQueue
