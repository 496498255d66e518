import Verif.Model.SafeMapLock
import Verif.Proof.Mutex
import Mathlib.Tactic.Linarith
import Mathlib.Algebra.BigOperators.Group.Finset.Basic
import Mathlib.Algebra.Order.BigOperators.Group.Finset

/-!
# C141: callbacks that use the map
-/

namespace Verif.SafeMapLock

open Mutex (put put_self put_ne)

/-! ## Which calls are a danger -/

mutual
/-- The call takes the write lock somewhere. -/
def hasWrite : Call → Bool
  | .read => false
  | .write => true
  | .rrange cs => anyWrite cs
  | .wrange _ => true
def anyWrite : List Call → Bool
  | [] => false
  | c :: cs => hasWrite c || anyWrite cs
end

/-- A callback of `RLockRange` writes, or a callback of `LockRange` uses the map at all. -/
def bad : Call → Bool
  | .read => false
  | .write => false
  | .rrange cs => anyWrite cs
  | .wrange cs => !cs.isEmpty

/-- No callback uses the map. -/
def flat : Call → Bool
  | .read => true
  | .write => true
  | .rrange cs => cs.isEmpty
  | .wrange cs => cs.isEmpty

/-! ## Depths -/

/-- With `r` read locks and `w` write locks, the rest is balanced, and ends with no lock. -/
def Bal : Nat → Nat → List Instr → Prop
  | r, w, [] => r = 0 ∧ w = 0
  | r, w, .rlock :: t => Bal (r + 1) w t
  | r, w, .runlock :: t => 0 < r ∧ Bal (r - 1) w t
  | r, w, .lock :: t => Bal r (w + 1) t
  | r, w, .unlock :: t => 0 < w ∧ Bal r (w - 1) t
  | r, w, .work :: t => Bal r w t

/-- With `r` read locks and `w` write locks, the rest asks for a lock that the goroutine itself keeps it from getting. -/
def Doom : Nat → Nat → List Instr → Prop
  | _, _, [] => False
  | r, w, .rlock :: t => 0 < w ∨ Doom (r + 1) w t
  | r, w, .runlock :: t => Doom (r - 1) w t
  | r, w, .lock :: t => 0 < r ∨ 0 < w ∨ Doom r (w + 1) t
  | r, w, .unlock :: t => Doom r (w - 1) t
  | r, w, .work :: t => Doom r w t

/-- Locks are asked for only without a lock. -/
def Plain : Nat → Nat → List Instr → Prop
  | _, _, [] => True
  | r, w, .rlock :: t => (r = 0 ∧ w = 0) ∧ Plain (r + 1) w t
  | r, w, .runlock :: t => Plain (r - 1) w t
  | r, w, .lock :: t => (r = 0 ∧ w = 0) ∧ Plain r (w + 1) t
  | r, w, .unlock :: t => Plain r (w - 1) t
  | r, w, .work :: t => Plain r w t

mutual
theorem bal_code (t : List Instr) : ∀ (c : Call) (r w : Nat), Bal r w t → Bal r w (code c ++ t)
  | .read, r, w, h => by simpa [code, Bal] using h
  | .write, r, w, h => by simpa [code, Bal] using h
  | .rrange cs, r, w, h => by
    simp only [code, List.append_assoc, List.cons_append, List.nil_append]
    exact bal_codes _ cs (r + 1) w ⟨by omega, by simpa using h⟩
  | .wrange cs, r, w, h => by
    simp only [code, List.append_assoc, List.cons_append, List.nil_append]
    exact bal_codes _ cs r (w + 1) ⟨by omega, by simpa using h⟩
theorem bal_codes (t : List Instr) : ∀ (cs : List Call) (r w : Nat), Bal r w t → Bal r w (codes cs ++ t)
  | [], r, w, h => by simpa [codes] using h
  | c :: cs, r, w, h => by
    rw [codes, List.append_assoc]
    exact bal_code _ c r w (bal_codes t cs r w h)
end

mutual
theorem doom_code (t : List Instr) : ∀ (c : Call) (r w : Nat), Doom r w t → Doom r w (code c ++ t)
  | .read, r, w, h => by simp only [code, List.cons_append, List.nil_append]; exact .inr (by simpa [Doom] using h)
  | .write, r, w, h => by simp only [code, List.cons_append, List.nil_append]; exact .inr (.inr (by simpa [Doom] using h))
  | .rrange cs, r, w, h => by
    simp only [code, List.append_assoc, List.cons_append, List.nil_append]
    exact .inr (doom_codes _ cs (r + 1) w (by simpa [Doom] using h))
  | .wrange cs, r, w, h => by
    simp only [code, List.append_assoc, List.cons_append, List.nil_append]
    exact .inr (.inr (doom_codes _ cs r (w + 1) (by simpa [Doom] using h)))
theorem doom_codes (t : List Instr) : ∀ (cs : List Call) (r w : Nat), Doom r w t → Doom r w (codes cs ++ t)
  | [], r, w, h => by simpa [codes] using h
  | c :: cs, r, w, h => by
    rw [codes, List.append_assoc]
    exact doom_code _ c r w (doom_codes t cs r w h)
end

mutual
theorem write_doom (t : List Instr) : ∀ (c : Call) (r w : Nat), 0 < r → hasWrite c = true → Doom r w (code c ++ t)
  | .read, r, w, _, h => by simp [hasWrite] at h
  | .write, r, w, hr, _ => by simp only [code, List.cons_append, List.nil_append]; exact .inl hr
  | .rrange cs, r, w, hr, h => by
    rw [hasWrite] at h
    simp only [code, List.append_assoc, List.cons_append, List.nil_append]
    exact .inr (writes_doom _ cs (r + 1) w (by omega) h)
  | .wrange cs, r, w, hr, _ => by
    simp only [code, List.append_assoc, List.cons_append, List.nil_append]
    exact .inl hr
theorem writes_doom (t : List Instr) : ∀ (cs : List Call) (r w : Nat), 0 < r → anyWrite cs = true → Doom r w (codes cs ++ t)
  | [], r, w, _, h => by simp [anyWrite] at h
  | c :: cs, r, w, hr, h => by
    rw [anyWrite, Bool.or_eq_true] at h
    rw [codes, List.append_assoc]
    rcases h with h | h
    · exact write_doom _ c r w hr h
    · exact doom_code _ c r w (writes_doom t cs r w hr h)
end

theorem bad_doom (t : List Instr) (c : Call) (h : bad c = true) (r w : Nat) : Doom r w (code c ++ t) := by
  cases c with
  | read => simp [bad] at h
  | write => simp [bad] at h
  | rrange cs =>
    simp only [code, List.append_assoc, List.cons_append, List.nil_append]
    exact .inr (writes_doom _ cs _ _ (by omega) h)
  | wrange cs =>
    simp only [code, List.append_assoc, List.cons_append, List.nil_append]
    refine .inr (.inr ?_)
    cases cs with
    | nil => simp [bad] at h
    | cons c cs =>
      rw [codes]
      cases c <;> simp only [code, List.append_assoc, List.cons_append, List.nil_append, Doom] <;> simp

theorem bads_doom (cs : List Call) (h : ∃ c ∈ cs, bad c = true) : Doom 0 0 (codes cs) := by
  induction cs with
  | nil => obtain ⟨c, hc, -⟩ := h; cases hc
  | cons c cs ih =>
    rw [codes]
    by_cases hc : bad c = true
    · exact bad_doom _ c hc 0 0
    · obtain ⟨c', hm, hb⟩ := h
      rcases List.mem_cons.1 hm with rfl | hm
      · exact absurd hb hc
      · exact doom_code _ c 0 0 (ih ⟨c', hm, hb⟩)

theorem plain_codes (cs : List Call) (h : ∀ c ∈ cs, flat c = true) : Plain 0 0 (codes cs) := by
  induction cs with
  | nil => trivial
  | cons c cs ih =>
    have hi := ih (fun c hc => h c (List.mem_cons_of_mem _ hc))
    have hc := h c List.mem_cons_self
    rw [codes]
    cases c with
    | read => simpa [code, Plain] using hi
    | write => simpa [code, Plain] using hi
    | rrange l =>
      cases l with
      | nil => simpa [code, codes, Plain] using hi
      | cons _ _ => simp [flat] at hc
    | wrange l =>
      cases l with
      | nil => simpa [code, codes, Plain] using hi
      | cons _ _ => simp [flat] at hc

/-! ## Invariants -/

/-- How many write locks the goroutine has. -/
def writes (s : State) (i : Nat) : Nat := if s.writer = .holds i then 1 else 0

structure Inv (s : State) : Prop where
  bal : ∀ i, Bal (s.readers i) (writes s i) (s.rest i)
  waits : ∀ i, s.writer = .waits i → ∃ t, s.rest i = .lock :: t

theorem writes_ne {s : State} {i : Nat} (h : s.writer ≠ .holds i) : writes s i = 0 := if_neg h

theorem inv_step {s s' : State} {i : Nat} (h : Inv s) (st : Step i s s') : Inv s' := by
  have hi := h.bal i
  cases st with
  | work rest e =>
    rw [e] at hi
    refine ⟨fun j => ?_, fun j hj => ?_⟩
    · by_cases hj : j = i
      · subst hj; dsimp only; rw [put_self]; exact hi
      · dsimp only; rw [put_ne _ _ hj]; exact h.bal j
    · obtain ⟨t, ht⟩ := h.waits j hj
      by_cases hji : j = i
      · subst hji; rw [e] at ht; cases ht
      · exact ⟨t, by dsimp only; rw [put_ne _ _ hji]; exact ht⟩
  | rlock rest e hw =>
    rw [e] at hi
    refine ⟨fun j => ?_, fun j hj => ?_⟩
    · by_cases hj : j = i
      · subst hj; dsimp only; rw [put_self, put_self]; exact hi
      · dsimp only; rw [put_ne _ _ hj, put_ne _ _ hj]; exact h.bal j
    · rw [show s.writer = _ from hj] at hw; cases hw
  | runlock rest e hr =>
    rw [e] at hi
    refine ⟨fun j => ?_, fun j hj => ?_⟩
    · by_cases hj : j = i
      · subst hj; dsimp only; rw [put_self, put_self]; exact hi.2
      · dsimp only; rw [put_ne _ _ hj, put_ne _ _ hj]; exact h.bal j
    · obtain ⟨t, ht⟩ := h.waits j hj
      by_cases hji : j = i
      · subst hji; rw [e] at ht; cases ht
      · exact ⟨t, by dsimp only; rw [put_ne _ _ hji]; exact ht⟩
  | announce rest e hw =>
    refine ⟨fun j => ?_, fun j hj => ?_⟩
    · have h1 : writes s j = 0 := writes_ne (by rw [hw]; simp)
      have h2 : writes { s with writer := .waits i } j = 0 := writes_ne (by simp)
      rw [h2, ← h1]
      exact h.bal j
    · simp only [Writer.waits.injEq] at hj
      subst hj
      exact ⟨rest, e⟩
  | lock rest e hw hr =>
    rw [e] at hi
    refine ⟨fun j => ?_, fun j hj => by cases hj⟩
    have h1 : writes s j = 0 := writes_ne (by rw [hw]; simp)
    by_cases hj : j = i
    · subst hj
      have h2 : writes { s with rest := put s.rest j rest, writer := .holds j } j = 1 := if_pos rfl
      rw [h2]
      dsimp only
      rw [put_self]
      rw [h1] at hi
      exact hi
    · have h2 : writes { s with rest := put s.rest i rest, writer := .holds i } j = 0 := writes_ne (by simp; exact fun e => hj e.symm)
      rw [h2]
      dsimp only
      rw [put_ne _ _ hj, ← h1]
      exact h.bal j
  | unlock rest e hw =>
    rw [e] at hi
    refine ⟨fun j => ?_, fun j hj => by cases hj⟩
    have h2 : writes { s with rest := put s.rest i rest, writer := .none } j = 0 := writes_ne (by simp)
    rw [h2]
    dsimp only
    by_cases hj : j = i
    · subst hj
      rw [put_self]
      have h1 : writes s j = 1 := if_pos hw
      rw [h1] at hi
      exact hi.2
    · rw [put_ne _ _ hj]
      have h1 : writes s j = 0 := writes_ne (by rw [hw]; simp; exact fun e => hj e.symm)
      rw [← h1]
      exact h.bal j

theorem inv_init (p : Nat → List Call) : Inv (init p) := by
  refine ⟨fun i => ?_, fun i h => by cases h⟩
  have h1 : writes (init p) i = 0 := writes_ne (by simp [init])
  rw [h1]
  have := bal_codes [] (p i) 0 0 ⟨rfl, rfl⟩
  rw [List.append_nil] at this
  exact this

theorem inv_from {p : Nat → List Call} {s : State} (f : From (init p) s) : Inv s := by
  induction f with
  | refl => exact inv_init p
  | step i _ st ih => exact inv_step ih st

theorem doom_step {s s' : State} {i j : Nat} (h : Doom (s.readers j) (writes s j) (s.rest j)) (st : Step i s s') :
    Doom (s'.readers j) (writes s' j) (s'.rest j) := by
  by_cases hj : j = i
  · subst hj
    cases st with
    | work rest e => rw [e] at h; dsimp only; rw [put_self]; exact h
    | rlock rest e hw =>
      rw [e] at h
      dsimp only
      rw [put_self, put_self]
      have h1 : writes s j = 0 := writes_ne (by rw [hw]; simp)
      rcases h with h | h
      · omega
      · exact h
    | runlock rest e hr => rw [e] at h; dsimp only; rw [put_self, put_self]; exact h
    | announce rest e hw =>
      have h1 : writes s j = 0 := writes_ne (by rw [hw]; simp)
      have h2 : writes { s with writer := .waits j } j = 0 := writes_ne (by simp)
      rw [h2, ← h1]
      exact h
    | lock rest e hw hr =>
      rw [e] at h
      have h1 : writes s j = 0 := writes_ne (by rw [hw]; simp)
      have h2 : writes { s with rest := put s.rest j rest, writer := .holds j } j = 1 := if_pos rfl
      rw [h2]
      dsimp only
      rw [put_self]
      rw [h1] at h
      rcases h with h | h | h
      · have := hr j; omega
      · omega
      · exact h
    | unlock rest e hw =>
      rw [e] at h
      have h1 : writes s j = 1 := if_pos hw
      have h2 : writes { s with rest := put s.rest j rest, writer := .none } j = 0 := writes_ne (by simp)
      rw [h2]
      dsimp only
      rw [put_self]
      rw [h1] at h
      exact h
  · cases st with
    | work rest e => dsimp only; rw [put_ne _ _ hj]; exact h
    | rlock rest e hw => dsimp only; rw [put_ne _ _ hj, put_ne _ _ hj]; exact h
    | runlock rest e hr => dsimp only; rw [put_ne _ _ hj, put_ne _ _ hj]; exact h
    | announce rest e hw =>
      have h1 : writes s j = 0 := writes_ne (by rw [hw]; simp)
      have h2 : writes { s with writer := .waits i } j = 0 := writes_ne (by simp)
      rw [h2, ← h1]
      exact h
    | lock rest e hw hr =>
      have h1 : writes s j = 0 := writes_ne (by rw [hw]; simp)
      have h2 : writes { s with rest := put s.rest i rest, writer := .holds i } j = 0 := writes_ne (by simp; exact fun e => hj e.symm)
      rw [h2]
      dsimp only
      rw [put_ne _ _ hj, ← h1]
      exact h
    | unlock rest e hw =>
      have h1 : writes s j = 0 := writes_ne (by rw [hw]; simp; exact fun e => hj e.symm)
      have h2 : writes { s with rest := put s.rest i rest, writer := .none } j = 0 := writes_ne (by simp)
      rw [h2]
      dsimp only
      rw [put_ne _ _ hj, ← h1]
      exact h

/-! ## The theorems -/

/-- **C141 (refuted: callbacks may use the map).** A goroutine whose callback of `RLockRange` writes to the map, or whose callback of `LockRange`
uses it at all, never finishes, whatever the others do. -/
theorem C141_bad_refuted {p : Nat → List Call} {i : Nat} (h : ∃ c ∈ p i, bad c = true) {s : State} (f : From (init p) s) : s.rest i ≠ [] := by
  have : Doom (s.readers i) (writes s i) (s.rest i) := by
    induction f with
    | refl =>
      have h1 : writes (init p) i = 0 := writes_ne (by simp [init])
      rw [h1]
      exact bads_doom _ h
    | step j _ st ih => exact doom_step ih st
  intro e
  rw [e] at this
  exact this

/-- **C141** Once such a goroutine has come to its second lock, the map is dead: nobody gets a lock of it any more. -/
theorem C141_dead {p : Nat → List Call} {s s' : State} {i : Nat} (f : From (init p) s)
    (h : s.writer = .waits i ∧ 0 < s.readers i ∨ s.writer = .holds i ∧ ∃ t, s.rest i = .lock :: t ∨ s.rest i = .rlock :: t)
    (f' : From s s') (j : Nat) (t : List Instr) (hj : s.rest j = .lock :: t ∨ s.rest j = .rlock :: t) : s'.rest j = s.rest j := by
  suffices hs : (s'.writer = s.writer ∧ (s.writer = .waits i → s'.readers i = s.readers i) ∧ s'.rest i = s.rest i ∧ s'.rest j = s.rest j) from hs.2.2.2
  have hi := inv_from f
  have hri : ∃ t, s.rest i = .lock :: t ∨ s.rest i = .rlock :: t := by
    rcases h with ⟨h, -⟩ | ⟨-, h⟩
    · obtain ⟨t, ht⟩ := hi.waits i h
      exact ⟨t, .inl ht⟩
    · exact h
  obtain ⟨ti, hti⟩ := hri
  induction f' with
  | refl => exact ⟨rfl, fun _ => rfl, rfl, rfl⟩
  | @step s1 s2 k _ st ih =>
    obtain ⟨h1, h2, h3, h4⟩ := ih
    have hw : s1.writer ≠ .none := by rw [h1]; rcases h with ⟨h, -⟩ | ⟨h, -⟩ <;> rw [h] <;> simp
    cases st with
    | work rest e =>
      have hk1 : i ≠ k := by rintro rfl; rw [h3] at e; rcases hti with hti | hti <;> rw [hti] at e <;> cases e
      have hk2 : j ≠ k := by rintro rfl; rw [h4] at e; rcases hj with hj | hj <;> rw [hj] at e <;> cases e
      refine ⟨h1, h2, ?_, ?_⟩
      · dsimp only; rw [put_ne _ _ hk1]; exact h3
      · dsimp only; rw [put_ne _ _ hk2]; exact h4
    | rlock rest e hw' => exact absurd hw' hw
    | runlock rest e hr =>
      have hk1 : i ≠ k := by rintro rfl; rw [h3] at e; rcases hti with hti | hti <;> rw [hti] at e <;> cases e
      have hk2 : j ≠ k := by rintro rfl; rw [h4] at e; rcases hj with hj | hj <;> rw [hj] at e <;> cases e
      refine ⟨h1, ?_, ?_, ?_⟩
      · intro hx; dsimp only; rw [put_ne _ _ hk1]; exact h2 hx
      · dsimp only; rw [put_ne _ _ hk1]; exact h3
      · dsimp only; rw [put_ne _ _ hk2]; exact h4
    | announce rest e hw' => exact absurd hw' hw
    | lock rest e hw' hr =>
      rw [h1] at hw'
      rcases h with ⟨h, h0⟩ | ⟨h, -⟩
      · have := hr i
        rw [h2 h] at this
        omega
      · rw [h] at hw'; cases hw'
    | unlock rest e hw' =>
      rw [h1] at hw'
      rcases h with ⟨h, -⟩ | ⟨h, -⟩
      · rw [h] at hw'; cases hw'
      · rw [h] at hw'
        cases hw'
        rw [h3] at e
        rcases hti with hti | hti <;> rw [hti] at e <;> cases e

/-- A goroutine that has a lock, and is not waiting for another, can go on. -/
theorem can_go {s : State} (h : Inv s) {j : Nat} {a : Instr} {t : List Instr} (e : s.rest j = a :: t) (ha : a ≠ .rlock) (hb : a ≠ .lock) :
    ∃ s', Step j s s' := by
  have hj := h.bal j
  rw [e] at hj
  cases a with
  | rlock => exact absurd rfl ha
  | lock => exact absurd rfl hb
  | work => exact ⟨_, .work s t e⟩
  | runlock => exact ⟨_, .runlock s t e (by have := hj.1; omega)⟩
  | unlock =>
    refine ⟨_, .unlock s t e ?_⟩
    by_contra hn
    rw [writes_ne hn] at hj
    exact absurd hj.1 (by omega)

theorem plain_step {s s' : State} {i j : Nat} (h : Plain (s.readers j) (writes s j) (s.rest j)) (st : Step i s s') :
    Plain (s'.readers j) (writes s' j) (s'.rest j) := by
  by_cases hj : j = i
  · subst hj
    cases st with
    | work rest e => rw [e] at h; dsimp only; rw [put_self]; exact h
    | rlock rest e hw => rw [e] at h; dsimp only; rw [put_self, put_self]; exact h.2
    | runlock rest e hr => rw [e] at h; dsimp only; rw [put_self, put_self]; exact h
    | announce rest e hw =>
      have h1 : writes s j = 0 := writes_ne (by rw [hw]; simp)
      have h2 : writes { s with writer := .waits j } j = 0 := writes_ne (by simp)
      rw [h2, ← h1]
      exact h
    | lock rest e hw hr =>
      rw [e] at h
      have h1 : writes s j = 0 := writes_ne (by rw [hw]; simp)
      have h2 : writes { s with rest := put s.rest j rest, writer := .holds j } j = 1 := if_pos rfl
      rw [h2]
      dsimp only
      rw [put_self]
      rw [h1] at h
      exact h.2
    | unlock rest e hw =>
      rw [e] at h
      have h1 : writes s j = 1 := if_pos hw
      have h2 : writes { s with rest := put s.rest j rest, writer := .none } j = 0 := writes_ne (by simp)
      rw [h2]
      dsimp only
      rw [put_self]
      rw [h1] at h
      exact h
  · cases st with
    | work rest e => dsimp only; rw [put_ne _ _ hj]; exact h
    | rlock rest e hw => dsimp only; rw [put_ne _ _ hj, put_ne _ _ hj]; exact h
    | runlock rest e hr => dsimp only; rw [put_ne _ _ hj, put_ne _ _ hj]; exact h
    | announce rest e hw =>
      have h1 : writes s j = 0 := writes_ne (by rw [hw]; simp)
      have h2 : writes { s with writer := .waits i } j = 0 := writes_ne (by simp)
      rw [h2, ← h1]
      exact h
    | lock rest e hw hr =>
      have h1 : writes s j = 0 := writes_ne (by rw [hw]; simp)
      have h2 : writes { s with rest := put s.rest i rest, writer := .holds i } j = 0 := writes_ne (by simp; exact fun e => hj e.symm)
      rw [h2]
      dsimp only
      rw [put_ne _ _ hj, ← h1]
      exact h
    | unlock rest e hw =>
      have h1 : writes s j = 0 := writes_ne (by rw [hw]; simp; exact fun e => hj e.symm)
      have h2 : writes { s with rest := put s.rest i rest, writer := .none } j = 0 := writes_ne (by simp)
      rw [h2]
      dsimp only
      rw [put_ne _ _ hj, ← h1]
      exact h

theorem plain_from {p : Nat → List Call} (h : ∀ i, ∀ c ∈ p i, flat c = true) {s : State} (f : From (init p) s) (j : Nat) :
    Plain (s.readers j) (writes s j) (s.rest j) := by
  induction f with
  | refl =>
    have h1 : writes (init p) j = 0 := writes_ne (by simp [init])
    rw [h1]
    exact plain_codes _ (h j)
  | step k _ st ih => exact plain_step ih st

/-- **C141** If no callback uses the map, there is no deadlock: as long as somebody has not finished, somebody can go on. -/
theorem C141_flat {p : Nat → List Call} (h : ∀ i, ∀ c ∈ p i, flat c = true) {s : State} (f : From (init p) s) {i : Nat} (hi : s.rest i ≠ []) :
    ∃ j s', Step j s s' := by
  have hinv := inv_from f
  have hp := plain_from h f
  cases hw : s.writer with
  | none =>
    obtain ⟨a, t, e⟩ := List.exists_cons_of_ne_nil hi
    by_cases h1 : a = .rlock
    · subst h1; exact ⟨i, _, .rlock s t e hw⟩
    by_cases h2 : a = .lock
    · subst h2; exact ⟨i, _, .announce s t e hw⟩
    exact ⟨i, can_go hinv e h1 h2⟩
  | waits k =>
    obtain ⟨t, ht⟩ := hinv.waits k hw
    by_cases hr : ∀ j, s.readers j = 0
    · exact ⟨k, _, .lock s t ht hw hr⟩
    · obtain ⟨j, hj⟩ := not_forall.1 hr
      have hb := hinv.bal j
      have hl := hp j
      cases e : s.rest j with
      | nil => rw [e] at hb; exact absurd hb.1 hj
      | cons a t =>
        rw [e] at hl
        refine ⟨j, can_go hinv e ?_ ?_⟩
        · rintro rfl; exact hj hl.1.1
        · rintro rfl; exact hj hl.1.1
  | holds k =>
    have hb := hinv.bal k
    have hl := hp k
    have h1 : writes s k = 1 := if_pos hw
    rw [h1] at hb hl
    cases e : s.rest k with
    | nil => rw [e] at hb; exact absurd hb.2 (by omega)
    | cons a t =>
      rw [e] at hl
      refine ⟨k, can_go hinv e ?_ ?_⟩
      · rintro rfl; exact absurd hl.1.2 (by omega)
      · rintro rfl; exact absurd hl.1.2 (by omega)

mutual
theorem no_lock_code : ∀ c : Call, hasWrite c = false → Instr.lock ∉ code c
  | .read, _ => by simp [code]
  | .write, h => by simp [hasWrite] at h
  | .rrange cs, h => by
    rw [hasWrite] at h
    simp [code, no_lock_codes cs h]
  | .wrange cs, h => by simp [hasWrite] at h
theorem no_lock_codes : ∀ cs : List Call, anyWrite cs = false → Instr.lock ∉ codes cs
  | [], _ => by simp [codes]
  | c :: cs, h => by
    rw [anyWrite, Bool.or_eq_false_iff] at h
    simp [codes, no_lock_code c h.1, no_lock_codes cs h.2]
end

/-- **C141** If nobody writes, callbacks may read as they like: there is no deadlock. -/
theorem C141_readers {p : Nat → List Call} (h : ∀ i, anyWrite (p i) = false) {s : State} (f : From (init p) s) {i : Nat} (hi : s.rest i ≠ []) :
    ∃ s', Step i s s' := by
  have hinv := inv_from f
  have hn : s.writer = .none ∧ ∀ j, Instr.lock ∉ s.rest j := by
    clear hinv hi
    induction f with
    | refl => exact ⟨rfl, fun j => no_lock_codes _ (h j)⟩
    | @step s1 s2 k _ st ih =>
      obtain ⟨h1, h2⟩ := ih
      have hk := h2 k
      have key : ∀ {a : Instr} {t : List Instr}, s1.rest k = a :: t → ∀ j, Instr.lock ∉ put s1.rest k t j := by
        intro a t e j
        by_cases hj : j = k
        · subst hj; rw [put_self]; rw [e] at hk; exact fun hm => hk (List.mem_cons_of_mem _ hm)
        · rw [put_ne _ _ hj]; exact h2 j
      cases st with
      | work rest e => exact ⟨h1, key e⟩
      | rlock rest e hw => exact ⟨h1, key e⟩
      | runlock rest e hr => exact ⟨h1, key e⟩
      | announce rest e hw => rw [e] at hk; exact absurd List.mem_cons_self hk
      | lock rest e hw hr => rw [e] at hk; exact absurd List.mem_cons_self hk
      | unlock rest e hw => rw [h1] at hw; cases hw
  obtain ⟨a, t, e⟩ := List.exists_cons_of_ne_nil hi
  by_cases h1 : a = .rlock
  · subst h1; exact ⟨_, .rlock s t e hn.1⟩
  exact can_go hinv e h1 (by rintro rfl; exact hn.2 i (by rw [e]; exact List.mem_cons_self))

/-- `k` steps. -/
inductive Steps (s0 : State) : Nat → State → Prop
  | refl : Steps s0 0 s0
  | step {k s s'} (i) : Steps s0 k s → Step i s s' → Steps s0 (k + 1) s'

/-- What is left to do; a writer that has announced itself has done half of its `Lock`. -/
def left (n : Nat) (s : State) : Nat :=
  2 * ∑ i ∈ Finset.range n, (s.rest i).length - match s.writer with | .waits _ => 1 | _ => 0

theorem sum_put {n i : Nat} (hi : i < n) (f : Nat → List Instr) {a : Instr} {t : List Instr} (e : f i = a :: t) :
    ∑ j ∈ Finset.range n, (f j).length = ∑ j ∈ Finset.range n, (put f i t j).length + 1 := by
  have hm : i ∈ Finset.range n := Finset.mem_range.2 hi
  rw [← Finset.add_sum_erase _ _ hm, ← Finset.add_sum_erase (Finset.range n) (fun j => (put f i t j).length) hm]
  have : ∑ j ∈ (Finset.range n).erase i, (put f i t j).length = ∑ j ∈ (Finset.range n).erase i, (f j).length := by
    refine Finset.sum_congr rfl fun j hj => ?_
    rw [put_ne _ _ (Finset.ne_of_mem_erase hj)]
  rw [this, e]
  simp only [put_self, List.length_cons]
  omega

theorem left_step {n i : Nat} {s s' : State} (hn : ∀ j, n ≤ j → s.rest j = []) (st : Step i s s') :
    left n s' < left n s ∧ ∀ j, n ≤ j → s'.rest j = [] := by
  have hin : s.rest i ≠ [] → i < n := fun h => by
    by_contra hc
    exact h (hn i (by omega))
  have key : ∀ {a : Instr} {t : List Instr}, s.rest i = a :: t →
      (∑ j ∈ Finset.range n, (s.rest j).length = ∑ j ∈ Finset.range n, (put s.rest i t j).length + 1) ∧ ∀ j, n ≤ j → put s.rest i t j = [] := by
    intro a t e
    have hi := hin (by rw [e]; simp)
    refine ⟨sum_put hi _ e, fun j hj => ?_⟩
    rw [put_ne _ _ (by omega)]
    exact hn j hj
  cases st with
  | work rest e =>
    obtain ⟨k1, k2⟩ := key e
    refine ⟨?_, k2⟩
    unfold left
    rw [k1]
    dsimp only
    split <;> omega
  | rlock rest e hw =>
    obtain ⟨k1, k2⟩ := key e
    refine ⟨?_, k2⟩
    unfold left
    rw [k1]
    dsimp only
    split <;> omega
  | runlock rest e hr =>
    obtain ⟨k1, k2⟩ := key e
    refine ⟨?_, k2⟩
    unfold left
    rw [k1]
    dsimp only
    split <;> omega
  | announce rest e hw =>
    obtain ⟨k1, k2⟩ := key e
    refine ⟨?_, hn⟩
    unfold left
    rw [hw]
    dsimp only
    omega
  | lock rest e hw hr =>
    obtain ⟨k1, k2⟩ := key e
    refine ⟨?_, k2⟩
    unfold left
    rw [hw, k1]
    dsimp only
    omega
  | unlock rest e hw =>
    obtain ⟨k1, k2⟩ := key e
    refine ⟨?_, k2⟩
    unfold left
    rw [hw, k1]
    dsimp only
    omega

/-- **C141** Every execution of finitely many goroutines ends: it has at most twice as many steps as there are operations on the lock.
With `C141_flat` and `C141_readers`: such programs finish, in whatever order the goroutines go. -/
theorem C141_ends {p : Nat → List Call} {n : Nat} (hn : ∀ i, n ≤ i → p i = []) {k : Nat} {s : State} (f : Steps (init p) k s) :
    k ≤ 2 * ∑ i ∈ Finset.range n, (codes (p i)).length := by
  have : k + left n s ≤ left n (init p) ∧ ∀ j, n ≤ j → s.rest j = [] := by
    induction f with
    | refl => exact ⟨by omega, fun j hj => by simp [init, hn j hj, codes]⟩
    | step i _ st ih =>
      obtain ⟨h1, h2⟩ := ih
      have := left_step h2 st
      exact ⟨by omega, this.2⟩
  have h0 : left n (init p) = 2 * ∑ i ∈ Finset.range n, (codes (p i)).length := by simp [left, init]
  omega

/-- **C141 (refuted: callbacks that only read are harmless).** A callback of `RLockRange` that reads the map, and one other goroutine that
writes: the writer announces itself between the two read locks. Nobody can go on, and neither has finished. -/
theorem C141_nested_read_refuted : ∃ p : Nat → List Call, (∀ i, ∀ c ∈ p i, bad c = false) ∧ (∀ i, 2 ≤ i → p i = []) ∧ ∃ s, From (init p) s ∧
    s.rest 0 ≠ [] ∧ s.rest 1 ≠ [] ∧ ∀ j s', ¬ Step j s s' := by
  let p : Nat → List Call := fun i => if i = 0 then [.rrange [.read]] else if i = 1 then [.write] else []
  let s0 := init p
  let s1 : State := { s0 with rest := put s0.rest 0 [.rlock, .work, .runlock, .runlock], readers := put s0.readers 0 1 }
  let s2 : State := { s1 with writer := .waits 1 }
  have st1 : Step 0 s0 s1 := .rlock s0 _ rfl rfl
  have st2 : Step 1 s1 s2 := .announce s1 [.work, .unlock] rfl rfl
  refine ⟨p, ?_, ?_, s2, .step 1 (.step 0 .refl st1) st2, ?_, ?_, ?_⟩
  · intro i c hc
    simp only [p] at hc
    split at hc
    · rw [List.mem_singleton.1 hc]; rfl
    · split at hc
      · rw [List.mem_singleton.1 hc]; rfl
      · cases hc
  · intro i hi
    simp only [p]
    rw [if_neg (by omega), if_neg (by omega)]
  · show [Instr.rlock, .work, .runlock, .runlock] ≠ []
    simp
  · show [Instr.lock, .work, .unlock] ≠ []
    simp
  · intro j s' st
    have h0 : s2.rest 0 = [Instr.rlock, .work, .runlock, .runlock] := rfl
    have h1 : s2.rest 1 = [Instr.lock, .work, .unlock] := rfl
    have h2 : ∀ i, 2 ≤ i → s2.rest i = [] := by
      intro i hi
      show put s0.rest 0 _ i = []
      rw [put_ne _ _ (by omega)]
      show codes (p i) = []
      simp only [p]
      rw [if_neg (by omega), if_neg (by omega)]
      rfl
    have hj : j = 0 ∨ j = 1 ∨ 2 ≤ j := by omega
    cases st with
    | work rest e => rcases hj with rfl | rfl | hj <;> simp_all
    | rlock rest e hw => cases hw
    | runlock rest e hr => rcases hj with rfl | rfl | hj <;> simp_all
    | announce rest e hw => cases hw
    | lock rest e hw hr => exact absurd (hr 0) (by show put s0.readers 0 1 0 ≠ 0; rw [put_self]; omega)
    | unlock rest e hw => cases hw

/-- **C141** The lock does what it is for: while a goroutine has the write lock, nobody has a read lock. -/
theorem C141_exclusive {p : Nat → List Call} {s : State} (f : From (init p) s) {i : Nat} (h : s.writer = .holds i) : ∀ j, s.readers j = 0 := by
  induction f generalizing i with
  | refl => exact fun _ => rfl
  | step k _ st ih =>
    cases st with
    | work rest e => exact ih h
    | rlock rest e hw => rw [show _ = Writer.holds i from h] at hw; cases hw
    | runlock rest e hr => exact absurd (ih (i := i) h k) hr
    | announce rest e hw => cases h
    | lock rest e hw hr => exact hr
    | unlock rest e hw => cases h

/-- **C141** The methods take the lock that Model/SafeMap says, and nothing before it; they give it back at the end. -/
theorem C141_methods (cs : List Call) (op : SafeMap.Op) :
    (code (callOf cs op)).head? = some (if SafeMap.reads op then .rlock else .lock) ∧
    (code (callOf cs op)).getLast? = some (if SafeMap.reads op then .runlock else .unlock) := by
  cases op <;> simp [callOf, code, SafeMap.reads, List.getLast?_cons]

/-! ## Examples -/

/-- One goroutine deletes the pairs while it goes over them, one counts them. -/
example : ∃ c ∈ [Call.rrange [.write, .write]], bad c = true := ⟨_, List.mem_cons_self, rfl⟩
/-- `Len` in the callback of `LockRange`. -/
example : bad (.wrange [.read]) = true := rfl
example : bad (.rrange [.read, .rrange [.write]]) = true := rfl
/-- A state in which the map is dead can be reached: the hypotheses of `C141_dead`. -/
example : ∃ s, From (init fun _ => [.rrange [.write]]) s ∧ s.writer = .waits 0 ∧ 0 < s.readers 0 :=
  ⟨_, .step 0 (.step 0 .refl (.rlock _ _ rfl rfl)) (.announce _ [.work, .unlock, .runlock] rfl rfl), rfl, by decide⟩
example : ∃ s, From (init fun _ => [.wrange [.read]]) s ∧ s.writer = .holds 0 ∧ ∃ t, s.rest 0 = .rlock :: t :=
  ⟨_, .step 0 (.step 0 .refl (.announce _ _ rfl rfl)) (.lock _ _ rfl rfl fun _ => rfl), rfl, _, rfl⟩
/-- A flat program, and one that only reads. -/
example : ∀ c ∈ [Call.rrange [], .write, .read, .wrange []], flat c = true := by decide
example : anyWrite [.rrange [.read, .rrange [.read]]] = false := rfl
example : flat (.rrange [.read]) = false := rfl

end Verif.SafeMapLock
