import Verif.Model.HashConc
import Verif.Proof.Mutex

/-!
# C145: `Hash` used by several goroutines
-/

namespace Verif.HashConc

open Hash (MapHash reset write)
open Mutex (put)
open Verif.Mutex (put_self put_ne)

variable {Seed : Type} {F : Seed → Bytes8 → BitVec 64}

structure Inv (seed : Seed) (s : State Seed) : Prop where
  hseed : s.h.seed = seed
  written : ∃ ws, ws <:+ s.wrote ∧ s.h.written = ws.flatten
  answers : ∀ a ∈ s.answers, ∃ ws, ws <:+ a.wrote ∧ a.result = F seed ws.flatten

theorem inv_step {seed : Seed} {excl : Prop} {i : Nat} {s s' : State Seed} (h : Inv (F := F) seed s) (st : Step F excl i s s') : Inv (F := F) seed s' := by
  cases st with
  | call b e he => exact ⟨h.hseed, h.written, h.answers⟩
  | reset b e => exact ⟨h.hseed, ⟨[], List.nil_suffix, rfl⟩, h.answers⟩
  | write b e =>
    obtain ⟨ws, hw, e'⟩ := h.written
    refine ⟨h.hseed, ⟨ws ++ [b], ?_, ?_⟩, h.answers⟩
    · obtain ⟨t, ht⟩ := hw
      exact ⟨t, by dsimp only; rw [← ht, List.append_assoc]⟩
    · show s.h.written ++ b = _
      rw [e']
      simp
  | sum b e =>
    refine ⟨h.hseed, h.written, fun a ha => ?_⟩
    rcases List.mem_append.1 ha with ha | ha
    · exact h.answers a ha
    · rw [List.mem_singleton.1 ha]
      obtain ⟨ws, hw, e'⟩ := h.written
      exact ⟨ws, hw, by dsimp only; rw [e', h.hseed]⟩

/-- **C145** Whatever the goroutines do, every result is the hash of some of the last arguments that were written, one after the other. -/
theorem C145_shape {seed : Seed} {excl : Prop} {s : State Seed} (r : Reach F excl seed s) :
    ∀ a ∈ s.answers, ∃ ws, ws <:+ a.wrote ∧ a.result = F seed ws.flatten := by
  have : Inv (F := F) seed s := by
    induction r with
    | init => exact ⟨rfl, ⟨[], List.nil_suffix, rfl⟩, by simp [init]⟩
    | step i _ st ih => exact inv_step ih st
  exact this.answers

/-- One goroutine at a time. -/
structure One (seed : Seed) (s : State Seed) : Prop where
  hseed : s.h.seed = seed
  one : ∀ i j, s.pc i ≠ .idle → s.pc j ≠ .idle → i = j
  fresh : ∀ i b, s.pc i = .resetDone b → s.h.written = []
  full : ∀ i b, s.pc i = .writeDone b → s.h.written = b
  answers : ∀ a ∈ s.answers, a.result = F seed a.arg

theorem one_put {pc : Nat → Pc} (h : ∀ i j, pc i ≠ .idle → pc j ≠ .idle → i = j) {i : Nat} (hi : ∀ j, j ≠ i → pc j = .idle) (p : Pc) :
    (∀ a b, put pc i p a ≠ .idle → put pc i p b ≠ .idle → a = b) ∧ ∀ j q, put pc i p j = q → q ≠ .idle → q = p := by
  have key : ∀ j, j ≠ i → put pc i p j = .idle := fun j hj => by rw [put_ne _ _ hj]; exact hi j hj
  refine ⟨fun a b ha hb => ?_, fun j q hq hn => ?_⟩
  · have h1 : a = i := by by_contra hc; exact ha (key a hc)
    have h2 : b = i := by by_contra hc; exact hb (key b hc)
    rw [h1, h2]
  · by_cases hj : j = i
    · subst hj; rw [put_self] at hq; exact hq.symm
    · exact absurd ((key j hj).symm.trans hq).symm hn

theorem One.others {seed : Seed} {s : State Seed} (o : One (F := F) seed s) {i : Nat} (hi : s.pc i ≠ .idle) : ∀ j, j ≠ i → s.pc j = .idle := by
  intro j hj
  by_contra hc
  exact hj (o.one j i hc hi)

theorem one_step {seed : Seed} {i : Nat} {s s' : State Seed} (o : One (F := F) seed s) (st : Step F True i s s') : One (F := F) seed s' := by
  cases st with
  | call b e he =>
    have p := one_put o.one (i := i) (fun j _ => he trivial j) (.called b)
    exact ⟨o.hseed, p.1, fun j c hc => (by cases p.2 j _ hc (by simp)), fun j c hc => (by cases p.2 j _ hc (by simp)), o.answers⟩
  | reset b e =>
    have p := one_put o.one (o.others (i := i) (by rw [e]; simp)) (.resetDone b)
    exact ⟨o.hseed, p.1, fun j c hc => rfl, fun j c hc => (by cases p.2 j _ hc (by simp)), o.answers⟩
  | write b e =>
    have p := one_put o.one (o.others (i := i) (by rw [e]; simp)) (.writeDone b)
    refine ⟨o.hseed, p.1, fun j c hc => (by cases p.2 j _ hc (by simp)), fun j c hc => ?_, o.answers⟩
    injection p.2 j _ hc (by simp) with hcb
    subst hcb
    show s.h.written ++ c = c
    rw [o.fresh i _ e]
    rfl
  | sum b e =>
    have p := one_put o.one (o.others (i := i) (by rw [e]; simp)) .idle
    refine ⟨o.hseed, p.1, fun j c hc => (by cases p.2 j _ hc (by simp)), fun j c hc => (by cases p.2 j _ hc (by simp)), fun a ha => ?_⟩
    rcases List.mem_append.1 ha with ha | ha
    · exact o.answers a ha
    · rw [List.mem_singleton.1 ha]
      dsimp only
      rw [o.full i _ e, o.hseed]

/-- **C145** If only one goroutine at a time is in `Sum64` then every result is the hash of the argument. -/
theorem C145_serial {seed : Seed} {s : State Seed} (r : Reach F True seed s) : ∀ a ∈ s.answers, a.result = F seed a.arg := by
  have : One (F := F) seed s := by
    induction r with
    | init => exact ⟨rfl, by simp [init], by simp [init], by simp [init], by simp [init]⟩
    | step i _ st ih => exact one_step ih st
  exact this.answers

/-- **C145 (refuted: equal bytes have equal hashes, also with several goroutines).** Two goroutines hash the same bytes: the first gets the hash of the bytes
written twice. A third call, when they are done, gets the right one; and a fourth, whose buffer another goroutine resets, gets the hash of nothing. -/
theorem C145_equal_refuted (F : Seed → Bytes8 → BitVec 64) (seed : Seed) (b : Bytes8) :
    (∃ s, Reach F False seed s ∧ (∀ j, s.pc j = .idle) ∧ ∃ w1 w2 w3, s.answers = [⟨b, F seed (b ++ b), w1⟩, ⟨b, F seed (b ++ b), w2⟩, ⟨b, F seed b, w3⟩]) ∧
      ∃ s, Reach F False seed s ∧ ∃ w, s.answers = [⟨b, F seed [], w⟩] := by
  let p0 : Nat → Pc := fun _ => .idle
  let p1 := put p0 0 (.called b)
  let p2 := put p1 1 (.called b)
  let p3 := put p2 0 (.resetDone b)
  let p4 := put p3 1 (.resetDone b)
  let p5 := put p4 0 (.writeDone b)
  let p6 := put p5 1 (.writeDone b)
  let p7 := put p6 0 .idle
  let p8 := put p7 1 .idle
  let q4 := put p3 0 (.writeDone b)
  let q5 := put q4 1 (.resetDone b)
  have r0 : Reach F False seed ⟨⟨seed, []⟩, p0, [], []⟩ := .init
  have r1 : Reach F False seed ⟨⟨seed, []⟩, p1, [], []⟩ := .step 0 r0 (.call _ b rfl (fun h => h.elim))
  have r2 : Reach F False seed ⟨⟨seed, []⟩, p2, [], []⟩ := .step 1 r1 (.call _ b rfl (fun h => h.elim))
  have r3 : Reach F False seed ⟨⟨seed, []⟩, p3, [], []⟩ := .step 0 r2 (.reset _ b rfl)
  refine ⟨?_, ?_⟩
  · have r4 : Reach F False seed ⟨⟨seed, []⟩, p4, [], []⟩ := .step 1 r3 (.reset _ b rfl)
    have r5 : Reach F False seed ⟨⟨seed, b⟩, p5, [b], []⟩ := .step 0 r4 (.write _ b rfl)
    have r6 : Reach F False seed ⟨⟨seed, b ++ b⟩, p6, [b, b], []⟩ := .step 1 r5 (.write _ b rfl)
    have r7 : Reach F False seed ⟨⟨seed, b ++ b⟩, p7, [b, b], [⟨b, F seed (b ++ b), [b, b]⟩]⟩ := .step 0 r6 (.sum _ b rfl)
    have r8 : Reach F False seed ⟨⟨seed, b ++ b⟩, p8, [b, b], [⟨b, F seed (b ++ b), [b, b]⟩, ⟨b, F seed (b ++ b), [b, b]⟩]⟩ := .step 1 r7 (.sum _ b rfl)
    have r9 := Reach.step 0 r8 (.call _ b rfl (fun h => h.elim))
    have r10 := Reach.step 0 r9 (.reset _ b rfl)
    have r11 := Reach.step 0 r10 (.write _ b rfl)
    have r12 := Reach.step 0 r11 (.sum _ b rfl)
    refine ⟨_, r12, fun j => ?_, _, _, _, rfl⟩
    show put (put (put (put p8 0 _) 0 _) 0 _) 0 .idle j = .idle
    by_cases h0 : j = 0
    · subst h0; exact put_self _ _ _
    by_cases h1 : j = 1
    · subst h1; rfl
    simp only [put_ne _ _ h0, p8, p7, p6, p5, p4, p3, p2, p1, p0, put_ne _ _ h1]
  · have r4 : Reach F False seed ⟨⟨seed, b⟩, q4, [b], []⟩ := .step 0 r3 (.write _ b rfl)
    have r5 : Reach F False seed ⟨⟨seed, []⟩, q5, [b], []⟩ := .step 1 r4 (.reset _ b rfl)
    have r6 := Reach.step 0 r5 (.sum _ b rfl)
    exact ⟨_, r6, _, rfl⟩

/-- A serial run with two calls. -/
example (F : Seed → Bytes8 → BitVec 64) (seed : Seed) (b : Bytes8) : ∃ s w, Reach F True seed s ∧ s.answers = [⟨b, F seed b, w⟩] := by
  have r1 := Reach.step (F := F) (excl := True) 5 (.init (seed := seed)) (.call _ b rfl (fun _ _ => rfl))
  have r2 := Reach.step 5 r1 (.reset _ b rfl)
  have r3 := Reach.step 5 r2 (.write _ b rfl)
  exact ⟨_, _, .step 5 r3 (.sum _ b rfl), rfl⟩

end Verif.HashConc
