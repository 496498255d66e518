import Verif.Model.MoveConc
import Verif.Proof.Mutex

/-! # Property C182: several calls of `FileMove` -/

namespace Verif.MoveConc

open Mutex (put put_self put_ne)

/-- Source and destination of a call. -/
def route : Pc → Option (Nat × Nat)
  | .idle => none
  | .stat src dst _ | .mkdir src dst _ | .rename src dst | .returned src dst _ => some (src, dst)

/-- The call has returned without an error. -/
def succeeded : Pc → Bool
  | .returned _ _ true => true
  | _ => false

/-- An action is a step of a call that moves nothing, or the renaming. -/
theorem exec_cases {s s' : State} {a : Act} (e : exec s a = some s') :
    (∃ i src dst p, s' = { s with pc := put s.pc i p } ∧ route p = some (src, dst) ∧ succeeded p = false ∧ succeeded (s.pc i) = false ∧
      (a = .call i src dst ∨ route (s.pc i) = some (src, dst))) ∨
    ∃ i src dst f, s.pc i = .rename src dst ∧ s.files src = some f ∧
      s' = ⟨if src = dst then s.files else put (put s.files dst (some f)) src none, put s.pc i (.returned src dst true)⟩ := by
  cases a with
  | call i src dst =>
    unfold exec at e
    dsimp only at e
    split at e
    · rename_i hi
      cases e
      exact .inl ⟨i, src, dst, _, rfl, rfl, rfl, by rw [hi]; rfl, .inl rfl⟩
    · cases e
  | step i ok =>
    unfold exec at e
    dsimp only at e
    split at e
    · rename_i src dst again hi
      cases e
      exact .inl ⟨i, src, dst, _, rfl, by cases ok <;> rfl, by cases ok <;> rfl, by rw [hi]; rfl, .inr (by rw [hi]; rfl)⟩
    · rename_i src dst again hi
      cases e
      exact .inl ⟨i, src, dst, _, rfl, by cases ok <;> cases again <;> rfl, by cases ok <;> cases again <;> rfl, by rw [hi]; rfl, .inr (by rw [hi]; rfl)⟩
    · rename_i src dst hi
      split at e
      · cases e
        exact .inl ⟨i, src, dst, _, rfl, rfl, rfl, by rw [hi]; rfl, .inr (by rw [hi]; rfl)⟩
      · rename_i files hr
        cases e
        cases ok with
        | false => cases hr
        | true =>
          simp only [if_true] at hr
          unfold renamed at hr
          cases hf : s.files src with
          | none => rw [hf] at hr; cases hr
          | some f =>
            rw [hf] at hr
            cases hr
            exact .inr ⟨i, src, dst, f, hi, hf, rfl⟩
    · cases e

/-! ## One source -/

/-- Nobody moves anything to `a`. -/
structure Once (a : Nat) (s : State) : Prop where
  away : ∀ i src dst, route (s.pc i) = some (src, dst) → dst ≠ a
  gone : ∀ i d, s.pc i = .returned a d true → s.files a = none
  one : ∀ i j d d', s.pc i = .returned a d true → s.pc j = .returned a d' true → i = j

theorem once_step {a : Nat} {s s' : State} {x : Act} (h : Once a s) (hx : ∀ i src, x ≠ .call i src a) (e : exec s x = some s') : Once a s' := by
  rcases exec_cases e with ⟨i, src, dst, p, rfl, h1, h2, h3, h4⟩ | ⟨i, src, dst, f, h1, h2, rfl⟩
  · have hne : ∀ d, p ≠ .returned a d true := fun d hp => by rw [hp] at h2; cases h2
    refine ⟨fun j s1 d1 hj => ?_, fun j d hj => ?_, fun j k d d' hj hk => ?_⟩
    · dsimp only at hj
      by_cases ej : j = i
      · subst ej
        rw [put_self, h1] at hj
        cases hj
        rcases h4 with h4 | h4
        · exact fun hd => hx j src (by rw [h4, hd])
        · exact h.away j src dst h4
      · rw [put_ne _ _ ej] at hj
        exact h.away j s1 d1 hj
    · dsimp only at hj ⊢
      by_cases ej : j = i
      · subst ej
        rw [put_self] at hj
        exact absurd hj (hne d)
      · rw [put_ne _ _ ej] at hj
        exact h.gone j d hj
    · dsimp only at hj hk
      by_cases ej : j = i
      · subst ej
        rw [put_self] at hj
        exact absurd hj (hne d)
      · by_cases ek : k = i
        · subst ek
          rw [put_self] at hk
          exact absurd hk (hne d')
        · rw [put_ne _ _ ej] at hj
          rw [put_ne _ _ ek] at hk
          exact h.one j k d d' hj hk
  · have hda : dst ≠ a := h.away i src dst (by rw [h1]; rfl)
    have hkeep : ∀ j d, j ≠ i → s.pc j = .returned a d true → src ≠ a := by
      intro j d _ hj hs
      rw [hs, h.gone j d hj] at h2
      cases h2
    refine ⟨fun j s1 d1 hj => ?_, fun j d hj => ?_, fun j k d d' hj hk => ?_⟩
    · dsimp only at hj
      by_cases ej : j = i
      · subst ej
        rw [put_self] at hj
        cases hj
        exact hda
      · rw [put_ne _ _ ej] at hj
        exact h.away j s1 d1 hj
    · dsimp only at hj ⊢
      by_cases ej : j = i
      · subst ej
        rw [put_self] at hj
        cases hj
        rw [if_neg (fun x => hda x.symm), put_self]
      · rw [put_ne _ _ ej] at hj
        have hsa := hkeep j d ej hj
        split
        · exact h.gone j d hj
        · rw [put_ne _ _ (fun x => hsa x.symm), put_ne _ _ (fun x => hda x.symm)]
          exact h.gone j d hj
    · dsimp only at hj hk
      by_cases ej : j = i
      · by_cases ek : k = i
        · rw [ej, ek]
        · subst ej
          rw [put_self] at hj
          rw [put_ne _ _ ek] at hk
          cases hj
          exact absurd rfl (hkeep k d' ek hk)
      · rw [put_ne _ _ ej] at hj
        by_cases ek : k = i
        · subst ek
          rw [put_self] at hk
          cases hk
          exact absurd rfl (hkeep j d ej hj)
        · rw [put_ne _ _ ek] at hk
          exact h.one j k d d' hj hk

theorem once_execs {a : Nat} : ∀ {as : List Act} {s s' : State}, Once a s → (∀ i src, Act.call i src a ∉ as) → execs as s = some s' → Once a s'
  | [], _, _, h, _, e => by cases e; exact h
  | x :: as, s, s', h, hx, e => by
    unfold execs at e
    cases hs : exec s x with
    | none => rw [hs] at e; cases e
    | some s1 =>
      rw [hs] at e
      exact once_execs (once_step h (fun i src hc => hx i src (by rw [hc]; exact List.mem_cons_self)) hs) (fun i src hc => hx i src (List.mem_cons_of_mem _ hc)) e

/-- **C182 (one file, several calls).** A file is moved once: of all calls with one source, at most one succeeds, as long as nothing is moved to that path; and then the path is empty. -/
theorem C182_once {files : Nat → Option Nat} {as : List Act} {s : State} (e : execs as (start files) = some s) {a : Nat} (ha : ∀ i src, Act.call i src a ∉ as)
    {i j d d' : Nat} (hi : s.pc i = .returned a d true) (hj : s.pc j = .returned a d' true) : i = j ∧ d = d' ∧ s.files a = none := by
  have h := once_execs (s := start files) ⟨fun _ _ _ h => (by cases h), fun _ _ h => (by cases h), fun _ _ _ _ h => (by cases h)⟩ ha e
  have hij := h.one i j d d' hi hj
  subst hij
  rw [hi] at hj
  cases hj
  exact ⟨rfl, rfl, h.gone i d hi⟩

/-! ## Free destinations -/

/-- All calls have destinations of their own, where there is no file, unless a file is moved to where it is. -/
def Apart (files : Nat → Option Nat) (as : List Act) : Prop :=
  (∀ i src dst, Act.call i src dst ∈ as → files dst = none ∨ src = dst) ∧ ∀ i j src src' dst, Act.call i src dst ∈ as → Act.call j src' dst ∈ as → i = j

/-- No call has the destination of another one as its source. -/
def NoChain (as : List Act) : Prop :=
  ∀ i j s1 d1 s2 d2, Act.call i s1 d1 ∈ as → Act.call j s2 d2 ∈ as → s1 = d2 → i = j ∧ s2 = d2

structure Kept (files : Nat → Option Nat) (all : List Act) (s : State) : Prop where
  calls : ∀ i src dst, route (s.pc i) = some (src, dst) → Act.call i src dst ∈ all
  free : ∀ d, files d = none → (∀ i src, s.pc i ≠ .returned src d true) → s.files d = none
  kept : ∀ p f, files p = some f → ∃ q, s.files q = some f
  there : NoChain all →
    (∀ p, (∀ i src, Act.call i src p ∈ all → src = p) → s.files p = files p ∨ s.files p = none) ∧
    ∀ i src dst, s.pc i = .returned src dst true → ∃ f, files src = some f ∧ s.files dst = some f

theorem kept_step {files : Nat → Option Nat} {all : List Act} (ha : Apart files all) {s s' : State} {x : Act} (h : Kept files all s) (hx : x ∈ all)
    (e : exec s x = some s') : Kept files all s' := by
  rcases exec_cases e with ⟨i, src, dst, p, rfl, h1, h2, h3, h4⟩ | ⟨i, src, dst, f, h1, h2, rfl⟩
  · have hne : ∀ s1 d, p ≠ .returned s1 d true := fun s1 d hp => by rw [hp] at h2; cases h2
    have hne' : ∀ s1 d, s.pc i ≠ .returned s1 d true := fun s1 d hp => by rw [hp] at h3; cases h3
    refine ⟨fun j s1 d1 hj => ?_, fun d hd hn => ?_, h.kept, fun hdis => ⟨(h.there hdis).1, fun j s1 d1 hj => ?_⟩⟩
    · dsimp only at hj
      by_cases ej : j = i
      · subst ej
        rw [put_self, h1] at hj
        cases hj
        rcases h4 with h4 | h4
        · rw [← h4]; exact hx
        · exact h.calls j src dst h4
      · rw [put_ne _ _ ej] at hj
        exact h.calls j s1 d1 hj
    · refine h.free d hd (fun j s1 hj => ?_)
      by_cases ej : j = i
      · subst ej; exact hne' s1 d hj
      · exact hn j s1 (by dsimp only; rw [put_ne _ _ ej]; exact hj)
    · dsimp only at hj
      by_cases ej : j = i
      · subst ej
        rw [put_self] at hj
        exact absurd hj (hne s1 d1)
      · rw [put_ne _ _ ej] at hj
        exact (h.there hdis).2 j s1 d1 hj
  · have hc := h.calls i src dst (by rw [h1]; rfl)
    by_cases hsd : src = dst
    · subst hsd
      rw [if_pos rfl]
      refine ⟨fun j s1 d1 hj => ?_, fun d hd hn => ?_, h.kept, fun hdis => ⟨(h.there hdis).1, fun j s1 d1 hj => ?_⟩⟩
      · dsimp only at hj
        by_cases ej : j = i
        · subst ej
          rw [put_self] at hj
          cases hj
          exact hc
        · rw [put_ne _ _ ej] at hj
          exact h.calls j s1 d1 hj
      · refine h.free d hd (fun j s1 hj => ?_)
        by_cases ej : j = i
        · subst ej
          rw [h1] at hj
          cases hj
        · exact hn j s1 (by dsimp only; rw [put_ne _ _ ej]; exact hj)
      · dsimp only at hj ⊢
        by_cases ej : j = i
        · subst ej
          rw [put_self] at hj
          cases hj
          refine ⟨f, ?_, h2⟩
          rcases (h.there hdis).1 src (fun k s2 hk => (hdis j k src src s2 src hc hk rfl).2) with h5 | h5
          · rw [← h5]; exact h2
          · rw [h5] at h2; cases h2
        · rw [put_ne _ _ ej] at hj
          exact (h.there hdis).2 j s1 d1 hj
    have hdst : s.files dst = none := h.free dst ((ha.1 i src dst hc).resolve_right hsd) (fun j s1 hj => by
      have hj' := h.calls j s1 dst (by rw [hj]; rfl)
      have := ha.2 i j src s1 dst hc hj'
      subst this
      rw [h1] at hj
      cases hj)
    rw [if_neg hsd]
    refine ⟨fun j s1 d1 hj => ?_, fun d hd hn => ?_, fun p g hp => ?_, fun hdis => ⟨fun p hp => ?_, fun j s1 d1 hj => ?_⟩⟩
    · dsimp only at hj
      by_cases ej : j = i
      · subst ej
        rw [put_self] at hj
        cases hj
        exact hc
      · rw [put_ne _ _ ej] at hj
        exact h.calls j s1 d1 hj
    · dsimp only at hn ⊢
      by_cases e1 : d = src
      · rw [e1, put_self]
      · rw [put_ne _ _ e1]
        have hdd : d ≠ dst := fun hdd => hn i src (by rw [put_self, hdd])
        rw [put_ne _ _ hdd]
        refine h.free d hd (fun j s1 hj => ?_)
        by_cases ej : j = i
        · subst ej
          rw [h1] at hj
          cases hj
        · exact hn j s1 (by rw [put_ne _ _ ej]; exact hj)
    · obtain ⟨q, hq⟩ := h.kept p g hp
      dsimp only
      by_cases e1 : q = src
      · refine ⟨dst, ?_⟩
        rw [put_ne _ _ (fun x => hsd x.symm), put_self, ← h2, ← e1, hq]
      · refine ⟨q, ?_⟩
        rw [put_ne _ _ e1, put_ne _ _ (fun x => by rw [x, hdst] at hq; cases hq)]
        exact hq
    · dsimp only
      by_cases e1 : p = src
      · right; rw [e1, put_self]
      · rw [put_ne _ _ e1, put_ne _ _ (fun x => hsd ((hp i src (by rw [x]; exact hc)).trans x))]
        exact (h.there hdis).1 p hp
    · dsimp only at hj ⊢
      by_cases ej : j = i
      · subst ej
        rw [put_self] at hj
        cases hj
        refine ⟨f, ?_, by rw [put_ne _ _ (fun x => hsd x.symm), put_self]⟩
        rcases (h.there hdis).1 src (fun k s2 hk => (hdis j k src dst s2 src hc hk rfl).2) with h5 | h5
        · rw [← h5]; exact h2
        · rw [h5] at h2; cases h2
      · rw [put_ne _ _ ej] at hj
        obtain ⟨g, hg, hg2⟩ := (h.there hdis).2 j s1 d1 hj
        have hj' := h.calls j s1 d1 (by rw [hj]; rfl)
        refine ⟨g, hg, ?_⟩
        rw [put_ne _ _ (fun x => ej (hdis i j src dst s1 d1 hc hj' x.symm).1.symm), put_ne _ _ (fun x => ?_)]
        · exact hg2
        · rw [x] at hj'
          exact ej (ha.2 j i s1 src dst hj' hc)

theorem kept_execs {files : Nat → Option Nat} {all : List Act} (ha : Apart files all) : ∀ {as : List Act} {s s' : State}, Kept files all s → (∀ a ∈ as, a ∈ all) →
    execs as s = some s' → Kept files all s'
  | [], _, _, h, _, e => by cases e; exact h
  | x :: as, s, s', h, hx, e => by
    unfold execs at e
    cases hs : exec s x with
    | none => rw [hs] at e; cases e
    | some s1 =>
      rw [hs] at e
      exact kept_execs ha (kept_step ha h (hx x List.mem_cons_self) hs) (fun a h' => hx a (List.mem_cons_of_mem _ h')) e

theorem kept_all {files : Nat → Option Nat} {as : List Act} {s : State} (e : execs as (start files) = some s) (ha : Apart files as) : Kept files as s :=
  kept_execs ha (s := start files) ⟨fun _ _ _ h => (by cases h), fun _ hd _ => hd, fun p _ hp => ⟨p, hp⟩,
    fun _ => ⟨fun _ _ => .inl rfl, fun _ _ _ h => (by cases h)⟩⟩ (fun _ h => h) e

/-- **C182 (nothing is lost).** If every call has a destination of its own with no file at it (or the file's own path), every file is still somewhere, also when the destination of one call is the source of another. -/
theorem C182_kept {files : Nat → Option Nat} {as : List Act} {s : State} (e : execs as (start files) = some s) (ha : Apart files as) {p f : Nat}
    (h : files p = some f) : ∃ q, s.files q = some f := (kept_all e ha).kept p f h

/-- **C182 (a success is one).** If moreover no destination is the source of another call, the file of every call that has succeeded is at its destination. -/
theorem C182_there {files : Nat → Option Nat} {as : List Act} {s : State} (e : execs as (start files) = some s) (ha : Apart files as)
    (hd : NoChain as) {i src dst : Nat} (hi : s.pc i = .returned src dst true) :
    ∃ f, files src = some f ∧ s.files dst = some f := ((kept_all e ha).there hd).2 i src dst hi

/-! ## What goes wrong -/

/-- What can be seen of a state: the first two calls and what is at the first three paths. -/
def view (s : State) : Pc × Pc × Option Nat × Option Nat × Option Nat := (s.pc 0, s.pc 1, s.files 0, s.files 1, s.files 2)

theorem of_view {as : List Act} {d : Nat → Option Nat} {v : Pc × Pc × Option Nat × Option Nat × Option Nat} (h : (execs as (start d)).map view = some v) :
    ∃ s, execs as (start d) = some s ∧ s.pc 0 = v.1 ∧ s.pc 1 = v.2.1 ∧ s.files 0 = v.2.2.1 ∧ s.files 1 = v.2.2.2.1 ∧ s.files 2 = v.2.2.2.2 := by
  cases e : execs as (start d) with
  | none => rw [e] at h; cases h
  | some s =>
    rw [e] at h
    cases h
    exact ⟨s, rfl, rfl, rfl, rfl, rfl, rfl⟩

/-- Two files, at paths 0 and 1. -/
def pair : Nat → Option Nat
  | 0 => some 10
  | 1 => some 11
  | _ => none

/-- **C182 (refuted: nothing is lost).** Two files are moved to one path: both calls succeed, one file is gone. -/
theorem C182_lost_refuted : ∃ s, execs [.call 0 0 2, .call 1 1 2, .step 0 true, .step 1 true, .step 0 true, .step 1 true] (start pair) = some s ∧
    s.pc 0 = .returned 0 2 true ∧ s.pc 1 = .returned 1 2 true ∧ s.files 0 = none ∧ s.files 1 = none ∧ s.files 2 = some 11 :=
  of_view (v := (.returned 0 2 true, .returned 1 2 true, none, none, some 11)) (by decide +kernel)

/-- **C182 (refuted: two calls exchange files).** Both succeed, and one file is back where it was, the other one gone. -/
theorem C182_exchange_refuted : ∃ s, execs [.call 0 0 1, .call 1 1 0, .step 0 true, .step 1 true, .step 0 true, .step 1 true] (start pair) = some s ∧
    s.pc 0 = .returned 0 1 true ∧ s.pc 1 = .returned 1 0 true ∧ s.files 0 = some 10 ∧ s.files 1 = none ∧ s.files 2 = none :=
  of_view (v := (.returned 0 1 true, .returned 1 0 true, some 10, none, none)) (by decide +kernel)

/-- Two calls with one file: one makes the directory first, the other one is faster. A third call moves the other file to where it is. -/
def race : List Act := [.call 0 0 2, .call 1 0 3, .call 2 1 1, .step 0 false, .step 0 true, .step 1 true, .step 2 true, .step 1 true, .step 2 true, .step 0 true, .step 0 true]

/-- The hypotheses of `C182_once` (for path 0), `C182_kept` and `C182_there` hold. -/
example : (∃ s, execs race (start pair) = some s ∧ s.pc 0 = .returned 0 2 false ∧ s.pc 1 = .returned 0 3 true ∧ s.files 0 = none ∧ s.files 1 = some 11 ∧ s.files 2 = none) ∧
    Apart pair race ∧ (∀ i src, Act.call i src 0 ∉ race) ∧ NoChain race := by
  refine ⟨of_view (v := (.returned 0 2 false, .returned 0 3 true, none, some 11, none)) (by decide +kernel), ⟨?_, ?_⟩, ?_, ?_⟩
  · intro i src dst h
    simp [race] at h
    rcases h with ⟨-, -, rfl⟩ | ⟨-, -, rfl⟩ | ⟨-, rfl, rfl⟩
    · exact .inl rfl
    · exact .inl rfl
    · exact .inr rfl
  · intro i j s1 s2 d h h'
    simp [race] at h h'
    omega
  · intro i src h
    simp [race] at h
  · intro i j s1 d1 s2 d2 h h'
    simp [race] at h h'
    omega

end Verif.MoveConc
