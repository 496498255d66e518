import Verif.Model.MakeDuring
import Verif.Proof.Mutex
import Mathlib.Data.List.Nodup
import Mathlib.Data.List.Perm.Subperm

/-! # Property C183: `MakeFile` while chunks are uploaded and removed -/

namespace Verif.MakeDuring

open Utf8
open Mutex (put put_self put_ne)

theorem setData_same (data : Nat → Nat → Bytes) (k g : Nat) (b : Bytes) : setData data k g b k g = b := by
  unfold setData; rw [put_self, put_self]

theorem setData_other (data : Nat → Nat → Bytes) {k g k' g' : Nat} (b : Bytes) (h : ¬ (k' = k ∧ g' = g)) : setData data k g b k' g' = data k' g' := by
  unfold setData
  by_cases h1 : k' = k
  · subst h1
    rw [put_self, put_ne _ _ (fun x => h ⟨rfl, x⟩)]
  · rw [put_ne _ _ h1]

theorem setData_prefix {cs : Nat → Bytes} {data : Nat → Nat → Bytes} (h : ∀ k g, data k g <+: cs k) {k g : Nat} {b : Bytes} (hb : b <+: cs k) (k' g' : Nat) :
    setData data k g b k' g' <+: cs k' := by
  by_cases hk : k' = k ∧ g' = g
  · obtain ⟨rfl, rfl⟩ := hk
    rw [setData_same]; exact hb
  · rw [setData_other _ _ hk]; exact h k' g'

/-- Reading on from a file that has a beginning of `c`. -/
theorem read_prefix {buf d c : Bytes} (hb : buf <+: c) (hd : d <+: c) (m : Nat) : buf ++ (d.drop buf.length).take m <+: c := by
  by_cases hl : buf.length ≤ d.length
  · have h1 : buf <+: d := List.prefix_of_prefix_length_le hb hd hl
    obtain ⟨t, rfl⟩ := h1
    rw [List.drop_left]
    obtain ⟨u, rfl⟩ := hd
    refine ⟨t.drop m ++ u, ?_⟩
    rw [List.append_assoc, ← List.append_assoc (t.take m), List.take_append_drop, List.append_assoc]
  · rw [List.drop_eq_nil_of_le (by omega), List.take_nil, List.append_nil]
    exact hb

/-- Where the call is, `log` written. -/
def At (cs : Nat → Bytes) (old : Option Bytes) (s : State) : Prop :=
  match s.pc with
  | .listing | .opening _ => s.log = [] ∧ s.out = old
  | .loop n k => k ≤ n ∧ s.log.length = k ∧ s.out = some (old.getD [] ++ s.log.flatten)
  | .reading n k _ c | .writing n k c => k < n ∧ s.log.length = k ∧ s.out = some (old.getD [] ++ s.log.flatten) ∧ c <+: cs k
  | .returned n ok => ok = true → s.log.length = n ∧ s.out = some (old.getD [] ++ s.log.flatten)

structure Inv (cs : Nat → Bytes) (old : Option Bytes) (s : State) : Prop where
  pre : ∀ k g, s.data k g <+: cs k
  logged : ∀ (k : Nat) (p : Bytes), s.log[k]? = some p → p <+: cs k
  pos : At cs old s

theorem inv_init (cs : Nat → Bytes) (old : Option Bytes) : Inv cs old (init old) :=
  ⟨fun _ _ => List.nil_prefix, fun _ _ h => (by simp [init] at h), ⟨rfl, rfl⟩⟩

theorem inv_step {cs : Nat → Bytes} {old : Option Bytes} {s s' : State} {a : Act} (h : Inv cs old s) (e : exec cs s a = some s') : Inv cs old s' := by
  have hp := h.pos
  unfold At at hp
  cases a with
  | list x =>
    unfold exec at e; dsimp only at e
    split at e
    · rename_i hpc
      rw [hpc] at hp
      cases e
      exact ⟨h.pre, h.logged, hp⟩
    · cases e
  | step =>
    unfold exec at e; dsimp only at e
    split at e
    · rename_i n hpc
      rw [hpc] at hp
      cases e
      refine ⟨h.pre, h.logged, Nat.zero_le _, ?_, ?_⟩
      · dsimp only; rw [hp.1]; rfl
      · dsimp only; rw [hp.1, hp.2]; simp
    · rename_i n k hpc
      rw [hpc] at hp
      split at e
      · rename_i hk
        split at e
        · cases e
          exact ⟨h.pre, h.logged, hk, hp.2.1, hp.2.2, List.nil_prefix⟩
        · cases e
          exact ⟨h.pre, h.logged, hk, hp.2.1, hp.2.2, List.nil_prefix⟩
      · rename_i hk
        cases e
        refine ⟨h.pre, h.logged, fun _ => ⟨?_, hp.2.2⟩⟩
        have := hp.1
        have := hp.2.1
        dsimp only
        omega
    · rename_i n k c hpc
      rw [hpc] at hp
      obtain ⟨h1, h2, h3, h4⟩ := hp
      cases e
      refine ⟨h.pre, fun j p hj => ?_, h1, ?_, ?_⟩
      · dsimp only at hj
        by_cases hjk : j < s.log.length
        · rw [List.getElem?_append_left hjk] at hj
          exact h.logged j p hj
        · rw [List.getElem?_append_right (by omega)] at hj
          have hj0 : j - s.log.length = 0 := by
            by_contra hne
            rw [List.getElem?_eq_none (by simp; omega)] at hj
            cases hj
          rw [hj0] at hj
          cases hj
          have : j = k := by omega
          rw [this]; exact h4
      · simp [h2]
      · dsimp only; rw [h3]; simp
    · cases e
  | read m =>
    unfold exec at e; dsimp only at e
    split at e
    · rename_i n k g buf hpc
      rw [hpc] at hp
      obtain ⟨h1, h2, h3, h4⟩ := hp
      split at e
      · cases e
        exact ⟨h.pre, h.logged, h1, h2, h3, h4⟩
      · cases e
        exact ⟨h.pre, h.logged, h1, h2, h3, read_prefix h4 (h.pre k g) (m + 1)⟩
    · cases e
  | fail =>
    unfold exec at e; dsimp only at e
    split at e
    · cases e
      exact ⟨h.pre, h.logged, fun x => by cases x⟩
    · cases e
      exact ⟨h.pre, h.logged, fun x => by cases x⟩
    · rename_i n k hpc
      rw [hpc] at hp
      split at e
      · rename_i hk
        cases e
        exact ⟨h.pre, h.logged, hk, hp.2.1, hp.2.2, List.nil_prefix⟩
      · cases e
    · rename_i n k g buf hpc
      rw [hpc] at hp
      cases e
      exact ⟨h.pre, h.logged, hp⟩
    · cases e
      exact ⟨h.pre, h.logged, fun x => by cases x⟩
    · cases e
  | create k =>
    unfold exec at e; dsimp only at e
    split at e
    · cases e
      exact ⟨setData_prefix h.pre List.nil_prefix, h.logged, h.pos⟩
    · cases e
      exact ⟨setData_prefix h.pre List.nil_prefix, h.logged, h.pos⟩
  | upload k g m =>
    unfold exec at e; cases e
    exact ⟨setData_prefix h.pre (List.take_prefix _ _), h.logged, h.pos⟩
  | remove k =>
    unfold exec at e; cases e
    exact ⟨h.pre, h.logged, h.pos⟩

theorem inv_execs {cs : Nat → Bytes} {old : Option Bytes} : ∀ {as : List Act} {s s' : State}, Inv cs old s → execs cs as s = some s' → Inv cs old s'
  | [], _, _, h, e => by cases e; exact h
  | a :: as, s, s', h, e => by
    unfold execs at e
    cases hs : exec cs s a with
    | none => rw [hs] at e; cases e
    | some s1 =>
      rw [hs] at e
      exact inv_execs (inv_step h hs) e

/-- **C183 (what is written).** Whatever is uploaded, uploaded again and removed meanwhile, and whatever reads fail: a call that succeeds has appended one piece for each entry that it listed, and each piece is a
beginning of the chunk with its number. -/
theorem C183_pieces {cs : Nat → Bytes} {old : Option Bytes} {as : List Act} {s : State} (e : execs cs as (init old) = some s) {n : Nat} (hr : s.pc = .returned n true) :
    ∃ ps : List Bytes, ps.length = n ∧ s.out = some (old.getD [] ++ ps.flatten) ∧ ∀ (k : Nat) (p : Bytes), ps[k]? = some p → p <+: cs k := by
  have h := inv_execs (inv_init cs old) e
  have hp := h.pos
  unfold At at hp
  rw [hr] at hp
  exact ⟨s.log, (hp rfl).1, (hp rfl).2, h.logged⟩

/-! ## Chunks that are whole -/

/-- What `MakeFile` may have of chunk `k`: all, or nothing if it was removed. -/
def Good (cs : Nat → Bytes) (gone : Prop) (k : Nat) (p : Bytes) : Prop := p = cs k ∨ gone ∧ p = []

/-- Chunk `k` is whole, or gone. -/
structure Whole (cs : Nat → Bytes) (gone : Prop) (k g : Nat) (s : State) : Prop where
  data : s.data k g = cs k
  there : s.dir.lookup k = some g ∨ gone ∧ s.dir.lookup k = none
  reads : ∀ n g' buf, s.pc = .reading n k g' buf → g' = g
  writes : ∀ n c, s.pc = .writing n k c → Good cs gone k c
  logged : ∀ p, s.log[k]? = some p → Good cs gone k p

theorem lookup_filter {l : List (Nat × Nat)} {j k : Nat} (h : k ≠ j) : (l.filter fun e => e.1 != j).lookup k = l.lookup k := by
  induction l with
  | nil => rfl
  | cons x l ih =>
    obtain ⟨a, b⟩ := x
    by_cases ha : a = j
    · subst ha
      rw [List.filter_cons_of_neg (by simp), ih, List.lookup_cons]
      have : (k == a) = false := by simpa using h
      rw [this]
    · rw [List.filter_cons_of_pos (by simpa using ha), List.lookup_cons, List.lookup_cons, ih]

theorem lookup_filter_self {l : List (Nat × Nat)} {k : Nat} : (l.filter fun e => e.1 != k).lookup k = none := by
  induction l with
  | nil => rfl
  | cons x l ih =>
    obtain ⟨a, b⟩ := x
    by_cases ha : a = k
    · subst ha
      rw [List.filter_cons_of_neg (by simp), ih]
    · rw [List.filter_cons_of_pos (by simpa using ha), List.lookup_cons, ih]
      have : (k == a) = false := by simpa using fun x => ha x.symm
      rw [this]

theorem whole_step {cs : Nat → Bytes} {old : Option Bytes} {gone : Prop} {k g : Nat} {s s' : State} {a : Act} (hi : Inv cs old s) (h : Whole cs gone k g s)
    (h1 : a ≠ .fail) (h2 : a ≠ .create k) (h3 : a = .remove k → gone) (e : exec cs s a = some s') : Whole cs gone k g s' := by
  have hp := hi.pos
  unfold At at hp
  cases a with
  | list x =>
    unfold exec at e; dsimp only at e
    split at e
    · cases e
      exact ⟨h.data, h.there, fun _ _ _ x => (by cases x), fun _ _ x => (by cases x), h.logged⟩
    · cases e
  | step =>
    unfold exec at e; dsimp only at e
    split at e
    · cases e
      exact ⟨h.data, h.there, fun _ _ _ x => (by cases x), fun _ _ x => (by cases x), h.logged⟩
    · rename_i n j hpc
      split at e
      · split at e
        · rename_i g1 hg1
          cases e
          refine ⟨h.data, h.there, fun n' g' buf x => ?_, fun _ _ x => (by cases x), h.logged⟩
          cases x
          rcases h.there with h4 | ⟨_, h4⟩
          · rw [hg1] at h4; cases h4; rfl
          · rw [hg1] at h4; cases h4
        · rename_i hg1
          cases e
          refine ⟨h.data, h.there, fun _ _ _ x => (by cases x), fun n' c x => ?_, h.logged⟩
          cases x
          rcases h.there with h4 | ⟨h5, h4⟩
          · rw [hg1] at h4; cases h4
          · exact .inr ⟨h5, rfl⟩
      · cases e
        exact ⟨h.data, h.there, fun _ _ _ x => (by cases x), fun _ _ x => (by cases x), h.logged⟩
    · rename_i n j c hpc
      rw [hpc] at hp
      cases e
      refine ⟨h.data, h.there, fun _ _ _ x => (by cases x), fun _ _ x => (by cases x), fun p hk => ?_⟩
      dsimp only at hk
      by_cases hjk : k < s.log.length
      · rw [List.getElem?_append_left hjk] at hk
        exact h.logged p hk
      · rw [List.getElem?_append_right (by omega)] at hk
        have hj0 : k - s.log.length = 0 := by
          by_contra hne
          rw [List.getElem?_eq_none (by simp; omega)] at hk
          cases hk
        rw [hj0] at hk
        cases hk
        have hkj : j = k := by have := hp.2.1; omega
        exact h.writes n _ (by rw [hpc, hkj])
    · cases e
  | read m =>
    unfold exec at e; dsimp only at e
    split at e
    · rename_i n j g1 buf hpc
      rw [hpc] at hp
      split at e
      · rename_i hb
        cases e
        refine ⟨h.data, h.there, fun _ _ _ x => (by cases x), fun n' c x => ?_, h.logged⟩
        cases x
        have hg := h.reads n g1 buf hpc
        subst hg
        rw [h.data] at hb
        left
        have hl : (cs k).length ≤ buf.length := by
          rcases List.take_eq_nil_iff.1 hb with hb | hb
          · omega
          · exact List.drop_eq_nil_iff.1 hb
        exact hp.2.2.2.eq_of_length_le hl
      · cases e
        refine ⟨h.data, h.there, fun n' g' b x => ?_, fun _ _ x => (by cases x), h.logged⟩
        cases x
        exact h.reads n g1 buf hpc
    · cases e
  | fail => exact absurd rfl h1
  | create j =>
    have hjk : k ≠ j := fun x => h2 (by rw [x])
    unfold exec at e; dsimp only at e
    split at e
    · cases e
      exact ⟨by rw [← h.data]; exact setData_other _ _ (fun x => hjk x.1), h.there, h.reads, h.writes, h.logged⟩
    · cases e
      refine ⟨by rw [← h.data]; exact setData_other _ _ (fun x => hjk x.1), ?_, h.reads, h.writes, h.logged⟩
      have : (k == j) = false := by simpa using hjk
      dsimp only
      rw [List.lookup_cons, this]
      exact h.there
  | upload j g1 m =>
    unfold exec at e; cases e
    refine ⟨?_, h.there, h.reads, h.writes, h.logged⟩
    dsimp only
    by_cases hj : k = j ∧ g = g1
    · obtain ⟨rfl, rfl⟩ := hj
      rw [setData_same, h.data, List.take_of_length_le (by omega)]
    · rw [setData_other _ _ hj, h.data]
  | remove j =>
    unfold exec at e; cases e
    refine ⟨h.data, ?_, h.reads, h.writes, h.logged⟩
    dsimp only
    by_cases hj : k = j
    · subst hj
      exact .inr ⟨h3 rfl, lookup_filter_self⟩
    · rw [lookup_filter hj]
      exact h.there

theorem whole_execs {cs : Nat → Bytes} {old : Option Bytes} {gone : Prop} {k g : Nat} : ∀ {as : List Act} {s s' : State}, Inv cs old s → Whole cs gone k g s →
    Act.fail ∉ as → Act.create k ∉ as → (Act.remove k ∈ as → gone) → execs cs as s = some s' → Whole cs gone k g s'
  | [], _, _, _, h, _, _, _, e => by cases e; exact h
  | a :: as, s, s', hi, h, h1, h2, h3, e => by
    unfold execs at e
    cases hs : exec cs s a with
    | none => rw [hs] at e; cases e
    | some s1 =>
      rw [hs] at e
      exact whole_execs (inv_step hi hs) (whole_step hi h (fun x => h1 (by rw [x]; exact List.mem_cons_self)) (fun x => h2 (by rw [x]; exact List.mem_cons_self))
        (fun x => h3 (by rw [x]; exact List.mem_cons_self)) hs) (fun x => h1 (List.mem_cons_of_mem _ x)) (fun x => h2 (List.mem_cons_of_mem _ x))
        (fun x => h3 (List.mem_cons_of_mem _ x)) e

/-- Line 72 has not been reached. -/
def early (p : Pc) : Prop := p = .listing ∨ ∃ n, p = .opening n

/-- Chunk `k` is in the directory, with all its bytes. -/
def Complete (cs : Nat → Bytes) (s : State) (k : Nat) : Prop := ∃ g, s.dir.lookup k = some g ∧ s.data k g = cs k

/-- **C183 (removing).** Chunks are removed while the file is made: for a chunk that was complete when the loop began and is not uploaded again, the file has all of it, or, only if it is removed, nothing. (No
reads fail.) -/
theorem C183_removed {cs : Nat → Bytes} {old : Option Bytes} {as bs : List Act} {s1 s : State} (e1 : execs cs as (init old) = some s1) (hs : early s1.pc)
    (e : execs cs bs s1 = some s) (hf : Act.fail ∉ bs) {n : Nat} (hr : s.pc = .returned n true) :
    ∃ ps : List Bytes, ps.length = n ∧ s.out = some (old.getD [] ++ ps.flatten) ∧
      ∀ k, k < n → Complete cs s1 k → Act.create k ∉ bs → ps[k]? = some (cs k) ∨ Act.remove k ∈ bs ∧ ps[k]? = some [] := by
  have i1 := inv_execs (inv_init cs old) e1
  have i2 := inv_execs i1 e
  have hp := i2.pos
  unfold At at hp
  rw [hr] at hp
  obtain ⟨hl, ho⟩ := hp rfl
  refine ⟨s.log, hl, ho, fun k hk hc hn => ?_⟩
  obtain ⟨g, hg, hd⟩ := hc
  have hlog : s1.log = [] := by
    have hp := i1.pos
    unfold At at hp
    rcases hs with hs | ⟨m, hs⟩ <;> rw [hs] at hp <;> exact hp.1
  have hw : Whole cs (Act.remove k ∈ bs) k g s1 := by
    refine ⟨hd, .inl hg, fun n' g' b x => ?_, fun n' c x => ?_, fun p hp => ?_⟩
    · rcases hs with hs | ⟨m, hs⟩ <;> rw [hs] at x <;> cases x
    · rcases hs with hs | ⟨m, hs⟩ <;> rw [hs] at x <;> cases x
    · rw [hlog] at hp; simp at hp
  have h2 := whole_execs i1 hw hf hn (fun x => x) e
  have hk' : k < s.log.length := by omega
  have hget : s.log[k]? = some s.log[k] := List.getElem?_eq_getElem hk'
  rcases h2.logged _ hget with h3 | ⟨h3, h4⟩
  · left; rw [hget, h3]
  · right; exact ⟨h3, by rw [hget, h4]⟩

/-! ## All chunks -/

/-- The call lists at least `N` entries. -/
def Enough (N : Nat) (s : State) : Prop :=
  match s.pc with
  | .listing => True
  | .opening n | .loop n _ | .reading n _ _ _ | .writing n _ _ => N ≤ n
  | .returned n ok => ok = true → N ≤ n

theorem mem_of_lookup {l : List (Nat × Nat)} {k g : Nat} (h : l.lookup k = some g) : k ∈ l.map Prod.fst := by
  induction l with
  | nil => cases h
  | cons x l ih =>
    obtain ⟨a, b⟩ := x
    rw [List.lookup_cons] at h
    by_cases ha : k = a
    · rw [ha]; simp
    · have : (k == a) = false := by simpa using ha
      rw [this] at h
      exact List.mem_cons_of_mem _ (ih h)

theorem enough_dir {N : Nat} {l : List (Nat × Nat)} (h : ∀ k, k < N → ∃ g, l.lookup k = some g) : N ≤ l.length := by
  have hs : List.range N ⊆ l.map Prod.fst := fun k hk => by
    obtain ⟨g, hg⟩ := h k (List.mem_range.1 hk)
    exact mem_of_lookup hg
  have := (List.nodup_range.subperm hs).length_le
  simpa using this

theorem enough_step {cs : Nat → Bytes} {N : Nat} {s s' : State} {a : Act} (h : Enough N s) (hd : ∀ k, k < N → ∃ g, s.dir.lookup k = some g)
    (e : exec cs s a = some s') : Enough N s' := by
  unfold Enough at h
  cases a with
  | list x =>
    unfold exec at e; dsimp only at e
    split at e
    · cases e
      have := enough_dir hd
      show N ≤ s.dir.length + x
      omega
    · cases e
  | step =>
    unfold exec at e; dsimp only at e
    split at e
    · rename_i hpc; rw [hpc] at h; cases e; exact h
    · rename_i hpc
      rw [hpc] at h
      split at e
      · split at e <;> (cases e; exact h)
      · cases e; exact fun _ => h
    · rename_i hpc; rw [hpc] at h; cases e; exact h
    · cases e
  | read m =>
    unfold exec at e; dsimp only at e
    split at e
    · rename_i hpc
      rw [hpc] at h
      split at e <;> (cases e; exact h)
    · cases e
  | fail =>
    unfold exec at e; dsimp only at e
    split at e
    · cases e; exact fun x => by cases x
    · cases e; exact fun x => by cases x
    · rename_i hpc
      rw [hpc] at h
      split at e
      · cases e; exact h
      · cases e
    · rename_i hpc; rw [hpc] at h; cases e; exact h
    · cases e; exact fun x => by cases x
    · cases e
  | create k =>
    unfold exec at e; dsimp only at e
    split at e <;> (cases e; exact h)
  | upload k g m => unfold exec at e; cases e; exact h
  | remove k => unfold exec at e; cases e; exact h

theorem enough_execs {cs : Nat → Bytes} {old : Option Bytes} {N : Nat} : ∀ {as : List Act} {s s' : State}, Inv cs old s → Enough N s →
    (∀ k, k < N → ∃ g, Whole cs False k g s) → Act.fail ∉ as → (∀ k, k < N → Act.create k ∉ as) → (∀ k, k < N → Act.remove k ∉ as) → execs cs as s = some s' → Enough N s'
  | [], _, _, _, h, _, _, _, _, e => by cases e; exact h
  | a :: as, s, s', hi, h, hw, h1, h2, h3, e => by
    unfold execs at e
    cases hs : exec cs s a with
    | none => rw [hs] at e; cases e
    | some s1 =>
      rw [hs] at e
      refine enough_execs (inv_step hi hs) (enough_step h (fun k hk => ?_) hs) (fun k hk => ?_) (fun x => h1 (List.mem_cons_of_mem _ x))
        (fun k hk x => h2 k hk (List.mem_cons_of_mem _ x)) (fun k hk x => h3 k hk (List.mem_cons_of_mem _ x)) e
      · obtain ⟨g, hg⟩ := hw k hk
        rcases hg.there with h4 | ⟨h4, _⟩
        · exact ⟨g, h4⟩
        · exact h4.elim
      · obtain ⟨g, hg⟩ := hw k hk
        exact ⟨g, whole_step hi hg (fun x => h1 (by rw [x]; exact List.mem_cons_self)) (fun x => h2 k hk (by rw [x]; exact List.mem_cons_self))
          (fun x => h3 k hk (by rw [x]; exact List.mem_cons_self)) hs⟩

theorem flatten_range {cs : Nat → Bytes} {N : Nat} (hN : ∀ k, N ≤ k → cs k = []) : ∀ n, N ≤ n → ((List.range n).map cs).flatten = ((List.range N).map cs).flatten := by
  intro n hn
  induction n with
  | zero => rw [Nat.le_zero.1 hn]
  | succ n ih =>
    by_cases h : N = n + 1
    · rw [h]
    · rw [List.range_succ, List.map_append, List.flatten_append, ih (by omega)]
      simp [hN n (by omega)]

/-- **C183 (all is uploaded first).** If all `N` chunks are complete before `MakeFile` lists them, and meanwhile none is uploaded again or removed and no reads fail, a success means that the file has
all of them, in order - whatever else is in the directory and is uploaded or removed there. -/
theorem C183_all {cs : Nat → Bytes} {old : Option Bytes} {as bs : List Act} {s1 s : State} {N : Nat} (e1 : execs cs as (init old) = some s1) (hs : s1.pc = .listing)
    (hc : ∀ k, k < N → Complete cs s1 k) (hN : ∀ k, N ≤ k → cs k = []) (e : execs cs bs s1 = some s) (hf : Act.fail ∉ bs) (h1 : ∀ k, k < N → Act.create k ∉ bs)
    (h2 : ∀ k, k < N → Act.remove k ∉ bs) {n : Nat} (hr : s.pc = .returned n true) : s.out = some (old.getD [] ++ ((List.range N).map cs).flatten) := by
  have i1 := inv_execs (inv_init cs old) e1
  have i2 := inv_execs i1 e
  have hp := i2.pos
  unfold At at hp
  rw [hr] at hp
  obtain ⟨hl, ho⟩ := hp rfl
  have hlog : s1.log = [] := by
    have hp := i1.pos
    unfold At at hp
    rw [hs] at hp
    exact hp.1
  have hw : ∀ k, k < N → ∃ g, Whole cs False k g s1 := fun k hk => by
    obtain ⟨g, hg, hd⟩ := hc k hk
    exact ⟨g, hd, .inl hg, fun _ _ _ x => (by rw [hs] at x; cases x), fun _ _ x => (by rw [hs] at x; cases x), fun p hp => (by rw [hlog] at hp; simp at hp)⟩
  have hen := enough_execs i1 (N := N) (by unfold Enough; rw [hs]; trivial) hw hf h1 h2 e
  unfold Enough at hen
  rw [hr] at hen
  have hNn : N ≤ n := hen rfl
  rw [ho, ← flatten_range hN n hNn]
  congr 3
  refine List.ext_getElem (by simp [hl]) (fun k hk hk' => ?_)
  rw [List.getElem_map, List.getElem_range]
  have hget : s.log[k]? = some s.log[k] := List.getElem?_eq_getElem hk
  by_cases hkN : k < N
  · obtain ⟨g, hg⟩ := hw k hkN
    rcases (whole_execs i1 hg hf (h1 k hkN) (h2 k hkN) e).logged _ hget with h3 | ⟨h3, _⟩
    · exact h3
    · exact h3.elim
  · have h3 := i2.logged k _ hget
    rw [hN k (by omega)] at h3 ⊢
    exact List.prefix_nil.1 h3

/-! ## What goes wrong -/

/-- What can be seen of a state. -/
structure View where
  pc : Pc
  out : Option Bytes
  dir : List (Nat × Nat)
  a : Bytes
  b : Bytes
deriving DecidableEq

def view (s : State) : View := ⟨s.pc, s.out, s.dir, s.data 0 0, s.data 1 1⟩

theorem of_view {cs : Nat → Bytes} {as : List Act} {v : View} (h : (execs cs as (init none)).map view = some v) :
    ∃ s, execs cs as (init none) = some s ∧ s.pc = v.pc ∧ s.out = v.out ∧ s.dir = v.dir ∧ s.data 0 0 = v.a ∧ s.data 1 1 = v.b := by
  cases e : execs cs as (init none) with
  | none => rw [e] at h; cases h
  | some s =>
    rw [e] at h
    cases h
    exact ⟨s, rfl, rfl, rfl, rfl, rfl, rfl⟩

/-- Two chunks. -/
def two : Nat → Bytes
  | 0 => [1, 2]
  | 1 => [3, 4]
  | _ => []

/-- Both are uploaded. -/
def uploads : List Act := [.create 0, .upload 0 0 2, .create 1, .upload 1 1 1, .upload 1 1 1]

/-- **C183 (refuted: a success means that the file is whole).** `RemoveChunk` runs while the file is made: the second chunk is missing, and `MakeFile` reports success. -/
theorem C183_missing_refuted : ∃ s, execs two (uploads ++ [.list 0, .step, .step, .read 5, .remove 0, .remove 1, .read 5, .step, .step, .step, .step]) (init none) = some s ∧
    s.pc = .returned 2 true ∧ s.out = some [1, 2] ∧ s.dir = [] ∧ s.data 0 0 = [1, 2] ∧ s.data 1 1 = [3, 4] :=
  of_view (v := ⟨.returned 2 true, some [1, 2], [], [1, 2], [3, 4]⟩) (by decide +kernel)

/-- **C183 (refuted: a success means that every chunk is whole).** The last chunk is still being uploaded: the file has a part of it, and `MakeFile` reports success. -/
theorem C183_half_refuted : ∃ s, execs two [.create 0, .upload 0 0 2, .create 1, .upload 1 1 1, .list 0, .step, .step, .read 5, .read 5, .step, .step, .read 5, .read 5, .upload 1 1 1, .step, .step]
    (init none) = some s ∧ s.pc = .returned 2 true ∧ s.out = some [1, 2, 3] ∧ s.dir = [(1, 1), (0, 0)] ∧ s.data 0 0 = [1, 2] ∧ s.data 1 1 = [3, 4] :=
  of_view (v := ⟨.returned 2 true, some [1, 2, 3], [(1, 1), (0, 0)], [1, 2], [3, 4]⟩) (by decide +kernel)

/-- **C183 (refuted: uploading again does no harm).** All chunks are complete; one is uploaded again, with the same content, which truncates it first. The file that is made lacks it, and `MakeFile` reports success; at
the end all chunks are complete. -/
theorem C183_again_refuted : ∃ s, execs two (uploads ++ [.list 0, .step, .create 0, .step, .read 5, .upload 0 0 2, .step, .step, .read 5, .read 5, .step, .step]) (init none) = some s ∧
    s.pc = .returned 2 true ∧ s.out = some [3, 4] ∧ s.dir = [(1, 1), (0, 0)] ∧ s.data 0 0 = [1, 2] ∧ s.data 1 1 = [3, 4] :=
  of_view (v := ⟨.returned 2 true, some [3, 4], [(1, 1), (0, 0)], [1, 2], [3, 4]⟩) (by decide +kernel)

/-- **C183 (refuted: a read that fails is noticed).** The chunks are complete and left alone; the first read of a chunk returns a byte, the second one fails. -/
theorem C183_read_refuted : ∃ s, execs two (uploads ++ [.list 0, .step, .step, .read 0, .fail, .step, .step, .read 5, .read 5, .step, .step]) (init none) = some s ∧
    s.pc = .returned 2 true ∧ s.out = some [1, 3, 4] ∧ s.dir = [(1, 1), (0, 0)] ∧ s.data 0 0 = [1, 2] ∧ s.data 1 1 = [3, 4] :=
  of_view (v := ⟨.returned 2 true, some [1, 3, 4], [(1, 1), (0, 0)], [1, 2], [3, 4]⟩) (by decide +kernel)

/-- An execution as in `C183_all` and `C183_removed`: two chunks, another file in the directory, and meanwhile another chunk, which is empty, is created. -/
def calm : List Act := [.list 1, .step, .create 5, .step, .read 0, .read 0, .read 0, .step, .upload 5 2 7, .step, .read 9, .read 9, .step, .step, .step, .step]

example : (∃ s1, execs two uploads (init none) = some s1 ∧ s1.pc = .listing ∧ s1.out = none ∧ s1.dir = [(1, 1), (0, 0)] ∧ s1.data 0 0 = [1, 2] ∧ s1.data 1 1 = [3, 4]) ∧
    (∃ s, execs two (uploads ++ calm) (init none) = some s ∧ s.pc = .returned 3 true ∧ s.out = some [1, 2, 3, 4] ∧ s.dir = [(5, 2), (1, 1), (0, 0)] ∧ s.data 0 0 = [1, 2] ∧
      s.data 1 1 = [3, 4]) ∧ (∀ k, 2 ≤ k → two k = []) ∧ Act.fail ∉ calm ∧ ∀ k, k < 2 → Act.create k ∉ calm ∧ Act.remove k ∉ calm := by
  refine ⟨of_view (v := ⟨.listing, none, [(1, 1), (0, 0)], [1, 2], [3, 4]⟩) (by decide +kernel),
    of_view (v := ⟨.returned 3 true, some [1, 2, 3, 4], [(5, 2), (1, 1), (0, 0)], [1, 2], [3, 4]⟩) (by decide +kernel), fun k hk => ?_, by decide, by decide⟩
  match k, hk with
  | k + 2, _ => rfl

end Verif.MakeDuring
