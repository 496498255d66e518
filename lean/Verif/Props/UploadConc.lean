import Verif.Model.UploadConc
import Verif.Props.Upload
import Verif.Proof.Mutex

/-!
# C175: uploads by several goroutines
-/

namespace Verif.Fs

open Utf8
open Mutex (put put_self put_ne)

/-- The states reachable from `s0` by actions that are `ok`. -/
inductive UpFrom (cwd : Loc) (ok : UpState → UpAct → Prop) (s0 : UpState) : UpState → Prop
  | refl : UpFrom cwd ok s0 s0
  | step {s s' : UpState} (a : UpAct) : UpFrom cwd ok s0 s → ok s a → upExec cwd s a = some s' → UpFrom cwd ok s0 s'

/-- For the chunk at `l` only `c` is uploaded, no write to it fails, and nothing else writes to it. -/
def Retries (cwd l : Loc) (c : Bytes) (s : UpState) : UpAct → Prop
  | .call _ e => e.loc cwd = l → e.cont = c
  | .fail i => ∀ e n, s.pc i = .write e n → e.loc cwd ≠ l
  | .touch x _ => x ≠ l
  | _ => True

/-- The calls are of kind `k`, and nothing else writes to `l`. -/
def Calls (l : Loc) (k : Call → Prop) (_ : UpState) : UpAct → Prop
  | .call _ e => k e
  | .touch x _ => x ≠ l
  | _ => True

/-- Nobody is writing to `l`. -/
def Unwritten (cwd l : Loc) (s : UpState) : Prop := ∀ i e n, s.pc i = .write e n → e.loc cwd ≠ l

/-! ## The content of a file -/

theorem writeAt_get (d : Bytes) (n : Nat) {b : Bytes} (hb : b ≠ []) (p : Nat) : (writeAt d n b)[p]? =
    if p < n then if p < d.length then d[p]? else some 0 else if p < n + b.length then b[p - n]? else d[p]? := by
  unfold writeAt
  rw [if_neg hb]
  simp only [List.getElem?_append, List.getElem?_take, List.getElem?_drop, List.getElem?_replicate, List.length_append, List.length_take,
    List.length_replicate]
  grind

theorem writeAt_len (d : Bytes) (n : Nat) (b : Bytes) : (writeAt d n b).length = if b = [] then d.length else max d.length (n + b.length) := by
  unfold writeAt
  by_cases h : b = []
  · rw [if_pos h, if_pos h]
  · rw [if_neg h, if_neg h]
    simp
    omega

/-- The first `m` bytes are those of `c`, and there are no more than of `c`. -/
structure Upto (d c : Bytes) (m : Nat) : Prop where
  le : m ≤ c.length
  len : d.length ≤ c.length
  same : ∀ p, p < m → d[p]? = c[p]?

theorem Upto.whole {d c : Bytes} (h : Upto d c c.length) : d = c := by
  apply List.ext_getElem?
  intro p
  by_cases hp : p < c.length
  · exact h.same p hp
  · have := h.len
    rw [List.getElem?_eq_none (by omega), List.getElem?_eq_none (by omega)]

theorem piece_get (c : Bytes) (n k j : Nat) (h : j < ((c.drop n).take k).length) : ((c.drop n).take k)[j]? = c[n + j]? := by
  rw [List.length_take, List.length_drop] at h
  rw [List.getElem?_take, if_pos (by omega), List.getElem?_drop]

theorem Upto.write {d c : Bytes} {m n k : Nat} (h : Upto d c m) (hn : n ≤ c.length) : Upto (writeAt d n ((c.drop n).take k)) c m := by
  by_cases hb : (c.drop n).take k = []
  · unfold writeAt
    rw [if_pos hb]
    exact h
  · refine ⟨h.le, ?_, fun p hp => ?_⟩
    · rw [writeAt_len, if_neg hb]
      have := h.len
      simp
      omega
    · have h2 := h.same p hp
      have h3 : p < d.length := by
        have := h.le
        rw [List.getElem?_eq_getElem (by omega : p < c.length)] at h2
        exact (List.getElem?_eq_some_iff.1 h2).1
      rw [writeAt_get _ _ hb]
      split
      · exact h2
      · split
        · rw [piece_get _ _ _ _ (by omega)]
          congr 1
          omega
        · exact h2

theorem Upto.more {d c : Bytes} {n k : Nat} (h : Upto d c n) : Upto (writeAt d n ((c.drop n).take k)) c (n + ((c.drop n).take k).length) := by
  have h0 := h.write (k := k) h.le
  refine ⟨by simp; have := h.le; omega, h0.len, fun p hp => ?_⟩
  by_cases hpn : p < n
  · exact h0.same p hpn
  · have hb : (c.drop n).take k ≠ [] := by
      intro hb
      rw [hb] at hp
      exact hpn (by simpa using hp)
    rw [writeAt_get _ _ hb, if_neg hpn, if_pos hp, piece_get _ _ _ _ (by omega)]
    congr 1
    omega

/-! ## The invariant -/

theorem set_self (fs : FS) (l : Loc) (n : Option Node) : fs.set l n l = n := if_pos rfl

theorem set_other (fs : FS) {l x : Loc} (n : Option Node) (h : x ≠ l) : fs.set l n x = fs x := if_neg h

theorem content_file {fs : FS} {l : Loc} {d : Bytes} (h : fs l = some (.file d)) : content fs l = d := by
  unfold content
  rw [h]

theorem mkdirAll_keeps {fs fs' : FS} {d x : Loc} (h : mkdirAll fs d = some fs') (hx : fs x ≠ none) : fs' x = fs x := by
  unfold mkdirAll at h
  split at h
  · cases h
  · cases h
    dsimp only
    rw [if_neg (fun hc => hx hc.2)]

theorem create_set {fs fs' : FS} {l : Loc} (h : create fs l = some fs') : fs' = fs.set l (some (.file [])) := by
  unfold create at h
  split at h
  · cases h; rfl
  · cases h

/-- What holds of all goroutines. -/
structure UpInv (cwd l : Loc) (c : Bytes) (s : UpState) : Prop where
  busy : ∀ i e, (s.pc i).call = some e → e.loc cwd = l → e.cont = c
  far : ∀ i e n, s.pc i = .write e n → n ≤ e.cont.length

/-- The chunk is stored, or somebody is about to. -/
def Coming (cwd l : Loc) (c : Bytes) (s : UpState) : Prop :=
  ∃ d m, s.fs l = some (.file d) ∧ Upto d c m ∧ (m = c.length ∨ ∃ i e, s.pc i = .write e m ∧ e.loc cwd = l)

theorem far_step {cwd : Loc} {s s' : UpState} {a : UpAct} (h : ∀ i e n, s.pc i = .write e n → n ≤ e.cont.length) (e : upExec cwd s a = some s') :
    ∀ i e n, s'.pc i = .write e n → n ≤ e.cont.length := by
  have key : ∀ (i : Nat) (p : UpPc), (∀ e n, p = .write e n → n ≤ e.cont.length) → ∀ j e n, put s.pc i p j = .write e n → n ≤ e.cont.length := by
    intro i p hp j e n hj
    by_cases hji : j = i
    · subst hji
      rw [put_self] at hj
      exact hp e n hj
    · rw [put_ne _ _ hji] at hj
      exact h j e n hj
  cases a with
  | call i e' =>
    rw [upExec] at e
    split at e <;> cases e <;> exact key _ _ (fun _ _ h => by cases h)
  | step i =>
    rw [upExec] at e
    split at e
    · split at e <;> cases e <;> exact key _ _ (fun _ _ h => by cases h)
    · split at e
      · cases e
        exact key _ _ (fun _ _ h => by cases h; exact Nat.zero_le _)
      · cases e
        exact key _ _ (fun _ _ h => by cases h)
    · split at e <;> cases e
      exact key _ _ (fun _ _ h => by cases h)
    · cases e
  | wrote i k =>
    rw [upExec] at e
    split at e
    · rename_i e' n hp
      cases e
      have := h _ _ _ hp
      refine key _ _ fun _ _ hx => ?_
      cases hx
      simp
      omega
    · cases e
  | fail i =>
    rw [upExec] at e
    split at e <;> cases e <;> exact key _ _ (fun _ _ h => by cases h)
  | touch x n => rw [upExec] at e; cases e; exact h

theorem inv_step {cwd l : Loc} {c : Bytes} {s s' : UpState} {a : UpAct} (h : UpInv cwd l c s) (ho : Retries cwd l c s a) (e : upExec cwd s a = some s') :
    UpInv cwd l c s' := by
  refine ⟨?_, far_step h.far e⟩
  have key : ∀ (i : Nat) (p : UpPc), (∀ e, p.call = some e → e.loc cwd = l → e.cont = c) →
      ∀ j e, (put s.pc i p j).call = some e → e.loc cwd = l → e.cont = c := by
    intro i p hp j e hj
    by_cases hji : j = i
    · subst hji
      rw [put_self] at hj
      exact hp e hj
    · rw [put_ne _ _ hji] at hj
      exact h.busy j e hj
  cases a with
  | call i e' =>
    rw [upExec] at e
    split at e <;> cases e <;> exact key _ _ (fun _ h => by cases h; exact ho)
  | step i =>
    rw [upExec] at e
    split at e
    · rename_i e' hp
      have hb := h.busy i e' (by rw [hp]; rfl)
      split at e <;> cases e
      · exact key _ _ (fun _ h => by cases h; exact hb)
      · exact key _ _ (fun _ h => by cases h)
    · rename_i e' hp
      have hb := h.busy i e' (by rw [hp]; rfl)
      split at e <;> cases e
      · exact key _ _ (fun _ h => by cases h; exact hb)
      · exact key _ _ (fun _ h => by cases h)
    · split at e <;> cases e
      exact key _ _ (fun _ h => by cases h)
    · cases e
  | wrote i k =>
    rw [upExec] at e
    split at e
    · rename_i e' n hp
      have hb := h.busy i e' (by rw [hp]; rfl)
      cases e
      exact key _ _ (fun _ h => by cases h; exact hb)
    · cases e
  | fail i =>
    rw [upExec] at e
    split at e <;> cases e <;> exact key _ _ (fun _ h => by cases h)
  | touch x n => rw [upExec] at e; cases e; exact h.busy

theorem coming_step {cwd l : Loc} {c : Bytes} {s s' : UpState} {a : UpAct} (h : UpInv cwd l c s) (ho : Retries cwd l c s a) (e : upExec cwd s a = some s')
    (hc : Coming cwd l c s) : Coming cwd l c s' := by
  obtain ⟨d, m, hf, hu, hm⟩ := hc
  -- the file stays, and the one who is about to store the chunk does nothing
  have keep : ∀ (fs : FS) (j : Nat) (p : UpPc), fs l = some (.file d) → (∀ e n, s.pc j = .write e n → e.loc cwd = l → n = c.length ∨ p = .write e n) →
      Coming cwd l c ⟨fs, put s.pc j p⟩ := by
    intro fs j p h1 h2
    refine ⟨d, m, h1, hu, ?_⟩
    rcases hm with hm | ⟨i, e, h3, h4⟩
    · exact Or.inl hm
    · by_cases hij : i = j
      · subst hij
        rcases h2 e m h3 h4 with h | h
        · exact Or.inl h
        · exact Or.inr ⟨i, e, by dsimp only; rw [put_self, h], h4⟩
      · exact Or.inr ⟨i, e, by dsimp only; rw [put_ne _ _ hij, h3], h4⟩
  cases a with
  | call i e' =>
    rw [upExec] at e
    split at e <;> rename_i hp <;> cases e <;> exact keep _ _ _ hf (fun _ _ h => by rw [hp] at h; cases h)
  | step i =>
    rw [upExec] at e
    split at e
    · rename_i e' hp
      split at e
      · rename_i fs hmk
        cases e
        exact keep _ _ _ (by rw [mkdirAll_keeps hmk (by rw [hf]; simp), hf]) (fun _ _ h => by rw [hp] at h; cases h)
      · cases e
        exact keep _ _ _ hf (fun _ _ h => by rw [hp] at h; cases h)
    · rename_i e' hp
      split at e
      · rename_i fs hcr
        cases e
        rw [create_set hcr]
        by_cases hl : e'.loc cwd = l
        · refine ⟨[], 0, ?_, ⟨Nat.zero_le _, Nat.zero_le _, fun p hp => absurd hp (Nat.not_lt_zero _)⟩, Or.inr ⟨i, e', put_self _ _ _, hl⟩⟩
          dsimp only
          rw [hl, set_self]
        · exact keep _ _ _ (by rw [set_other _ _ (fun h => hl h.symm), hf]) (fun _ _ h => by rw [hp] at h; cases h)
      · cases e
        exact keep _ _ _ hf (fun _ _ h => by rw [hp] at h; cases h)
    · rename_i e' n hp
      split at e
      · rename_i hn
        cases e
        refine keep _ _ _ hf fun e2 n2 h2 hl => Or.inl ?_
        rw [hp] at h2
        cases h2
        rw [hn, h.busy i e' (by rw [hp]; rfl) hl]
      · cases e
    · cases e
  | wrote i k =>
    rw [upExec] at e
    split at e
    · rename_i e' n hp
      cases e
      by_cases hl : e'.loc cwd = l
      · have hcc := h.busy i e' (by rw [hp]; rfl) hl
        have hfar := h.far i e' n hp
        rw [hl, content_file hf, hcc]
        rw [hcc] at hfar
        by_cases hi : ∃ j e2, j ≠ i ∧ s.pc j = .write e2 m ∧ e2.loc cwd = l
        · obtain ⟨j, e2, h1, h2, h3⟩ := hi
          exact ⟨_, m, set_self _ _ _, hu.write hfar, Or.inr ⟨j, e2, by dsimp only; rw [put_ne _ _ h1, h2], h3⟩⟩
        · rcases hm with hm | ⟨j, e2, h2, h3⟩
          · exact ⟨_, m, set_self _ _ _, hu.write hfar, Or.inl hm⟩
          · have hji : j = i := by
              by_contra hji
              exact hi ⟨j, e2, hji, h2, h3⟩
            subst hji
            rw [hp] at h2
            cases h2
            exact ⟨_, _, set_self _ _ _, hu.more, Or.inr ⟨j, e', put_self _ _ _, hl⟩⟩
      · refine ⟨d, m, by dsimp only; rw [set_other _ _ (fun h => hl h.symm), hf], hu, ?_⟩
        rcases hm with hm | ⟨j, e2, h2, h3⟩
        · exact Or.inl hm
        · have hji : j ≠ i := by
            rintro rfl
            rw [hp] at h2
            cases h2
            exact hl h3
          exact Or.inr ⟨j, e2, by dsimp only; rw [put_ne _ _ hji, h2], h3⟩
    · cases e
  | fail i =>
    rw [upExec] at e
    split at e <;> rename_i hp <;> cases e
    · exact keep _ _ _ hf (fun _ _ h => by rw [hp] at h; cases h)
    · exact keep _ _ _ hf (fun _ _ h => by rw [hp] at h; cases h)
    · refine keep _ _ _ hf fun e2 n2 h2 hl => ?_
      rw [hp] at h2
      cases h2
      exact absurd hl (ho _ _ hp)
  | touch x n =>
    rw [upExec] at e
    cases e
    exact ⟨d, m, by dsimp only; rw [set_other _ _ (fun h => ho h.symm), hf], hu, hm⟩

theorem far_from {cwd : Loc} {ok : UpState → UpAct → Prop} {fs : FS} {s : UpState} (h : UpFrom cwd ok ⟨fs, fun _ => .idle⟩ s) :
    ∀ i e n, s.pc i = .write e n → n ≤ e.cont.length := by
  induction h with
  | refl => intro i e n h; cases h
  | step a _ _ he ih => exact far_step ih he

theorem coming_from {cwd l : Loc} {c : Bytes} {s s' : UpState} (hi : UpInv cwd l c s) (hc : Coming cwd l c s) (h : UpFrom cwd (Retries cwd l c) s s') :
    UpInv cwd l c s' ∧ Coming cwd l c s' := by
  induction h with
  | refl => exact ⟨hi, hc⟩
  | step a _ ho he ih => exact ⟨inv_step ih.1 ho he, coming_step ih.1 ho he ih.2⟩

theorem Coming.stored {cwd l : Loc} {c : Bytes} {s : UpState} (h : Coming cwd l c s) (hq : Unwritten cwd l s) : s.fs l = some (.file c) := by
  obtain ⟨d, m, hf, hu, hm⟩ := h
  rcases hm with rfl | ⟨i, e, h1, h2⟩
  · rw [hf, hu.whole]
  · exact absurd h2 (hq i e m h1)

/-- **C175 (last content).** Whatever happened before: once a chunk is created while all its running uploads carry the content `c`, and as long as only `c`
is uploaded for it, without failing writes, the chunk is `c` whenever nobody is writing to it. Uploads of other chunks, and how the writes are cut into pieces, do not matter. -/
theorem C175_intact {cwd l : Loc} {c : Bytes} {ok : UpState → UpAct → Prop} {fs : FS} {s s1 s' : UpState} (h : UpFrom cwd ok ⟨fs, fun _ => .idle⟩ s)
    (hb : ∀ i e, (s.pc i).call = some e → e.loc cwd = l → e.cont = c) {i : Nat} {e : Call} (hp : s.pc i = .create e) (hl : e.loc cwd = l)
    (hs : upExec cwd s (.step i) = some s1) (hw : s1.pc i = .write e 0) (f : UpFrom cwd (Retries cwd l c) s1 s') (hq : Unwritten cwd l s') :
    s'.fs l = some (.file c) := by
  have hi : UpInv cwd l c s := ⟨hb, far_from h⟩
  have hi1 : UpInv cwd l c s1 := inv_step (a := .step i) hi trivial hs
  refine (coming_from hi1 ?_ f).2.stored hq
  rw [upExec, hp] at hs
  dsimp only at hs
  split at hs
  · rename_i fs' hcr
    cases hs
    refine ⟨[], 0, ?_, ⟨Nat.zero_le _, Nat.zero_le _, fun p hp => absurd hp (Nat.not_lt_zero _)⟩, Or.inr ⟨i, e, hw, hl⟩⟩
    dsimp only
    rw [create_set hcr, hl, set_self]
  · cases hs
    dsimp only at hw
    rw [put_self] at hw
    cases hw

/-- Somebody writes to `l`, or has written all. -/
def Touched (cwd l : Loc) (s : UpState) : Prop := ∃ i e, e.loc cwd = l ∧ ((∃ n, s.pc i = .write e n) ∨ s.pc i = .returned e true)

theorem touched_step {cwd l : Loc} {c : Bytes} {s s' : UpState} {a : UpAct} (h : UpInv cwd l c s) (ho : Retries cwd l c s a) (e : upExec cwd s a = some s')
    (ih : Touched cwd l s → Coming cwd l c s) : Touched cwd l s' → Coming cwd l c s' := by
  intro ht
  by_cases hold : Touched cwd l s
  · exact coming_step h ho e (ih hold)
  · obtain ⟨j, e2, hl, hj⟩ := ht
    have no : ∀ (i : Nat) (p : UpPc), s'.pc = put s.pc i p → ((∀ n, p ≠ .write e2 n) ∧ p ≠ .returned e2 true ∨ ∃ n, s.pc i = .write e2 n) → False := by
      intro i p hpc hp
      apply hold
      by_cases hji : j = i
      · subst hji
        rcases hp with hp | ⟨n, hp⟩
        · rw [hpc, put_self] at hj
          rcases hj with ⟨n, hj⟩ | hj
          · exact absurd hj (hp.1 n)
          · exact absurd hj hp.2
        · exact ⟨j, e2, hl, Or.inl ⟨n, hp⟩⟩
      · rw [hpc, put_ne _ _ hji] at hj
        exact ⟨j, e2, hl, hj⟩
    cases a with
    | call i e' =>
      rw [upExec] at e
      split at e <;> cases e <;> exact (no _ _ rfl (Or.inl ⟨fun _ h => (by cases h), fun h => by cases h⟩)).elim
    | step i =>
      rw [upExec] at e
      split at e
      · split at e <;> cases e <;> exact (no _ _ rfl (Or.inl ⟨fun _ h => (by cases h), fun h => by cases h⟩)).elim
      · rename_i e' hp
        split at e
        · rename_i fs hcr
          cases e
          by_cases hee : e' = e2
          · subst hee
            refine ⟨[], 0, ?_, ⟨Nat.zero_le _, Nat.zero_le _, fun p hp => absurd hp (Nat.not_lt_zero _)⟩, Or.inr ⟨i, e', put_self _ _ _, hl⟩⟩
            dsimp only
            rw [create_set hcr, hl, set_self]
          · exact (no _ _ rfl (Or.inl ⟨fun _ h => (by cases h; exact hee rfl), fun h => by cases h⟩)).elim
        · cases e
          exact (no _ _ rfl (Or.inl ⟨fun _ h => (by cases h), fun h => by cases h⟩)).elim
      · rename_i e' n hp
        split at e <;> cases e
        by_cases hee : e' = e2
        · subst hee
          exact (no _ _ rfl (Or.inr ⟨n, hp⟩)).elim
        · exact (no _ _ rfl (Or.inl ⟨fun _ h => (by cases h), fun h => by cases h; exact hee rfl⟩)).elim
      · cases e
    | wrote i k =>
      rw [upExec] at e
      split at e
      · rename_i e' n hp
        cases e
        by_cases hee : e' = e2
        · subst hee
          exact (no _ _ rfl (Or.inr ⟨n, hp⟩)).elim
        · exact (no _ _ rfl (Or.inl ⟨fun _ h => (by cases h; exact hee rfl), fun h => by cases h⟩)).elim
      · cases e
    | fail i =>
      rw [upExec] at e
      split at e <;> cases e <;> exact (no _ _ rfl (Or.inl ⟨fun _ h => (by cases h), fun h => by cases h⟩)).elim
    | touch x n =>
      rw [upExec] at e
      cases e
      exact (hold ⟨j, e2, hl, hj⟩).elim

/-- **C175 (retries).** If all uploads of a chunk carry the same content and no write fails, the chunk is that content from the first success on, whenever
nobody is writing to it. -/
theorem C175_retries {cwd l : Loc} {c : Bytes} {fs : FS} {s s' : UpState} (h : UpFrom cwd (Retries cwd l c) ⟨fs, fun _ => .idle⟩ s)
    {i : Nat} {e : Call} (hp : s.pc i = .returned e true) (hl : e.loc cwd = l) (f : UpFrom cwd (Retries cwd l c) s s') (hq : Unwritten cwd l s') :
    s'.fs l = some (.file c) := by
  have key : UpInv cwd l c s ∧ (Touched cwd l s → Coming cwd l c s) := by
    clear hp f
    induction h with
    | refl =>
      refine ⟨⟨fun i e h => (by cases h), fun i e n h => by cases h⟩, ?_⟩
      rintro ⟨i, e, -, ⟨n, h⟩ | h⟩ <;> cases h
    | step a _ ho he ih => exact ⟨inv_step ih.1 ho he, touched_step ih.1 ho he ih.2⟩
  exact (coming_from key.1 (key.2 ⟨i, e, hl, Or.inr hp⟩) f).2.stored hq

/-- **C175 (every byte).** With failures, and with different contents: every byte of a chunk was there at first, was uploaded for this place of this chunk,
or is zero. -/
theorem C175_bytes {cwd l : Loc} {k : Call → Prop} {fs : FS} {s : UpState} (h : UpFrom cwd (Calls l k) ⟨fs, fun _ => .idle⟩ s) {p b : Nat}
    (hb : (content s.fs l)[p]? = some b) : (content fs l)[p]? = some b ∨ b = 0 ∨ ∃ e, k e ∧ e.loc cwd = l ∧ e.cont[p]? = some b := by
  have key : (∀ i e, (s.pc i).call = some e → k e) ∧ (∀ p b : Nat, (content s.fs l)[p]? = some b →
      (content fs l)[p]? = some b ∨ b = 0 ∨ ∃ e, k e ∧ e.loc cwd = l ∧ e.cont[p]? = some b) := by
    clear hb p b
    induction h with
    | refl => exact ⟨fun i e h => (by cases h), fun p b h => Or.inl h⟩
    | @step s s' a _ ho e ih =>
      obtain ⟨ih1, ih2⟩ := ih
      have key : ∀ (i : Nat) (p : UpPc), (∀ e, p.call = some e → k e) → ∀ j e, (put s.pc i p j).call = some e → k e := by
        intro i p hp j e hj
        by_cases hji : j = i
        · subst hji
          rw [put_self] at hj
          exact hp e hj
        · rw [put_ne _ _ hji] at hj
          exact ih1 j e hj
      cases a with
      | call i e' =>
        rw [upExec] at e
        split at e <;> cases e <;> exact ⟨key _ _ (fun _ h => by cases h; exact ho), ih2⟩
      | step i =>
        rw [upExec] at e
        split at e
        · rename_i e' hp
          have hk := ih1 i e' (by rw [hp]; rfl)
          split at e
          · rename_i fs' hmk
            cases e
            refine ⟨key _ _ (fun _ h => by cases h; exact hk), fun p b hb => ih2 p b ?_⟩
            by_cases hn : s.fs l = none
            · have : content fs' l = [] := by
                unfold mkdirAll at hmk
                split at hmk
                · cases hmk
                · cases hmk
                  unfold content
                  dsimp only
                  rw [hn]
                  by_cases hx : l <+: Spec.Path.loc cwd (breakpointDir ++ e'.md5 ++ lit "/") ∧ (none : Option Node) = none
                  · rw [if_pos hx]
                  · rw [if_neg hx]
              dsimp only at hb
              rw [this] at hb
              cases hb
            · dsimp only at hb
              unfold content at hb ⊢
              rwa [mkdirAll_keeps hmk hn] at hb
          · cases e
            exact ⟨key _ _ (fun _ h => by cases h), ih2⟩
        · rename_i e' hp
          have hk := ih1 i e' (by rw [hp]; rfl)
          split at e
          · rename_i fs' hcr
            cases e
            refine ⟨key _ _ (fun _ h => by cases h; exact hk), fun p b hb => ?_⟩
            dsimp only at hb
            rw [create_set hcr] at hb
            by_cases hl : l = e'.loc cwd
            · rw [content_file (by rw [hl, set_self])] at hb
              cases hb
            · refine ih2 p b ?_
              unfold content at hb ⊢
              rwa [set_other _ _ hl] at hb
          · cases e
            exact ⟨key _ _ (fun _ h => by cases h), ih2⟩
        · split at e <;> cases e
          exact ⟨key _ _ (fun _ h => by cases h), ih2⟩
        · cases e
      | wrote i kk =>
        rw [upExec] at e
        split at e
        · rename_i e' n hp
          have hk := ih1 i e' (by rw [hp]; rfl)
          cases e
          refine ⟨key _ _ (fun _ h => by cases h; exact hk), fun p b hb => ?_⟩
          dsimp only at hb
          by_cases hl : l = e'.loc cwd
          · rw [content_file (d := writeAt (content s.fs l) n ((e'.cont.drop n).take kk)) (by rw [hl, set_self])] at hb
            by_cases hbn : (e'.cont.drop n).take kk = []
            · unfold writeAt at hb
              rw [if_pos hbn] at hb
              exact ih2 p b hb
            · rw [writeAt_get _ _ hbn] at hb
              split at hb
              · split at hb
                · exact ih2 p b hb
                · cases hb
                  exact Or.inr (Or.inl rfl)
              · split at hb
                · refine Or.inr (Or.inr ⟨e', hk, hl.symm, ?_⟩)
                  rw [piece_get _ _ _ _ (by omega)] at hb
                  rw [← hb]
                  congr 1
                  omega
                · exact ih2 p b hb
          · refine ih2 p b ?_
            unfold content at hb ⊢
            rwa [set_other _ _ hl] at hb
        · cases e
      | fail i =>
        rw [upExec] at e
        split at e <;> cases e <;> exact ⟨key _ _ (fun _ h => by cases h), ih2⟩
      | touch x n =>
        rw [upExec] at e
        cases e
        refine ⟨ih1, fun p b hb => ih2 p b ?_⟩
        dsimp only at hb
        unfold content at hb ⊢
        rwa [set_other _ _ (fun h => ho h.symm)] at hb
  exact key.2 p b hb

/-- **C175 (other chunks).** As long as a chunk is not uploaded, nothing that happens to other chunks changes it; and chunks with different names or numbers,
or of different uploads, are different files. -/
theorem C175_others {cwd l : Loc} {s s' : UpState} (hx : s.fs l ≠ none) (hb : ∀ i e, (s.pc i).call = some e → e.loc cwd ≠ l)
    (h : UpFrom cwd (Calls l fun e => e.loc cwd ≠ l) s s') : s'.fs l = s.fs l := by
  have key : s'.fs l = s.fs l ∧ ∀ i e, (s'.pc i).call = some e → e.loc cwd ≠ l := by
    induction h with
    | refl => exact ⟨rfl, hb⟩
    | @step s1 s2 a _ ho e ih =>
      obtain ⟨ih1, ih2⟩ := ih
      have key : ∀ (i : Nat) (p : UpPc), (∀ e, p.call = some e → e.loc cwd ≠ l) → ∀ j e, (put s1.pc i p j).call = some e → e.loc cwd ≠ l := by
        intro i p hp j e hj
        by_cases hji : j = i
        · subst hji
          rw [put_self] at hj
          exact hp e hj
        · rw [put_ne _ _ hji] at hj
          exact ih2 j e hj
      cases a with
      | call i e' =>
        rw [upExec] at e
        split at e <;> cases e <;> exact ⟨ih1, key _ _ (fun _ h => by cases h; exact ho)⟩
      | step i =>
        rw [upExec] at e
        split at e
        · rename_i e' hp
          have hk := ih2 i e' (by rw [hp]; rfl)
          split at e
          · rename_i fs' hmk
            cases e
            exact ⟨(mkdirAll_keeps hmk (by rw [ih1]; exact hx)).trans ih1, key _ _ (fun _ h => by cases h; exact hk)⟩
          · cases e
            exact ⟨ih1, key _ _ (fun _ h => by cases h)⟩
        · rename_i e' hp
          have hk := ih2 i e' (by rw [hp]; rfl)
          split at e
          · rename_i fs' hcr
            cases e
            refine ⟨?_, key _ _ (fun _ h => by cases h; exact hk)⟩
            dsimp only
            rw [create_set hcr, set_other _ _ (fun h => hk h.symm), ih1]
          · cases e
            exact ⟨ih1, key _ _ (fun _ h => by cases h)⟩
        · split at e <;> cases e
          exact ⟨ih1, key _ _ (fun _ h => by cases h)⟩
        · cases e
      | wrote i kk =>
        rw [upExec] at e
        split at e
        · rename_i e' n hp
          have hk := ih2 i e' (by rw [hp]; rfl)
          cases e
          refine ⟨?_, key _ _ (fun _ h => by cases h; exact hk)⟩
          dsimp only
          rw [set_other _ _ (fun h => hk h.symm), ih1]
        · cases e
      | fail i =>
        rw [upExec] at e
        split at e <;> cases e <;> exact ⟨ih1, key _ _ (fun _ h => by cases h)⟩
      | touch x n =>
        rw [upExec] at e
        cases e
        refine ⟨?_, ih2⟩
        dsimp only
        rw [set_other _ _ (fun h => ho h.symm), ih1]
  exact key.1

/-- Names of chunks for `C175_others`. -/
theorem C175_names {cwd : Loc} {e e' : Call} (h1 : Plain e.md5) (h2 : 47 ∉ e.fileName) (h3 : InI64 e.number) (h1' : Plain e'.md5) (h2' : 47 ∉ e'.fileName)
    (h3' : InI64 e'.number) (h : e.loc cwd = e'.loc cwd) : e.md5 = e'.md5 ∧ e.fileName = e'.fileName ∧ e.number = e'.number := by
  unfold Call.loc at h
  rw [loc_chunk cwd _ _ h1 h2, loc_chunk cwd _ _ h1' h2'] at h
  have h := List.append_cancel_left h
  simp only [List.cons.injEq, and_true] at h
  exact ⟨h.1, chunkName_inj _ _ _ _ h3 h3' h.2⟩

/-! ## Executions -/

theorem upExecs_from {cwd : Loc} {ok : UpState → UpAct → Prop} {s0 s s' : UpState} {as : List UpAct} (h : UpFrom cwd ok s0 s)
    (hok : ∀ s, ∀ a ∈ as, ok s a) (e : upExecs cwd as s = some s') : UpFrom cwd ok s0 s' := by
  induction as generalizing s with
  | nil => cases e; exact h
  | cons a as ih =>
    rw [upExecs] at e
    cases he : upExec cwd s a with
    | none => rw [he] at e; cases e
    | some s1 =>
      rw [he] at e
      exact ih (.step a h (hok _ a (List.mem_cons_self ..)) he) (fun s a ha => hok s a (List.mem_cons_of_mem _ ha)) e

/-- One goroutine alone, all of an upload: the calls of the operating system one after the other. -/
def wholeUpload (i : Nat) (e : Call) (wrote : Nat) : List UpAct :=
  [.call i e, .step i, .step i, .wrote i wrote, if e.cont.length ≤ wrote then .step i else .fail i]

/-- **C175 (alone).** An upload without interruption is `BreakPointContinue` of Model/Fs. -/
theorem C175_alone {cwd : Loc} {s : UpState} {i : Nat} {e : Call} {wrote : Nat} (hi : s.pc i = .idle) {fs1 fs2 : FS}
    (h1 : mkdirAll s.fs (Spec.Path.loc cwd (breakpointDir ++ e.md5 ++ lit "/")) = some fs1) (h2 : create fs1 (e.loc cwd) = some fs2) :
    ∃ s', upExecs cwd (wholeUpload i e wrote) s = some s' ∧ s'.fs = (breakPointContinue cwd ⟨false, false, wrote⟩ s.fs e.cont e.fileName e.number e.md5).1 ∧
      s'.pc i = .returned e (breakPointContinue cwd ⟨false, false, wrote⟩ s.fs e.cont e.fileName e.number e.md5).2 := by
  have hb : breakPointContinue cwd ⟨false, false, wrote⟩ s.fs e.cont e.fileName e.number e.md5 =
      (appendTo fs2 (e.loc cwd) (e.cont.take wrote), decide (e.cont.length ≤ wrote)) := by
    unfold breakPointContinue
    simp only [Bool.false_eq_true, if_false, h1]
    change (match create fs1 (e.loc cwd) with
      | none => (fs1, false)
      | some fs => (appendTo fs (e.loc cwd) (e.cont.take wrote), decide (e.cont.length ≤ wrote))) = _
    rw [h2]
  have hw : writeAt (content fs2 (e.loc cwd)) 0 ((e.cont.drop 0).take wrote) = content fs2 (e.loc cwd) ++ e.cont.take wrote := by
    rw [create_set h2, content_file (set_self _ _ _), List.drop_zero]
    unfold writeAt
    split
    · rename_i hn
      rw [hn]
      rfl
    · simp
  rw [hb]
  obtain ⟨fs, pc⟩ := s
  dsimp only at hi h1
  by_cases hle : e.cont.length ≤ wrote
  · have : (e.cont.take wrote).length = e.cont.length := by rw [List.length_take]; omega
    have hx : upExecs cwd (wholeUpload i e wrote) ⟨fs, pc⟩ = some ⟨appendTo fs2 (e.loc cwd) (e.cont.take wrote),
        put (put (put (put (put pc i (.mkdir e)) i (.create e)) i (.write e 0)) i (.write e (0 + ((e.cont.drop 0).take wrote).length))) i (.returned e true)⟩ := by
      simp [wholeUpload, if_pos hle, upExecs, upExec, hi, put_self, h1, h2, hw, appendTo, -List.append_assoc] at hw ⊢
      simp [hw, hle]
    refine ⟨_, hx, rfl, ?_⟩
    dsimp only
    rw [put_self]
    simp [hle]
  · have hx : upExecs cwd (wholeUpload i e wrote) ⟨fs, pc⟩ = some ⟨appendTo fs2 (e.loc cwd) (e.cont.take wrote),
        put (put (put (put (put pc i (.mkdir e)) i (.create e)) i (.write e 0)) i (.write e (0 + ((e.cont.drop 0).take wrote).length))) i (.returned e false)⟩ := by
      simp [wholeUpload, if_neg hle, upExecs, upExec, hi, put_self, h1, h2, hw, appendTo, -List.append_assoc] at hw ⊢
      simp [hw]
    refine ⟨_, hx, rfl, ?_⟩
    dsimp only
    rw [put_self]
    simp [hle]

/-- Chunk 0 of file `f` with the given content. -/
def chunk0 (c : Bytes) : Call := ⟨c, lit "f", 0, lit "ab"⟩

def chunk0At : Loc := [lit "breakpointDir", lit "ab", lit "f_0"]

/-- Two goroutines up to the creation of the file. -/
def both (a b : Call) : List UpAct := [.call 0 a, .call 1 b, .step 0, .step 1, .step 0, .step 1]

/-- The hypotheses of the theorems are met by two goroutines that upload the same, their writes cut into pieces: between the pieces the chunk has a gap. -/
example : ∃ s s', UpFrom [] (Retries [] chunk0At (lit "hello")) ⟨bare, fun _ => .idle⟩ s ∧ s.pc 0 = .returned (chunk0 (lit "hello")) true ∧
    UpFrom [] (Retries [] chunk0At (lit "hello")) s s' ∧ s.fs chunk0At = some (.file [0, 0, 0, 108, 111]) ∧ s'.fs chunk0At = some (.file (lit "hello")) := by
  have h : ((upExecs [] [.call 0 (chunk0 (lit "hello")), .step 0, .step 0, .wrote 0 3, .call 1 (chunk0 (lit "hello")), .step 1, .step 1, .wrote 0 5, .step 0]
      ⟨bare, fun _ => .idle⟩).any fun s => decide (s.pc 0 = .returned (chunk0 (lit "hello")) true) && decide (s.fs chunk0At = some (.file [0, 0, 0, 108, 111])) &&
      (upExecs [] [.wrote 1 4, .wrote 1 9, .step 1] s).any fun s' => decide (s'.fs chunk0At = some (.file (lit "hello")))) = true := by decide +kernel
  have ok : ∀ s, ∀ a ∈ [UpAct.call 0 (chunk0 (lit "hello")), .step 0, .step 0, .wrote 0 3, .call 1 (chunk0 (lit "hello")), .step 1, .step 1, .wrote 0 5, .step 0],
      Retries [] chunk0At (lit "hello") s a := by
    intro s a ha
    simp only [List.mem_cons, List.not_mem_nil, or_false] at ha
    rcases ha with rfl | rfl | rfl | rfl | rfl | rfl | rfl | rfl | rfl <;> first | exact trivial | exact fun _ => rfl
  have ok' : ∀ s, ∀ a ∈ [UpAct.wrote 1 4, .wrote 1 9, .step 1], Retries [] chunk0At (lit "hello") s a := by
    intro s a ha
    simp only [List.mem_cons, List.not_mem_nil, or_false] at ha
    rcases ha with rfl | rfl | rfl <;> exact trivial
  cases e : upExecs [] [.call 0 (chunk0 (lit "hello")), .step 0, .step 0, .wrote 0 3, .call 1 (chunk0 (lit "hello")), .step 1, .step 1, .wrote 0 5, .step 0]
      ⟨bare, fun _ => .idle⟩ with
  | none => rw [e] at h; cases h
  | some s =>
    rw [e] at h
    simp only [Option.any_some, Bool.and_eq_true, decide_eq_true_eq] at h
    cases e' : upExecs [] [.wrote 1 4, .wrote 1 9, .step 1] s with
    | none => rw [e'] at h; cases h.2
    | some s' =>
      rw [e'] at h
      exact ⟨s, s', upExecs_from .refl ok e, h.1.1, upExecs_from .refl ok' e', h.1.2, of_decide_eq_true h.2⟩

/-- The hypotheses of `C175_intact` are met: another content was uploaded before. -/
example : ∃ s s1, UpFrom [] (fun _ _ => True) ⟨uploads [] bare [⟨lit "ab", lit "f", 0, lit "old!!", fine 5⟩], fun _ => .idle⟩ s ∧
    (∀ i e, (s.pc i).call = some e → e.loc [] = chunk0At → e.cont = lit "new") ∧ s.pc 1 = .create (chunk0 (lit "new")) ∧
    upExec [] s (.step 1) = some s1 ∧ s1.pc 1 = .write (chunk0 (lit "new")) 0 ∧ s.fs chunk0At = some (.file (lit "old!!")) ∧
    (chunk0 (lit "new")).loc [] = chunk0At := by
  let fs := uploads [] bare [⟨lit "ab", lit "f", 0, lit "old!!", fine 5⟩]
  let fs1 : FS := fun x => if x <+: [lit "breakpointDir", lit "ab"] ∧ fs x = none then some .dir else fs x
  have hm : mkdirAll fs (Spec.Path.loc [] (breakpointDir ++ lit "ab" ++ lit "/")) = some fs1 := by
    have hl : Spec.Path.loc [] (breakpointDir ++ lit "ab" ++ lit "/") = [lit "breakpointDir", lit "ab"] := by decide +kernel
    rw [hl]
    unfold mkdirAll
    rw [if_neg (by decide +kernel)]
  have hc : create fs1 ((chunk0 (lit "new")).loc []) = some (fs1.set ((chunk0 (lit "new")).loc []) (some (.file []))) := by
    unfold create
    exact if_pos (by decide +kernel)
  have e1 : upExec [] ⟨fs, fun _ => .idle⟩ (.call 1 (chunk0 (lit "new"))) = some ⟨fs, put (fun _ => .idle) 1 (.mkdir (chunk0 (lit "new")))⟩ := rfl
  have e2 : upExec [] ⟨fs, put (fun _ => .idle) 1 (.mkdir (chunk0 (lit "new")))⟩ (.step 1) =
      some ⟨fs1, put (put (fun _ => .idle) 1 (.mkdir (chunk0 (lit "new")))) 1 (.create (chunk0 (lit "new")))⟩ := by
    rw [upExec]
    dsimp only
    rw [put_self]
    dsimp only
    rw [show (chunk0 (lit "new")).md5 = lit "ab" from rfl, hm]
  refine ⟨⟨fs1, put (put (fun _ => .idle) 1 (.mkdir (chunk0 (lit "new")))) 1 (.create (chunk0 (lit "new")))⟩, ⟨fs1.set ((chunk0 (lit "new")).loc []) (some (.file [])), put (put (put (fun _ => .idle) 1
    (.mkdir (chunk0 (lit "new")))) 1 (.create (chunk0 (lit "new")))) 1 (.write (chunk0 (lit "new")) 0)⟩, .step _ (.step _ .refl trivial e1) trivial e2, ?_,
    (by dsimp only; rw [put_self]), ?_, (by dsimp only; rw [put_self]), by decide +kernel, by decide +kernel⟩
  · intro i e h _
    by_cases hi : i = 1
    · subst hi
      dsimp only at h
      rw [put_self] at h
      cases h
      rfl
    · dsimp only at h
      rw [put_ne _ _ hi, put_ne _ _ hi] at h
      cases h
  · rw [upExec]
    dsimp only
    rw [put_self]
    dsimp only
    rw [hc]

theorem upExecs_any {cwd : Loc} {fs : FS} {as : List UpAct} {p : UpState → Bool} (h : (upExecs cwd as ⟨fs, fun _ => .idle⟩).any p = true) :
    ∃ s, UpFrom cwd (fun _ _ => True) ⟨fs, fun _ => .idle⟩ s ∧ p s = true := by
  cases e : upExecs cwd as ⟨fs, fun _ => .idle⟩ with
  | none => rw [e] at h; cases h
  | some s =>
    rw [e] at h
    exact ⟨s, upExecs_from .refl (fun _ _ _ => trivial) e, h⟩

/-- **C175 (two contents), refuted.** Two goroutines upload different contents of one chunk, each with a single write, and both report success: the chunk is
neither. -/
theorem C175_mixed_refuted : ∃ s, UpFrom [] (fun _ _ => True) ⟨bare, fun _ => .idle⟩ s ∧ s.pc 0 = .returned (chunk0 (lit "hello")) true ∧
    s.pc 1 = .returned (chunk0 (lit "by")) true ∧ s.fs chunk0At = some (.file (lit "byllo")) := by
  obtain ⟨s, h1, h2⟩ := upExecs_any (cwd := []) (fs := bare) (as := both (chunk0 (lit "hello")) (chunk0 (lit "by")) ++ [.wrote 0 5, .wrote 1 2, .step 0, .step 1])
    (p := fun s => decide (s.pc 0 = .returned (chunk0 (lit "hello")) true) && decide (s.pc 1 = .returned (chunk0 (lit "by")) true) &&
      decide (s.fs chunk0At = some (.file (lit "byllo")))) (by decide +kernel)
  simp only [Bool.and_eq_true, decide_eq_true_eq] at h2
  exact ⟨s, h1, h2.1.1, h2.1.2, h2.2⟩

/-- **C175 (a failing retry), refuted.** The same content is uploaded twice, and one upload reports success; the other one fails, and the chunk keeps bytes
that nobody uploaded. -/
theorem C175_zeros_refuted : ∃ s, UpFrom [] (fun _ _ => True) ⟨bare, fun _ => .idle⟩ s ∧ s.pc 0 = .returned (chunk0 (lit "hello")) true ∧
    s.pc 1 = .returned (chunk0 (lit "hello")) false ∧ s.fs chunk0At = some (.file [0, 0, 0, 108, 111]) := by
  obtain ⟨s, h1, h2⟩ := upExecs_any (cwd := []) (fs := bare) (as := [.call 0 (chunk0 (lit "hello")), .step 0, .step 0, .wrote 0 3,
      .call 1 (chunk0 (lit "hello")), .step 1, .step 1, .wrote 0 5, .step 0, .fail 1])
    (p := fun s => decide (s.pc 0 = .returned (chunk0 (lit "hello")) true) && decide (s.pc 1 = .returned (chunk0 (lit "hello")) false) &&
      decide (s.fs chunk0At = some (.file [0, 0, 0, 108, 111]))) (by decide +kernel)
  simp only [Bool.and_eq_true, decide_eq_true_eq] at h2
  exact ⟨s, h1, h2.1.1, h2.1.2, h2.2⟩

/-- **C175 (putting together meanwhile), refuted.** The only chunk was uploaded with success; while the same upload is repeated, `MakeFile` reports success,
and the file is empty. -/
theorem C175_make_refuted : ∃ s, UpFrom [] (fun _ _ => True) ⟨bare, fun _ => .idle⟩ s ∧ s.pc 0 = .returned (chunk0 (lit "hello")) true ∧
    (s.pc 1).call = some (chunk0 (lit "hello")) ∧ (makeFile [] (calm [lit "f_0"]) s.fs (lit "f") (lit "ab")).2 = true ∧
    (makeFile [] (calm [lit "f_0"]) s.fs (lit "f") (lit "ab")).1 [lit "fileDir", lit "f"] = some (.file []) := by
  obtain ⟨s, h1, h2⟩ := upExecs_any (cwd := []) (fs := bare) (as := wholeUpload 0 (chunk0 (lit "hello")) 5 ++
      [.call 1 (chunk0 (lit "hello")), .step 1, .step 1])
    (p := fun s => decide (s.pc 0 = .returned (chunk0 (lit "hello")) true) && decide ((s.pc 1).call = some (chunk0 (lit "hello"))) &&
      (makeFile [] (calm [lit "f_0"]) s.fs (lit "f") (lit "ab")).2 &&
      decide ((makeFile [] (calm [lit "f_0"]) s.fs (lit "f") (lit "ab")).1 [lit "fileDir", lit "f"] = some (.file []))) (by decide +kernel)
  simp only [Bool.and_eq_true, decide_eq_true_eq] at h2
  exact ⟨s, h1, h2.1.1.1, h2.1.1.2, h2.1.2, h2.2⟩

end Verif.Fs
