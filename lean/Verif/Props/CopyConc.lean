import Verif.Model.CopyConc
import Verif.Proof.Mutex

/-! # Property C181: several calls of `CopyFile` -/

namespace Verif.CopyConc

open Utf8
open Mutex (put put_self put_ne)

/-- A file with the bytes `c` laid over the old ones. -/
def Spec.over (c old : Bytes) : Bytes := c ++ old.drop c.length

theorem writeAt_in {d b : Bytes} {o : Nat} (h : o ≤ d.length) : writeAt d o b = d.take o ++ b ++ d.drop (o + b.length) := by
  unfold writeAt
  rw [Nat.sub_eq_zero_of_le h, List.replicate_zero, List.append_nil]

theorem writeAt_get {d b : Bytes} {o : Nat} (h : o ≤ d.length) (p : Nat) :
    (writeAt d o b)[p]? = if p < o then d[p]? else if p < o + b.length then b[p - o]? else d[p]? := by
  rw [writeAt_in h, List.append_assoc, List.getElem?_append, List.getElem?_append]
  have ht : (d.take o).length = o := by rw [List.length_take]; omega
  rw [ht]
  by_cases h1 : p < o
  · rw [if_pos h1, if_pos h1, List.getElem?_take_of_lt h1]
  · rw [if_neg h1, if_neg h1]
    by_cases h2 : p < o + b.length
    · rw [if_pos h2, if_pos (by omega)]
    · rw [if_neg h2, if_neg (by omega), List.getElem?_drop]
      congr 1
      omega

theorem writeAt_length {d b : Bytes} {o : Nat} (h : o ≤ d.length) : d.length ≤ (writeAt d o b).length ∧ o + b.length ≤ (writeAt d o b).length := by
  rw [writeAt_in h]
  simp only [List.length_append, List.length_take, List.length_drop]
  omega

/-! ## Where the bytes come from -/

/-- What is read and written so far, and where it comes from. -/
structure Inv (d0 : Nat → Bytes) (s : State) : Prop where
  data : ∀ f p b : Nat, (s.data f)[p]? = some b → ∃ g, (d0 g)[p]? = some b
  buf : ∀ i src dst o buf, s.pc i = .copying src dst o buf → o ≤ (s.data dst).length ∧ ∀ k b : Nat, buf[k]? = some b → ∃ g, (d0 g)[o + k]? = some b

theorem inv_start (d0 : Nat → Bytes) : Inv d0 (start d0) :=
  ⟨fun f _ _ h => ⟨f, h⟩, fun _ _ _ _ _ h => by cases h⟩

theorem Inv.move {d0 : Nat → Bytes} {s : State} (h : Inv d0 s) (i : Nat) (p : Pc)
    (hb : ∀ src dst o buf, p = .copying src dst o buf → o ≤ (s.data dst).length ∧ ∀ k b : Nat, buf[k]? = some b → ∃ g, (d0 g)[o + k]? = some b) :
    Inv d0 { s with pc := put s.pc i p } := by
  refine ⟨h.data, ?_⟩
  intro j src dst o buf hj
  dsimp only at hj ⊢
  by_cases e : j = i
  · subst e
    rw [put_self] at hj
    exact hb src dst o buf hj
  · rw [put_ne _ _ e] at hj
    exact h.buf j src dst o buf hj

theorem inv_step {d0 : Nat → Bytes} {s s' : State} {a : Act} (h : Inv d0 s) (e : exec s a = some s') : Inv d0 s' := by
  cases a with
  | call i src dst =>
    unfold exec at e
    dsimp only at e
    split at e
    · cases e
      exact h.move i _ (fun _ _ _ _ x => by cases x; exact ⟨Nat.zero_le _, fun k b hk => by simp at hk⟩)
    · cases e
  | read i m =>
    unfold exec at e
    dsimp only at e
    split at e
    · rename_i src dst o hi
      split at e
      · cases e
        exact h.move i _ (fun _ _ _ _ x => by cases x)
      · cases e
        refine h.move i _ (fun _ _ _ _ x => ?_)
        cases x
        refine ⟨(h.buf i src dst o [] hi).1, fun k b hk => ?_⟩
        have hlt : k < m + 1 := by
          have := (List.getElem?_eq_some_iff.1 hk).1
          rw [List.length_take] at this
          omega
        rw [List.getElem?_take_of_lt hlt, List.getElem?_drop] at hk
        exact h.data src (o + k) b hk
    · cases e
  | write i m =>
    unfold exec at e
    dsimp only at e
    split at e
    · rename_i src dst o buf hi
      cases e
      obtain ⟨h1, h2⟩ := h.buf i src dst o buf hi
      have hl := writeAt_length (b := buf.take m) h1
      refine ⟨?_, ?_⟩
      · intro f p b hp
        dsimp only at hp
        by_cases ef : f = dst
        · subst ef
          rw [put_self, writeAt_get h1] at hp
          split at hp
          · exact h.data f p b hp
          · split at hp
            · rename_i a1 a2
              have hlt : p - o < m := by rw [List.length_take] at a2; omega
              rw [List.getElem?_take_of_lt hlt] at hp
              obtain ⟨g, hg⟩ := h2 (p - o) b hp
              exact ⟨g, by rw [← hg]; congr 1; omega⟩
            · exact h.data f p b hp
        · rw [put_ne _ _ ef] at hp
          exact h.data f p b hp
      · intro j src' dst' o' buf' hj
        dsimp only at hj ⊢
        have grow : ∀ f, (s.data f).length ≤ (put s.data dst (writeAt (s.data dst) o (buf.take m)) f).length := by
          intro f
          by_cases ef : f = dst
          · subst ef; rw [put_self]; exact hl.1
          · rw [put_ne _ _ ef]; exact Nat.le_refl _
        by_cases ej : j = i
        · subst ej
          rw [put_self] at hj
          cases hj
          refine ⟨by rw [put_self]; exact hl.2, fun k b hk => ?_⟩
          rw [List.getElem?_drop] at hk
          obtain ⟨g, hg⟩ := h2 (m + k) b hk
          have hlt := (List.getElem?_eq_some_iff.1 hk).1
          refine ⟨g, ?_⟩
          rw [← hg, List.length_take]
          congr 1
          omega
        · rw [put_ne _ _ ej] at hj
          obtain ⟨a1, a2⟩ := h.buf j src' dst' o' buf' hj
          exact ⟨Nat.le_trans a1 (grow dst'), a2⟩
    · cases e
  | fail i =>
    unfold exec at e
    dsimp only at e
    split at e
    · cases e
      exact h.move i _ (fun _ _ _ _ x => by cases x)
    · cases e

theorem inv_execs {d0 : Nat → Bytes} : ∀ (as : List Act) {s s' : State}, Inv d0 s → execs as s = some s' → Inv d0 s'
  | [], _, _, h, e => by cases e; exact h
  | a :: as, s, s', h, e => by
    unfold execs at e
    cases hx : exec s a with
    | none => rw [hx] at e; cases e
    | some s1 => rw [hx] at e; exact inv_execs as (inv_step h hx) e

/-- **C181 (where the bytes come from).** Whatever is copied where at a time, in chains, in circles or onto itself: every byte of every file was, at the start, at the same position of some file. -/
theorem C181_bytes {d0 : Nat → Bytes} {as : List Act} {s : State} (e : execs as (start d0) = some s) {f p b : Nat} (h : (s.data f)[p]? = some b) :
    ∃ g, (d0 g)[p]? = some b := (inv_execs as (inv_start d0) e).data f p b h

/-- **C181 (no file grows without end).** No file gets longer than the longest one was. -/
theorem C181_length {d0 : Nat → Bytes} {as : List Act} {s : State} (e : execs as (start d0) = some s) {n : Nat} (h : ∀ g, (d0 g).length ≤ n) (f : Nat) :
    (s.data f).length ≤ n := by
  by_contra hn
  have hlt : n < (s.data f).length := by omega
  obtain ⟨g, hg⟩ := C181_bytes e (List.getElem?_eq_getElem hlt)
  have := (List.getElem?_eq_some_iff.1 hg).1
  have := h g
  omega

/-! ## Copies of one content -/

/-- The first `k` bytes of `c` over the old ones. -/
def upTo (c old : Bytes) (k : Nat) : Bytes := c.take k ++ old.drop k

theorem upTo_get {c old : Bytes} {k : Nat} (h : k ≤ c.length) (p : Nat) : (upTo c old k)[p]? = if p < k then c[p]? else old[p]? := by
  unfold upTo
  have ht : (c.take k).length = k := by rw [List.length_take]; omega
  rw [List.getElem?_append, ht]
  by_cases h1 : p < k
  · rw [if_pos h1, if_pos h1, List.getElem?_take_of_lt h1]
  · rw [if_neg h1, if_neg h1, List.getElem?_drop]
    congr 1
    omega

theorem upTo_self (c : Bytes) (k : Nat) : upTo c c k = c := List.take_append_drop k c

/-- The calls made: each copies `c dst`, and its source is a file that nobody changes the content of. -/
def Agree (d0 c : Nat → Bytes) (a : Act) : Prop := ∀ i src dst, a = .call i src dst → d0 src = c dst ∧ c src = d0 src

structure Same (d0 c : Nat → Bytes) (s : State) : Prop where
  data : ∀ f, ∃ k, k ≤ (c f).length ∧ s.data f = upTo (c f) (d0 f) k ∧
    (∀ i src o buf, s.pc i = .copying src f o buf → o ≤ k) ∧ ∀ i src n, s.pc i = .returned src f n true → n = (c f).length ∧ k = n
  buf : ∀ i src dst o buf, s.pc i = .copying src dst o buf → (d0 src = c dst ∧ c src = d0 src) ∧ ∃ r, (c dst).drop o = buf ++ r

theorem same_start (d0 c : Nat → Bytes) : Same d0 c (start d0) :=
  ⟨fun f => ⟨0, Nat.zero_le _, by simp [start, upTo], (fun _ _ _ _ h => by cases h), (fun _ _ _ h => by cases h)⟩, fun _ _ _ _ _ h => by cases h⟩

theorem Same.src {d0 c : Nat → Bytes} {s : State} (h : Same d0 c s) {f : Nat} (e : c f = d0 f) : s.data f = d0 f := by
  obtain ⟨k, -, hk, -⟩ := h.data f
  rw [hk, e, upTo_self]

/-- A piece of `c` written into a file that has `c` up to `k`. -/
theorem upTo_write {c old b r : Bytes} {k o : Nat} (hk : k ≤ c.length) (ho : o ≤ k) (hb : c.drop o = b ++ r) :
    writeAt (upTo c old k) o b = upTo c old (max k (o + b.length)) ∧ o + b.length ≤ c.length := by
  have hlen : o + b.length ≤ c.length := by
    have := congrArg List.length hb
    rw [List.length_drop, List.length_append] at this
    omega
  refine ⟨?_, hlen⟩
  have hl : o ≤ (upTo c old k).length := by
    unfold upTo
    rw [List.length_append, List.length_take]
    omega
  apply List.ext_getElem?
  intro p
  rw [writeAt_get hl, upTo_get hk, upTo_get (by omega)]
  by_cases h1 : p < o
  · rw [if_pos h1, if_pos (by omega), if_pos (by omega)]
  · rw [if_neg h1]
    by_cases h2 : p < o + b.length
    · rw [if_pos h2, if_pos (by omega)]
      have : c[p]? = (c.drop o)[p - o]? := by rw [List.getElem?_drop]; congr 1; omega
      rw [this, hb, List.getElem?_append_left (by omega)]
    · rw [if_neg h2]
      by_cases h3 : p < k
      · rw [if_pos h3, if_pos (by omega)]
      · rw [if_neg h3, if_neg (by omega)]

theorem same_step {d0 c : Nat → Bytes} {s s' : State} {a : Act} (h : Same d0 c s) (ha : Agree d0 c a) (e : exec s a = some s') : Same d0 c s' := by
  have move : ∀ (i : Nat) (p : Pc),
      (∀ src dst o buf, p = .copying src dst o buf → ((d0 src = c dst ∧ c src = d0 src) ∧ ∃ r, (c dst).drop o = buf ++ r) ∧
        (o = 0 ∨ ∃ src' buf', s.pc i = .copying src' dst o buf')) →
      (∀ src dst n, p = .returned src dst n true → n = (c dst).length ∧ ∃ src' buf', s.pc i = .copying src' dst n buf') →
      Same d0 c { s with pc := put s.pc i p } := by
    intro i p hc hr
    refine ⟨fun f => ?_, fun j src dst o buf hj => ?_⟩
    · obtain ⟨k, h1, h2, h3, h4⟩ := h.data f
      refine ⟨k, h1, h2, fun j src o buf hj => ?_, fun j src n hj => ?_⟩
      · dsimp only at hj
        by_cases ej : j = i
        · subst ej
          rw [put_self] at hj
          rcases (hc src f o buf hj).2 with h0 | ⟨s1, b1, h0⟩
          · omega
          · exact h3 j s1 o b1 h0
        · rw [put_ne _ _ ej] at hj
          exact h3 j src o buf hj
      · dsimp only at hj
        by_cases ej : j = i
        · subst ej
          rw [put_self] at hj
          obtain ⟨a1, s1, b1, h0⟩ := hr src f n hj
          have := h3 j s1 n b1 h0
          exact ⟨a1, by omega⟩
        · rw [put_ne _ _ ej] at hj
          exact h4 j src n hj
    · dsimp only at hj
      by_cases ej : j = i
      · subst ej
        rw [put_self] at hj
        exact (hc src dst o buf hj).1
      · rw [put_ne _ _ ej] at hj
        exact h.buf j src dst o buf hj
  cases a with
  | call i src dst =>
    unfold exec at e
    dsimp only at e
    split at e
    · cases e
      refine move i _ (fun _ _ _ _ x => ?_) (fun _ _ _ x => by cases x)
      cases x
      exact ⟨⟨ha i src dst rfl, c dst, rfl⟩, Or.inl rfl⟩
    · cases e
  | read i m =>
    unfold exec at e
    dsimp only at e
    split at e
    · rename_i src dst o hi
      obtain ⟨⟨b1, b2⟩, -⟩ := h.buf i src dst o [] hi
      have hsrc : s.data src = c dst := by rw [h.src b2, b1]
      obtain ⟨k, hk, -, hk2, -⟩ := h.data dst
      have hok := hk2 i src o [] hi
      split at e
      · rename_i hnil
        cases e
        refine move i _ (fun _ _ _ _ x => by cases x) (fun _ _ _ x => ?_)
        cases x
        refine ⟨?_, src, [], hi⟩
        have := congrArg List.length hnil
        rw [hsrc, List.length_take, List.length_drop, List.length_nil] at this
        omega
      · cases e
        refine move i _ (fun _ _ _ _ x => ?_) (fun _ _ _ x => by cases x)
        cases x
        refine ⟨⟨⟨b1, b2⟩, ((c dst).drop o).drop (m + 1), ?_⟩, Or.inr ⟨src, [], hi⟩⟩
        rw [hsrc, List.take_append_drop]
    · cases e
  | write i m =>
    unfold exec at e
    dsimp only at e
    split at e
    · rename_i src dst o buf hi
      cases e
      obtain ⟨b1, r, hr⟩ := h.buf i src dst o buf hi
      have hr' : (c dst).drop o = buf.take m ++ (buf.drop m ++ r) := by rw [← List.append_assoc, List.take_append_drop, hr]
      refine ⟨fun f => ?_, fun j src' dst' o' buf' hj => ?_⟩
      · obtain ⟨k, h1, h2, h3, h4⟩ := h.data f
        by_cases ef : f = dst
        · subst ef
          obtain ⟨w1, w2⟩ := upTo_write (old := d0 f) h1 (h3 i src o buf hi) hr'
          refine ⟨max k (o + (buf.take m).length), by omega, ?_, fun j src' o' buf' hj => ?_, fun j src' n hj => ?_⟩
          · dsimp only
            rw [put_self, h2, w1]
          · dsimp only at hj
            by_cases ej : j = i
            · subst ej
              rw [put_self] at hj
              cases hj
              omega
            · rw [put_ne _ _ ej] at hj
              have := h3 j src' o' buf' hj
              omega
          · dsimp only at hj
            by_cases ej : j = i
            · subst ej
              rw [put_self] at hj
              cases hj
            · rw [put_ne _ _ ej] at hj
              obtain ⟨a1, a2⟩ := h4 j src' n hj
              exact ⟨a1, by omega⟩
        · refine ⟨k, h1, ?_, fun j src' o' buf' hj => ?_, fun j src' n hj => ?_⟩
          · dsimp only
            rw [put_ne _ _ ef, h2]
          · dsimp only at hj
            by_cases ej : j = i
            · subst ej
              rw [put_self] at hj
              cases hj
              exact absurd rfl ef
            · rw [put_ne _ _ ej] at hj
              exact h3 j src' o' buf' hj
          · dsimp only at hj
            by_cases ej : j = i
            · subst ej
              rw [put_self] at hj
              cases hj
            · rw [put_ne _ _ ej] at hj
              exact h4 j src' n hj
      · dsimp only at hj
        by_cases ej : j = i
        · subst ej
          rw [put_self] at hj
          cases hj
          refine ⟨b1, r, ?_⟩
          rw [← List.drop_drop, hr', List.drop_left]
        · rw [put_ne _ _ ej] at hj
          exact h.buf j src' dst' o' buf' hj
    · cases e
  | fail i =>
    unfold exec at e
    dsimp only at e
    split at e
    · cases e
      exact move i _ (fun _ _ _ _ x => by cases x) (fun _ _ _ x => by cases x)
    · cases e

theorem same_execs {d0 c : Nat → Bytes} : ∀ (as : List Act) {s s' : State}, Same d0 c s → (∀ a ∈ as, Agree d0 c a) → execs as s = some s' → Same d0 c s'
  | [], _, _, h, _, e => by cases e; exact h
  | a :: as, s, s', h, ha, e => by
    unfold execs at e
    cases hx : exec s a with
    | none => rw [hx] at e; cases e
    | some s1 =>
      rw [hx] at e
      exact same_execs as (same_step h (ha a List.mem_cons_self) hx) (fun b hb => ha b (List.mem_cons_of_mem _ hb)) e

/-- **C181 (copies of one content).** If all calls into one file copy the same content, and the sources are not changed by calls with another content, then a call that reports success reports the
length of the source, and the file is from then on the source over what was there: as if it were the only call. A call may copy a file onto itself. -/
theorem C181_same {d0 c : Nat → Bytes} {as : List Act} {s : State} (e : execs as (start d0) = some s) (ha : ∀ a ∈ as, Agree d0 c a)
    {i src dst n : Nat} (hi : s.pc i = .returned src dst n true) : n = (c dst).length ∧ s.data dst = Spec.over (c dst) (d0 dst) := by
  obtain ⟨k, -, h2, -, h4⟩ := (same_execs as (same_start d0 c) ha e).data dst
  obtain ⟨h5, h6⟩ := h4 i src n hi
  refine ⟨h5, ?_⟩
  rw [h2, h6, h5]
  unfold upTo Spec.over
  rw [List.take_length]

/-- **C181 (the sources are kept).** -/
theorem C181_source {d0 c : Nat → Bytes} {as : List Act} {s : State} (e : execs as (start d0) = some s) (ha : ∀ a ∈ as, Agree d0 c a)
    {i src dst : Nat} (hc : Act.call i src dst ∈ as) : s.data src = d0 src :=
  (same_execs as (same_start d0 c) ha e).src (ha _ hc i src dst rfl).2

/-! ## Different contents -/

/-- What can be seen of a state: the first two calls and the first three files. -/
def view (s : State) : Pc × Pc × Bytes × Bytes × Bytes := (s.pc 0, s.pc 1, s.data 0, s.data 1, s.data 2)

theorem of_view {as : List Act} {d : Nat → Bytes} {v : Pc × Pc × Bytes × Bytes × Bytes} (h : (execs as (start d)).map view = some v) :
    ∃ s, execs as (start d) = some s ∧ s.pc 0 = v.1 ∧ s.pc 1 = v.2.1 ∧ s.data 0 = v.2.2.1 ∧ s.data 1 = v.2.2.2.1 ∧ s.data 2 = v.2.2.2.2 := by
  cases e : execs as (start d) with
  | none => rw [e] at h; cases h
  | some s =>
    rw [e] at h
    cases h
    exact ⟨s, rfl, rfl, rfl, rfl, rfl, rfl⟩

/-- Two files to be copied to a third one. -/
def two : Nat → Bytes
  | 0 => [1, 1]
  | 1 => [2, 2]
  | _ => []

/-- **C181 (refuted: the file is one of the sources).** Two calls with different sources both report that all was copied; the file is a mixture. -/
theorem C181_mixed_refuted : ∃ s, execs [.call 0 0 2, .call 1 1 2, .read 0 9, .write 0 1, .read 1 9, .write 1 9, .write 0 9, .read 0 9, .read 1 9] (start two) = some s ∧
    s.pc 0 = .returned 0 2 2 true ∧ s.pc 1 = .returned 1 2 2 true ∧ s.data 0 = [1, 1] ∧ s.data 1 = [2, 2] ∧ s.data 2 = [2, 1] :=
  of_view (v := (.returned 0 2 2 true, .returned 1 2 2 true, [1, 1], [2, 2], [2, 1])) (by decide +kernel)

/-- **C181 (refuted: two calls that exchange files leave two files).** Copied onto each other, both files can end up as mixtures; no content is left whole. -/
theorem C181_circle_refuted : ∃ s, execs [.call 0 0 1, .call 1 1 0, .read 0 0, .write 0 1, .read 1 9, .write 1 1, .write 1 1, .read 0 9, .write 0 9, .read 0 9, .read 1 9]
      (start fun f => if f = 0 then [1, 2] else [3, 4]) = some s ∧
    s.pc 0 = .returned 0 1 2 true ∧ s.pc 1 = .returned 1 0 2 true ∧ s.data 0 = [1, 4] ∧ s.data 1 = [1, 4] ∧ s.data 2 = [3, 4] :=
  of_view (v := (.returned 0 1 2 true, .returned 1 0 2 true, [1, 4], [1, 4], [3, 4])) (by decide +kernel)

/-- The hypotheses of `C181_same`: two copies of one file into a longer one, and a copy of that file onto itself is under way. -/
example : ∃ s, execs [.call 0 0 1, .call 1 0 1, .call 2 0 0, .read 0 0, .write 0 1, .read 1 9, .write 1 2, .read 2 9, .write 2 1, .read 1 3] (start fun f => if f = 0 then [5, 6] else [7, 8, 9]) = some s ∧
    s.pc 1 = .returned 0 1 2 true ∧ s.data 1 = Spec.over [5, 6] [7, 8, 9] ∧ s.data 1 = [5, 6, 9] := by
  obtain ⟨s, h, -, h1, -, h3, -⟩ := of_view
    (as := [.call 0 0 1, .call 1 0 1, .call 2 0 0, .read 0 0, .write 0 1, .read 1 9, .write 1 2, .read 2 9, .write 2 1, .read 1 3]) (d := fun f => if f = 0 then [5, 6] else [7, 8, 9])
    (v := (.copying 0 1 1 [], .returned 0 1 2 true, [5, 6], [5, 6, 9], [7, 8, 9])) (by decide +kernel)
  refine ⟨s, h, h1, ?_, h3⟩
  have h4 := C181_same (c := fun _ => [5, 6]) h (fun a ha i src dst hx => ?_) h1
  · exact h4.2
  · subst hx
    simp only [List.mem_cons, Act.call.injEq, List.not_mem_nil, or_false, reduceCtorEq] at ha
    have : src = 0 := by omega
    subst this
    exact ⟨rfl, rfl⟩

end Verif.CopyConc
