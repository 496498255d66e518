import Verif.Model.RingTSO
import Verif.Props.RingSPSC

/-!
# C151: the bounded rings with store buffers
-/

namespace Verif.RingTSO

open Verif.RingSPSC (Shared PPc CPc mod_ne)

variable {T : Type}

theorem apply_size (m : Shared T) (w : PWrite T) : (apply m w).size = m.size := by cases w <;> rfl
theorem apply_out (m : Shared T) (w : PWrite T) : (apply m w).out = m.out := by cases w <;> rfl
theorem apply_len (m : Shared T) (w : PWrite T) : (apply m w).data.length = m.data.length := by
  cases w <;> simp [apply]

theorem all_len (m : Shared T) (b : List (PWrite T)) : (applyAll m b).data.length = m.data.length := by
  induction b generalizing m with
  | nil => rfl
  | cons w b ih => rw [applyAll, List.foldl_cons, ← applyAll, ih, apply_len]

theorem all_append (m : Shared T) (a b : List (PWrite T)) : applyAll m (a ++ b) = applyAll (applyAll m a) b := List.foldl_append

theorem all_cons (m : Shared T) (w : PWrite T) (b : List (PWrite T)) : applyAll m (w :: b) = applyAll (apply m w) b := rfl

theorem all_out (m : Shared T) (o : Nat) (b : List (PWrite T)) : applyAll { m with out := o } b = { applyAll m b with out := o } := by
  induction b generalizing m with
  | nil => rfl
  | cons w b ih =>
    rw [all_cons, all_cons, ← ih]
    cases w <;> rfl

/-- What the producer is doing. -/
def POk (N : Nat) (s : State T) : PPc T → Prop
  | .bulkCopy es j => j ≤ es.length ∧ s.pin + es.length ≤ s.sh.out + N ∧
      ∀ i, i < j → (applyAll s.sh s.pb).data[(s.pin + i) % N]? = es[i]?
  | _ => True

/-- What the consumer is doing. -/
def COk (s : State T) : CPc T → Prop
  | .bulkCopy m buf => buf.length ≤ m ∧ s.cout + m ≤ s.sh.inn ∧ buf = (s.produced.drop s.cout).take buf.length
  | _ => True

/-- The invariant. The memory that the consumer may see is that after some of the producer's stores; whichever they are, the cells
between `out` and `in` hold what was produced. -/
structure Inv (N : Nat) (s : State T) : Prop where
  size : s.sh.size = N
  len : s.sh.data.length = N
  outs : List.Pairwise (· ≤ ·) (s.sh.out :: s.cb)
  seen : s.cout ≤ s.sh.inn
  room : s.pin ≤ s.sh.out + N
  inns : ∀ a b, a ++ b <+: s.pb → (applyAll s.sh a).inn ≤ (applyAll s.sh (a ++ b)).inn
  prod : s.produced.length = s.pin
  cons : s.consumed = s.produced.take s.cout
  cells : ∀ a, a <+: s.pb → ∀ k, s.cout ≤ k → k < (applyAll s.sh a).inn → (applyAll s.sh a).data[k % N]? = s.produced[k]?
  p : POk N s s.p
  c : COk s s.c

theorem Inv.in_le {N : Nat} {s : State T} (h : Inv N s) : s.sh.inn ≤ s.pin := h.inns [] s.pb (List.prefix_refl _)

theorem Inv.out_le {N : Nat} {s : State T} (h : Inv N s) : s.sh.out ≤ s.cout := by
  unfold State.cout
  have := h.outs
  cases hl : s.cb.getLast? with
  | none => exact Nat.le_refl _
  | some n => exact (List.pairwise_cons.1 this).1 n (List.mem_of_getLast? hl)

theorem inv_init (zero : T) (N : Nat) : Inv N (init zero N) := by
  constructor <;> simp [init, POk, COk, State.cout, State.pin, applyAll]

theorem step_inv {N : Nat} (hN : 0 < N) {s s' : State T} (h : Inv N s) (hs : Step true s s') : Inv N s' := by
  have hpre := h.in_le
  have hout := h.out_le
  have hseen := h.seen
  have hroom := h.room
  have hsz := h.size
  cases hs with
  | mpushFits es hp hf =>
    refine ⟨h.size, h.len, h.outs, h.seen, h.room, h.inns, h.prod, h.cons, h.cells, ?_, h.c⟩
    dsimp only
    split
    · trivial
    · refine ⟨Nat.zero_le _, ?_, fun i hi => absurd hi (Nat.not_lt_zero i)⟩
      change s.pin + es.length ≤ s.sh.out + N
      omega
  | mpushTooLarge es hp hf =>
    exact ⟨h.size, h.len, h.outs, h.seen, h.room, h.inns, h.prod, h.cons, h.cells, trivial, h.c⟩
  | mpushCut es hp hf =>
    refine ⟨h.size, h.len, h.outs, h.seen, h.room, h.inns, h.prod, h.cons, h.cells, ?_, h.c⟩
    dsimp only
    split
    · trivial
    · refine ⟨Nat.zero_le _, ?_, fun i hi => absurd hi (Nat.not_lt_zero i)⟩
      change s.pin + (es.take (s.sh.size - (s.pin - s.sh.out))).length ≤ s.sh.out + N
      rw [List.length_take]
      omega
  | mpushPanic es hp hf =>
    exact ⟨h.size, h.len, h.outs, h.seen, h.room, h.inns, h.prod, h.cons, h.cells, trivial, h.c⟩
  | mpushCell es j e hp he =>
    have hpo := h.p
    rw [hp] at hpo
    obtain ⟨hj, hfit, hdone⟩ := hpo
    have hjl : j < es.length := (List.getElem?_eq_some_iff.1 he).1
    have hidx : (s.pin % s.sh.size + j) % s.sh.size = (s.pin + j) % N := by rw [hsz, Nat.mod_add_mod]
    have hpin : State.pin { s with p := .bulkCopy es (j + 1), pb := s.pb ++ [.cell ((s.pin % s.sh.size + j) % s.sh.size) e] } = s.pin := by
      unfold State.pin
      dsimp only
      rw [all_append]
      rfl
    have hall : applyAll s.sh (s.pb ++ [.cell ((s.pin % s.sh.size + j) % s.sh.size) e]) =
        { applyAll s.sh s.pb with data := (applyAll s.sh s.pb).data.set ((s.pin + j) % N) e } := by
      rw [all_append, hidx]
      rfl
    have hdl : (applyAll s.sh s.pb).data.length = N := by rw [all_len, h.len]
    refine ⟨h.size, h.len, h.outs, h.seen, ?_, ?_, ?_, h.cons, ?_, ?_, h.c⟩
    · rw [hpin]; exact h.room
    · intro a b hab
      rcases List.prefix_concat_iff.1 hab with hab | hab
      · dsimp only at hab ⊢
        rcases List.eq_nil_or_concat b with rfl | ⟨b', w, rfl⟩
        · rw [List.append_nil] at hab
          rw [hab, List.append_nil]
        · rw [hab, hall]
          rw [List.concat_eq_append, ← List.append_assoc] at hab
          have := List.append_inj_left' hab rfl
          change _ ≤ (applyAll s.sh s.pb).inn
          rw [← this]
          exact h.inns a b' ⟨[], by rw [List.append_nil]; exact this⟩
      · exact h.inns a b hab
    · rw [hpin]; exact h.prod
    · intro a ha k hk1 hk2
      rcases List.prefix_concat_iff.1 ha with ha | ha
      · dsimp only at ha hk2 ⊢
        rw [ha, hall] at hk2 ⊢
        dsimp only at hk2 ⊢
        have hk3 : s.cout ≤ k := hk1
        have hk4 : k < s.pin := hk2
        rw [List.getElem?_set_ne (Ne.symm (mod_ne (by omega) (by omega)))]
        exact h.cells s.pb (List.prefix_refl _) k hk1 hk2
      · exact h.cells a ha k hk1 hk2
    · refine ⟨hjl, ?_, ?_⟩
      · rw [hpin]; exact hfit
      · intro i hi
        rw [hpin]
        dsimp only
        rw [hall]
        dsimp only
        by_cases hij : i = j
        · subst hij
          rw [List.getElem?_set_self (by rw [hdl]; exact Nat.mod_lt _ hN), he]
        · rw [List.getElem?_set_ne (Ne.symm (mod_ne (by omega) (by omega)))]
          exact hdone i (by omega)
  | mpushDone es hp =>
    have hpo := h.p
    rw [hp] at hpo
    obtain ⟨-, hfit, hdone⟩ := hpo
    have hall : applyAll s.sh (s.pb ++ [.inn (s.pin + es.length)]) = { applyAll s.sh s.pb with inn := s.pin + es.length } := by
      rw [all_append]
      rfl
    have hpin : State.pin { s with p := .idle, pb := s.pb ++ [.inn (s.pin + es.length)], produced := s.produced ++ es } =
        s.pin + es.length := by
      change (applyAll s.sh (s.pb ++ [.inn (s.pin + es.length)])).inn = _
      rw [hall]
    have hprod := h.prod
    refine ⟨h.size, h.len, h.outs, h.seen, ?_, ?_, ?_, ?_, ?_, trivial, ?_⟩
    · rw [hpin]; exact hfit
    · intro a b hab
      rcases List.prefix_concat_iff.1 hab with hab | hab
      · dsimp only at hab ⊢
        rw [hab, hall]
        rcases List.eq_nil_or_concat b with rfl | ⟨b', w, rfl⟩
        · rw [List.append_nil] at hab
          rw [hab, hall]
        · rw [List.concat_eq_append, ← List.append_assoc] at hab
          have := List.append_inj_left' hab rfl
          have := h.inns a b' ⟨[], by rw [List.append_nil]; exact this⟩
          rw [List.append_inj_left' hab rfl] at this
          exact Nat.le_trans this (Nat.le_add_right _ _)
      · exact h.inns a b hab
    · rw [hpin]
      dsimp only
      rw [List.length_append, h.prod]
    · change s.consumed = (s.produced ++ es).take s.cout
      rw [List.take_append_of_le_length (by omega)]
      exact h.cons
    · intro a ha k hk1 hk2
      rcases List.prefix_concat_iff.1 ha with ha | ha
      · dsimp only at ha hk2 ⊢
        rw [ha, hall] at hk2 ⊢
        dsimp only at hk2 ⊢
        by_cases hk : k < s.pin
        · rw [List.getElem?_append_left (by omega)]
          exact h.cells s.pb (List.prefix_refl _) k hk1 hk
        · rw [List.getElem?_append_right (by omega), hprod]
          have := hdone (k - s.pin) (by omega)
          rw [Nat.add_sub_cancel' (by omega)] at this
          exact this
      · have hk3 := h.cells a ha k hk1 hk2
        dsimp only at hk2 ⊢
        obtain ⟨b, hb⟩ := ha
        have hlt : k < s.produced.length := by
          have := h.inns a b ⟨[], by rw [List.append_nil]; exact hb⟩
          rw [hb] at this
          have h2 : (applyAll s.sh a).inn ≤ s.pin := this
          omega
        rw [List.getElem?_append_left hlt]
        exact hk3
    · have hc := h.c
      change COk _ s.c
      cases hcc : s.c with
      | bulkCopy m buf =>
        rw [hcc] at hc
        obtain ⟨h1, h2, h3⟩ := hc
        refine ⟨h1, h2, ?_⟩
        change buf = ((s.produced ++ es).drop s.cout).take buf.length
        have h2' : s.cout + m ≤ s.sh.inn := h2
        rw [List.drop_append_of_le_length (by omega), List.take_append_of_le_length (by rw [List.length_drop]; omega)]
        exact h3
      | _ => trivial
  | mpopFits m hc hf =>
    refine ⟨h.size, h.len, h.outs, h.seen, h.room, h.inns, h.prod, h.cons, h.cells, h.p, ?_⟩
    dsimp only
    split
    · trivial
    · refine ⟨Nat.zero_le _, ?_, by simp⟩
      change s.cout + m ≤ s.sh.inn
      omega
  | mpopTooMany m hc hf =>
    exact ⟨h.size, h.len, h.outs, h.seen, h.room, h.inns, h.prod, h.cons, h.cells, h.p, trivial⟩
  | mpopCut hc =>
    refine ⟨h.size, h.len, h.outs, h.seen, h.room, h.inns, h.prod, h.cons, h.cells, h.p, ?_⟩
    dsimp only
    split
    · trivial
    · refine ⟨Nat.zero_le _, ?_, by simp⟩
      change s.cout + (s.sh.inn - s.cout) ≤ s.sh.inn
      omega
  | mpopCell m buf v hc hb hv =>
    have hco := h.c
    rw [hc] at hco
    obtain ⟨h1, h2, h3⟩ := hco
    refine ⟨h.size, h.len, h.outs, h.seen, h.room, h.inns, h.prod, h.cons, h.cells, h.p, ?_⟩
    refine ⟨by rw [List.length_append]; exact hb, h2, ?_⟩
    have hv' : s.produced[s.cout + buf.length]? = some v := by
      rw [hsz, Nat.mod_add_mod] at hv
      rw [← hv]
      exact (h.cells [] (List.nil_prefix) (s.cout + buf.length) (by omega) (by change _ < s.sh.inn; omega)).symm
    change buf ++ [v] = (s.produced.drop s.cout).take (buf ++ [v]).length
    rw [List.length_append, List.length_singleton, List.take_add_one, ← h3, List.getElem?_drop, hv']
    rfl
  | mpopDone m buf hc hb =>
    have hco := h.c
    rw [hc] at hco
    obtain ⟨h1, h2, h3⟩ := hco
    have hcout : State.cout { s with c := .idle, cb := s.cb ++ [s.cout + m], consumed := s.consumed ++ buf } = s.cout + m := by
      unfold State.cout
      simp
    refine ⟨h.size, h.len, ?_, ?_, h.room, h.inns, h.prod, ?_, ?_, h.p, trivial⟩
    · dsimp only
      rw [← List.cons_append, List.pairwise_append]
      refine ⟨h.outs, List.pairwise_singleton _ _, ?_⟩
      intro x hx y hy
      rw [List.mem_singleton.1 hy]
      refine Nat.le_trans ?_ (Nat.le_add_right _ _)
      unfold State.cout
      rcases List.eq_nil_or_concat s.cb with hnil | ⟨l, z, hl⟩
      · rw [hnil] at hx ⊢
        rw [List.mem_singleton.1 hx]
        exact Nat.le_refl _
      · rw [List.concat_eq_append] at hl
        have ho := h.outs
        rw [hl, List.getLast?_concat, Option.getD_some]
        rw [hl] at hx ho
        rw [← List.cons_append] at hx ho
        rcases List.mem_append.1 hx with hx | hx
        · exact (List.pairwise_append.1 ho).2.2 x hx z (List.mem_singleton_self z)
        · rw [List.mem_singleton.1 hx]
    · rw [hcout]; exact h2
    · rw [hcout]
      dsimp only
      rw [h.cons, List.take_add, h3, hb]
    · intro a ha k hk1 hk2
      rw [hcout] at hk1
      exact h.cells a ha k (by omega) hk2
  | arriveP a w b hb ho =>
    have ha : a = [] := by
      rcases ho with ho | ⟨ho, -⟩
      · exact ho
      · cases ho
    subst ha
    rw [List.nil_append] at hb
    have hpin : State.pin { s with sh := apply s.sh w, pb := [] ++ b } = s.pin := by
      unfold State.pin
      dsimp only
      rw [hb, List.nil_append, all_cons]
    have hcout : State.cout { s with sh := apply s.sh w, pb := [] ++ b } = s.cout := by
      unfold State.cout
      dsimp only
      rw [apply_out]
    have hin : s.sh.inn ≤ (apply s.sh w).inn := h.inns [] [w] (by rw [hb]; exact ⟨b, rfl⟩)
    refine ⟨?_, ?_, ?_, ?_, ?_, ?_, ?_, ?_, ?_, ?_, ?_⟩
    · dsimp only; rw [apply_size, hsz]
    · dsimp only; rw [apply_len, h.len]
    · dsimp only; rw [apply_out]; exact h.outs
    · rw [hcout]; dsimp only; omega
    · rw [hpin]; dsimp only; rw [apply_out]; exact hroom
    · intro x y hxy
      have := h.inns (w :: x) y (by rw [hb]; exact (List.prefix_cons_inj w).2 hxy)
      exact this
    · rw [hpin]; exact h.prod
    · rw [hcout]; exact h.cons
    · intro x hx k hk1 hk2
      rw [hcout] at hk1
      exact h.cells (w :: x) (by rw [hb]; exact (List.prefix_cons_inj w).2 hx) k hk1 hk2
    · have hpo := h.p
      change POk N _ s.p
      cases hpp : s.p with
      | bulkCopy es j =>
        rw [hpp] at hpo
        obtain ⟨h1, h2, h3⟩ := hpo
        refine ⟨h1, ?_, ?_⟩
        · change State.pin { s with sh := apply s.sh w, pb := [] ++ b } + es.length ≤ (apply s.sh w).out + N
          rw [hpin, apply_out]; exact h2
        · intro i hi
          change (applyAll (apply s.sh w) ([] ++ b)).data[(State.pin { s with sh := apply s.sh w, pb := [] ++ b } + i) % N]? = _
          rw [hpin, ← h3 i hi, hb]
          rfl
      | _ => trivial
    · have hco := h.c
      change COk _ s.c
      cases hcc : s.c with
      | bulkCopy m buf =>
        rw [hcc] at hco
        obtain ⟨h1, h2, h3⟩ := hco
        refine ⟨h1, ?_, ?_⟩
        · change State.cout { s with sh := apply s.sh w, pb := [] ++ b } + m ≤ (apply s.sh w).inn
          rw [hcout]; omega
        · change _ = (s.produced.drop (State.cout { s with sh := apply s.sh w, pb := [] ++ b })).take _
          rw [hcout]; exact h3
      | _ => trivial
  | arriveC n b hb =>
    have ho := h.outs
    rw [hb] at ho
    have hn : s.sh.out ≤ n := (List.pairwise_cons.1 ho).1 n List.mem_cons_self
    have hpin : State.pin { s with sh := { s.sh with out := n }, cb := b } = s.pin := by
      unfold State.pin
      dsimp only
      rw [all_out]
    have hcout : State.cout { s with sh := { s.sh with out := n }, cb := b } = s.cout := by
      unfold State.cout
      dsimp only
      rw [hb]
      cases b with
      | nil => rfl
      | cons x b => rw [List.getLast?_cons_cons, List.getLast?_cons]; rfl
    refine ⟨h.size, h.len, (List.pairwise_cons.1 ho).2, ?_, ?_, ?_, ?_, ?_, ?_, ?_, ?_⟩
    · rw [hcout]; exact hseen
    · rw [hpin]; dsimp only; omega
    · intro x y hxy
      have e := fun z => congrArg Shared.inn (all_out s.sh n z)
      exact (e x).trans_le ((h.inns x y hxy).trans_eq (e (x ++ y)).symm)
    · rw [hpin]; exact h.prod
    · rw [hcout]; exact h.cons
    · intro x hx k hk1 hk2
      rw [hcout] at hk1
      dsimp only at hk2 ⊢
      rw [all_out] at hk2 ⊢
      exact h.cells x hx k hk1 hk2
    · have hpo := h.p
      change POk N _ s.p
      cases hpp : s.p with
      | bulkCopy es j =>
        rw [hpp] at hpo
        obtain ⟨h1, h2, h3⟩ := hpo
        refine ⟨h1, ?_, ?_⟩
        · change State.pin { s with sh := { s.sh with out := n }, cb := b } + es.length ≤ n + N
          rw [hpin]; omega
        · intro i hi
          change (applyAll { s.sh with out := n } s.pb).data[(State.pin { s with sh := { s.sh with out := n }, cb := b } + i) % N]? = _
          rw [hpin, all_out]
          exact h3 i hi
      | _ => trivial
    · have hco := h.c
      change COk _ s.c
      cases hcc : s.c with
      | bulkCopy m buf =>
        rw [hcc] at hco
        obtain ⟨h1, h2, h3⟩ := hco
        refine ⟨h1, ?_, ?_⟩
        · change State.cout { s with sh := { s.sh with out := n }, cb := b } + m ≤ s.sh.inn
          rw [hcout]; exact h2
        · change _ = (s.produced.drop (State.cout { s with sh := { s.sh with out := n }, cb := b })).take _
          rw [hcout]; exact h3
      | _ => trivial

theorem reach_inv {N : Nat} (hN : 0 < N) {zero : T} {s : State T} (h : Reach true zero N s) : Inv N s := by
  induction h with
  | init => exact inv_init zero N
  | step _ hs ih => exact step_inv hN ih hs

/-- With store buffers that keep the order (x86), one goroutine with `MPush` and one with `MPop`/`MPopCopy`, under every interleaving
of their loads and stores and of the arrival of stores, for any size, number of calls and batches: what the consumer has obtained is
a beginning of what the producer has stored, in order and without gaps, and no more than the size of the ring is in between. -/
theorem C151_tso {N : Nat} (hN : 0 < N) {zero : T} {s : State T} (h : Reach true zero N s) :
    s.consumed <+: s.produced ∧ s.consumed.length ≤ s.produced.length ∧ s.produced.length ≤ s.consumed.length + N := by
  have i := reach_inv hN h
  have h1 := i.in_le
  have h2 := i.out_le
  have h3 := i.seen
  have h4 := i.room
  have h5 := i.prod
  have h6 : s.consumed.length = s.cout := by rw [i.cons, List.length_take]; omega
  refine ⟨?_, by omega, by omega⟩
  rw [i.cons]
  exact List.take_prefix _ _

/-- Nothing gets lost either: once the stores have arrived, the ring holds what was produced and not consumed, in order, and both
sides agree on the counters. -/
theorem C151_unread {N : Nat} (hN : 0 < N) {zero : T} {s : State T} (h : Reach true zero N s) (hp : s.pb = []) (hc : s.cb = []) :
    s.sh.inn = s.produced.length ∧ s.sh.out = s.consumed.length ∧
      ∀ k, k < s.sh.inn - s.sh.out → s.sh.data[(s.sh.out + k) % N]? = (s.produced.drop s.consumed.length)[k]? := by
  have i := reach_inv hN h
  have h1 := i.in_le
  have h3 := i.seen
  have h5 := i.prod
  have hpin : s.pin = s.sh.inn := by unfold State.pin; rw [hp]; rfl
  have hcout : s.cout = s.sh.out := by unfold State.cout; rw [hc]; rfl
  have h6 : s.consumed.length = s.cout := by rw [i.cons, List.length_take]; omega
  refine ⟨by omega, by omega, ?_⟩
  intro k hk
  rw [List.getElem?_drop, h6, hcout]
  exact i.cells [] List.nil_prefix _ (by omega) (by change _ < s.sh.inn; omega)

/-- Also while they are under way: what is missing in the memory is in the producer's buffer. -/
theorem C151_pending {N : Nat} (hN : 0 < N) {zero : T} {s : State T} (h : Reach true zero N s) (k : Nat)
    (h1 : s.consumed.length ≤ k) (h2 : k < s.produced.length) :
    (applyAll s.sh s.pb).data[k % N]? = s.produced[k]? := by
  have i := reach_inv hN h
  have h5 := i.prod
  have h7 := i.in_le
  have h8 := i.seen
  have h6 : s.consumed.length = s.cout := by rw [i.cons, List.length_take]; omega
  exact i.cells s.pb (List.prefix_refl _) k (by omega) (by change _ < s.pin; omega)

/-- Where stores to different places may overtake each other, the consumer gets an element that nobody has pushed: the counter
arrives before the cell. -/
theorem C151_overtake_refuted : ∃ s : State Nat, Reach false 0 1 s ∧ s.produced = [7] ∧ s.consumed = [0] := by
  refine ⟨_, ((((((Reach.init.step
    (.mpushFits _ [7] rfl (by decide))).step
    (.mpushCell _ [7] 0 7 rfl rfl)).step
    (.mpushDone _ [7] rfl)).step
    (.arriveP _ [.cell 0 7] (.inn 1) [] rfl (Or.inr ⟨rfl, rfl⟩))).step
    (.mpopFits _ 1 rfl (by decide))).step
    (.mpopCell _ 1 [] 0 rfl (by decide) (by decide))).step
    (.mpopDone _ 1 [0] rfl rfl), rfl, rfl⟩

/-- With order kept: a batch of two goes through a ring of two, while the counter is still on its way to the producer. -/
example : ∃ s : State Nat, Reach true 0 2 s ∧ s.produced = [7, 8] ∧ s.consumed = [7, 8] ∧ s.sh.out = 0 ∧ s.cb = [2] := by
  refine ⟨_, ((((((((((Reach.init.step
    (.mpushFits _ [7, 8] rfl (by decide))).step
    (.mpushCell _ [7, 8] 0 7 rfl rfl)).step
    (.mpushCell _ [7, 8] 1 8 rfl rfl)).step
    (.mpushDone _ [7, 8] rfl)).step
    (.arriveP _ [] (.cell 0 7) [.cell 1 8, .inn 2] rfl (Or.inl rfl))).step
    (.arriveP _ [] (.cell 1 8) [.inn 2] rfl (Or.inl rfl))).step
    (.arriveP _ [] (.inn 2) [] rfl (Or.inl rfl))).step
    (.mpopFits _ 2 rfl (by decide))).step
    (.mpopCell _ 2 [] 7 rfl (by decide) (by decide))).step
    (.mpopCell _ 2 [7] 8 rfl (by decide) (by decide))).step
    (.mpopDone _ 2 [7, 8] rfl rfl), rfl, rfl, rfl, rfl⟩

end Verif.RingTSO
