import Verif.Props.RingTSO

/-!
# C151, where stores to different places may overtake each other

The elements may be wrong then (`C151_overtake_refuted`), but not their number: the counters still agree, and once the stores have arrived all
unread cells are right.
-/

namespace Verif.RingTSO

open Verif.RingSPSC

variable {T : Type}

/-- The counters on their way. -/
def inns : List (PWrite T) → List Nat
  | [] => []
  | .cell _ _ :: b => inns b
  | .inn n :: b => n :: inns b

theorem inns_append (a b : List (PWrite T)) : inns (a ++ b) = inns a ++ inns b := by
  induction a with
  | nil => rfl
  | cons w a ih => cases w <;> simp [inns, ih]

theorem all_inn (m : Shared T) (b : List (PWrite T)) : (applyAll m b).inn = ((inns b).getLast?).getD m.inn := by
  induction b generalizing m with
  | nil => rfl
  | cons w b ih =>
    rw [all_cons, ih]
    cases w with
    | cell i v => rfl
    | inn n =>
      simp only [inns, apply]
      cases h : inns b with
      | nil => rfl
      | cons x l =>
        rw [List.getLast?_cons_cons]
        cases h' : (x :: l).getLast? with
        | none => simp at h'
        | some y => rfl

/-- Stores to different places can be exchanged. -/
theorem apply_comm (m : Shared T) {u w : PWrite T} (h : same u w = false) : apply (apply m u) w = apply (apply m w) u := by
  cases u with
  | cell i v =>
    cases w with
    | cell j v' =>
      have hij : i ≠ j := by simpa [same] using h
      simp only [apply]
      rw [List.set_comm _ _ hij]
    | inn n => rfl
  | inn k =>
    cases w with
    | cell j v' => rfl
    | inn n => cases h

/-- A store that overtakes only stores to other places: in the end the memory is the same. -/
theorem all_overtake (m : Shared T) (a : List (PWrite T)) (w : PWrite T) (b : List (PWrite T))
    (h : a.all (fun u => !same u w) = true) : applyAll (apply m w) (a ++ b) = applyAll m (a ++ w :: b) := by
  induction a generalizing m with
  | nil => rfl
  | cons u a ih =>
    rw [List.all_cons, Bool.and_eq_true] at h
    rw [List.cons_append, List.cons_append, all_cons, all_cons, ← ih _ h.2, ← apply_comm m (by simpa using h.1)]

/-- A counter overtakes no counter. -/
theorem inns_overtake {a : List (PWrite T)} {n : Nat} (h : a.all (fun u => !same u (.inn n)) = true) : inns a = [] := by
  induction a with
  | nil => rfl
  | cons u a ih =>
    rw [List.all_cons, Bool.and_eq_true] at h
    cases u with
    | cell i v => exact ih h.2
    | inn k => simp [same] at h

/-- The invariant, whether or not the order is kept. -/
structure Agree (N : Nat) (s : State T) : Prop where
  size : s.sh.size = N
  len : s.sh.data.length = N
  ins : List.Pairwise (· ≤ ·) (s.sh.inn :: inns s.pb)
  outs : List.Pairwise (· ≤ ·) (s.sh.out :: s.cb)
  seen : s.cout ≤ s.sh.inn
  room : s.pin ≤ s.sh.out + N
  prod : s.produced.length = s.pin
  cons : s.consumed.length = s.cout
  cells : ∀ k, s.cout ≤ k → k < s.pin → (applyAll s.sh s.pb).data[k % N]? = s.produced[k]?
  p : POk N s s.p
  c : ∀ m buf, s.c = .bulkCopy m buf → buf.length ≤ m ∧ s.cout + m ≤ s.sh.inn

theorem Agree.in_le {N : Nat} {s : State T} (h : Agree N s) : s.sh.inn ≤ s.pin := by
  unfold State.pin
  rw [all_inn]
  have := h.ins
  cases hl : (inns s.pb).getLast? with
  | none => exact Nat.le_refl _
  | some n => exact (List.pairwise_cons.1 this).1 n (List.mem_of_getLast? hl)

theorem Agree.out_le {N : Nat} {s : State T} (h : Agree N s) : s.sh.out ≤ s.cout := by
  unfold State.cout
  have := h.outs
  cases hl : s.cb.getLast? with
  | none => exact Nat.le_refl _
  | some n => exact (List.pairwise_cons.1 this).1 n (List.mem_of_getLast? hl)

theorem agree_init (zero : T) (N : Nat) : Agree N (init zero N) := by
  constructor <;> simp [init, POk, State.cout, State.pin, applyAll, inns]

theorem pairwise_snoc {l : List Nat} {x : Nat} (h : l.Pairwise (· ≤ ·)) (hx : ∀ y ∈ l, y ≤ x) : (l ++ [x]).Pairwise (· ≤ ·) :=
  List.pairwise_append.2 ⟨h, List.pairwise_singleton _ _, fun a ha b hb => by rw [List.mem_singleton.1 hb]; exact hx a ha⟩

theorem mem_le_last {l : List Nat} {d : Nat} (h : (d :: l).Pairwise (· ≤ ·)) : ∀ y ∈ d :: l, y ≤ l.getLast?.getD d := by
  induction l generalizing d with
  | nil => intro y hy; rw [List.mem_singleton.1 hy]; exact Nat.le_refl _
  | cons x l ih =>
    have hx := (List.pairwise_cons.1 h)
    have e : (x :: l).getLast?.getD d = l.getLast?.getD x := by
      cases l with
      | nil => rfl
      | cons z l =>
        rw [List.getLast?_cons_cons]
        cases h' : (z :: l).getLast? with
        | none => simp at h'
        | some y => rfl
    intro y hy
    rw [e]
    rcases List.mem_cons.1 hy with rfl | hy
    · exact Nat.le_trans (hx.1 x (List.mem_cons_self ..)) (ih hx.2 x (List.mem_cons_self ..))
    · exact ih hx.2 y hy

theorem step_agree {N : Nat} (hN : 0 < N) {fifo : Bool} {s s' : State T} (h : Agree N s) (hs : Step fifo s s') :
    Agree N s' ∧ s.sh.inn ≤ s'.sh.inn ∧ s.sh.out ≤ s'.sh.out := by
  have hin := h.in_le
  have hout := h.out_le
  have hseen := h.seen
  have hroom := h.room
  have hsz := h.size
  cases hs with
  | mpushFits es hp hf =>
    refine ⟨⟨h.size, h.len, h.ins, h.outs, h.seen, h.room, h.prod, h.cons, h.cells, ?_, h.c⟩, Nat.le_refl _, Nat.le_refl _⟩
    dsimp only
    split
    · trivial
    · refine ⟨Nat.zero_le _, ?_, fun i hi => absurd hi (Nat.not_lt_zero _)⟩
      change s.pin + es.length ≤ s.sh.out + N
      omega
  | mpushTooLarge es hp hf =>
    exact ⟨⟨h.size, h.len, h.ins, h.outs, h.seen, h.room, h.prod, h.cons, h.cells, trivial, h.c⟩, Nat.le_refl _, Nat.le_refl _⟩
  | mpushCut es hp hf =>
    refine ⟨⟨h.size, h.len, h.ins, h.outs, h.seen, h.room, h.prod, h.cons, h.cells, ?_, h.c⟩, Nat.le_refl _, Nat.le_refl _⟩
    dsimp only
    split
    · trivial
    · refine ⟨Nat.zero_le _, ?_, fun i hi => absurd hi (Nat.not_lt_zero _)⟩
      change s.pin + (es.take (s.sh.size - (s.pin - s.sh.out))).length ≤ s.sh.out + N
      rw [List.length_take]
      omega
  | mpushPanic es hp hf =>
    exact ⟨⟨h.size, h.len, h.ins, h.outs, h.seen, h.room, h.prod, h.cons, h.cells, trivial, h.c⟩, Nat.le_refl _, Nat.le_refl _⟩
  | mpushCell es j e hp he =>
    have hP := h.p
    rw [hp] at hP
    obtain ⟨hj, hr, hd⟩ := hP
    have hjl : j < es.length := (List.getElem?_eq_some_iff.1 he).1
    have hix : (s.pin % s.sh.size + j) % s.sh.size = (s.pin + j) % N := by rw [hsz, Nat.mod_add_mod]
    have hpin : State.pin { s with p := PPc.bulkCopy es (j + 1), pb := s.pb ++ [.cell ((s.pin % s.sh.size + j) % s.sh.size) e] } = s.pin := by
      unfold State.pin
      rw [all_append]
      rfl
    have hlen : (applyAll s.sh s.pb).data.length = N := by rw [all_len]; exact h.len
    have hdata : (applyAll s.sh (s.pb ++ [.cell ((s.pin % s.sh.size + j) % s.sh.size) e])).data =
        (applyAll s.sh s.pb).data.set ((s.pin + j) % N) e := by
      rw [all_append, hix]
      rfl
    refine ⟨⟨h.size, h.len, ?_, h.outs, h.seen, by rw [hpin]; exact h.room, by rw [hpin]; exact h.prod, h.cons, ?_, ?_, h.c⟩,
      Nat.le_refl _, Nat.le_refl _⟩
    · dsimp only
      rw [inns_append]
      simpa [inns] using h.ins
    · intro k h1 h2
      rw [hpin] at h2
      dsimp only
      rw [hdata, List.getElem?_set_ne, h.cells k h1 h2]
      have h1' : s.cout ≤ k := h1
      intro heq
      have ha := Nat.div_add_mod (s.pin + j) N
      have hb := Nat.div_add_mod k N
      rw [heq] at ha
      have hlt : (s.pin + j) < k + N := by omega
      have hgt : k < s.pin + j := by omega
      have h3 : N * (k / N) < N * ((s.pin + j) / N) := by omega
      have h4 : k / N + 1 ≤ (s.pin + j) / N := Nat.lt_of_mul_lt_mul_left h3
      have h5 : N * (k / N + 1) ≤ N * ((s.pin + j) / N) := Nat.mul_le_mul_left _ h4
      rw [Nat.mul_add, Nat.mul_one] at h5
      omega
    · refine ⟨hjl, by rw [hpin]; exact hr, ?_⟩
      intro i hi
      rw [hpin]
      dsimp only
      rw [hdata]
      by_cases hij : i = j
      · subst hij
        rw [List.getElem?_set_self (by rw [hlen]; exact Nat.mod_lt _ hN), he]
      · rw [List.getElem?_set_ne, hd i (by omega)]
        intro heq
        have ha := Nat.div_add_mod (s.pin + j) N
        have hb := Nat.div_add_mod (s.pin + i) N
        rw [heq] at ha
        have h3 : N * ((s.pin + i) / N) < N * ((s.pin + j) / N) := by omega
        have h4 : (s.pin + i) / N + 1 ≤ (s.pin + j) / N := Nat.lt_of_mul_lt_mul_left h3
        have h5 : N * ((s.pin + i) / N + 1) ≤ N * ((s.pin + j) / N) := Nat.mul_le_mul_left _ h4
        rw [Nat.mul_add, Nat.mul_one] at h5
        omega
  | mpushDone es hp =>
    have hP := h.p
    rw [hp] at hP
    obtain ⟨_, hr, hd⟩ := hP
    have hpin : State.pin { s with p := PPc.idle, pb := s.pb ++ [.inn (s.pin + es.length)], produced := s.produced ++ es } = s.pin + es.length := by
      unfold State.pin
      rw [all_append]
      rfl
    refine ⟨⟨h.size, h.len, ?_, h.outs, h.seen, by rw [hpin]; exact hr, by rw [hpin, ← h.prod]; exact List.length_append, h.cons, ?_, trivial, h.c⟩,
      Nat.le_refl _, Nat.le_refl _⟩
    · dsimp only
      rw [inns_append, ← List.cons_append]
      refine pairwise_snoc h.ins fun y hy => ?_
      have h1 := mem_le_last h.ins y hy
      rw [← all_inn] at h1
      change y ≤ s.pin at h1
      omega
    · intro k h1 h2
      rw [hpin] at h2
      have hdata : (applyAll s.sh (s.pb ++ [.inn (s.pin + es.length)])).data = (applyAll s.sh s.pb).data := by
        rw [all_append]
        rfl
      dsimp only
      rw [hdata]
      by_cases hk : k < s.pin
      · rw [h.cells k h1 hk, List.getElem?_append_left (by rw [h.prod]; exact hk)]
      · rw [List.getElem?_append_right (by rw [h.prod]; omega), h.prod, ← hd (k - s.pin) (by omega)]
        congr 2
        omega
  | mpopFits m hc hf =>
    refine ⟨⟨h.size, h.len, h.ins, h.outs, h.seen, h.room, h.prod, h.cons, h.cells, h.p, ?_⟩, Nat.le_refl _, Nat.le_refl _⟩
    intro m' buf e
    dsimp only at e
    split at e
    · cases e
    · cases e
      refine ⟨Nat.zero_le _, ?_⟩
      change s.cout + m ≤ s.sh.inn
      omega
  | mpopTooMany m hc hf =>
    exact ⟨⟨h.size, h.len, h.ins, h.outs, h.seen, h.room, h.prod, h.cons, h.cells, h.p, fun _ _ e => by cases e⟩, Nat.le_refl _, Nat.le_refl _⟩
  | mpopCut hc =>
    refine ⟨⟨h.size, h.len, h.ins, h.outs, h.seen, h.room, h.prod, h.cons, h.cells, h.p, ?_⟩, Nat.le_refl _, Nat.le_refl _⟩
    intro m' buf e
    dsimp only at e
    split at e
    · cases e
    · cases e
      refine ⟨Nat.zero_le _, ?_⟩
      change s.cout + (s.sh.inn - s.cout) ≤ s.sh.inn
      omega
  | mpopCell m buf v hc hb hv =>
    refine ⟨⟨h.size, h.len, h.ins, h.outs, h.seen, h.room, h.prod, h.cons, h.cells, h.p, ?_⟩, Nat.le_refl _, Nat.le_refl _⟩
    intro m' buf' e
    cases e
    refine ⟨by rw [List.length_append]; exact hb, (h.c _ _ hc).2⟩
  | mpopDone m buf hc hb =>
    have hC := h.c _ _ hc
    have hcout : State.cout { s with c := CPc.idle, cb := s.cb ++ [s.cout + m], consumed := s.consumed ++ buf } = s.cout + m := by
      unfold State.cout
      simp
    refine ⟨⟨h.size, h.len, h.ins, ?_, by rw [hcout]; exact hC.2, h.room, h.prod, ?_, ?_, h.p, fun _ _ e => by cases e⟩,
      Nat.le_refl _, Nat.le_refl _⟩
    · dsimp only
      rw [← List.cons_append]
      refine pairwise_snoc h.outs fun y hy => ?_
      have h1 := mem_le_last h.outs y hy
      change y ≤ s.cout at h1
      omega
    · rw [hcout, ← h.cons, ← hb]
      exact List.length_append
    · intro k h1 h2
      rw [hcout] at h1
      exact h.cells k (by omega) h2
  | arriveP a w b hb ho =>
    have hall : applyAll (apply s.sh w) (a ++ b) = applyAll s.sh s.pb := by
      rw [hb]
      rcases ho with rfl | ⟨_, ho⟩
      · rfl
      · exact all_overtake _ _ _ _ ho
    have hpin : State.pin { s with sh := apply s.sh w, pb := a ++ b } = s.pin := congrArg Shared.inn hall
    have hpw : List.Pairwise (· ≤ ·) ((apply s.sh w).inn :: inns (a ++ b)) ∧ s.sh.inn ≤ (apply s.sh w).inn := by
      have hi := h.ins
      rw [hb, inns_append] at hi
      cases w with
      | cell i v =>
        refine ⟨?_, Nat.le_refl _⟩
        rw [inns_append]
        exact hi
      | inn n =>
        have ha : inns a = [] := by
          rcases ho with rfl | ⟨_, ho⟩
          · rfl
          · exact inns_overtake ho
        rw [inns_append, ha]
        rw [ha] at hi
        refine ⟨(List.pairwise_cons.1 hi).2, (List.pairwise_cons.1 hi).1 n (List.mem_cons_self ..)⟩
    have ho' : (apply s.sh w).out = s.sh.out := apply_out _ _
    refine ⟨⟨by dsimp only; rw [apply_size]; exact h.size, by dsimp only; rw [apply_len]; exact h.len, hpw.1, by dsimp only; rw [ho']; exact h.outs, ?_, ?_,
      by rw [hpin]; exact h.prod, ?_, ?_, ?_, ?_⟩, hpw.2, Nat.le_of_eq ho'.symm⟩
    · have hco : State.cout { s with sh := apply s.sh w, pb := a ++ b } = s.cout := by
        unfold State.cout
        dsimp only
        rw [ho']
      rw [hco]
      exact Nat.le_trans h.seen hpw.2
    · rw [hpin]
      dsimp only
      rw [ho']
      exact h.room
    · unfold State.cout
      dsimp only
      rw [ho']
      exact h.cons
    · intro k h1 h2
      rw [hpin] at h2
      dsimp only
      rw [hall]
      refine h.cells k ?_ h2
      unfold State.cout at h1
      dsimp only at h1
      rw [ho'] at h1
      exact h1
    · have hP := h.p
      dsimp only
      cases hp : s.p with
      | bulkCopy es j =>
        rw [hp] at hP
        obtain ⟨h1, h2, h3⟩ := hP
        refine ⟨h1, ?_, ?_⟩
        · change (applyAll (apply s.sh w) (a ++ b)).inn + es.length ≤ (apply s.sh w).out + N
          rw [hall, ho']
          exact h2
        · intro i hi
          change (applyAll (apply s.sh w) (a ++ b)).data[((applyAll (apply s.sh w) (a ++ b)).inn + i) % N]? = es[i]?
          rw [hall]
          exact h3 i hi
      | _ => trivial
    · intro m buf e
      have := h.c m buf e
      refine ⟨this.1, ?_⟩
      unfold State.cout
      dsimp only
      rw [ho']
      exact Nat.le_trans this.2 hpw.2
  | arriveC n b hb =>
    have hc := h.outs
    rw [hb] at hc
    have hle : s.sh.out ≤ n := (List.pairwise_cons.1 hc).1 n (List.mem_cons_self ..)
    have hco : State.cout { s with sh := { s.sh with out := n }, cb := b } = s.cout := by
      unfold State.cout
      rw [hb]
      dsimp only
      cases b with
      | nil => rfl
      | cons x b =>
        rw [List.getLast?_cons_cons]
        cases h' : (x :: b).getLast? with
        | none => simp at h'
        | some y => rfl
    have hpin : State.pin { s with sh := { s.sh with out := n }, cb := b } = s.pin := by
      unfold State.pin
      rw [all_out]
    refine ⟨⟨h.size, h.len, h.ins, (List.pairwise_cons.1 hc).2, by rw [hco]; exact h.seen, ?_, by rw [hpin]; exact h.prod, by rw [hco]; exact h.cons, ?_, ?_, ?_⟩,
      Nat.le_refl _, hle⟩
    · rw [hpin]
      dsimp only
      omega
    · intro k h1 h2
      rw [hpin] at h2
      rw [hco] at h1
      rw [all_out]
      exact h.cells k h1 h2
    · have hP := h.p
      dsimp only
      cases hp : s.p with
      | bulkCopy es j =>
        rw [hp] at hP
        obtain ⟨h1, h2, h3⟩ := hP
        refine ⟨h1, ?_, ?_⟩
        · change (applyAll { s.sh with out := n } s.pb).inn + es.length ≤ n + N
          rw [all_out]
          change s.pin + es.length ≤ n + N
          omega
        · intro i hi
          change (applyAll { s.sh with out := n } s.pb).data[((applyAll { s.sh with out := n } s.pb).inn + i) % N]? = es[i]?
          rw [all_out]
          exact h3 i hi
      | _ => trivial
    · intro m buf e
      rw [hco]
      exact h.c m buf e

theorem reach_agree {N : Nat} (hN : 0 < N) {fifo : Bool} {zero : T} {s : State T} (h : Reach fifo zero N s) : Agree N s := by
  induction h with
  | init => exact agree_init zero N
  | step _ hs ih => exact (step_agree hN ih hs).1

/-- **C151 (the counts, any order).** Even where stores to different places overtake each other: the consumer never obtains more elements than
the producer has stored, nor is the ring ever overfull; only which elements it obtains is not sure. -/
theorem C151_counts {N : Nat} (hN : 0 < N) {fifo : Bool} {zero : T} {s : State T} (h : Reach fifo zero N s) :
    s.consumed.length ≤ s.produced.length ∧ s.produced.length ≤ s.consumed.length + N := by
  have i := reach_agree hN h
  have h1 := i.in_le
  have h2 := i.out_le
  have h3 := i.seen
  have h4 := i.room
  have h5 := i.prod
  have h6 := i.cons
  omega

/-- **C151 (the counters, any order).** In memory both counters only go up. -/
theorem C151_counters {N : Nat} (hN : 0 < N) {fifo : Bool} {zero : T} {s s' : State T} (h : Reach fifo zero N s) (hs : Step fifo s s') :
    s.sh.inn ≤ s'.sh.inn ∧ s.sh.out ≤ s'.sh.out := (step_agree hN (reach_agree hN h) hs).2

/-- **C151 (at rest, any order).** When all stores have arrived, the counters are the numbers of elements stored and obtained, and the unread
cells hold what was produced. -/
theorem C151_settled {N : Nat} (hN : 0 < N) {fifo : Bool} {zero : T} {s : State T} (h : Reach fifo zero N s) (hp : s.pb = []) (hc : s.cb = []) :
    s.sh.inn = s.produced.length ∧ s.sh.out = s.consumed.length ∧
      ∀ k, s.consumed.length ≤ k → k < s.produced.length → s.sh.data[k % N]? = s.produced[k]? := by
  have i := reach_agree hN h
  have h5 := i.prod
  have h6 := i.cons
  have hpin : s.pin = s.sh.inn := by unfold State.pin; rw [hp]; rfl
  have hcout : s.cout = s.sh.out := by unfold State.cout; rw [hc]; rfl
  refine ⟨by omega, by omega, fun k h1 h2 => ?_⟩
  have := i.cells k (by omega) (by omega)
  rwa [hp] at this

/-- The run of `C151_overtake_refuted` meets all three: a wrong element, but one for one. -/
example : ∃ s : State Nat, Reach false 0 1 s ∧ s.produced = [7] ∧ s.consumed = [0] ∧ s.sh.inn = 1 := by
  refine ⟨_, ((((((Reach.init.step
    (.mpushFits _ [7] rfl (by decide))).step
    (.mpushCell _ [7] 0 7 rfl rfl)).step
    (.mpushDone _ [7] rfl)).step
    (.arriveP _ [.cell 0 7] (.inn 1) [] rfl (Or.inr ⟨rfl, rfl⟩))).step
    (.mpopFits _ 1 rfl (by decide))).step
    (.mpopCell _ 1 [] 0 rfl (by decide) (by decide))).step
    (.mpopDone _ 1 [0] rfl rfl), rfl, rfl, rfl⟩

end Verif.RingTSO
