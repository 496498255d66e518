import Verif.Model.RandConc
import Verif.Props.Rand

/-! # `RandStr` called by several goroutines: C185 -/

namespace Verif.RandConc

open Misc Rand

variable {cooked : Nat → BitVec 64}

/-! ## One number -/

theorem accept_lt {n v w : Nat} (hn : 0 < n) (h : accept n v = some w) : w < n := by
  unfold accept at h
  split at h
  · cases h
    exact Nat.lt_of_le_of_lt Nat.and_le_right (by omega)
  · split at h
    · cases h
    · cases h
      exact Nat.mod_lt _ hn

theorem intn_accept {n v : Nat} {src : Source} (h : accept n (int31 src).2 = some v) : intn 1 src n = .ok ((int31 src).1, v) := by
  unfold accept at h
  unfold intn
  split at h
  · rename_i hn
    cases h
    rw [if_pos hn]
  · rename_i hn
    rw [if_neg hn, int31nLoop]
    dsimp only
    split at h
    · cases h
    · rename_i hv
      cases h
      rw [if_neg hv]

theorem intn_reject {n fuel : Nat} {src : Source} {x : Source × Nat} (h : accept n (int31 src).2 = none) (hx : intn fuel (int31 src).1 n = .ok x) :
    intn (fuel + 1) src n = .ok x := by
  unfold accept at h
  unfold intn at hx ⊢
  split at h
  · cases h
  · rename_i hn
    rw [if_neg hn] at hx ⊢
    rw [int31nLoop]
    dsimp only
    split at h
    · rename_i hv
      rw [if_pos hv]
      exact hx
    · cases h

theorem intn_step {n fuel : Nat} {src s2 : Source} {v : Nat} (h : intn fuel src n = .ok (s2, v)) :
    accept n (int31 src).2 = some v ∧ s2 = (int31 src).1 ∨ accept n (int31 src).2 = none ∧ ∃ f, f < fuel ∧ intn f (int31 src).1 n = .ok (s2, v) := by
  unfold intn at h
  unfold accept
  split at h
  · rename_i hn
    cases h
    rw [if_pos hn]
    exact .inl ⟨rfl, rfl⟩
  · rename_i hn
    rw [if_neg hn]
    cases fuel with
    | zero => cases h
    | succ fuel =>
      rw [int31nLoop] at h
      dsimp only at h
      split at h
      · rename_i hv
        refine .inr ⟨if_pos hv, fuel, Nat.lt_succ_self _, ?_⟩
        unfold intn
        rw [if_neg hn]
        exact h
      · rename_i hv
        cases h
        rw [if_neg hv]
        exact .inl ⟨rfl, rfl⟩

/-! ## Every call -/

theorem kind_row {kind : Int} {j v : Nat} {row : Nat × Nat} (hj : isAll kind = true ∨ j = kind.toNat) (hr : kinds[j]? = some row) (hv : v < row.1) : InKind kind ((row.2 + v) % 256) := by
  have hk : isAll kind = true ∨ isAll kind = false ∧ kind = j := by
    cases h : isAll kind with
    | true => exact .inl rfl
    | false =>
      unfold isAll at h
      simp only [Bool.or_eq_false_iff, decide_eq_false_iff_not] at h
      rcases hj with hj | hj
      · simp [isAll] at hj; omega
      · exact .inr ⟨rfl, by omega⟩
  unfold InKind
  rcases hk with hk | ⟨-, rfl⟩
  · unfold isAll at hk
    simp only [Bool.or_eq_true, decide_eq_true_eq] at hk
    rw [if_neg (by omega), if_neg (by omega), if_neg (by omega)]
    match j, hr with
    | 0, hr => cases hr; dsimp only at hv ⊢; omega
    | 1, hr => cases hr; dsimp only at hv ⊢; omega
    | 2, hr => cases hr; dsimp only at hv ⊢; omega
  · match j, hr with
    | 0, hr => cases hr; rw [if_pos (by decide)]; dsimp only at hv ⊢; omega
    | 1, hr => cases hr; rw [if_neg (by decide), if_pos (by decide)]; dsimp only at hv ⊢; omega
    | 2, hr => cases hr; rw [if_neg (by decide), if_neg (by decide), if_pos (by decide)]; dsimp only at hv ⊢; omega

structure CInv (c : Call) : Prop where
  len : c.result.length = c.size
  le : c.i ≤ c.size
  fresh : c.pc = .seeding → c.i = 0
  kind : isAll c.kind = true ∧ (c.pc = .char → c.ikind < 3) ∨ isAll c.kind = false ∧ c.ikind = c.kind.toNat
  char : c.pc = .char → c.i < c.size
  done : c.pc = .returned → c.i = c.size
  chars : ∀ x ∈ c.result.take c.i, InKind c.kind x

theorem cinv_step {src src' : Source} {c c' : Call} (h : CInv c) (e : callStep src c = some (src', c')) : CInv c' := by
  unfold callStep at e
  split at e
  · cases e
  · rename_i hp
    split at e
    · rename_i hi
      split at e
      · rename_i ha
        split at e
        · rename_i v hv
          cases e
          exact ⟨h.len, h.le, fun x => (by cases x), .inl ⟨ha, fun _ => accept_lt (by decide) hv⟩, fun _ => hi, fun x => (by cases x), h.chars⟩
        · cases e
          exact h
      · rename_i ha
        cases e
        refine ⟨h.len, h.le, fun x => (by cases x), ?_, fun _ => hi, fun x => (by cases x), h.chars⟩
        rcases h.kind with h' | h'
        · exact absurd h'.1 ha
        · exact .inr h'
    · rename_i hi
      cases e
      refine ⟨h.len, h.le, fun x => (by cases x), ?_, fun x => (by cases x), fun _ => by have := h.le; dsimp only; omega, h.chars⟩
      rcases h.kind with h' | h'
      · exact .inl ⟨h'.1, fun x => by cases x⟩
      · exact .inr h'
  · rename_i hp
    split at e
    · cases e
    · rename_i row hr
      split at e
      · rename_i v hv
        split at e
        · rename_i hi
          cases e
          have hrow : 0 < row.1 := by
            match c.ikind, hr with
            | 0, hr => cases hr; decide
            | 1, hr => cases hr; decide
            | 2, hr => cases hr; decide
          have hk := kind_row (kind := c.kind) (h.kind.imp (·.1) (·.2)) hr (accept_lt hrow hv)
          refine ⟨by dsimp only; rw [List.length_set]; exact h.len, by have := h.char hp; dsimp only; omega, fun x => (by cases x), ?_, fun x => (by cases x), fun x => (by cases x), ?_⟩
          · rcases h.kind with h' | h'
            · exact .inl ⟨h'.1, fun x => by cases x⟩
            · exact .inr h'
          · intro x hx
            dsimp only at hx ⊢
            rw [List.take_add_one, List.take_set_of_le (Nat.le_refl _), List.getElem?_set_self hi] at hx
            rcases List.mem_append.1 hx with hx | hx
            · exact h.chars x hx
            · simp only [Option.toList_some, List.mem_singleton] at hx
              rw [hx]; exact hk
        · cases e
      · cases e
        exact h
  · cases e

theorem set_inv {P : Call → Prop} {l : List Call} {k : Nat} {c : Call} (h : ∀ c ∈ l, P c) (hc : P c) : ∀ c' ∈ l.set k c, P c' := fun c' h' =>
  (List.mem_or_eq_of_mem_set h').elim (h c') fun e => e ▸ hc

theorem inv_exec {s s' : State} {a : Act} (h : ∀ c ∈ s.calls, CInv c) (e : exec cooked s a = some s') : ∀ c ∈ s'.calls, CInv c := by
  unfold exec at e
  cases a with
  | call size kind =>
    dsimp only at e
    split at e
    · cases e
    · cases e
      intro c hc
      rcases List.mem_append.1 hc with hc | hc
      · exact h c hc
      · simp only [List.mem_singleton] at hc
        subst hc
        refine ⟨by simp, Nat.zero_le _, fun _ => rfl, ?_, fun x => (by cases x), fun x => (by cases x), fun x hx => by simp at hx⟩
        cases hk : isAll kind with
        | true => exact .inl ⟨rfl, fun x => by cases x⟩
        | false => exact .inr ⟨rfl, rfl⟩
  | seed k now =>
    dsimp only at e
    split at e
    · cases e
    · rename_i c hc
      split at e
      · rename_i hp
        cases e
        have hi := h c (List.mem_of_getElem? hc)
        refine set_inv h ⟨hi.len, hi.le, fun x => (by cases x), ?_, fun x => (by cases x), fun x => (by cases x), hi.chars⟩
        rcases hi.kind with h' | h'
        · exact .inl ⟨h'.1, fun x => by cases x⟩
        · exact .inr h'
      · cases e
  | step k =>
    dsimp only at e
    split at e
    · cases e
    · rename_i c hc
      split at e
      · cases e
      · rename_i src c' hs
        cases e
        exact set_inv h (cinv_step (h c (List.mem_of_getElem? hc)) hs)
  | otherSeed x => cases e; exact h
  | otherDraw => cases e; exact h

theorem inv_execs {as : List Act} {s s' : State} (h : ∀ c ∈ s.calls, CInv c) (e : execs cooked as s = some s') : ∀ c ∈ s'.calls, CInv c := by
  induction as generalizing s with
  | nil => cases e; exact h
  | cons a as ih =>
    unfold execs at e
    cases h1 : exec cooked s a with
    | none => rw [h1] at e; cases e
    | some s1 => rw [h1] at e; exact ih (inv_exec h h1) e

theorem inv_reach {s : State} (h : Reach cooked s) : ∀ c ∈ s.calls, CInv c := by
  obtain ⟨as, e⟩ := h
  exact inv_execs (fun _ h => by cases h) e

/-- **C185 (shape).** Whatever the other goroutines do with the source, a call returns a string of the wanted size and kind. -/
theorem C185_shape {s : State} (h : Reach cooked s) {k : Nat} {c : Call} (hc : s.calls[k]? = some c) (hp : c.pc = .returned) :
    c.result.length = c.size ∧ ∀ x ∈ c.result, InKind c.kind x := by
  have hi := inv_reach h c (List.mem_of_getElem? hc)
  refine ⟨hi.len, fun x hx => hi.chars x ?_⟩
  rw [hi.done hp, ← hi.len, List.take_length]
  exact hx

/-- **C185 (no panic).** A call that has not returned can go on, whatever the others have done. -/
theorem C185_goes_on {s : State} (h : Reach cooked s) {k : Nat} {c : Call} (hc : s.calls[k]? = some c) (hp : c.pc ≠ .returned) :
    (∀ now, ∃ s', exec cooked s (.seed k now) = some s') ∨ ∃ s', exec cooked s (.step k) = some s' := by
  have hi := inv_reach h c (List.mem_of_getElem? hc)
  cases hq : c.pc with
  | seeding => exact .inl fun now => ⟨_, by unfold exec; dsimp only; rw [hc]; dsimp only; rw [if_pos hq]⟩
  | returned => exact absurd hq hp
  | head =>
    right
    have : ∃ x, callStep s.src c = some x := by
      unfold callStep
      rw [hq]
      dsimp only
      split
      · split
        · split <;> exact ⟨_, rfl⟩
        · exact ⟨_, rfl⟩
      · exact ⟨_, rfl⟩
    obtain ⟨x, hx⟩ := this
    exact ⟨_, by unfold exec; dsimp only; rw [hc]; dsimp only; rw [hx]⟩
  | char =>
    right
    have h3 : c.ikind < 3 := by
      rcases hi.kind with ⟨_, h'⟩ | ⟨h1, h2⟩
      · exact h' hq
      · unfold isAll at h1
        simp only [Bool.or_eq_false_iff, decide_eq_false_iff_not] at h1
        omega
    have : ∃ x, callStep s.src c = some x := by
      unfold callStep
      rw [hq]
      dsimp only
      rw [List.getElem?_eq_getElem (show c.ikind < kinds.length from h3)]
      dsimp only
      split
      · rw [if_pos (by rw [hi.len]; exact hi.char hq)]
        exact ⟨_, rfl⟩
      · exact ⟨_, rfl⟩
    obtain ⟨x, hx⟩ := this
    exact ⟨_, by unfold exec; dsimp only; rw [hc]; dsimp only; rw [hx]⟩

/-! ## A call that is not disturbed -/

/-- What a call in the state `c` returns if nobody else touches the source `src` from now on. -/
def Rest (src : Source) (c : Call) (r : Bytes) : Prop :=
  match c.pc with
  | .seeding => False
  | .head => ∃ fuel r', gen fuel (isAll c.kind) (c.size - c.i) c.ikind src = .ok r' ∧ r = c.result.take c.i ++ r'
  | .char => ∃ fuel row s2 v r', c.i < c.size ∧ Go.idx kinds c.ikind = .ok row ∧ intn fuel src row.1 = .ok (s2, v) ∧ gen fuel (isAll c.kind) (c.size - c.i - 1) c.ikind s2 = .ok r' ∧
      r = c.result.take c.i ++ (row.2 + v) % 256 :: r'
  | .returned => r = c.result

theorem idx_of {j : Nat} {row : Nat × Nat} (h : kinds[j]? = some row) : Go.idx kinds j = .ok row := by
  match j, h with
  | 0, h => cases h; rfl
  | 1, h => cases h; rfl
  | 2, h => cases h; rfl

theorem rest_step {src src' : Source} {c c' : Call} {r : Bytes} (h : CInv c) (e : callStep src c = some (src', c')) (hr : Rest src' c' r) : Rest src c r := by
  unfold callStep at e
  split at e
  · cases e
  · rename_i hp
    unfold Rest
    rw [hp]
    dsimp only
    split at e
    · rename_i hi
      split at e
      · rename_i ha
        split at e
        · rename_i v hv
          cases e
          obtain ⟨fuel, row, s2, w, r', h1, h2, h3, h4, h5⟩ := hr
          dsimp only at h1 h2 h3 h4 h5
          refine ⟨fuel + 1, (row.2 + w) % 256 :: r', ?_, h5⟩
          rw [show c.size - c.i = c.size - c.i - 1 + 1 by omega, ha]
          rw [ha] at h4
          refine gen_intro (s1 := (int31 src).1) (k := v) ?_ h2 (intn_mono h3 1) (gen_mono h4 1)
          unfold pick
          rw [if_pos rfl, Nat.add_comm]
          exact intn_mono (intn_accept hv) fuel
        · rename_i hv
          cases e
          unfold Rest at hr
          rw [hp] at hr
          obtain ⟨fuel, r', h1, h2⟩ := hr
          refine ⟨fuel + 1, r', ?_, h2⟩
          rw [show c.size - c.i = c.size - c.i - 1 + 1 by omega, ha] at h1 ⊢
          obtain ⟨s1, k, row, s2, w, r1, g1, g2, g3, g4, rfl⟩ := gen_succ h1
          refine gen_intro (s1 := s1) (k := k) ?_ g2 (intn_mono g3 1) (gen_mono g4 1)
          unfold pick at g1 ⊢
          rw [if_pos rfl] at g1 ⊢
          exact intn_reject hv g1
      · rename_i ha
        cases e
        obtain ⟨fuel, row, s2, w, r', h1, h2, h3, h4, h5⟩ := hr
        dsimp only at h1 h2 h3 h4 h5
        refine ⟨fuel, (row.2 + w) % 256 :: r', ?_, h5⟩
        rw [show c.size - c.i = c.size - c.i - 1 + 1 by omega]
        refine gen_intro (s1 := src) (k := c.ikind) ?_ h2 h3 h4
        unfold pick
        rw [if_neg ha]
    · rename_i hi
      cases e
      refine ⟨0, [], ?_, ?_⟩
      · rw [show c.size - c.i = 0 by omega, gen]
      · have hr : r = c.result := hr
        rw [hr, List.append_nil, List.take_of_length_le (by rw [h.len]; omega)]
  · rename_i hp
    unfold Rest
    rw [hp]
    dsimp only
    have hlt := h.char hp
    split at e
    · cases e
    · rename_i row hrow
      split at e
      · rename_i v hv
        split at e
        · rename_i hi
          cases e
          obtain ⟨fuel, r', h1, h2⟩ := hr
          dsimp only at h1 h2
          refine ⟨fuel + 1, row, (int31 src).1, v, r', hlt, idx_of hrow, ?_, ?_, ?_⟩
          · rw [Nat.add_comm]; exact intn_mono (intn_accept hv) fuel
          · rw [show c.size - c.i - 1 = c.size - (c.i + 1) by omega]; exact gen_mono h1 1
          · rw [h2, List.take_add_one, List.take_set_of_le (Nat.le_refl _), List.getElem?_set_self hi]
            simp
        · cases e
      · rename_i hv
        cases e
        unfold Rest at hr
        rw [hp] at hr
        obtain ⟨fuel, row', s2, w, r', h1, h2, h3, h4, h5⟩ := hr
        rw [idx_of hrow] at h2
        cases h2
        exact ⟨fuel + 1, row, s2, w, r', h1, idx_of hrow, intn_reject hv h3, gen_mono h4 1, h5⟩
  · cases e

/-- The others do nothing with the source. -/
def Quiet (k : Nat) (a : Act) : Prop := a = .step k ∨ ∃ size kind, a = .call size kind

theorem call_get {s s' : State} {size kind : Int} (e : exec cooked s (.call size kind) = some s') {k : Nat} {c : Call} (h : s.calls[k]? = some c) : s'.src = s.src ∧ s'.calls[k]? = some c := by
  unfold exec at e
  dsimp only at e
  split at e
  · cases e
  · cases e
    exact ⟨rfl, by rw [List.getElem?_append_left (List.getElem?_eq_some_iff.1 h).1]; exact h⟩

theorem step_get {s s' : State} {k : Nat} (e : exec cooked s (.step k) = some s') {c : Call} (h : s.calls[k]? = some c) :
    ∃ c', callStep s.src c = some (s'.src, c') ∧ s'.calls = s.calls.set k c' ∧ s'.calls[k]? = some c' := by
  unfold exec at e
  dsimp only at e
  rw [h] at e
  dsimp only at e
  split at e
  · cases e
  · rename_i src c' hs
    cases e
    exact ⟨c', hs, rfl, List.getElem?_set_self (List.getElem?_eq_some_iff.1 h).1⟩

theorem step_kind {src src' : Source} {c c1 : Call} (g1 : callStep src c = some (src', c1)) : c1.size = c.size ∧ c1.kind = c.kind := by
  unfold callStep at g1
  split at g1
  · cases g1
  · split at g1
    · split at g1
      · split at g1 <;> (cases g1; exact ⟨rfl, rfl⟩)
      · cases g1; exact ⟨rfl, rfl⟩
    · cases g1; exact ⟨rfl, rfl⟩
  · split at g1
    · cases g1
    · split at g1
      · split at g1
        · cases g1; exact ⟨rfl, rfl⟩
        · cases g1
      · cases g1; exact ⟨rfl, rfl⟩
  · cases g1

theorem rest_execs {as : List Act} {s s' : State} {k : Nat} {c c' : Call} (hi : ∀ c ∈ s.calls, CInv c) (hc : s.calls[k]? = some c) (hq : ∀ a ∈ as, Quiet k a)
    (e : execs cooked as s = some s') (hc' : s'.calls[k]? = some c') (hp : c'.pc = .returned) : Rest s.src c c'.result ∧ c'.size = c.size ∧ c'.kind = c.kind := by
  induction as generalizing s c with
  | nil =>
    cases e
    rw [hc] at hc'
    cases hc'
    refine ⟨?_, rfl, rfl⟩
    unfold Rest
    rw [hp]
  | cons a as ih =>
    unfold execs at e
    cases h1 : exec cooked s a with
    | none => rw [h1] at e; cases e
    | some s1 =>
      rw [h1] at e
      rcases hq a List.mem_cons_self with rfl | ⟨size, kind, rfl⟩
      · obtain ⟨c1, g1, _, g3⟩ := step_get h1 hc
        obtain ⟨i1, i2, i3⟩ := ih (inv_exec hi h1) g3 (fun a h => hq a (List.mem_cons_of_mem _ h)) e
        have hk := step_kind g1
        exact ⟨rest_step (hi c (List.mem_of_getElem? hc)) g1 i1, i2.trans hk.1, i3.trans hk.2⟩
      · obtain ⟨g1, g2⟩ := call_get h1 hc
        have := ih (inv_exec hi h1) g2 (fun a h => hq a (List.mem_cons_of_mem _ h)) e
        rw [g1] at this
        exact this

/-- **C185 (alone).** If nobody else touches the source between the seeding and the return, the call returns the string of its time, as C170 has it. -/
theorem C185_alone {s0 s1 s2 : State} (h : Reach cooked s0) {k : Nat} {now : Int} {as : List Act} {c : Call} (e1 : exec cooked s0 (.seed k now) = some s1) (hq : ∀ a ∈ as, Quiet k a)
    (e2 : execs cooked as s1 = some s2) (hc : s2.calls[k]? = some c) (hp : c.pc = .returned) : Returns cooked now c.size c.kind c.result := by
  have hi := inv_reach h
  have hi1 := inv_exec hi e1
  unfold exec at e1
  dsimp only at e1
  split at e1
  · cases e1
  · rename_i c0 hc0
    have h0 := hi c0 (List.mem_of_getElem? hc0)
    split at e1
    · rename_i hp0
      cases e1
      obtain ⟨g1, g2, g3⟩ := rest_execs hi1 (List.getElem?_set_self (List.getElem?_eq_some_iff.1 hc0).1) hq e2 hc hp
      obtain ⟨fuel, r', h2, h3⟩ := g1
      dsimp only at h2 h3 g2 g3
      rw [h0.fresh hp0] at h2 h3
      rw [List.take_zero, List.nil_append] at h3
      refine ⟨fuel, ?_⟩
      rw [randStr_eq, g2, g3, h3, ← h2]
      show gen fuel (isAll c0.kind) _ _ _ = gen fuel (isAll c0.kind) _ _ _
      rcases h0.kind with ⟨hk, -⟩ | ⟨-, hk⟩
      · rw [hk, Nat.sub_zero]
        cases c0.size with
        | zero => rfl
        | succ n => rfl
      · rw [hk, Nat.sub_zero]
    · cases e1

/-! ## A call that is disturbed -/

theorem execs_append {as bs : List Act} {s s1 : State} (h : execs cooked as s = some s1) : execs cooked (as ++ bs) s = execs cooked bs s1 := by
  induction as generalizing s with
  | nil => cases h; rfl
  | cons a as ih =>
    rw [List.cons_append, execs]
    rw [execs] at h
    cases h1 : exec cooked s a with
    | none => rw [h1] at h; cases h
    | some s' => rw [h1] at h; exact ih h

theorem exec_step {s : State} {k : Nat} {c c' : Call} {src : Source} (hc : s.calls[k]? = some c) (h : callStep s.src c = some (src, c')) :
    exec cooked s (.step k) = some ⟨src, s.calls.set k c'⟩ := by
  unfold exec
  dsimp only
  rw [hc]
  dsimp only
  rw [h]

/-- The machine draws what `Intn` draws: from `c`, which stays as it is when a number is rejected, to `f v`. -/
theorem run_intn {n : Nat} {c : Call} {f : Nat → Call} (hr : ∀ src, accept n (int31 src).2 = none → callStep src c = some ((int31 src).1, c))
    (ha : ∀ src v, accept n (int31 src).2 = some v → callStep src c = some ((int31 src).1, f v)) {k : Nat} :
    ∀ {fuel : Nat} {s : State} {s2 : Source} {v : Nat}, s.calls[k]? = some c → intn fuel s.src n = .ok (s2, v) →
      ∃ as, execs cooked as s = some ⟨s2, s.calls.set k (f v)⟩ ∧ ∀ a ∈ as, a = .step k := by
  intro fuel
  induction fuel using Nat.strongRecOn with
  | ind fuel ih =>
    intro s s2 v hc h
    rcases intn_step h with ⟨h1, h2⟩ | ⟨h1, g, hg, h2⟩
    · refine ⟨[.step k], ?_, by simp⟩
      unfold execs
      rw [exec_step hc (ha _ _ h1), h2]
      rfl
    · have hs : s.calls.set k c = s.calls := by
        obtain ⟨hk, rfl⟩ := List.getElem?_eq_some_iff.1 hc
        exact List.set_getElem_self hk
      obtain ⟨as, e, e'⟩ := ih g hg (s := ⟨(int31 s.src).1, s.calls⟩) hc h2
      refine ⟨.step k :: as, ?_, by simpa using e'⟩
      unfold execs
      rw [exec_step hc (hr _ h1), hs]
      exact e

theorem run_gen {k fuel : Nat} : ∀ {a : Nat} {s : State} {c : Call} {r : Bytes}, s.calls[k]? = some c → c.pc = .head → c.result.length = c.size → c.i + a ≤ c.size →
    gen fuel (isAll c.kind) a c.ikind s.src = .ok r →
    ∃ as s' c', execs cooked as s = some s' ∧ (∀ a ∈ as, a = .step k) ∧ s'.calls = s.calls.set k c' ∧ c'.size = c.size ∧ c'.kind = c.kind ∧ c'.pc = .head ∧ c'.i = c.i + a ∧
      c'.result.length = c'.size ∧ c'.result.take c'.i = c.result.take c.i ++ r ∧ (isAll c.kind = false → c'.ikind = c.ikind) := by
  intro a
  induction a with
  | zero =>
    intro s c r hc hp hl hle h
    rw [gen] at h
    cases h
    refine ⟨[], s, c, rfl, by simp, ?_, rfl, rfl, hp, rfl, hl, by simp, fun _ => rfl⟩
    obtain ⟨hk, rfl⟩ := List.getElem?_eq_some_iff.1 hc
    exact (List.set_getElem_self hk).symm
  | succ a ih =>
    intro s c r hc hp hl hle h
    obtain ⟨s1, j, row, s2, v, r', g1, g2, g3, g4, rfl⟩ := gen_succ h
    have hk := (List.getElem?_eq_some_iff.1 hc).1
    have hi : c.i < c.size := by omega
    have p1 : ∃ as, execs cooked as s = some ⟨s1, s.calls.set k { c with ikind := j, pc := .char }⟩ ∧ (∀ a ∈ as, a = .step k) ∧ (isAll c.kind = false → j = c.ikind) := by
      unfold pick at g1
      cases ha : isAll c.kind with
      | true =>
        rw [ha, if_pos rfl] at g1
        obtain ⟨as, e1, e2⟩ := run_intn (cooked := cooked) (n := 3) (c := c) (f := fun v => { c with ikind := v, pc := .char })
          (fun src h => by unfold callStep; rw [hp]; dsimp only; rw [if_pos hi, if_pos ha, h])
          (fun src v h => by unfold callStep; rw [hp]; dsimp only; rw [if_pos hi, if_pos ha, h]) hc g1
        exact ⟨as, e1, e2, fun h => by cases h⟩
      | false =>
        rw [ha, if_neg (by decide)] at g1
        cases g1
        refine ⟨[.step k], ?_, by simp, fun _ => rfl⟩
        unfold execs
        rw [exec_step hc (src := s.src) (c' := { c with pc := .char }) (by unfold callStep; rw [hp]; dsimp only; rw [if_pos hi, ha]; rfl)]
        rfl
    obtain ⟨as1, e1, e1', ej⟩ := p1
    have hrow : kinds[j]? = some row := by
      match j, g2 with
      | 0, h => cases h; rfl
      | 1, h => cases h; rfl
      | 2, h => cases h; rfl
    obtain ⟨as2, e2, e2'⟩ := run_intn (cooked := cooked) (n := row.1) (c := { c with ikind := j, pc := .char })
      (f := fun v => { c with ikind := j, i := c.i + 1, result := c.result.set c.i ((row.2 + v) % 256), pc := .head })
      (fun src h => by unfold callStep; dsimp only; rw [hrow]; dsimp only; rw [h])
      (fun src v h => by unfold callStep; dsimp only; rw [hrow]; dsimp only; rw [h]; dsimp only; rw [if_pos (by omega)])
      (k := k) (s := ⟨s1, s.calls.set k { c with ikind := j, pc := .char }⟩) (List.getElem?_set_self hk) g3
    dsimp only at e2
    rw [List.set_set] at e2
    obtain ⟨as3, s', c', e3, e3', f1, f2, f3, f4, f5, f6, f7, f8⟩ := ih (s := ⟨s2, s.calls.set k { c with ikind := j, i := c.i + 1, result := c.result.set c.i ((row.2 + v) % 256), pc := .head }⟩)
      (List.getElem?_set_self hk) rfl (by dsimp only; rw [List.length_set]; exact hl) (by dsimp only; omega) g4
    dsimp only at f1 f2 f3 f5 f7 f8
    rw [List.set_set] at f1
    refine ⟨as1 ++ (as2 ++ as3), s', c', ?_, ?_, f1, f2, f3, f4, by omega, f6, ?_, fun h => (f8 h).trans (ej h)⟩
    · rw [execs_append e1, execs_append e2]
      exact e3
    · intro x hx
      rcases List.mem_append.1 hx with hx | hx
      · exact e1' x hx
      · rcases List.mem_append.1 hx with hx | hx
        · exact e2' x hx
        · exact e3' x hx
    · rw [f7, List.take_add_one, List.take_set_of_le (Nat.le_refl _), List.getElem?_set_self (by omega)]
      simp

/-- **C185 (alone).** And each string of a time is returned so: the hypotheses of `C185_alone` are met whenever `RandStr` returns. -/
theorem C185_alone_exists {now kind : Int} {n : Nat} {w : Bytes} (h : Returns cooked now n kind w) :
    ∃ s0 s1 s2 as c, Reach cooked s0 ∧ exec cooked s0 (.seed 0 now) = some s1 ∧ (∀ a ∈ as, Quiet 0 a) ∧ execs cooked as s1 = some s2 ∧ s2.calls[0]? = some c ∧ c.pc = .returned ∧ c.size = n ∧ c.kind = kind ∧
      c.result = w := by
  obtain ⟨fuel, h⟩ := h
  rw [randStr_eq] at h
  have hn : ¬ ((n : Int) < 0) := by omega
  have e0 : execs cooked [.call n kind] (init cooked) = some ⟨seedSource cooked 1, [⟨n, kind, kind.toNat, 0, List.replicate n 0, .seeding⟩]⟩ := by
    simp [execs, exec, init, hn]
  have e1 : exec cooked ⟨seedSource cooked 1, [⟨n, kind, kind.toNat, 0, List.replicate n 0, .seeding⟩]⟩ (.seed 0 now) =
      some ⟨seedSource cooked now, [⟨n, kind, kind.toNat, 0, List.replicate n 0, .head⟩]⟩ := by
    simp [exec]
  obtain ⟨as, s, c, e2, e2', f1, f2, f3, f4, f5, f6, f7, -⟩ := run_gen (cooked := cooked) (k := 0) (s := ⟨seedSource cooked now, [⟨n, kind, kind.toNat, 0, List.replicate n 0, .head⟩]⟩) rfl rfl (by simp)
    (show 0 + n ≤ n by omega) h
  dsimp only at f1 f2 f3 f5 f7
  have hc : s.calls[0]? = some c := by rw [f1]; rfl
  have hs : callStep s.src c = some (s.src, { c with pc := .returned }) := by
    unfold callStep
    rw [f4]
    dsimp only
    rw [if_neg (by omega)]
  refine ⟨_, _, ⟨s.src, s.calls.set 0 { c with pc := .returned }⟩, as ++ [.step 0], { c with pc := .returned }, ⟨_, e0⟩, e1, ?_, ?_, List.getElem?_set_self (List.getElem?_eq_some_iff.1 hc).1, rfl, f2, f3, ?_⟩
  · intro a ha
    rcases List.mem_append.1 ha with ha | ha
    · exact .inl (e2' a ha)
    · exact .inl (by simpa using ha)
  · rw [execs_append e2]
    unfold execs
    rw [exec_step hc hs]
    rfl
  · dsimp only
    rw [List.take_of_length_le (by omega), List.take_zero, List.nil_append] at f7
    exact f7

/-- Only calls of `RandStr` use the source. -/
def Ours : Act → Prop
  | .call _ _ => True
  | .seed _ _ => True
  | .step _ => True
  | _ => False

theorem mixed (kind : Int) : ∀ (ps : List (Int × Nat × Bytes)), (∀ p ∈ ps, Returns cooked p.1 p.2.1 kind p.2.2) → ∀ {s : State} {c : Call}, s.calls[0]? = some c → c.pc = .head →
    c.kind = kind → c.result.length = c.size → (isAll kind = false → c.ikind = kind.toNat) → c.i + (ps.map (·.2.1)).sum ≤ c.size →
    ∃ as s' c', execs cooked as s = some s' ∧ (∀ a ∈ as, Ours a) ∧ s'.calls[0]? = some c' ∧ c'.size = c.size ∧ c'.kind = kind ∧ c'.pc = .head ∧ c'.i = c.i + (ps.map (·.2.1)).sum ∧
      c'.result.length = c'.size ∧ c'.result.take c'.i = c.result.take c.i ++ ps.flatMap (·.2.2)
  | [], _, s, c, hc, hp, hk, hl, _, _ => ⟨[], s, c, rfl, by simp, hc, rfl, hk, hp, by simp, hl, by simp⟩
  | (now, n, w) :: ps, h, s, c, hc, hp, hk, hl, hik, hle => by
    have h1 := h (now, n, w) List.mem_cons_self
    obtain ⟨fuel, h1⟩ := h1
    dsimp only at h1
    rw [randStr_eq] at h1
    simp only [List.map_cons, List.sum_cons] at hle
    have e1 : execs cooked [.call 0 kind, .seed s.calls.length now] s = some ⟨seedSource cooked now, s.calls ++ [⟨0, kind, kind.toNat, 0, [], .head⟩]⟩ := by
      simp only [execs, exec, Int.lt_irrefl, if_false, Option.bind_some, List.getElem?_append_right (Nat.le_refl s.calls.length), Nat.sub_self, List.getElem?_cons_zero, if_true,
        Int.toNat_zero, List.replicate_zero]
      rw [List.set_append_right _ _ (Nat.le_refl _), Nat.sub_self]
      rfl
    have hg : gen fuel (isAll c.kind) n c.ikind (seedSource cooked now) = .ok w := by
      rw [hk]
      show gen fuel (decide (kind > 2) || decide (kind < 0)) n c.ikind (seedSource cooked now) = .ok w
      rw [← h1]
      cases ha : isAll kind with
      | false => rw [hik ha]
      | true =>
        unfold isAll at ha
        rw [ha]
        cases n with
        | zero => rfl
        | succ n => rfl
    have hc1 : (s.calls ++ [(⟨0, kind, kind.toNat, 0, [], .head⟩ : Call)])[0]? = some c := by
      rw [List.getElem?_append_left (List.getElem?_eq_some_iff.1 hc).1]; exact hc
    obtain ⟨as2, s2, c2, e2, e2', f1, f2, f3, f4, f5, f6, f7, f8⟩ := run_gen (cooked := cooked) (s := ⟨seedSource cooked now, s.calls ++ [⟨0, kind, kind.toNat, 0, [], .head⟩]⟩) hc1 hp hl (by omega) hg
    have hc2 : s2.calls[0]? = some c2 := by rw [f1]; exact List.getElem?_set_self (List.getElem?_eq_some_iff.1 hc1).1
    obtain ⟨as3, s3, c3, e3, e3', g1, g2, g3, g4, g5, g6, g7⟩ := mixed kind ps (fun p hp => h p (List.mem_cons_of_mem _ hp)) hc2 f4 (f3.trans hk) f6
      (fun ha => (f8 (by rw [hk]; exact ha)).trans (hik ha)) (by omega)
    refine ⟨[.call 0 kind, .seed s.calls.length now] ++ (as2 ++ as3), s3, c3, ?_, ?_, g1, g2.trans f2, g3, g4, ?_, g6, ?_⟩
    · rw [execs_append e1, execs_append e2]
      exact e3
    · intro a ha
      rcases List.mem_append.1 ha with ha | ha
      · simp only [List.mem_cons, List.mem_nil_iff, or_false] at ha
        rcases ha with rfl | rfl <;> trivial
      · rcases List.mem_append.1 ha with ha | ha
        · rw [e2' a ha]; trivial
        · exact e3' a ha
    · simp only [List.map_cons, List.sum_cons]; omega
    · rw [g7, f7, List.flatMap_cons, List.append_assoc]

/-- **C185 (refuted: a call returns the string of its time).** For any strings of any times there is an execution with calls of `RandStr` only in which a call, whatever time it has read itself, returns all these strings
one after the other. -/
theorem C185_mixed_refuted (now : Int) (kind : Int) (ps : List (Int × Nat × Bytes)) (h : ∀ p ∈ ps, Returns cooked p.1 p.2.1 kind p.2.2) :
    ∃ as s c, execs cooked as (init cooked) = some s ∧ (∀ a ∈ as, Ours a) ∧ .seed 0 now ∈ as ∧ s.calls[0]? = some c ∧ c.size = (ps.map (·.2.1)).sum ∧ c.kind = kind ∧ c.pc = .returned ∧
      c.result = ps.flatMap (·.2.2) := by
  obtain ⟨n, hn⟩ : ∃ n, n = (ps.map (·.2.1)).sum := ⟨_, rfl⟩
  have e1 : execs cooked [.call n kind, .seed 0 now] (init cooked) = some ⟨seedSource cooked now, [⟨n, kind, kind.toNat, 0, List.replicate n 0, .head⟩]⟩ := by
    have : ¬ ((n : Int) < 0) := by omega
    simp [execs, exec, init, this]
  obtain ⟨as, s, c, e2, e2', g1, g2, g3, g4, g5, g6, g7⟩ := mixed (cooked := cooked) kind ps h (s := ⟨seedSource cooked now, [⟨n, kind, kind.toNat, 0, List.replicate n 0, .head⟩]⟩) rfl rfl rfl
    (by simp) (fun _ => rfl) (by dsimp only; omega)
  dsimp only at g2 g5 g7
  have hs : callStep s.src c = some (s.src, { c with pc := .returned }) := by
    unfold callStep
    rw [g4]
    dsimp only
    rw [if_neg (by omega)]
  refine ⟨[.call n kind, .seed 0 now] ++ (as ++ [.step 0]), ⟨s.src, s.calls.set 0 { c with pc := .returned }⟩, { c with pc := .returned }, ?_, ?_, by simp,
    List.getElem?_set_self (List.getElem?_eq_some_iff.1 g1).1, by dsimp only; omega, g3, rfl, ?_⟩
  · rw [execs_append e1, execs_append e2]
    unfold execs
    rw [exec_step g1 hs]
    rfl
  · intro a ha
    simp only [List.mem_append, List.mem_cons, List.mem_nil_iff, or_false] at ha
    rcases ha with (rfl | rfl) | ha | rfl
    · trivial
    · trivial
    · exact e2' a ha
    · trivial
  · dsimp only
    rw [List.take_of_length_le (by omega), List.take_zero, List.nil_append] at g7
    exact g7

/-- **C185 (refuted: the characters of a string are drawn anew).** If others seed the source with the time that the call has read, it returns one word again and again. -/
theorem C185_repeat_refuted {now kind : Int} {n : Nat} {w : Bytes} (h : Returns cooked now n kind w) (times : Nat) :
    ∃ as s c, execs cooked as (init cooked) = some s ∧ (∀ a ∈ as, Ours a) ∧ .seed 0 now ∈ as ∧ s.calls[0]? = some c ∧ c.size = times * n ∧ c.kind = kind ∧ c.pc = .returned ∧
      c.result = (List.replicate times w).flatten := by
  obtain ⟨as, s, c, h1, h2, h3, h4, h5, h6, h7, h8⟩ := C185_mixed_refuted (cooked := cooked) now kind (List.replicate times (now, n, w)) (fun p hp => by rw [List.eq_of_mem_replicate hp]; exact h)
  refine ⟨as, s, c, h1, h2, h3, h4, ?_, h6, h7, ?_⟩
  · rw [h5, List.map_replicate, List.sum_replicate_nat]
  · rw [h8, List.flatMap_def, List.map_replicate]

/-- With the table of zeros and the time 1: three times the same digit. -/
example : ∃ as s c, execs (fun _ => 0) as (init fun _ => 0) = some s ∧ (∀ a ∈ as, Ours a) ∧ .seed 0 1 ∈ as ∧ s.calls[0]? = some c ∧ c.size = 3 ∧ c.kind = 0 ∧ c.pc = .returned ∧ c.result = Utf8.lit "444" :=
  C185_repeat_refuted (n := 1) (w := Utf8.lit "4") ⟨1, (randStr_eq (fun _ => 0) 1 1 1 0).trans (gen_digit first_at_one (by decide))⟩ 3

end Verif.RandConc
