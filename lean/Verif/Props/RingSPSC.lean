import Verif.Model.RingSPSC
import Mathlib.Data.Nat.ModEq
import Mathlib.Tactic.Linarith

/-!
# C23: one producer, one consumer
-/

namespace Verif.RingSPSC

variable {T : Type}

/-- A client that uses `Push` and `Pop` only. -/
def single : Client := ⟨True, False, True, False⟩

/-- A client that uses `MPush` and `MPop`/`MPopCopy` only. -/
def bulk : Client := ⟨False, True, False, True⟩

/-- **C23 refuted for `Push`/`Pop`, on the consumer's side.** The producer bumps the write counter before it stores the
element; a consumer that pops in between obtains a value that was never produced. -/
theorem C23_push_pop_refuted : ∃ s : State Nat, Reach single 0 1 s ∧ s.produced = [7] ∧ s.consumed = [0] := by
  refine ⟨_, ((((Reach.init.step (.pushCheck _ 7 trivial rfl (by decide))).step (.pushCount _ 7 rfl)).step
    (.popCheck _ trivial rfl (by decide))).step (.popCount _ rfl)).step (.popLoad _ 0 0 rfl (by decide)), ?_, ?_⟩
  · rfl
  · rfl

/-- **C23 refuted for `Push`/`Pop`, on the producer's side.** The consumer bumps the read counter before it loads the
element; a producer that pushes in between overwrites it: the first element is lost and the second obtained in its
place. -/
theorem C23_pop_overwritten_refuted : ∃ s : State Nat, Reach single 0 1 s ∧ s.produced = [7, 8] ∧
    s.consumed = [8] := by
  refine ⟨_, ((((((((Reach.init.step (.pushCheck _ 7 trivial rfl (by decide))).step (.pushCount _ 7 rfl)).step
    (.pushStore _ 7 0 rfl)).step
    (.popCheck _ trivial rfl (by decide))).step (.popCount _ rfl)).step
    (.pushCheck _ 8 trivial rfl (by decide))).step (.pushCount _ 8 rfl)).step (.pushStore _ 8 0 rfl)).step
    (.popLoad _ 0 8 rfl (by decide)), ?_, ?_⟩
  · rfl
  · rfl

/-- **C23 refuted for `MPush`.** `MPush` reads the room twice; if the consumer makes room in between, `elems[:size]` is
out of range and the producer panics (or publishes the hidden tail of the caller's slice, if it has spare capacity). -/
theorem C23_mpush_panic_refuted : ∃ s : State Nat, Reach bulk 0 2 s ∧ s.p = .panicked := by
  refine ⟨_, ((((((((((Reach.init.step
    (.mpushFits _ [7, 8] trivial rfl (by decide))).step (.mpushCell _ _ 0 7 rfl rfl)).step
    (.mpushCell _ _ 1 8 rfl rfl)).step (.mpushDone _ [7, 8] rfl)).step
    (.mpushTooLarge _ [9] trivial rfl (by decide))).step
    (.mpopFits _ 2 trivial rfl (by decide))).step (.mpopCell _ _ [] 7 rfl (by decide) (by decide))).step
    (.mpopCell _ _ [7] 8 rfl (by decide) (by decide))).step (.mpopDone _ 2 [7, 8] rfl rfl)).step
    (.mpushPanic _ [9] rfl (by decide))), ?_⟩
  rfl

/-- What holds at each point of the producer's program. -/
def POk (N : Nat) (sh : Shared T) : PPc T → Prop
  | .idle => True
  | .bulkTooLarge _ => True
  | .panicked => True
  | .bulkCopy es j => j ≤ es.length ∧ sh.inn + es.length ≤ sh.out + N ∧
      ∀ t, t < j → sh.data[(sh.inn + t) % N]? = es[t]?
  | _ => False

/-- What holds at each point of the consumer's program. -/
def COk (sh : Shared T) (produced : List T) : CPc T → Prop
  | .idle => True
  | .bulkTooMany => True
  | .bulkCopy m buf => buf.length ≤ m ∧ sh.out + m ≤ sh.inn ∧
      ∀ t, t < buf.length → buf[t]? = produced[sh.out + t]?
  | _ => False

/-- The invariant of the bulk protocol. -/
structure Inv (N : Nat) (s : State T) : Prop where
  size : s.sh.size = N
  dlen : s.sh.data.length = N
  inn : s.sh.inn = s.produced.length
  out : s.sh.out = s.consumed.length
  order : s.sh.out ≤ s.sh.inn
  room : s.sh.inn ≤ s.sh.out + N
  pre : s.consumed = s.produced.take s.sh.out
  cells : ∀ i, s.sh.out ≤ i → i < s.sh.inn → s.sh.data[i % N]? = s.produced[i]?
  prod : POk N s.sh s.p
  cons : COk s.sh s.produced s.c

theorem mod_ne {N a b : Nat} (h1 : a < b) (h2 : b < a + N) : a % N ≠ b % N := by
  intro e
  obtain ⟨d, rfl⟩ := Nat.exists_eq_add_of_lt h1
  have : (a + 0) % N = (a + (d + 1)) % N := by simpa [Nat.add_assoc] using e
  have := Nat.ModEq.add_left_cancel' (n := N) a this
  have h3 : (d + 1) % N = d + 1 := Nat.mod_eq_of_lt (by omega)
  have h4 : 0 % N = (d + 1) % N := this
  rw [h3, Nat.zero_mod] at h4
  omega

theorem inv_init (zero : T) (N : Nat) : Inv N (init zero N) := by
  constructor <;> simp [init, POk, COk]

theorem step_inv {N : Nat} (hN : 0 < N) {s s' : State T} (h : Inv N s) (hs : Step bulk s s') : Inv N s' := by
  have hprod := h.prod
  have hcons := h.cons
  have h1 := h.order
  have h2 := h.room
  have h3 := h.inn
  have h4 := h.out
  have h5 := h.size
  have h6 := h.dlen
  cases hs with
  | pushCheck e hk hp hl => exact hk.elim
  | pushCount e hp => rw [hp] at hprod; exact hprod.elim
  | pushStore e i hp => rw [hp] at hprod; exact hprod.elim
  | popCheck hk hc hl => exact hk.elim
  | popCount hc => rw [hc] at hcons; exact hcons.elim
  | popLoad i v hc hv => rw [hc] at hcons; exact hcons.elim
  | mpushFits es hk hp hl =>
    refine ⟨h5, h6, h3, h4, h1, h2, h.pre, h.cells, ?_, hcons⟩
    show POk N s.sh _
    split
    · trivial
    · exact ⟨Nat.zero_le _, by omega, fun t ht => by omega⟩
  | mpushTooLarge es hk hp hl => exact ⟨h5, h6, h3, h4, h1, h2, h.pre, h.cells, trivial, hcons⟩
  | mpushCut es hp hl =>
    refine ⟨h5, h6, h3, h4, h1, h2, h.pre, h.cells, ?_, hcons⟩
    show POk N s.sh _
    split
    · trivial
    · refine ⟨Nat.zero_le _, ?_, fun t ht => by omega⟩
      simp only [List.length_take]; omega
  | mpushPanic es hp hl => exact ⟨h5, h6, h3, h4, h1, h2, h.pre, h.cells, trivial, hcons⟩
  | mpushCell es j e hp he =>
    rw [hp] at hprod
    obtain ⟨a1, a2, a3⟩ := hprod
    have hj : j < es.length := by
      rw [List.getElem?_eq_some_iff] at he; exact he.1
    have hidx : (s.sh.inn % s.sh.size + j) % s.sh.size = (s.sh.inn + j) % N := by
      rw [h5, Nat.mod_add_mod]
    refine ⟨h5, by simp [h6], h3, h4, h1, h2, h.pre, ?_, ?_, ?_⟩
    · intro i hi1 hi2
      show (s.sh.data.set _ e)[i % N]? = _
      rw [hidx, List.getElem?_set_ne]
      · exact h.cells i hi1 hi2
      · exact (mod_ne (a := i) (b := s.sh.inn + j) (by change i < s.sh.inn at hi2; omega)
          (by change s.sh.out ≤ i at hi1; omega)).symm
    · refine ⟨hj, a2, ?_⟩
      intro t ht
      show (s.sh.data.set _ e)[(s.sh.inn + t) % N]? = _
      rw [hidx]
      by_cases htj : t = j
      · subst htj
        rw [List.getElem?_set_self (by rw [h6]; exact Nat.mod_lt _ hN), he]
      · rw [List.getElem?_set_ne]
        · exact a3 t (by omega)
        · exact (mod_ne (by omega) (by omega)).symm
    · exact hcons
  | mpushDone es hp =>
    rw [hp] at hprod
    obtain ⟨a1, a2, a3⟩ := hprod
    refine ⟨h5, h6, by simp [h3], h4, by show s.sh.out ≤ s.sh.inn + es.length; omega, a2, ?_, ?_, trivial, ?_⟩
    · show s.consumed = (s.produced ++ es).take s.sh.out
      rw [List.take_append_of_le_length (by omega)]; exact h.pre
    · intro i hi1 hi2
      change s.sh.out ≤ i at hi1
      change i < s.sh.inn + es.length at hi2
      show s.sh.data[i % N]? = (s.produced ++ es)[i]?
      by_cases hi : i < s.sh.inn
      · rw [List.getElem?_append_left (by omega)]; exact h.cells i hi1 hi
      · rw [List.getElem?_append_right (by omega)]
        have := a3 (i - s.sh.inn) (by omega)
        rw [show s.sh.inn + (i - s.sh.inn) = i by omega] at this
        rw [this, h3]
    · show COk _ (s.produced ++ es) s.c
      cases hcc : s.c with
      | idle => trivial
      | bulkTooMany => trivial
      | popChecked => rw [hcc] at hcons; exact hcons.elim
      | popCounted i => rw [hcc] at hcons; exact hcons.elim
      | bulkCopy m buf =>
        rw [hcc] at hcons
        obtain ⟨b1, b2, b3⟩ := hcons
        refine ⟨b1, by show s.sh.out + m ≤ s.sh.inn + es.length; omega, ?_⟩
        intro t ht
        show buf[t]? = (s.produced ++ es)[s.sh.out + t]?
        rw [List.getElem?_append_left (by omega)]
        exact b3 t ht
  | mpopFits m hk hc hl =>
    refine ⟨h5, h6, h3, h4, h1, h2, h.pre, h.cells, hprod, ?_⟩
    show COk s.sh s.produced _
    split
    · trivial
    · exact ⟨Nat.zero_le _, by omega, fun t ht => by simp at ht⟩
  | mpopTooMany m hk hc hl => exact ⟨h5, h6, h3, h4, h1, h2, h.pre, h.cells, hprod, trivial⟩
  | mpopCut hc =>
    refine ⟨h5, h6, h3, h4, h1, h2, h.pre, h.cells, hprod, ?_⟩
    show COk s.sh s.produced _
    split
    · trivial
    · exact ⟨Nat.zero_le _, by omega, fun t ht => by simp at ht⟩
  | mpopCell m buf v hc hb hv =>
    rw [hc] at hcons
    obtain ⟨b1, b2, b3⟩ := hcons
    refine ⟨h5, h6, h3, h4, h1, h2, h.pre, h.cells, hprod, ?_⟩
    refine ⟨by simp; omega, b2, ?_⟩
    intro t ht
    simp only [List.length_append, List.length_cons, List.length_nil] at ht
    by_cases htb : t < buf.length
    · rw [List.getElem?_append_left htb]; exact b3 t htb
    · have : t = buf.length := by omega
      subst this
      rw [h5, Nat.mod_add_mod] at hv
      rw [List.getElem?_append_right (Nat.le_refl _), Nat.sub_self]
      have := h.cells (s.sh.out + buf.length) (by omega) (by omega)
      rw [hv] at this
      simpa using this
  | mpopDone m buf hc hb =>
    rw [hc] at hcons
    obtain ⟨b1, b2, b3⟩ := hcons
    refine ⟨h5, h6, h3, by simp [h4, hb], b2, by show s.sh.inn ≤ s.sh.out + m + N; omega, ?_, ?_, ?_, trivial⟩
    · show s.consumed ++ buf = s.produced.take (s.sh.out + m)
      rw [List.take_add, ← h.pre]
      congr 1
      apply List.ext_getElem?
      intro t
      by_cases ht : t < m
      · rw [List.getElem?_take_of_lt ht, List.getElem?_drop]
        exact b3 t (by omega)
      · rw [List.getElem?_eq_none (by omega), List.getElem?_eq_none (by simp only [List.length_take]; omega)]
    · intro i hi1 hi2
      exact h.cells i (by change s.sh.out + m ≤ i at hi1; omega) hi2
    · show POk N _ s.p
      cases hpp : s.p with
      | idle => trivial
      | bulkTooLarge es => trivial
      | panicked => trivial
      | pushChecked e => rw [hpp] at hprod; exact hprod.elim
      | pushCounted e i => rw [hpp] at hprod; exact hprod.elim
      | bulkCopy es j =>
        rw [hpp] at hprod
        obtain ⟨a1, a2, a3⟩ := hprod
        exact ⟨a1, by show s.sh.inn + es.length ≤ s.sh.out + m + N; omega, a3⟩

theorem reach_inv {N : Nat} (hN : 0 < N) {zero : T} {s : State T} (h : Reach bulk zero N s) : Inv N s := by
  induction h with
  | init => exact inv_init zero N
  | step _ hs ih => exact step_inv hN ih hs

/-- **C23, the part that holds.** With `MPush` on one side and `MPop`/`MPopCopy` on the other, under every interleaving
of their loads and stores (any size, any number of calls, any batches), what the consumer has obtained is always a
prefix of what the producer has published, in order, and what is still missing is exactly what the counters say.

What is missing from the claim: `Push` and `Pop` (refuted above), and freedom from panics of `MPush` (refuted above). -/
theorem C23_bulk_partial {N : Nat} (hN : 0 < N) {zero : T} {s : State T} (h : Reach bulk zero N s) :
    s.consumed <+: s.produced ∧ s.consumed.length = s.sh.out ∧ s.produced.length = s.sh.inn ∧
      s.sh.out ≤ s.sh.inn ∧ s.sh.inn ≤ s.sh.out + N := by
  have i := reach_inv hN h
  refine ⟨?_, i.out.symm, i.inn.symm, i.order, i.room⟩
  rw [i.pre]
  exact List.take_prefix _ _

/-- What can still be popped is there: in a reachable state the unread cells hold the rest of what was published. -/
theorem C23_bulk_unread_partial {N : Nat} (hN : 0 < N) {zero : T} {s : State T} (h : Reach bulk zero N s) (k : Nat)
    (hk : k < s.sh.inn - s.sh.out) :
    s.sh.data[(s.sh.out + k) % N]? = (s.produced.drop s.consumed.length)[k]? := by
  have i := reach_inv hN h
  rw [List.getElem?_drop, ← i.out]
  exact i.cells _ (by omega) (by omega)

/-! ## What holds for all calls together -/

/-- Where the producer may be, whatever it calls. -/
def PCount (N : Nat) (sh : Shared T) : PPc T → Prop
  | .pushChecked _ => sh.inn < sh.out + N
  | .pushCounted _ i => i < N
  | .bulkCopy es _ => sh.inn + es.length ≤ sh.out + N
  | _ => True

/-- Where the consumer may be. -/
def CCount (N : Nat) (sh : Shared T) : CPc T → Prop
  | .popChecked => sh.out < sh.inn
  | .popCounted i => i < N
  | .bulkCopy m buf => sh.out + m ≤ sh.inn ∧ buf.length ≤ m
  | _ => True

/-- Elements that `Push` has accepted and not counted yet. -/
def accepted : PPc T → Nat
  | .pushChecked _ => 1
  | _ => 0

/-- Elements that `Pop` has counted and not returned yet. -/
def counted : CPc T → Nat
  | .popCounted _ => 1
  | _ => 0

/-- What `MPush` is copying. -/
def copying : PPc T → List T
  | .bulkCopy es _ => es
  | _ => []

/-- The invariant on the counters. -/
structure CountInv (N : Nat) (s : State T) : Prop where
  size : s.sh.size = N
  dlen : s.sh.data.length = N
  inn : s.sh.inn + accepted s.p = s.produced.length
  out : s.sh.out = s.consumed.length + counted s.c
  order : s.sh.out ≤ s.sh.inn
  room : s.sh.inn ≤ s.sh.out + N
  prod : PCount N s.sh s.p
  cons : CCount N s.sh s.c

theorem PCount.mono {N : Nat} {sh sh' : Shared T} (hi : sh'.inn = sh.inn) (ho : sh.out ≤ sh'.out) : ∀ {p : PPc T}, PCount N sh p → PCount N sh' p
  | .idle, _ => trivial
  | .pushChecked _, h => by unfold PCount at h ⊢; omega
  | .pushCounted _ _, h => h
  | .bulkTooLarge _, _ => trivial
  | .bulkCopy _ _, h => by unfold PCount at h ⊢; omega
  | .panicked, _ => trivial

theorem CCount.mono {N : Nat} {sh sh' : Shared T} (hi : sh.inn ≤ sh'.inn) (ho : sh'.out = sh.out) : ∀ {c : CPc T}, CCount N sh c → CCount N sh' c
  | .idle, _ => trivial
  | .popChecked, h => by unfold CCount at h ⊢; omega
  | .popCounted _, h => h
  | .bulkTooMany, _ => trivial
  | .bulkCopy _ _, h => by unfold CCount at h ⊢; omega

theorem count_step {k : Client} {N : Nat} (hN : 0 < N) {s s' : State T} (h : CountInv N s) (hs : Step k s s') : CountInv N s' := by
  obtain ⟨h5, h6, h3, h4, h1, h2, hp0, hc0⟩ := h
  cases hs with
  | pushCheck e hk hp hl =>
    rw [hp] at h3
    refine ⟨h5, h6, ?_, h4, h1, h2, ?_, hc0⟩
    · simp only [accepted, List.length_append, List.length_singleton] at h3 ⊢; omega
    · show s.sh.inn < s.sh.out + N; omega
  | pushCount e hp =>
    rw [hp] at h3 hp0
    have hp0 : s.sh.inn < s.sh.out + N := hp0
    refine ⟨h5, h6, ?_, h4, ?_, ?_, ?_, CCount.mono (sh := s.sh) (sh' := { s.sh with inn := s.sh.inn + 1 }) (Nat.le_succ _) rfl hc0⟩
    · simp only [accepted] at h3 ⊢; omega
    · dsimp only; omega
    · dsimp only; omega
    · show s.sh.inn % s.sh.size < N; rw [h5]; exact Nat.mod_lt _ hN
  | pushStore e i hp =>
    rw [hp] at h3
    exact ⟨h5, by simp only [List.length_set]; exact h6, h3, h4, h1, h2, trivial, hc0.mono le_rfl rfl⟩
  | mpushFits es hk hp hl =>
    rw [hp] at h3
    refine ⟨h5, h6, ?_, h4, h1, h2, ?_, hc0⟩
    · show s.sh.inn + accepted (if es = [] then .idle else .bulkCopy es 0) = _
      split <;> exact h3
    · show PCount N s.sh (if es = [] then .idle else .bulkCopy es 0)
      split
      · trivial
      · show s.sh.inn + es.length ≤ s.sh.out + N; omega
  | mpushTooLarge es hk hp hl => rw [hp] at h3; exact ⟨h5, h6, h3, h4, h1, h2, trivial, hc0⟩
  | mpushCut es hp hl =>
    rw [hp] at h3
    refine ⟨h5, h6, ?_, h4, h1, h2, ?_, hc0⟩
    · dsimp only
      split <;> exact h3
    · dsimp only
      split
      · trivial
      · show s.sh.inn + (es.take _).length ≤ s.sh.out + N
        simp only [List.length_take]; omega
  | mpushPanic es hp hl => rw [hp] at h3; exact ⟨h5, h6, h3, h4, h1, h2, trivial, hc0⟩
  | mpushCell es j e hp he =>
    rw [hp] at h3 hp0
    exact ⟨h5, by simp only [List.length_set]; exact h6, h3, h4, h1, h2, hp0, hc0.mono le_rfl rfl⟩
  | mpushDone es hp =>
    rw [hp] at h3 hp0
    have hp0 : s.sh.inn + es.length ≤ s.sh.out + N := hp0
    refine ⟨h5, h6, ?_, h4, ?_, hp0, trivial, CCount.mono (sh := s.sh) (sh' := { s.sh with inn := s.sh.inn + es.length }) (Nat.le_add_right _ _) rfl hc0⟩
    · simp only [accepted, List.length_append] at h3 ⊢; omega
    · dsimp only; omega
  | popCheck hk hc hl =>
    rw [hc] at h4
    refine ⟨h5, h6, h3, h4, h1, h2, hp0, ?_⟩
    show s.sh.out < s.sh.inn; omega
  | popCount hc =>
    rw [hc] at h4 hc0
    have hc0 : s.sh.out < s.sh.inn := hc0
    refine ⟨h5, h6, h3, ?_, ?_, ?_, PCount.mono (sh := s.sh) (sh' := { s.sh with out := s.sh.out + 1 }) rfl (Nat.le_succ _) hp0, ?_⟩
    · simp only [counted] at h4 ⊢; omega
    · dsimp only; omega
    · dsimp only; omega
    · show s.sh.out % s.sh.size < N; rw [h5]; exact Nat.mod_lt _ hN
  | popLoad i v hc hv =>
    rw [hc] at h4
    refine ⟨h5, h6, h3, ?_, h1, h2, hp0, trivial⟩
    simp only [counted, List.length_append, List.length_singleton] at h4 ⊢; omega
  | mpopFits m hk hc hl =>
    rw [hc] at h4
    refine ⟨h5, h6, h3, ?_, h1, h2, hp0, ?_⟩
    · dsimp only
      split <;> exact h4
    · dsimp only
      split
      · trivial
      · exact ⟨by omega, Nat.zero_le _⟩
  | mpopTooMany m hk hc hl => rw [hc] at h4; exact ⟨h5, h6, h3, h4, h1, h2, hp0, trivial⟩
  | mpopCut hc =>
    rw [hc] at h4
    refine ⟨h5, h6, h3, ?_, h1, h2, hp0, ?_⟩
    · dsimp only
      split <;> exact h4
    · dsimp only
      split
      · trivial
      · exact ⟨by omega, Nat.zero_le _⟩
  | mpopCell m buf v hc hb hv =>
    rw [hc] at h4 hc0
    refine ⟨h5, h6, h3, h4, h1, h2, hp0, hc0.1, ?_⟩
    rw [List.length_append]
    exact hb
  | mpopDone m buf hc hb =>
    rw [hc] at h4 hc0
    obtain ⟨a, -⟩ := hc0
    refine ⟨h5, h6, h3, ?_, a, ?_, PCount.mono (sh := s.sh) (sh' := { s.sh with out := s.sh.out + m }) rfl (Nat.le_add_right _ _) hp0, trivial⟩
    · simp only [counted, List.length_append] at h4 ⊢; omega
    · dsimp only; omega

/-- **C23, what holds for all calls.** Whatever the two goroutines call, under every interleaving, the counters stay in order: never more elements are obtained than were
given, and never more than `size` are between the counters. `Push` has given what is counted and, at one point, one element more; `Pop` has counted what it
returned and, at one point, one element more. -/
theorem C23_counters {k : Client} {N : Nat} (hN : 0 < N) {zero : T} {s : State T} (h : Reach k zero N s) :
    s.sh.out ≤ s.sh.inn ∧ s.sh.inn ≤ s.sh.out + N ∧ s.consumed.length ≤ s.sh.out ∧ s.sh.out ≤ s.consumed.length + 1 ∧
      s.sh.inn ≤ s.produced.length ∧ s.produced.length ≤ s.sh.inn + 1 ∧ (s.p = .idle → s.c = .idle → s.sh.inn = s.produced.length ∧ s.sh.out = s.consumed.length) := by
  have i : CountInv N s := by
    induction h with
    | init => exact ⟨rfl, by simp [init], rfl, rfl, le_rfl, by simp [init], trivial, trivial⟩
    | step _ hs ih => exact count_step hN ih hs
  have h3 := i.inn
  have h4 := i.out
  have ha : accepted s.p ≤ 1 := by cases s.p <;> simp [accepted]
  have hc : counted s.c ≤ 1 := by cases s.c <;> simp [counted]
  refine ⟨i.order, i.room, by omega, by omega, by omega, by omega, fun hp hq => ?_⟩
  rw [hp] at h3
  rw [hq] at h4
  exact ⟨h3, h4⟩

/-- What can be known: the zero value, what was given, and what `MPush` is copying. -/
def Known (zero : T) (s : State T) (v : T) : Prop := v = zero ∨ v ∈ s.produced ∨ v ∈ copying s.p

/-- The invariant on the values. -/
structure ValInv (zero : T) (s : State T) : Prop where
  held : ∀ e, (s.p = .pushChecked e ∨ ∃ i, s.p = .pushCounted e i) → e ∈ s.produced
  cells : ∀ v ∈ s.sh.data, Known zero s v
  buf : ∀ m buf, s.c = .bulkCopy m buf → ∀ v ∈ buf, Known zero s v
  got : ∀ v ∈ s.consumed, Known zero s v

theorem mem_set_or {l : List T} {i : Nat} {a v : T} (h : v ∈ l.set i a) : v = a ∨ v ∈ l := (List.mem_or_eq_of_mem_set h).symm

theorem val_step {k : Client} {zero : T} {s s' : State T} (h : ValInv zero s) (hs : Step k s s') : ValInv zero s' := by
  obtain ⟨h1, h2, h3, h4⟩ := h
  /- a step of the producer that leaves the cells and makes more known -/
  have prod : ∀ {t : State T}, t.c = s.c → t.consumed = s.consumed → (∀ v, Known zero s v → Known zero t v) →
      (∀ e, (t.p = .pushChecked e ∨ ∃ i, t.p = .pushCounted e i) → e ∈ t.produced) → (∀ v ∈ t.sh.data, Known zero t v) → ValInv zero t :=
    fun hc ho hk hh hd => ⟨hh, hd, fun m buf hb v hv => hk v (h3 m buf (hc ▸ hb) v hv), fun v hv => hk v (h4 v (ho ▸ hv))⟩
  cases hs with
  | pushCheck e hk hp hl =>
    have hk : ∀ v, Known zero s v → Known zero { s with p := .pushChecked e, produced := s.produced ++ [e] } v := by
      rintro v (h | h | h)
      · exact .inl h
      · exact .inr (.inl (List.mem_append_left _ h))
      · rw [hp] at h; cases h
    refine prod rfl rfl hk (fun e' he => ?_) (fun v hv => hk v (h2 v hv))
    rcases he with he | ⟨i, he⟩
    · cases he; exact List.mem_append_right _ (List.mem_singleton.2 rfl)
    · cases he
  | pushCount e hp =>
    have hk : ∀ v, Known zero s v → Known zero { s with p := .pushCounted e (s.sh.inn % s.sh.size), sh := { s.sh with inn := s.sh.inn + 1 } } v := by
      rintro v (h | h | h)
      · exact .inl h
      · exact .inr (.inl h)
      · rw [hp] at h; cases h
    refine prod rfl rfl hk (fun e' he => ?_) (fun v hv => hk v (h2 v hv))
    rcases he with he | ⟨i, he⟩
    · cases he
    · cases he; exact h1 e (.inl hp)
  | pushStore e i hp =>
    have hk : ∀ v, Known zero s v → Known zero { s with p := .idle, sh := { s.sh with data := s.sh.data.set i e } } v := by
      rintro v (h | h | h)
      · exact .inl h
      · exact .inr (.inl h)
      · rw [hp] at h; cases h
    refine prod rfl rfl hk (fun e' he => ?_) (fun v hv => ?_)
    · rcases he with he | ⟨i, he⟩ <;> cases he
    · rcases mem_set_or hv with rfl | hv
      · exact .inr (.inl (h1 _ (.inr ⟨i, hp⟩)))
      · exact hk v (h2 v hv)
  | mpushFits es hk hp hl =>
    have hk : ∀ v, Known zero s v → Known zero { s with p := if es = [] then .idle else .bulkCopy es 0 } v := by
      rintro v (h | h | h)
      · exact .inl h
      · exact .inr (.inl h)
      · rw [hp] at h; cases h
    refine prod rfl rfl hk (fun e' he => ?_) (fun v hv => hk v (h2 v hv))
    dsimp only at he
    split at he <;> rcases he with he | ⟨i, he⟩ <;> cases he
  | mpushTooLarge es hk hp hl =>
    have hk : ∀ v, Known zero s v → Known zero { s with p := .bulkTooLarge es } v := by
      rintro v (h | h | h)
      · exact .inl h
      · exact .inr (.inl h)
      · rw [hp] at h; cases h
    refine prod rfl rfl hk (fun e' he => ?_) (fun v hv => hk v (h2 v hv))
    rcases he with he | ⟨i, he⟩ <;> cases he
  | mpushCut es hp hl =>
    have hk : ∀ v, Known zero s v → Known zero { s with p := if es.take (s.sh.size - (s.sh.inn - s.sh.out)) = [] then .idle else .bulkCopy (es.take (s.sh.size - (s.sh.inn - s.sh.out))) 0 } v := by
      rintro v (h | h | h)
      · exact .inl h
      · exact .inr (.inl h)
      · rw [hp] at h; cases h
    refine prod rfl rfl hk (fun e' he => ?_) (fun v hv => hk v (h2 v hv))
    dsimp only at he
    split at he <;> rcases he with he | ⟨i, he⟩ <;> cases he
  | mpushPanic es hp hl =>
    have hk : ∀ v, Known zero s v → Known zero { s with p := .panicked } v := by
      rintro v (h | h | h)
      · exact .inl h
      · exact .inr (.inl h)
      · rw [hp] at h; cases h
    refine prod rfl rfl hk (fun e' he => ?_) (fun v hv => hk v (h2 v hv))
    rcases he with he | ⟨i, he⟩ <;> cases he
  | mpushCell es j e hp he =>
    have hk : ∀ v, Known zero s v → Known zero { s with p := .bulkCopy es (j + 1), sh := { s.sh with data := s.sh.data.set ((s.sh.inn % s.sh.size + j) % s.sh.size) e } } v := by
      rintro v (h | h | h)
      · exact .inl h
      · exact .inr (.inl h)
      · rw [hp] at h; exact .inr (.inr h)
    refine prod rfl rfl hk (fun e' he => ?_) (fun v hv => ?_)
    · rcases he with he | ⟨i, he⟩ <;> cases he
    · rcases mem_set_or hv with rfl | hv
      · exact .inr (.inr (List.mem_of_getElem? he))
      · exact hk v (h2 v hv)
  | mpushDone es hp =>
    have hk : ∀ v, Known zero s v → Known zero { s with p := .idle, sh := { s.sh with inn := s.sh.inn + es.length }, produced := s.produced ++ es } v := by
      rintro v (h | h | h)
      · exact .inl h
      · exact .inr (.inl (List.mem_append_left _ h))
      · rw [hp] at h; exact .inr (.inl (List.mem_append_right _ h))
    refine prod rfl rfl hk (fun e' he => ?_) (fun v hv => hk v (h2 v hv))
    rcases he with he | ⟨i, he⟩ <;> cases he
  | popCheck hk hc hl => exact ⟨h1, h2, (fun m buf hb => by cases hb), h4⟩
  | popCount hc => exact ⟨h1, h2, (fun m buf hb => by cases hb), h4⟩
  | popLoad i v hc hv =>
    refine ⟨h1, h2, (fun m buf hb => by cases hb), fun w hw => ?_⟩
    rcases List.mem_append.1 hw with hw | hw
    · exact h4 w hw
    · rw [List.mem_singleton.1 hw]; exact h2 v (List.mem_of_getElem? hv)
  | mpopFits m hk hc hl =>
    refine ⟨h1, h2, fun m' buf hb => ?_, h4⟩
    dsimp only at hb
    split at hb <;> cases hb
    exact fun v hv => by cases hv
  | mpopTooMany m hk hc hl => exact ⟨h1, h2, (fun m buf hb => by cases hb), h4⟩
  | mpopCut hc =>
    refine ⟨h1, h2, fun m' buf hb => ?_, h4⟩
    dsimp only at hb
    split at hb <;> cases hb
    exact fun v hv => by cases hv
  | mpopCell m buf v hc hb hv =>
    refine ⟨h1, h2, fun m' buf' hb' => ?_, h4⟩
    cases hb'
    intro w hw
    rcases List.mem_append.1 hw with hw | hw
    · exact h3 _ _ hc w hw
    · rw [List.mem_singleton.1 hw]; exact h2 v (List.mem_of_getElem? hv)
  | mpopDone m buf hc hb =>
    refine ⟨h1, h2, (fun m buf hb => by cases hb), fun w hw => ?_⟩
    rcases List.mem_append.1 hw with hw | hw
    · exact h4 w hw
    · exact h3 _ _ hc w hw

/-- **C23, what holds for all calls.** A value that the consumer obtains is never made up: it is the zero value, or the producer gave it, or is giving it with `MPush`. -/
theorem C23_values {k : Client} {N : Nat} {zero : T} {s : State T} (h : Reach k zero N s) {v : T} (hv : v ∈ s.consumed) :
    v = zero ∨ v ∈ s.produced ∨ ∃ es j, s.p = .bulkCopy es j ∧ v ∈ es := by
  have i : ValInv zero s := by
    clear hv
    induction h with
    | init =>
      refine ⟨fun e he => ?_, fun v hv => .inl (List.eq_of_mem_replicate hv), fun m buf hb => ?_, fun v hv => ?_⟩
      · rcases he with he | ⟨i, he⟩ <;> cases he
      · cases hb
      · cases hv
    | step _ hs ih => exact val_step ih hs
  rcases i.got v hv with h | h | h
  · exact .inl h
  · exact .inr (.inl h)
  · cases hp : s.p with
    | bulkCopy es j => rw [hp] at h; exact .inr (.inr ⟨es, j, rfl, h⟩)
    | _ => rw [hp] at h; cases h

/-- A non-trivial reachable state: two elements published, one obtained, through a size-2 ring. -/
example : ∃ s : State Nat, Reach bulk 0 2 s ∧ s.produced = [7, 8] ∧ s.consumed = [7] := by
  refine ⟨_, ((((((Reach.init.step
    (.mpushFits _ [7, 8] trivial rfl (by decide))).step (.mpushCell _ _ 0 7 rfl rfl)).step
    (.mpushCell _ _ 1 8 rfl rfl)).step (.mpushDone _ [7, 8] rfl)).step
    (.mpopFits _ 1 trivial rfl (by decide))).step (.mpopCell _ _ [] 7 rfl (by decide) (by decide))).step
    (.mpopDone _ 1 [7] rfl rfl), ?_, ?_⟩
  · rfl
  · rfl

end Verif.RingSPSC
