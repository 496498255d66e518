import Verif.Proof.Meap
import Verif.Props.Heap

/-!
# C15, C16: `Meap`
-/

set_option linter.unusedSectionVars false

namespace Verif.Meap

variable {K V : Type} [DecidableEq K] {lt : K × V → K × V → Bool}

theorem wf_new : WF (new K V) := ⟨fun k p h => by simp [new] at h, fun p e h => by simp [new] at h⟩

theorem ordered_new (lt : K × V → K × V → Bool) : Ordered lt (new K V) := fun j _ hj => absurd hj (by simp [new])

theorem abs_new : abs (new K V) = fun _ => none := by funext k; simp [abs, new]

theorem step_refines (lt : K × V → K × V → Bool) {s s' : State K V} (w : WF s) (op : MapHeapOp K V)
    (out : MapHeapOut K V) (e : step lt s op = .ok (s', out)) :
    WF s' ∧ MapHeapStep (Heap.noOrder (K × V)) (abs s) op out (abs s') ∧
    (StrictWeakOrder lt → Ordered lt s → Ordered lt s' ∧ MapHeapStep lt (abs s) op out (abs s')) := by
  cases op with
  | push k v =>
    obtain ⟨s1, e1, w1, ha, ho⟩ := push_spec lt w k v
    simp only [step, e1, Go.bind_ok, Go.pure_eq, Except.ok.injEq, Prod.mk.injEq] at e
    obtain ⟨rfl, rfl⟩ := e
    rw [ha]
    exact ⟨w1, .push _ k v, fun o h => ⟨ho o h, .push _ k v⟩⟩
  | pop =>
    by_cases hne : 0 < s.h.length
    · obtain ⟨s1, e1, w1, ha, ho⟩ := pop_spec lt w hne
      simp only [step, e1, Go.bind_ok, Go.pure_eq, Except.ok.injEq, Prod.mk.injEq] at e
      obtain ⟨rfl, rfl⟩ := e
      rw [ha]
      exact ⟨w1, .pop _ _ ⟨(abs_some_iff w _ _).2 (by simp), fun _ _ _ => rfl⟩,
        fun o h => ⟨ho o h, .pop _ _ (isMin_of_ordered o w h hne)⟩⟩
    · have : s.h = [] := List.length_eq_zero_iff.1 (by omega)
      simp [step, pop, swap, Heap.swap, this, Go.idx] at e
  | peek =>
    by_cases hne : 0 < s.h.length
    · simp only [step, peek, Go.idx_of_lt s.h 0 hne, Go.bind_ok, Go.pure_eq, Except.ok.injEq, Prod.mk.injEq] at e
      obtain ⟨rfl, rfl⟩ := e
      exact ⟨w, .peek _ _ ⟨(abs_some_iff w _ _).2 (by simp), fun _ _ _ => rfl⟩,
        fun o h => ⟨h, .peek _ _ (isMin_of_ordered o w h hne)⟩⟩
    · have : s.h = [] := List.length_eq_zero_iff.1 (by omega)
      simp [step, peek, this, Go.idx] at e
  | remove k =>
    obtain ⟨s1, e1, w1, ha, ho⟩ := remove_spec lt w k
    simp only [step, e1, Go.bind_ok, Go.pure_eq, Except.ok.injEq, Prod.mk.injEq] at e
    obtain ⟨rfl, rfl⟩ := e
    rw [ha]
    exact ⟨w1, .remove _ k, fun o h => ⟨ho o h, .remove _ k⟩⟩
  | get k =>
    simp only [step, get_spec w, Go.bind_ok, Go.pure_eq, Except.ok.injEq, Prod.mk.injEq] at e
    obtain ⟨rfl, rfl⟩ := e
    exact ⟨w, .get _ k, fun _ h => ⟨h, .get _ k⟩⟩
  | contains k =>
    simp only [step, Except.ok.injEq, Prod.mk.injEq] at e
    obtain ⟨rfl, rfl⟩ := e
    have : contains s k = (abs s k).isSome := by
      unfold contains; rw [Bool.eq_iff_iff]; exact (abs_isSome_iff w k).symm
    rw [this]
    exact ⟨w, .contains _ k, fun _ h => ⟨h, .contains _ k⟩⟩
  | len =>
    simp only [step, Except.ok.injEq, Prod.mk.injEq] at e
    obtain ⟨rfl, rfl⟩ := e
    have hs : HasSize (abs s) (len s) := ⟨s.h.map (·.1), w.keys_nodup, mem_keys_iff w, by simp [len]⟩
    exact ⟨w, .len _ _ hs, fun _ h => ⟨h, .len _ _ hs⟩⟩

theorem run_refines (lt : K × V → K × V → Bool) :
    ∀ (ops : List (MapHeapOp K V)) (s s' : State K V) (outs : List (MapHeapOut K V)),
    WF s → run lt s ops = .ok (s', outs) →
    WF s' ∧ Hist (MapHeapStep (Heap.noOrder (K × V))) (abs s) ops outs (abs s') ∧
    (StrictWeakOrder lt → Ordered lt s → Ordered lt s' ∧ Hist (MapHeapStep lt) (abs s) ops outs (abs s'))
  | [], s, s', outs, w, e => by
    simp only [run, Except.ok.injEq, Prod.mk.injEq] at e
    obtain ⟨rfl, rfl⟩ := e
    exact ⟨w, Hist.nil _, fun _ h => ⟨h, Hist.nil _⟩⟩
  | op :: ops, s, s', outs, w, e => by
    unfold run at e
    cases hs : step lt s op with
    | error _ => rw [hs] at e; cases e
    | ok r =>
      obtain ⟨s1, out⟩ := r
      rw [hs] at e
      simp only [Go.bind_ok] at e
      cases hr : run lt s1 ops with
      | error _ => rw [hr] at e; cases e
      | ok r =>
        obtain ⟨s2, outs'⟩ := r
        rw [hr] at e
        simp only [Go.bind_ok, Go.pure_eq, Except.ok.injEq, Prod.mk.injEq] at e
        obtain ⟨rfl, rfl⟩ := e
        obtain ⟨a, b, c⟩ := step_refines lt w op out hs
        obtain ⟨a', b', c'⟩ := run_refines lt ops s1 s2 outs' a hr
        exact ⟨a', Hist.cons b b', fun o h => ⟨(c' o (c o h).1).1, Hist.cons (c o h).2 (c' o (c o h).1).2⟩⟩

/-- **C15.** For every comparator, a history on a new `Meap` is a history of a finite map: `Get`, `Contains`, `Len` report
its contents, `Push` sets a key, `Remove` and `Pop` delete one (`Pop` the one it returns, with its current value). -/
theorem C15_meap_is_map (lt : K × V → K × V → Bool) (ops : List (MapHeapOp K V)) (s : State K V)
    (outs : List (MapHeapOut K V)) (hrun : run lt (new K V) ops = .ok (s, outs)) :
    ∃ f, Hist (MapHeapStep (Heap.noOrder (K × V))) (fun _ => none) ops outs f ∧ (∀ k, get s k = .ok (f k)) ∧
      (∀ k, contains s k = (f k).isSome) ∧ HasSize f (len s) ∧ (empty s = true ↔ ∀ k, f k = none) := by
  obtain ⟨w, this, _⟩ := run_refines lt ops _ _ _ wf_new hrun
  rw [abs_new] at this
  refine ⟨_, this, get_spec w, fun k => ?_, ⟨s.h.map (·.1), w.keys_nodup, mem_keys_iff w, by simp [len]⟩, ?_⟩
  · unfold contains; rw [Bool.eq_iff_iff]; exact (abs_isSome_iff w k).symm
  · constructor
    · intro he k
      have hh : s.h = [] := by simpa [empty, len] using he
      have := (mem_keys_iff w k).not
      simpa [hh] using this
    · intro hall
      cases hh : s.h with
      | nil => simp [empty, len, hh]
      | cons e t =>
        have := (abs_some_iff w e.1 e.2).2 (by simp [hh])
        rw [hall] at this; cases this

/-- Which operations are legal: only Pop and Peek need a non-empty container. -/
def legal (s : State K V) : MapHeapOp K V → Prop
  | .pop | .peek => 0 < len s
  | _ => True

/-- **C15.** In every reachable state every legal operation terminates without panic. -/
theorem C15_never_panics (lt : K × V → K × V → Bool) (ops : List (MapHeapOp K V)) (s : State K V)
    (outs : List (MapHeapOut K V)) (hrun : run lt (new K V) ops = .ok (s, outs)) (op : MapHeapOp K V) (hl : legal s op) :
    ∃ r, step lt s op = .ok r := by
  have w := (run_refines lt ops _ _ _ wf_new hrun).1
  cases op with
  | push k v => obtain ⟨s1, e, _⟩ := push_spec lt w k v; exact ⟨_, by simp only [step, e]; rfl⟩
  | pop => obtain ⟨s1, e, _⟩ := pop_spec lt w hl; exact ⟨_, by simp only [step, e]; rfl⟩
  | peek => exact ⟨_, by simp only [step, peek]; rw [Go.idx_of_lt s.h 0 hl]; rfl⟩
  | remove k => obtain ⟨s1, e, _⟩ := remove_spec lt w k; exact ⟨_, by simp only [step, e]; rfl⟩
  | get k => exact ⟨_, by simp only [step, get_spec w]; rfl⟩
  | contains k => exact ⟨_, rfl⟩
  | len => exact ⟨_, rfl⟩

/-- **C16.** With a strict weak order on entries, `Pop` and `Peek` moreover always return a minimal live entry, and `Pop` removes exactly
its key. -/
theorem C16_min (o : StrictWeakOrder lt) (ops : List (MapHeapOp K V)) (s : State K V)
    (outs : List (MapHeapOut K V)) (hrun : run lt (new K V) ops = .ok (s, outs)) :
    ∃ f, Hist (MapHeapStep lt) (fun _ => none) ops outs f ∧ (∀ k, get s k = .ok (f k)) ∧
      (∀ e, peek s = .ok e → MapMin lt f e) := by
  obtain ⟨w, _, h⟩ := run_refines lt ops _ _ _ wf_new hrun
  obtain ⟨ho, hh⟩ := h o (ordered_new lt)
  rw [abs_new] at hh
  refine ⟨_, hh, get_spec w, fun e he => ?_⟩
  obtain ⟨hne, rfl⟩ := Heap.peek_inv he
  exact isMin_of_ordered o w ho hne

/-- Entries compared by value, for the concrete case. -/
def byValue (a b : Nat × Nat) : Bool := decide (a.2 < b.2)

example : (run byValue (new Nat Nat) [.push 1 5, .push 2 3, .push 3 8, .push 1 1, .peek, .remove 1, .pop, .get 3, .get 2,
    .contains 3, .len]).map (·.2) =
    .ok [.unit, .unit, .unit, .unit, .entry (1, 1), .unit, .entry (2, 3), .val (some 8), .val none, .flag true, .num 1] := by
  decide

example : StrictWeakOrder byValue where
  irrefl a := by simp [byValue]
  trans a b c h1 h2 := by simp only [byValue, decide_eq_true_eq] at *; omega
  incomp_trans a b c h1 h2 := by simp only [byValue, decide_eq_false_iff_not] at *; omega

end Verif.Meap
