import Verif.Proof.Reap
import Verif.Props.Heap

/-!
# C13, C14: `Reap`
-/

namespace Verif.Reap

variable {T : Type} {lt : T → T → Bool}

theorem wf_new (T : Type) : WF (new T) := ⟨fun k p h => by simp [new] at h, fun p e h => by simp [new] at h⟩

theorem ordered_new (lt : T → T → Bool) : Ordered lt (new T) := fun j _ hj => absurd hj (by simp [new])

theorem mem_of_live {s : State T} {e : Nat} (h : ((abs s).live e).isSome) : e ∈ s.h := by
  by_contra hc
  simp [abs, hc] at h

/-- One step, for any comparator: the link invariant is kept and the step is legal for the trivial order; if moreover the comparator is
a strict weak order and the state ordered, the step is legal for it and the order is kept. -/
theorem step_refines (lt : T → T → Bool) {s s' : State T} (w : WF s) (op : HandleOp T) (out : HandleOut T)
    (e : step lt s op = .ok (s', out)) :
    WF s' ∧ HandleStep (Heap.noOrder T) (abs s) op out (abs s') ∧
    (StrictWeakOrder lt → Ordered lt s → Ordered lt s' ∧ HandleStep lt (abs s) op out (abs s')) := by
  cases op with
  | push v =>
    obtain ⟨s1, e1, w1, ha, ho⟩ := push_spec lt w v
    simp only [step, e1, Go.bind_ok, Go.pure_eq, Except.ok.injEq, Prod.mk.injEq] at e
    obtain ⟨rfl, rfl⟩ := e
    rw [ha]
    exact ⟨w1, HandleStep.push _ v, fun o h => ⟨ho o h, HandleStep.push _ v⟩⟩
  | pop =>
    by_cases hne : 0 < s.h.length
    · obtain ⟨s1, v, e1, w1, hv, ha, ho⟩ := pop_spec lt w hne
      simp only [step, e1, Go.bind_ok, Go.pure_eq, Except.ok.injEq, Prod.mk.injEq] at e
      obtain ⟨rfl, rfl⟩ := e
      rw [ha]
      exact ⟨w1, HandleStep.pop _ s.h[0] v ⟨by simp [abs, hv], fun _ _ _ => rfl⟩,
        fun o h => ⟨ho o h, HandleStep.pop _ s.h[0] v (isMin_of_ordered o h hne hv)⟩⟩
    · have : s.h = [] := List.length_eq_zero_iff.1 (by omega)
      simp [step, pop, swap, Heap.swap, this, Go.idx] at e
  | peek =>
    by_cases hne : 0 < s.h.length
    · obtain ⟨v, e1, hv⟩ := peek_spec w hne
      simp only [step, e1, Go.bind_ok, Go.pure_eq, Except.ok.injEq, Prod.mk.injEq] at e
      obtain ⟨rfl, rfl⟩ := e
      exact ⟨w, HandleStep.peek _ s.h[0] v ⟨hv, fun _ _ _ => rfl⟩, fun o h => ⟨h, HandleStep.peek _ s.h[0] v
        (isMin_of_ordered o h hne (by simpa [abs] using hv))⟩⟩
    · have : s.h = [] := List.length_eq_zero_iff.1 (by omega)
      simp [step, peek, this, Go.idx] at e
  | remove p =>
    by_cases hp : p ∈ s.h
    · obtain ⟨s1, e1, w1, ha, ho⟩ := remove_spec lt w hp
      simp only [step, e1, Go.bind_ok, Go.pure_eq, Except.ok.injEq, Prod.mk.injEq] at e
      obtain ⟨rfl, rfl⟩ := e
      rw [ha]
      obtain ⟨v, _, hl⟩ := live_of_mem w hp
      have hs : ((abs s).live p).isSome := by simp [hl]
      exact ⟨w1, HandleStep.removeLive _ p hs, fun o h => ⟨ho o h, HandleStep.removeLive _ p hs⟩⟩
    · simp only [step, remove] at e
      cases he : s.ents[p]? with
      | none => simp [deref, he] at e
      | some ent =>
        simp only [deref_ok he, Go.bind_ok, dead_index w he hp, if_true, Go.pure_eq, Except.ok.injEq,
          Prod.mk.injEq] at e
        obtain ⟨rfl, rfl⟩ := e
        have hn : (abs s).live p = none := by simp [abs, hp]
        exact ⟨w, HandleStep.removeDead _ p hn, fun o h => ⟨h, HandleStep.removeDead _ p hn⟩⟩
  | setValue p v =>
    by_cases hp : p ∈ s.h
    · obtain ⟨s1, e1, w1, ha, ho⟩ := setValue_spec lt w v hp
      simp only [step, e1, Go.bind_ok, Go.pure_eq, Except.ok.injEq, Prod.mk.injEq] at e
      obtain ⟨rfl, rfl⟩ := e
      rw [ha]
      obtain ⟨v', _, hl⟩ := live_of_mem w hp
      have hs : ((abs s).live p).isSome := by simp [hl]
      exact ⟨w1, HandleStep.setLive _ p v hs, fun o h => ⟨ho o h, HandleStep.setLive _ p v hs⟩⟩
    · simp only [step, setValue] at e
      cases he : s.ents[p]? with
      | none => simp [deref, he] at e
      | some ent =>
        simp only [deref_ok he, Go.bind_ok, dead_index w he hp, if_true, Go.pure_eq, Except.ok.injEq,
          Prod.mk.injEq] at e
        obtain ⟨rfl, rfl⟩ := e
        have hn : (abs s).live p = none := by simp [abs, hp]
        exact ⟨w, HandleStep.setDead _ p v hn, fun o h => ⟨h, HandleStep.setDead _ p v hn⟩⟩

theorem run_refines (lt : T → T → Bool) : ∀ (ops : List (HandleOp T)) (s s' : State T) (outs : List (HandleOut T)),
    WF s → run lt s ops = .ok (s', outs) →
    WF s' ∧ Hist (HandleStep (Heap.noOrder T)) (abs s) ops outs (abs s') ∧
    (StrictWeakOrder lt → Ordered lt s → Ordered lt s' ∧ Hist (HandleStep lt) (abs s) ops outs (abs s'))
  | [], s, s', outs, w, e => by
    simp only [run, Except.ok.injEq, Prod.mk.injEq] at e
    obtain ⟨rfl, rfl⟩ := e
    exact ⟨w, Hist.nil _, fun _ h => ⟨h, Hist.nil _⟩⟩
  | op :: ops, s, s', outs, w, e => by
    unfold run at e
    cases hs : step lt s op with
    | error _ => rw [hs] at e; cases e
    | ok r =>
      obtain ⟨s1, out⟩ := r
      rw [hs] at e
      simp only [Go.bind_ok] at e
      cases hr : run lt s1 ops with
      | error _ => rw [hr] at e; cases e
      | ok r =>
        obtain ⟨s2, outs'⟩ := r
        rw [hr] at e
        simp only [Go.bind_ok, Go.pure_eq, Except.ok.injEq, Prod.mk.injEq] at e
        obtain ⟨rfl, rfl⟩ := e
        obtain ⟨a, b, c⟩ := step_refines lt w op out hs
        obtain ⟨a', b', c'⟩ := run_refines lt ops s1 s2 outs' a hr
        exact ⟨a', Hist.cons b b', fun o h => ⟨(c' o (c o h).1).1, Hist.cons (c o h).2 (c' o (c o h).1).2⟩⟩

/-- Two values of `abs` on an empty container: no handle has been given out. -/
theorem abs_new : abs (new T) = ⟨0, fun _ => none⟩ := by simp [abs, new]

/-- **C13.** For every comparator, a history on a new `Reap` is a history of the handle bag: each handle keeps designating the element
it was returned for until that element is popped or removed; `Remove`/`SetValue` through it affect exactly that element and
return true while it is live, and return false and change nothing afterwards. -/
theorem C13_handles_stay_valid (lt : T → T → Bool) (ops : List (HandleOp T)) (s : State T) (outs : List (HandleOut T))
    (hrun : run lt (new T) ops = .ok (s, outs)) :
    Hist (HandleStep (Heap.noOrder T)) ⟨0, fun _ => none⟩ ops outs (abs s) := by
  have := (run_refines lt ops _ _ _ (wf_new T) hrun).2.1
  rwa [abs_new] at this

/-- Which operations are legal: Pop and Peek need a non-empty container, handles must have been returned by `Push`. -/
def legal (s : State T) : HandleOp T → Prop
  | .push _ => True
  | .pop | .peek => 0 < len s
  | .remove e | .setValue e _ => e < (abs s).next

/-- **C13.** In every reachable state every legal operation terminates without panic. -/
theorem C13_never_panics (lt : T → T → Bool) (ops : List (HandleOp T)) (s : State T) (outs : List (HandleOut T))
    (hrun : run lt (new T) ops = .ok (s, outs)) (op : HandleOp T) (hl : legal s op) : ∃ r, step lt s op = .ok r := by
  have w := (run_refines lt ops _ _ _ (wf_new T) hrun).1
  cases op with
  | push v => obtain ⟨s1, e, _⟩ := push_spec lt w v; exact ⟨_, by simp only [step, e]; rfl⟩
  | pop => obtain ⟨s1, v, e, _⟩ := pop_spec lt w hl; exact ⟨_, by simp only [step, e]; rfl⟩
  | peek => obtain ⟨v, e, _⟩ := peek_spec w hl; exact ⟨_, by simp only [step, e]; rfl⟩
  | remove p =>
    by_cases hp : p ∈ s.h
    · obtain ⟨s1, e, _⟩ := remove_spec lt w hp; exact ⟨_, by simp only [step, e]; rfl⟩
    · have hlt : p < s.ents.length := hl
      have he : s.ents[p]? = some s.ents[p] := by simp
      exact ⟨(s, .flag false), by simp [step, remove, deref_ok he, dead_index w he hp]⟩
  | setValue p v =>
    by_cases hp : p ∈ s.h
    · obtain ⟨s1, e, _⟩ := setValue_spec lt w v hp; exact ⟨_, by simp only [step, e]; rfl⟩
    · have hlt : p < s.ents.length := hl
      have he : s.ents[p]? = some s.ents[p] := by simp
      exact ⟨(s, .flag false), by simp [step, setValue, deref_ok he, dead_index w he hp]⟩

/-- **C13.** `Len` is the number of live handles, and `Entry.Value` of a live handle is its current value. -/
theorem C13_len_and_value (lt : T → T → Bool) (ops : List (HandleOp T)) (s : State T) (outs : List (HandleOut T))
    (hrun : run lt (new T) ops = .ok (s, outs)) :
    HasSize (abs s).live (len s) ∧ (∀ e v, (abs s).live e = some v → value s e = .ok v) ∧
    (empty s = true ↔ ∀ e, (abs s).live e = none) := by
  have w := (run_refines lt ops _ _ _ (wf_new T) hrun).1
  refine ⟨⟨s.h, w.nodup, fun k => ⟨fun hk => ?_, mem_of_live⟩, rfl⟩, fun e v hv => ?_, ?_⟩
  · obtain ⟨v, _, hl⟩ := live_of_mem w hk
    simp [hl]
  · have he : e ∈ s.h := mem_of_live (by simp [hv])
    obtain ⟨k, hk⟩ := List.getElem?_of_mem he
    obtain ⟨ent, h1, _⟩ := w.fwd k _ hk
    have : (abs s).live e = some ent.value := by simp [abs, he, vals_get, h1]
    rw [hv] at this
    simp [value, deref_ok h1, Option.some.inj this]
  · constructor
    · intro he e
      have : s.h = [] := by simpa [empty, len] using he
      simp [abs, this]
    · intro hall
      cases hh : s.h with
      | nil => simp [empty, len, hh]
      | cons p t =>
        obtain ⟨v, _, hl⟩ := live_of_mem (s := s) w (p := p) (by simp [hh])
        rw [hall p] at hl; cases hl

/-- **C14.** With a strict weak order, Pop and Peek always return a minimal live value, also after `SetValue` and `Remove`. -/
theorem C14_min (o : StrictWeakOrder lt) (ops : List (HandleOp T)) (s : State T) (outs : List (HandleOut T))
    (hrun : run lt (new T) ops = .ok (s, outs)) :
    Hist (HandleStep lt) ⟨0, fun _ => none⟩ ops outs (abs s) := by
  have := ((run_refines lt ops _ _ _ (wf_new T) hrun).2.2 o (ordered_new lt)).2
  rwa [abs_new] at this

/-- **C14**, the headline: whatever `Peek` returns after any history is live and nothing live is less. -/
theorem C14_peek_min (o : StrictWeakOrder lt) (ops : List (HandleOp T)) (s : State T) (outs : List (HandleOut T))
    (hrun : run lt (new T) ops = .ok (s, outs)) (v : T) (hp : peek s = .ok v) :
    ∃ e, (abs s).IsMin lt e v := by
  obtain ⟨w, _, h⟩ := run_refines lt ops _ _ _ (wf_new T) hrun
  have ho := (h o (ordered_new lt)).1
  by_cases hne : 0 < s.h.length
  · obtain ⟨v', e1, hv⟩ := peek_spec w hne
    rw [hp] at e1; cases e1
    exact ⟨s.h[0], isMin_of_ordered o ho hne (by simpa [abs] using hv)⟩
  · have : s.h = [] := List.length_eq_zero_iff.1 (by omega)
    simp [peek, this, Go.idx] at hp

/-- A concrete history: handles 0..3, one removed through its handle, one changed, a dead handle used. -/
example : (run Heap.natLt (new Nat) [.push 5, .push 3, .push 8, .push 1, .remove 1, .setValue 2 0, .pop, .setValue 2 9,
    .remove 1, .peek]).map (·.2) =
    .ok [.handle 0, .handle 1, .handle 2, .handle 3, .flag true, .flag true, .val 0, .flag false, .flag false, .val 1] := by
  decide

end Verif.Reap
