import Verif.Props.LimiterWindow

/-! # C41–C44: the sliding log -/

namespace Verif.Limiter

/-! ## Specification -/

namespace LogSpec

/-- A configured strategy. -/
structure Rule where
  limit : Int
  window : Int
deriving DecidableEq, Repr

/-- The rule is exhausted at time `t`: at least `limit` of the accepted calls lie in the small windows, `window / small`
many, that end with the one of `t`. -/
def exhausted (small : Int) (acc : List Int) (t : Int) (r : Rule) : Prop :=
  r.limit ≤ ((acc.countP fun a => decide (WindowSpec.slot small t - (r.window - small) ≤ WindowSpec.slot small a) : Nat) : Int)

instance (small : Int) (acc : List Int) (t : Int) (r : Rule) : Decidable (exhausted small acc t r) := by
  unfold exhausted; infer_instance

/-- The times of the accepted calls, latest first. -/
def acceptedTimes (es : List Log.Ans) : List Int := ((es.filter fun e => e.res.isNone).map (·.time)).reverse

end LogSpec

open WindowSpec LogSpec

namespace Log

open Counters

/-! ## The constructor -/

/-- Limits and windows are the same in both stores. -/
def Same (st st' : Store) : Prop :=
  st'.length = st.length ∧ ∀ p : Nat, (st'[p]?.map fun s : Strategy => (s.limit, s.window)) = st[p]?.map fun s => (s.limit, s.window)

theorem Same.refl (st : Store) : Same st st := ⟨rfl, fun _ => rfl⟩

theorem Same.trans {a b c : Store} (h1 : Same a b) (h2 : Same b c) : Same a c :=
  ⟨h2.1.trans h1.1, fun p => (h2.2 p).trans (h1.2 p)⟩

theorem same_set {st : Store} {p : Nat} {s : Strategy} (h : st[p]? = some s) (n : Int) :
    Same st (st.set p { s with smallWindows := n }) := by
  refine ⟨by simp, ?_⟩
  intro q
  by_cases hq : p = q
  · subst hq
    rw [List.getElem?_set_self (by rw [List.getElem?_eq_some_iff] at h; exact h.1), h]
    rfl
  · rw [List.getElem?_set_ne hq]

/-- The rule a pointer stands for. -/
def rule (st : Store) (p : Nat) : Rule :=
  match st[p]? with
  | some s => ⟨s.limit, s.window⟩
  | none => ⟨0, 0⟩

theorem Same.rule {st st' : Store} (h : Same st st') (p : Nat) : rule st' p = rule st p := by
  have := h.2 p
  unfold Log.rule
  cases h1 : st'[p]? <;> cases h2 : st[p]? <;> rw [h1, h2] at this <;> simp_all

/-- Limits strictly decrease along the list. -/
def Dec (st : Store) : Option Nat → List Nat → Prop
  | _, [] => True
  | prev, p :: ps => (∀ q ∈ prev, (rule st p).limit < (rule st q).limit) ∧ Dec st (some p) ps

theorem Dec.same {st st' : Store} (h : Same st st') : ∀ (ps : List Nat) (prev : Option Nat), Dec st' prev ps ↔ Dec st prev ps
  | [], _ => Iff.rfl
  | p :: ps, prev => by
    simp only [Dec, h.rule, Dec.same h ps]

theorem deref_ok {st : Store} {p : Nat} (h : p < st.length) : ∃ s, st[p]? = some s ∧ deref st p = .ok s ∧
    rule st p = ⟨s.limit, s.window⟩ := by
  refine ⟨st[p], by simp [h], ?_, ?_⟩
  · unfold deref; simp [h]
  · unfold rule; simp [h]

theorem check_spec (small : Int) (hs : small ≠ 0) : ∀ (ps : List Nat) (st : Store) (prev : Option Nat),
    (∀ p ∈ ps, p < st.length) → (∀ p ∈ prev, p < st.length) →
    ∃ st' e, check small st prev ps = .ok (st', e) ∧ Same st st' ∧
      (e = none ↔ Dec st prev ps ∧ ∀ p ∈ ps, small ∣ (rule st p).window) ∧
      (∀ q : Nat, q ∉ ps → st'[q]? = st[q]?) ∧
      (∀ (q : Nat) (s' : Strategy), st'[q]? = some s' → st[q]? = some s' ∨ s'.smallWindows = wrap64 (s'.window.tdiv small)) ∧
      (e = none → ∀ p ∈ ps, ∀ s' : Strategy, st'[p]? = some s' → s'.smallWindows = wrap64 (s'.window.tdiv small))
  | [], st, prev, _, _ => ⟨st, none, rfl, Same.refl st, by simp [Dec], fun _ _ => rfl, fun _ _ h => .inl h, by simp⟩
  | p :: ps, st, prev, hv, hpv => by
    obtain ⟨s, hs1, hs2, hs3⟩ := deref_ok (hv p (by simp))
    have hbad : ∃ bad, notSmaller st s prev = .ok bad ∧
        (bad = false ↔ ∀ q ∈ prev, (rule st p).limit < (rule st q).limit) := by
      cases prev with
      | none => exact ⟨false, rfl, by simp⟩
      | some q =>
        obtain ⟨sq, _, hq2, hq3⟩ := deref_ok (hpv q (by simp))
        refine ⟨decide (s.limit ≥ sq.limit), by simp only [notSmaller, hq2]; rfl, ?_⟩
        simp only [decide_eq_false_iff_not, Option.mem_def, Option.some.injEq, forall_eq', hs3, hq3]
        omega
    obtain ⟨bad, hb1, hb2⟩ := hbad
    unfold check
    rw [hs2]
    simp only [Go.bind_ok, hb1]
    cases bad with
    | true =>
      refine ⟨st, some .smallerLimit, rfl, Same.refl st, ?_, by simp, fun q s' h => .inl h, by simp⟩
      simp only [reduceCtorEq, false_iff, Dec, not_and]
      intro h
      exact absurd (hb2.2 h.1) (by simp)
    | false =>
      have hlt := hb2.1 rfl
      simp only [Bool.false_eq_true, if_false, if_neg hs]
      by_cases hd : s.window.tmod small ≠ 0
      · rw [if_pos hd]
        refine ⟨st, some .notDivisible, rfl, Same.refl st, ?_, by simp, fun q s' h => .inl h, by simp⟩
        simp only [reduceCtorEq, false_iff, not_and]
        intro _ h
        have := h p (by simp)
        rw [hs3] at this
        exact hd (Int.tmod_eq_zero_of_dvd this)
      · rw [if_neg hd]
        have hsame := same_set hs1 (wrap64 (s.window.tdiv small))
        have hp := hv p (by simp)
        obtain ⟨st', e, h1, h2, h3, h4, h6, h5⟩ := check_spec small hs ps
          (st.set p { s with smallWindows := wrap64 (s.window.tdiv small) }) (some p)
          (by intro q hq; rw [hsame.1]; exact hv q (by simp [hq]))
          (by simpa using hp)
        refine ⟨st', e, h1, hsame.trans h2, ?_, ?_, ?_, ?_⟩
        · rw [h3, Dec.same hsame]
          simp only [hsame.rule, Dec, List.mem_cons, forall_eq_or_imp]
          have : small ∣ (rule st p).window := by
            rw [hs3]; exact Int.dvd_of_tmod_eq_zero (Decidable.not_not.1 hd)
          constructor
          · rintro ⟨a, b⟩; exact ⟨⟨hlt, a⟩, this, b⟩
          · rintro ⟨⟨_, a⟩, _, b⟩; exact ⟨a, b⟩
        · intro q hq
          simp only [List.mem_cons, not_or] at hq
          rw [h4 q hq.2, List.getElem?_set_ne (Ne.symm hq.1)]
        · intro q s' hq
          rcases h6 q s' hq with h | h
          · by_cases hqp : p = q
            · subst hqp
              rw [List.getElem?_set_self hp] at h
              simp only [Option.some.injEq] at h
              right; rw [← h]
            · rw [List.getElem?_set_ne hqp] at h
              exact .inl h
          · exact .inr h
        · intro he q hq s' hs'
          rcases List.mem_cons.1 hq with h | h
          · subst h
            rcases h6 q s' hs' with h | h
            · rw [List.getElem?_set_self hp] at h
              simp only [Option.some.injEq] at h
              rw [← h]
            · exact h
          · exact h5 he q h s' hs'

theorem dec_pairwise {st : Store} : ∀ (ps : List Nat) (prev : Option Nat), Dec st prev ps ↔
    (∀ q ∈ prev, ∀ p ∈ ps, (rule st p).limit < (rule st q).limit) ∧
      ps.Pairwise fun p q => (rule st q).limit < (rule st p).limit
  | [], prev => by simp [Dec]
  | p :: ps, prev => by
    simp only [Dec, dec_pairwise ps (some p), List.pairwise_cons, Option.mem_def, Option.some.injEq, forall_eq',
      List.mem_cons]
    constructor
    · rintro ⟨h1, h2, h3⟩
      refine ⟨?_, h2, h3⟩
      intro q hq x hx
      rcases hx with h | h
      · subst h; exact h1 q hq
      · have := h2 x h
        have := h1 q hq
        omega
    · rintro ⟨h1, h2, h3⟩
      exact ⟨fun q hq => h1 q hq p (.inl rfl), h2, h3⟩

/-- Two rules may stand side by side: different limits, and the one with the smaller window has the smaller limit. -/
def Compatible (a b : Rule) : Prop :=
  a.limit ≠ b.limit ∧ (a.window < b.window → a.limit < b.limit) ∧ (b.window < a.window → b.limit < a.limit)

theorem sorted_rule {st : Store} {ptrs sorted : List Nat} (hsort : SortedBy st ptrs sorted) (hv : ∀ p ∈ ptrs, p < st.length) :
    sorted.Pairwise fun p q => (rule st q).window < (rule st p).window ∨
      ((rule st q).window = (rule st p).window ∧ (rule st q).limit ≤ (rule st p).limit) := by
  refine List.Pairwise.imp_of_mem ?_ hsort.2
  intro p q hp hq h
  obtain ⟨a, a1, _, a3⟩ := deref_ok (hv p (hsort.1.mem_iff.1 hp))
  obtain ⟨b, b1, _, b3⟩ := deref_ok (hv q (hsort.1.mem_iff.1 hq))
  have := h a b a1 b1
  rw [a3, b3]
  unfold less at this
  simp only
  split at this
  · rename_i hw
    simp only [decide_eq_false_iff_not] at this
    right; exact ⟨hw, by omega⟩
  · rename_i hw
    simp only [decide_eq_false_iff_not] at this
    left; omega

theorem pairwise_compatible {st : Store} {ptrs sorted : List Nat} (hsort : SortedBy st ptrs sorted)
    (hv : ∀ p ∈ ptrs, p < st.length) :
    (sorted.Pairwise fun p q => (rule st q).limit < (rule st p).limit) ↔
      ptrs.Pairwise fun p q => Compatible (rule st p) (rule st q) := by
  have hr := sorted_rule hsort hv
  have hsymm : ∀ {p q : Nat}, Compatible (rule st p) (rule st q) → Compatible (rule st q) (rule st p) :=
    fun h => ⟨Ne.symm h.1, h.2.2, h.2.1⟩
  rw [← List.Perm.pairwise_iff hsymm hsort.1]
  constructor
  · intro h
    refine List.Pairwise.imp₂ ?_ h hr
    intro p q h1 h2
    refine ⟨by omega, ?_, ?_⟩ <;> intro h <;> omega
  · intro h
    refine List.Pairwise.imp₂ ?_ h hr
    intro p q h1 h2
    obtain ⟨h1, _, h4⟩ := h1
    rcases h2 with h2 | h2
    · exact h4 h2
    · omega

/-- The rule `a` comes strictly before `b`: it has the larger window, or the same window and the larger limit. -/
def Before (a b : Rule) : Prop := b.window < a.window ∨ (b.window = a.window ∧ b.limit < a.limit)

/-- **C43 (sorting).** The comparison that is given to `sort.Slice` is the order by window and then by limit, both descending; it is a strict
weak order, so for every list of pointers there is an outcome of sorting it. -/
theorem C43_sorts (st : Store) (ptrs : List Nat) (hv : ∀ p ∈ ptrs, p < st.length) :
    (∃ sorted, SortedBy st ptrs sorted) ∧
    ∀ sorted, SortedBy st ptrs sorted ↔
      sorted.Perm ptrs ∧ sorted.Pairwise fun p q => ¬ Before (rule st q) (rule st p) := by
  have key : ∀ sorted : List Nat, sorted.Perm ptrs →
      ((sorted.Pairwise fun p q => ∀ a b, st[p]? = some a → st[q]? = some b → less b a = false) ↔
        sorted.Pairwise fun p q => ¬ Before (rule st q) (rule st p)) := by
    intro sorted hp
    have hiff : ∀ p ∈ sorted, ∀ q ∈ sorted, (∀ a b, st[p]? = some a → st[q]? = some b → less b a = false) ↔
        ¬ Before (rule st q) (rule st p) := by
      intro p hp' q hq'
      obtain ⟨a, a1, _, a3⟩ := deref_ok (hv p (hp.mem_iff.1 hp'))
      obtain ⟨b, b1, _, b3⟩ := deref_ok (hv q (hp.mem_iff.1 hq'))
      rw [a3, b3]
      have : (∀ a' b', st[p]? = some a' → st[q]? = some b' → less b' a' = false) ↔ less b a = false := by
        rw [a1, b1]
        exact ⟨fun h => h a b rfl rfl, fun h a' b' ha hb => by cases ha; cases hb; exact h⟩
      rw [this]
      unfold less Before
      simp only
      split
      · simp only [decide_eq_false_iff_not]; omega
      · simp only [decide_eq_false_iff_not]; omega
    constructor
    · exact fun h => List.Pairwise.imp_of_mem (fun hp hq h => (hiff _ hp _ hq).1 h) h
    · exact fun h => List.Pairwise.imp_of_mem (fun hp hq h => (hiff _ hp _ hq).2 h) h
  refine ⟨?_, fun sorted => ⟨fun h => ⟨h.1, (key sorted h.1).1 h.2⟩, fun h => ⟨h.1, (key sorted h.1).2 h.2⟩⟩⟩
  let le : Nat → Nat → Bool := fun p q => decide (¬ ((rule st p).window < (rule st q).window ∨
    ((rule st p).window = (rule st q).window ∧ (rule st p).limit < (rule st q).limit)))
  have hperm := List.mergeSort_perm ptrs le
  refine ⟨ptrs.mergeSort le, hperm, (key _ hperm).2 ?_⟩
  have := List.pairwise_mergeSort (le := le) (by
    intro a b c
    simp only [le, decide_eq_true_eq]
    omega) (by
    intro a b
    simp only [le, Bool.or_eq_true, decide_eq_true_eq]
    omega) ptrs
  refine this.imp ?_
  intro p q h
  simp only [le, decide_eq_true_eq] at h
  unfold Before
  omega

/-- **C43.** For every store of strategies, every list of valid pointers in every order and every outcome of the (unstable)
sort: the constructor does not panic, and it succeeds exactly if there is a strategy, every window is divisible by the small
window, and any two strategies have different limits, the one with the smaller window having the smaller limit.  It changes
no limit and no window, and on success gives the limiter the sorted strategies and an empty map. -/
theorem C43_new (st : Store) (small : Int) (hs : small ≠ 0) (ptrs sorted : List Nat) (hv : ∀ p ∈ ptrs, p < st.length)
    (hsort : SortedBy st ptrs sorted) :
    ∃ st' r, new st small ptrs sorted = .ok (st', r) ∧ Same st st' ∧
      ((∃ l, r = .ok l) ↔ ptrs ≠ [] ∧ (∀ p ∈ ptrs, small ∣ (rule st p).window) ∧
        ptrs.Pairwise fun p q => Compatible (rule st p) (rule st q)) ∧
      ∀ l, r = .ok l → l = ⟨sorted, small, []⟩ := by
  unfold new
  by_cases he : ptrs.length = 0
  · rw [if_pos he]
    have : ptrs = [] := List.length_eq_zero_iff.1 he
    exact ⟨st, _, rfl, Same.refl st, by simp [this], by simp⟩
  · rw [if_neg he]
    obtain ⟨st', e, h1, h2, h3, _⟩ := check_spec small hs sorted st none
      (fun p hp => hv p (hsort.1.mem_iff.1 hp)) (by simp)
    rw [h1]
    simp only [Go.bind_ok]
    have hne : ptrs ≠ [] := fun h => he (by simp [h])
    rw [dec_pairwise, pairwise_compatible hsort hv] at h3
    cases e with
    | none =>
      refine ⟨st', _, rfl, h2, ?_, by simp⟩
      obtain ⟨⟨_, a⟩, b⟩ := h3.1 rfl
      simp only [Except.ok.injEq, exists_eq', true_iff]
      exact ⟨hne, fun p hp => b p (hsort.1.mem_iff.2 hp), a⟩
    | some err =>
      refine ⟨st', _, rfl, h2, ?_, by simp⟩
      simp only [reduceCtorEq, exists_false, false_iff]
      rintro ⟨_, h5, h6⟩
      have := h3.2 ⟨⟨by simp, h6⟩, fun p hp => h5 p (hsort.1.mem_iff.1 hp)⟩
      simp at this

/-- **C43 (order of arguments).** The outcome does not depend on the order of the arguments nor on the sort. -/
theorem C43_order (st : Store) (small : Int) (hs : small ≠ 0) (ptrs ptrs' sorted sorted' : List Nat)
    (hv : ∀ p ∈ ptrs, p < st.length) (hperm : ptrs'.Perm ptrs) (hsort : SortedBy st ptrs sorted)
    (hsort' : SortedBy st ptrs' sorted') :
    (∃ st' l, new st small ptrs sorted = .ok (st', .ok l)) ↔ ∃ st' l, new st small ptrs' sorted' = .ok (st', .ok l) := by
  obtain ⟨s1, r1, a1, _, a3, _⟩ := C43_new st small hs ptrs sorted hv hsort
  obtain ⟨s2, r2, b1, _, b3, _⟩ := C43_new st small hs ptrs' sorted' (fun p hp => hv p (hperm.mem_iff.1 hp)) hsort'
  have hsymm : ∀ {p q : Nat}, Compatible (rule st p) (rule st q) → Compatible (rule st q) (rule st p) :=
    fun h => ⟨Ne.symm h.1, h.2.2, h.2.1⟩
  have : (∃ l, r1 = .ok l) ↔ ∃ l, r2 = .ok l := by
    rw [a3, b3, List.Perm.pairwise_iff hsymm hperm]
    have hnil : ptrs ≠ [] ↔ ptrs' ≠ [] := by
      constructor <;> intro h h' <;> subst h'
      · exact h (List.nil_perm.1 hperm)
      · exact h (List.perm_nil.1 hperm)
    rw [hnil]
    simp only [hperm.mem_iff]
  constructor
  · rintro ⟨st', l, h⟩
    rw [a1] at h
    simp only [Except.ok.injEq, Prod.mk.injEq] at h
    obtain ⟨l', hl'⟩ := this.1 ⟨l, h.2⟩
    exact ⟨s2, l', by rw [b1, hl']⟩
  · rintro ⟨st', l, h⟩
    rw [b1] at h
    simp only [Except.ok.injEq, Prod.mk.injEq] at h
    obtain ⟨l', hl'⟩ := this.2 ⟨l, h.2⟩
    exact ⟨s1, l', by rw [a1, hl']⟩

/-- Two strategies, given in the wrong order. -/
example : ∃ st' l, SortedBy [newStrategy 2 10, newStrategy 5 60] [0, 1] [1, 0] ∧
    new [newStrategy 2 10, newStrategy 5 60] 10 [0, 1] [1, 0] = .ok (st', .ok l) := by
  refine ⟨[⟨2, 10, 1⟩, ⟨5, 60, 6⟩], ⟨[1, 0], 10, []⟩, ⟨by decide, ?_⟩, by decide⟩
  simp only [List.pairwise_cons, List.mem_singleton, forall_eq]
  refine ⟨?_, by simp⟩
  intro a b ha hb
  simp at ha hb
  subst ha; subst hb; decide

/-! ## Calls -/

/-- The rules of a limiter, in the order of its list, are those of the configuration; the parameters are sensible. -/
structure Conf (st : Store) (ps : List Nat) (small : Int) : Prop where
  s : 0 < small
  ne : ps ≠ []
  obj : ∀ p ∈ ps, ∃ s, st[p]? = some s ∧ s.smallWindows = wrap64 (s.window.tdiv small)
  l : ∀ p ∈ ps, InI64 (rule st p).limit
  w : ∀ p ∈ ps, 0 < (rule st p).window ∧ (rule st p).window < 2 ^ 63 ∧ small ∣ (rule st p).window
  sorted : ps.Pairwise fun p q => (rule st q).window ≤ (rule st p).window

/-- The start of the window of a strategy. -/
def startOf (st : Store) (small cur : Int) (p : Nat) : Int := cur - ((rule st p).window - small)

theorem starts_ok {st : Store} {small cur : Int} (hs : 0 < small) (h0 : 0 ≤ cur) (h1 : cur < 2 ^ 63) : ∀ (ps : List Nat),
    (∀ p ∈ ps, ∃ s, st[p]? = some s ∧ s.smallWindows = wrap64 (s.window.tdiv small)) →
    (∀ p ∈ ps, 0 < (rule st p).window ∧ (rule st p).window < 2 ^ 63 ∧ small ∣ (rule st p).window) →
    starts st small cur ps = .ok (ps.map (startOf st small cur))
  | [], _, _ => rfl
  | p :: ps, ho, hw => by
    obtain ⟨s, a1, a2⟩ := ho p (by simp)
    obtain ⟨b1, b2, b3⟩ := hw p (by simp)
    have hr : rule st p = ⟨s.limit, s.window⟩ := by unfold rule; rw [a1]
    rw [hr] at b1 b2 b3
    unfold starts
    have hd : deref st p = .ok s := by unfold deref; rw [a1]
    rw [hd, starts_ok hs h0 h1 ps (fun q hq => ho q (by simp [hq])) (fun q hq => hw q (by simp [hq]))]
    simp only [Go.bind_ok, List.map_cons]
    rw [a2, start_ok hs b1 b2 b3 h0 h1]
    unfold startOf
    rw [hr]

theorem addCounts_map (w c : Int) (f : Int → Int) : ∀ ss : List Int,
    addCounts w c ss (ss.map f) = ss.map fun s => if w ≥ s then wrap64 (f s + c) else f s
  | [] => rfl
  | s :: ss => by simp [addCounts, addCounts_map w c f ss]

theorem scan_eq (s0 : Int) (ss : List Int) (h0 : ss[0]? = some s0) (hle : ∀ s ∈ ss, s0 ≤ s) :
    ∀ (order : List (Int × Int)) (m : Counters) (g : Int → Int),
    scan ss order (m, ss.map fun s => wrap64 (g s)) =
      .ok (m.filter (fun e => !decide (e.1 < s0 ∧ e.1 ∈ order.map Prod.fst)), ss.map fun s => wrap64 (g s + sumFrom s order))
  | [], m, g => by simp [scan, sumFrom]
  | (w, c) :: order, m, g => by
    have hi : Go.idx ss 0 = .ok s0 := by unfold Go.idx; rw [h0]
    simp only [scan, hi, Go.bind_ok]
    by_cases h : w < s0
    · rw [if_pos h, scan_eq s0 ss h0 hle order]
      refine congrArg Except.ok (Prod.ext ?_ ?_)
      · simp only [Counters.del, List.filter_filter]
        apply List.filter_congr
        rintro ⟨x, y⟩ _
        by_cases hxw : x = w
        · subst hxw; simp [h]
        · have : x ∈ List.map Prod.fst ((w, c) :: order) ↔ x ∈ List.map Prod.fst order := by
            rw [List.map_cons, List.mem_cons]; simp only [hxw, false_or]
          simp only [this] <;> simp [hxw]
      · apply List.map_congr_left
        intro s hs
        have := hle s hs
        rw [sumFrom_cons, if_neg (by show ¬ s ≤ w; omega), Int.zero_add]
    · rw [if_neg h, addCounts_map w c (fun s => wrap64 (g s))]
      have hmap : (ss.map fun s => if w ≥ s then wrap64 (wrap64 (g s) + c) else wrap64 (g s)) =
          ss.map fun s => wrap64 (if w ≥ s then g s + c else g s) := by
        apply List.map_congr_left
        intro s _
        split
        · exact wrap64_add_wrap64 _ _
        · rfl
      rw [hmap, scan_eq s0 ss h0 hle order]
      refine congrArg Except.ok (Prod.ext ?_ ?_)
      · apply List.filter_congr
        rintro ⟨x, y⟩ _
        by_cases hxw : x = w
        · subst hxw; simp [h]
        · have : x ∈ List.map Prod.fst ((w, c) :: order) ↔ x ∈ List.map Prod.fst order := by
            rw [List.map_cons, List.mem_cons]; simp only [hxw, false_or]
          simp only [this] <;> simp [hxw]
      · apply List.map_congr_left
        intro s _
        rw [sumFrom_cons]
        by_cases hws : s ≤ w
        · rw [if_pos hws, if_pos hws]; simp only [Int.add_assoc]
        · rw [if_neg hws, if_neg hws, Int.zero_add]

/-- The scan of a whole map. -/
theorem scan_map {s0 : Int} {ss : List Int} (h0 : ss[0]? = some s0) (hle : ∀ s ∈ ss, s0 ≤ s)
    {order : List (Int × Int)} {m : Counters} (hp : order.Perm m) :
    scan ss order (m, List.replicate ss.length 0) =
      .ok (m.filter (fun e => decide (s0 ≤ e.1)), ss.map fun s => wrap64 (sumFrom s order)) := by
  have h := scan_eq s0 ss h0 hle order m fun _ => 0
  rw [show wrap64 0 = 0 by decide] at h
  have hz : (ss.map fun _ => (0 : Int)) = List.replicate ss.length 0 := by simp
  rw [hz] at h
  rw [h]
  refine congrArg Except.ok (Prod.ext ?_ (by simp))
  apply List.filter_congr
  rintro ⟨x, y⟩ hx
  have : x ∈ order.map Prod.fst := List.mem_map.2 ⟨(x, y), hp.mem_iff.2 hx, rfl⟩
  simp only [this, and_true]
  rw [Bool.eq_iff_iff]
  simp

/-- The first rule whose count reaches its limit. -/
theorem violated_eq {st : Store} (h : Nat → Int) : ∀ (ps : List Nat), (∀ p ∈ ps, p < st.length) →
    violated st ps (ps.map h) =
      .ok ((ps.find? fun p => decide ((rule st p).limit ≤ h p)).map fun p => ((rule st p).limit, (rule st p).window))
  | [], _ => rfl
  | p :: ps, hv => by
    obtain ⟨s, _, hs2, hs3⟩ := deref_ok (hv p (by simp))
    simp only [List.map_cons, violated, hs2, Go.bind_ok]
    by_cases hc : h p ≥ s.limit
    · rw [if_pos hc, List.find?_cons_of_pos (by rw [hs3]; simpa using hc)]
      simp [hs3]
    · rw [if_neg hc, List.find?_cons_of_neg (by rw [hs3]; simpa using hc)]
      exact violated_eq h ps (fun q hq => hv q (by simp [hq]))

/-- What is known about a limiter after calls up to time `cur`, `acc` being the times of the accepted ones. -/
structure Good (st : Store) (ps : List Nat) (small : Int) (l : Lim) (acc : List Int) (cur : Int) : Prop where
  str : l.strategies = ps
  sw : l.smallWindow = small
  rep : ∃ D, (∀ p ∈ ps.head?, D ≤ startOf st small (slot small cur) p) ∧ Rep l.counters (acc.map (slot small)) D
  old : ∀ a ∈ acc, a ≤ cur
  bound : ∀ p ∈ ps, ∀ A, small ∣ A →
    ((acc.countP fun a => decide (A ≤ slot small a ∧ slot small a < A + (rule st p).window) : Nat) : Int) ≤
      max (rule st p).limit 0

/-- The first exhausted rule. -/
def firstExhausted (st : Store) (small : Int) (acc : List Int) (t : Int) (ps : List Nat) : Option (Int × Int) :=
  (ps.find? fun p => decide (exhausted small acc t (rule st p))).map fun p => ((rule st p).limit, (rule st p).window)

/-- One call answers with the first exhausted rule, in whatever order the map is visited. -/
theorem step {st : Store} {ps : List Nat} {small : Int} (C : Conf st ps small) {l : Lim} {acc : List Int} {cur t : Int}
    (g : Good st ps small l acc cur) (hct : cur ≤ t) (h0 : 0 ≤ t) (h1 : t < 2 ^ 63) {order : List (Int × Int)}
    (hp : order.Perm l.counters) :
    ∃ l', tryAcquire st l order t = .ok (l', firstExhausted st small acc t ps) ∧
      Good st ps small l' (if firstExhausted st small acc t ps = none then t :: acc else acc) t := by
  have hs := C.s
  obtain ⟨D, hD, rep⟩ := g.rep
  have hslot0 := slot_nonneg hs h0
  have hslot1 := slot_le (t := t) hs
  have hmono := slot_mono hs hct
  obtain ⟨p0, ps', hps⟩ : ∃ p0 ps', ps = p0 :: ps' := by
    cases h : ps with
    | nil => exact absurd h C.ne
    | cons a b => exact ⟨a, b, rfl⟩
  have hp0 : p0 ∈ ps := by rw [hps]; simp
  have hD0 : D ≤ startOf st small (slot small t) p0 := by
    have := hD p0 (by rw [hps]; rfl)
    unfold startOf at *; omega
  have hmax : ∀ p ∈ ps, (rule st p).window ≤ (rule st p0).window := by
    intro p hpp
    have := C.sorted
    rw [hps] at this hpp
    rcases List.mem_cons.1 hpp with h | h
    · rw [h]
    · exact (List.pairwise_cons.1 this).1 p h
  have hsmall : ∀ p ∈ ps, small ≤ (rule st p).window := fun p hpp => Int.le_of_dvd (C.w p hpp).1 (C.w p hpp).2.2
  have hstart_le : ∀ p ∈ ps, startOf st small (slot small t) p0 ≤ startOf st small (slot small t) p := by
    intro p hpp
    have := hmax p hpp
    unfold startOf; omega
  -- the counts
  let cnt : Nat → Int := fun p => ((acc.countP fun a => decide (startOf st small (slot small t) p ≤ slot small a) : Nat) : Int)
  have hcnt : ∀ p ∈ ps, cnt p ≤ max (rule st p).limit 0 := by
    intro p hpp
    refine le_trans ?_ (g.bound p hpp (startOf st small (slot small t) p) ?_)
    · refine Int.ofNat_le.2 (List.countP_mono_left ?_)
      intro a ha h
      simp only [decide_eq_true_eq] at h ⊢
      have := slot_mono hs (show a ≤ t from by have := g.old a ha; omega)
      have := hsmall p hpp
      unfold startOf at *
      exact ⟨h, by omega⟩
    · exact Int.dvd_sub (slot_dvd _ _) (Int.dvd_sub (C.w p hpp).2.2 (Int.dvd_refl _))
  have hsum : ∀ p ∈ ps, wrap64 (sumFrom (startOf st small (slot small t) p) order) = cnt p := by
    intro p hpp
    have h := (rep.perm hp).sum (s := startOf st small (slot small t) p) (by have := hstart_le p hpp; omega)
    rw [List.countP_map] at h
    rw [h]
    have h2 := hcnt p hpp
    have h3 := (C.l p hpp).2
    exact wrap64_of_in (x := cnt p) (by
      have : 0 ≤ cnt p := Int.natCast_nonneg _
      unfold InI64; omega)
  have hlen : ∀ p ∈ ps, p < st.length := by
    intro p hpp
    obtain ⟨s, hs1, _⟩ := C.obj p hpp
    exact (List.getElem?_eq_some_iff.1 hs1).1
  have hviol : violated st ps ((ps.map (startOf st small (slot small t))).map fun s => wrap64 (sumFrom s order)) =
      .ok (firstExhausted st small acc t ps) := by
    rw [List.map_map]
    have : ps.map ((fun s => wrap64 (sumFrom s order)) ∘ startOf st small (slot small t)) = ps.map cnt :=
      List.map_congr_left fun p hpp => hsum p hpp
    rw [this, violated_eq cnt ps hlen]
    rfl
  have hdrop := rep.drop hD0
  have hold : ∀ a ∈ acc, a ≤ t := fun a ha => by have := g.old a ha; omega
  unfold tryAcquire
  rw [g.sw, g.str, smallWindowOf_ok hs h0 h1]
  simp only [Go.bind_ok]
  rw [starts_ok hs hslot0 (by omega) ps C.obj C.w]
  simp only [Go.bind_ok]
  have hss : (ps.map (startOf st small (slot small t)))[0]? = some (startOf st small (slot small t) p0) := by
    rw [hps]; rfl
  have hscan := scan_map hss (by
    intro s hs'
    obtain ⟨p, hpp, rfl⟩ := List.mem_map.1 hs'
    exact hstart_le p hpp) hp
  rw [List.length_map] at hscan
  rw [hscan]
  simp only [Go.bind_ok, hviol]
  cases hfe : firstExhausted st small acc t ps with
  | some v =>
    refine ⟨_, rfl, ?_⟩
    rw [if_neg (by simp)]
    refine ⟨rfl, rfl, ⟨_, ?_, hdrop⟩, hold, g.bound⟩
    intro p hpp
    rw [hps] at hpp
    simp only [List.head?_cons, Option.mem_def, Option.some.injEq] at hpp
    rw [← hpp]
  | none =>
    refine ⟨_, rfl, ?_⟩
    rw [if_pos rfl]
    have hnone : ∀ p ∈ ps, cnt p < (rule st p).limit := by
      intro p hpp
      unfold firstExhausted at hfe
      rw [Option.map_eq_none_iff, List.find?_eq_none] at hfe
      have : ¬ exhausted small acc t (rule st p) := by simpa using hfe p hpp
      exact Int.not_le.1 this
    have hc0 : (((acc.map (slot small)).count (slot small t) : Nat) : Int) ≤ cnt p0 := by
      rw [List.count_eq_countP, List.countP_map]
      refine Int.ofNat_le.2 (List.countP_mono_left ?_)
      intro a _ h
      simp only [Function.comp_apply, beq_iff_eq] at h
      simp only [decide_eq_true_eq, h]
      have := hsmall p0 hp0
      unfold startOf
      omega
    have hl2 := (C.l p0 hp0).2
    have hn0 := hnone p0 hp0
    have hincr := hdrop.incr (w := slot small t) (by have := hsmall p0 hp0; unfold startOf; omega) (by omega)
    refine ⟨rfl, rfl, ⟨_, ?_, hincr⟩, ?_, ?_⟩
    · intro p hpp
      rw [hps] at hpp
      simp only [List.head?_cons, Option.mem_def, Option.some.injEq] at hpp
      rw [← hpp]
    · intro a ha
      rcases List.mem_cons.1 ha with h | h
      · omega
      · exact hold a h
    · intro p hpp A hA
      by_cases hin : A ≤ slot small t ∧ slot small t < A + (rule st p).window
      · have hal := aligned_le hs hA (slot_dvd small t) (C.w p hpp).2.2 hin.2
        have := Window.countP_le_one_more (p := fun a => decide (A ≤ slot small a ∧ slot small a < A + (rule st p).window))
          (q := fun a => decide (startOf st small (slot small t) p ≤ slot small a)) t acc (by
            intro a ha h
            simp only [decide_eq_true_eq] at h ⊢
            unfold startOf
            omega)
        have h2 : cnt p < (rule st p).limit := hnone p hpp
        have h3 : cnt p = ((acc.countP fun a => decide (startOf st small (slot small t) p ≤ slot small a) : Nat) : Int) := rfl
        omega
      · have := g.bound p hpp A hA
        rw [List.countP_cons, if_neg (by simpa using hin)]
        simpa using this

/-- Every run: each call is answered with the first exhausted rule, judged by the calls accepted before. -/
theorem run_spec {st : Store} {ps : List Nat} {small : Int} (C : Conf st ps small) {l l' : Lim} {ts : List Int}
    {es : List Ans} (hr : Runs st l ts es l') : ∀ {acc : List Int} {cur : Int}, Good st ps small l acc cur →
      Mono cur ts → (∀ t ∈ ts, 0 ≤ t ∧ t < 2 ^ 63) → ∀ before e after, es = before ++ e :: after →
        e.res = firstExhausted st small (acceptedTimes before ++ acc) e.time ps ∧
        (∀ a ∈ acceptedTimes before ++ acc, a ≤ e.time) := by
  induction hr with
  | nil l => intro _ _ _ _ _ before e after h; simp at h
  | cons order hp he hr ih =>
    rename_i l l1 l2 t ts b es
    intro acc cur g hm ht before e after h
    obtain ⟨h1, h2⟩ := mono_tail hm
    obtain ⟨l1', e1, g1⟩ := step C g h1 (ht _ (by simp)).1 (ht _ (by simp)).2 hp
    rw [he] at e1
    simp only [Except.ok.injEq, Prod.mk.injEq] at e1
    obtain ⟨rfl, hb⟩ := e1
    cases before with
    | nil =>
      simp only [List.nil_append, List.cons.injEq] at h
      rw [← h.1]
      refine ⟨hb, ?_⟩
      intro a ha
      have := g.old a (by simpa [acceptedTimes] using ha)
      simp only
      omega
    | cons e0 before =>
      simp only [List.cons_append, List.cons.injEq] at h
      have := ih g1 h2 (fun x hx => ht x (by simp [hx])) before e after h.2
      rw [← hb] at this
      have hacc : acceptedTimes before ++ (if b = none then t :: acc else acc) = acceptedTimes (e0 :: before) ++ acc := by
        rw [← h.1]
        unfold acceptedTimes
        cases b with
        | none => simp
        | some v => simp
      rw [hacc] at this
      exact this

/-- The runs of a limiter that was just built, in the store the constructor left. -/
structure Start (st : Store) (small : Int) (ptrs : List Nat) (st' : Store) (l : Lim) : Prop where
  pos : 0 < small
  valid : ∀ p ∈ ptrs, p < st.length
  limits : ∀ p ∈ ptrs, InI64 (rule st p).limit
  windows : ∀ p ∈ ptrs, 0 < (rule st p).window ∧ (rule st p).window < 2 ^ 63
  built : ∃ sorted, SortedBy st ptrs sorted ∧ new st small ptrs sorted = .ok (st', .ok l)

theorem start_conf {st : Store} {small : Int} {ptrs : List Nat} {st' : Store} {l : Lim} (S : Start st small ptrs st' l) :
    Conf st' l.strategies small ∧ l.strategies.Perm ptrs ∧ Same st st' ∧ l.smallWindow = small ∧ l.counters = [] := by
  obtain ⟨sorted, hsort, hnew⟩ := S.built
  have hs : small ≠ 0 := by have := S.pos; omega
  have hvs : ∀ p ∈ sorted, p < st.length := fun p hp => S.valid p (hsort.1.mem_iff.1 hp)
  have hn := hnew
  unfold new at hnew
  split at hnew
  · cases hnew
  · rename_i he
    obtain ⟨st1, e, h1, h2, h3, _, _, h5⟩ := check_spec small hs sorted st none hvs (by simp)
    rw [h1] at hnew
    simp only [Go.bind_ok] at hnew
    cases e with
    | some err => cases hnew
    | none =>
      simp only [Except.ok.injEq, Prod.mk.injEq] at hnew
      obtain ⟨rfl, rfl⟩ := hnew
      obtain ⟨hdec, hdvd⟩ := h3.1 rfl
      refine ⟨⟨S.pos, ?_, ?_, ?_, ?_, ?_⟩, hsort.1, h2, rfl, rfl⟩
      · intro h
        simp only at h
        subst h
        have := List.nil_perm.1 hsort.1
        exact he (by simp [this])
      · intro p hp
        have : p < st1.length := by rw [h2.1]; exact hvs p hp
        obtain ⟨s, a1, _, _⟩ := deref_ok this
        exact ⟨s, a1, h5 rfl p hp s a1⟩
      · intro p hp
        rw [h2.rule]; exact S.limits p (hsort.1.mem_iff.1 hp)
      · intro p hp
        rw [h2.rule]
        have := S.windows p (hsort.1.mem_iff.1 hp)
        exact ⟨this.1, this.2, hdvd p hp⟩
      · refine List.Pairwise.imp ?_ (sorted_rule hsort S.valid)
        intro p q h
        rw [h2.rule, h2.rule]
        omega

theorem start_good {st : Store} {small : Int} {ptrs : List Nat} {st' : Store} {l : Lim} (S : Start st small ptrs st' l)
    (cur : Int) : Good st' l.strategies small l [] cur := by
  obtain ⟨C, _, _, e1, e2⟩ := start_conf S
  refine ⟨rfl, e1, ?_, by simp, ?_⟩
  · cases h : l.strategies with
    | nil => exact ⟨0, by simp, by rw [e2]; exact rep_nil _⟩
    | cons p ps => exact ⟨startOf st' small (slot small cur) p, by simp, by rw [e2]; exact rep_nil _⟩
  · intro p _ A _
    simp only [List.countP_nil]
    omega

/-- **C42 (success).** A call succeeds exactly if no configured rule is exhausted, judged by the calls accepted before: a
rejected call is not recorded. -/
theorem C42_succeeds {st : Store} {small t0 : Int} {ptrs : List Nat} {st' : Store} {l l' : Lim} {ts : List Int}
    {es : List Ans} (S : Start st small ptrs st' l) (hr : Runs st' l ts es l') (hm : Mono t0 ts)
    (ht : ∀ t ∈ ts, 0 ≤ t ∧ t < 2 ^ 63) (before : List Ans) (e : Ans) (after : List Ans) (h : es = before ++ e :: after) :
    e.res = none ↔ ∀ p ∈ ptrs, ¬ exhausted small (acceptedTimes before) e.time (rule st p) := by
  obtain ⟨C, hperm, hsame, _, _⟩ := start_conf S
  have := (run_spec C hr (start_good S t0) hm ht before e after h).1
  rw [List.append_nil] at this
  rw [this]
  unfold firstExhausted
  rw [Option.map_eq_none_iff, List.find?_eq_none]
  simp only [decide_eq_true_eq, hsame.rule, hperm.mem_iff]

theorem find_first {ps : List Nat} {f : Nat → Bool} {R : Nat → Nat → Prop} (hpw : ps.Pairwise R) {p : Nat}
    (h : ps.find? f = some p) : p ∈ ps ∧ f p = true ∧ ∀ q ∈ ps, f q = true → q = p ∨ R p q := by
  induction ps with
  | nil => simp at h
  | cons a ps ih =>
    rw [List.pairwise_cons] at hpw
    by_cases ha : f a = true
    · rw [List.find?_cons_of_pos ha] at h
      simp only [Option.some.injEq] at h
      subst h
      refine ⟨by simp, ha, ?_⟩
      intro q hq _
      rcases List.mem_cons.1 hq with h | h
      · exact .inl h
      · exact .inr (hpw.1 q h)
    · rw [List.find?_cons_of_neg ha] at h
      obtain ⟨h1, h2, h3⟩ := ih hpw.2 h
      refine ⟨by simp [h1], h2, ?_⟩
      intro q hq hfq
      rcases List.mem_cons.1 hq with h | h
      · subst h; exact absurd hfq ha
      · exact h3 q h hfq

/-- **C42 (failure).** When a call fails, the error names a configured rule that is exhausted, and every exhausted rule has
a window no larger than the one named. -/
theorem C42_reports {st : Store} {small t0 : Int} {ptrs : List Nat} {st' : Store} {l l' : Lim} {ts : List Int}
    {es : List Ans} (S : Start st small ptrs st' l) (hr : Runs st' l ts es l') (hm : Mono t0 ts)
    (ht : ∀ t ∈ ts, 0 ≤ t ∧ t < 2 ^ 63) (before : List Ans) (e : Ans) (after : List Ans) (h : es = before ++ e :: after)
    (L W : Int) (he : e.res = some (L, W)) :
    (∃ p ∈ ptrs, rule st p = ⟨L, W⟩) ∧ exhausted small (acceptedTimes before) e.time ⟨L, W⟩ ∧
      ∀ q ∈ ptrs, exhausted small (acceptedTimes before) e.time (rule st q) → (rule st q).window ≤ W := by
  obtain ⟨C, hperm, hsame, _, _⟩ := start_conf S
  have := (run_spec C hr (start_good S t0) hm ht before e after h).1
  rw [List.append_nil, he] at this
  unfold firstExhausted at this
  have := this.symm
  rw [Option.map_eq_some_iff] at this
  obtain ⟨p, hp, hpe⟩ := this
  simp only [Prod.mk.injEq] at hpe
  obtain ⟨h1, h2, h3⟩ := find_first C.sorted hp
  have hrule : rule st p = ⟨L, W⟩ := by
    rw [← hsame.rule, ← hpe.1, ← hpe.2]
  refine ⟨⟨p, hperm.mem_iff.1 h1, hrule⟩, ?_, ?_⟩
  · simp only [decide_eq_true_eq, hsame.rule, hrule] at h2
    exact h2
  · intro q hq hqe
    have := h3 q (hperm.mem_iff.2 hq) (by simpa [hsame.rule] using hqe)
    rcases this with h | h
    · subst h; rw [hrule]
    · rw [hsame.rule, hsame.rule, hrule] at h; exact h

theorem log_bound {st : Store} {ps : List Nat} {small : Int} (C : Conf st ps small) {l l' : Lim} {ts : List Int}
    {es : List Ans} (hr : Runs st l ts es l') : ∀ {acc : List Int} {cur : Int}, Good st ps small l acc cur →
      Mono cur ts → (∀ t ∈ ts, 0 ≤ t ∧ t < 2 ^ 63) → ∀ p ∈ ps, ∀ A, small ∣ A →
      (((acceptedTimes es ++ acc).countP fun a => decide (A ≤ slot small a ∧ slot small a < A + (rule st p).window) : Nat) : Int) ≤
        max (rule st p).limit 0 := by
  induction hr with
  | nil l =>
    intro acc cur g _ _ p hp A hA
    simpa [acceptedTimes] using g.bound p hp A hA
  | cons order hp he hr ih =>
    rename_i l l1 l2 t ts b es
    intro acc cur g hm ht p hpp A hA
    obtain ⟨h1, h2⟩ := mono_tail hm
    obtain ⟨l1', e1, g1⟩ := step C g h1 (ht _ (by simp)).1 (ht _ (by simp)).2 hp
    rw [he] at e1
    simp only [Except.ok.injEq, Prod.mk.injEq] at e1
    obtain ⟨rfl, hb⟩ := e1
    have := ih g1 h2 (fun x hx => ht x (by simp [hx])) p hpp A hA
    rw [← hb] at this
    have hacc : acceptedTimes es ++ (if b = none then t :: acc else acc) = acceptedTimes (⟨t, b⟩ :: es) ++ acc := by
      unfold acceptedTimes
      cases b with
      | none => simp
      | some v => simp
    rw [hacc] at this
    exact this

/-- **C41.** For every configuration the constructor accepts (positive windows), every history with a clock that does not
run backwards and every order in which the map is visited: for every configured rule, at most `limit` calls are accepted in
every interval `[A, A + window)` that starts at a small window. -/
theorem C41_every_rule {st : Store} {small t0 : Int} {ptrs : List Nat} {st' : Store} {l l' : Lim} {ts : List Int}
    {es : List Ans} (S : Start st small ptrs st' l) (hr : Runs st' l ts es l') (hm : Mono t0 ts)
    (ht : ∀ t ∈ ts, 0 ≤ t ∧ t < 2 ^ 63) (p : Nat) (hp : p ∈ ptrs) (A : Int) (hA : small ∣ A) :
    (((acceptedTimes es).countP fun a => decide (A ≤ a ∧ a < A + (rule st p).window) : Nat) : Int) ≤
      max (rule st p).limit 0 := by
  obtain ⟨C, hperm, hsame, _, _⟩ := start_conf S
  have := log_bound C hr (start_good S t0) hm ht p (hperm.mem_iff.2 hp) A hA
  rw [List.append_nil, hsame.rule] at this
  refine le_trans (Int.ofNat_le.2 (List.countP_mono_left ?_)) this
  intro a _ h
  simp only [decide_eq_true_eq] at h ⊢
  have h1 := slot_mono S.pos h.1
  have h2 : slot small A = A := by unfold slot; exact Int.ediv_mul_cancel hA
  have h3 := slot_le (t := a) S.pos
  omega

/-- 2 calls per 10 ns and 3 per 30 ns: the fourth call within 30 ns violates the larger window although the smaller one is
exhausted as well. -/
example : ∃ l', Runs [⟨2, 10, 1⟩, ⟨3, 30, 3⟩] ⟨[1, 0], 10, []⟩ [5, 15, 16, 17, 35, 40]
    [⟨5, none⟩, ⟨15, none⟩, ⟨16, none⟩, ⟨17, some (3, 30)⟩, ⟨35, none⟩, ⟨40, none⟩] l' := by
  refine ⟨_, .cons _ (List.Perm.refl _) rfl (.cons _ (List.Perm.refl _) rfl (.cons _ (List.Perm.refl _) rfl
    (.cons _ (List.Perm.refl _) rfl (.cons _ (List.Perm.refl _) rfl (.cons _ (List.Perm.refl _) rfl (.nil _))))))⟩

/-! ## C44 -/

/-- `TryAcquire` reads the store only at the pointers of the limiter. -/
theorem tryAcquire_congr {st st' : Store} {l : Lim} (h : ∀ p ∈ l.strategies, st'[p]? = st[p]?) (order : List (Int × Int))
    (now : Int) : tryAcquire st' l order now = tryAcquire st l order now := by
  have hd : ∀ p ∈ l.strategies, deref st' p = deref st p := fun p hp => by unfold deref; rw [h p hp]
  have h1 : ∀ (small cur : Int) (ps : List Nat), (∀ p ∈ ps, deref st' p = deref st p) →
      starts st' small cur ps = starts st small cur ps := by
    intro small cur ps
    induction ps with
    | nil => intro _; rfl
    | cons p ps ih =>
      intro hps
      simp only [starts, hps p (by simp), ih fun q hq => hps q (by simp [hq])]
  have h2 : ∀ (ps : List Nat) (ns : List Int), (∀ p ∈ ps, deref st' p = deref st p) →
      violated st' ps ns = violated st ps ns := by
    intro ps
    induction ps with
    | nil => intro ns _; rfl
    | cons p ps ih =>
      intro ns hps
      cases ns with
      | nil => rfl
      | cons n ns => simp only [violated, hps p (by simp), ih ns fun q hq => hps q (by simp [hq])]
  unfold tryAcquire
  simp only [h1 _ _ _ hd]
  refine bind_congr fun cur => bind_congr fun ss => bind_congr fun x => ?_
  simp only [h2 _ _ hd]

/-- **C44 (what holds).** Building a second limiter does not affect the calls of the first one if it uses other strategy
objects, or if it uses the same small window. -/
theorem C44_independent_partial {st1 st2 : Store} {small small2 : Int} {ptrs ptrs2 sorted2 : List Nat} {st : Store}
    {l : Lim} {r : Except NewError Lim} (S : Start st small ptrs st1 l) (hs2 : small2 ≠ 0)
    (hv2 : ∀ p ∈ ptrs2, p < st1.length) (hsort2 : SortedBy st1 ptrs2 sorted2)
    (hnew2 : new st1 small2 ptrs2 sorted2 = .ok (st2, r)) (hindep : small2 = small ∨ ∀ p ∈ ptrs, p ∉ ptrs2)
    (l' : Lim) (hl' : l'.strategies = l.strategies) (order : List (Int × Int)) (now : Int) :
    tryAcquire st2 l' order now = tryAcquire st1 l' order now := by
  obtain ⟨C, hperm, _, _, _⟩ := start_conf S
  apply tryAcquire_congr
  intro p hp
  rw [hl'] at hp
  unfold new at hnew2
  split at hnew2
  · simp only [Except.ok.injEq, Prod.mk.injEq] at hnew2
    rw [hnew2.1]
  · obtain ⟨st3, e, h1, h2, h3, h4, h6, h5⟩ := check_spec small2 hs2 sorted2 st1 none
      (fun p hp => hv2 p (hsort2.1.mem_iff.1 hp)) (by simp)
    rw [h1] at hnew2
    simp only [Go.bind_ok] at hnew2
    have hst : st3 = st2 := by
      cases e <;> simp only [Except.ok.injEq, Prod.mk.injEq] at hnew2 <;> exact hnew2.1
    subst hst
    rcases hindep with h | h
    · subst h
      obtain ⟨s, hs, hsw⟩ := C.obj p hp
      have hlt : p < st3.length := by rw [h2.1]; exact (List.getElem?_eq_some_iff.1 hs).1
      obtain ⟨s', hs', _, hr'⟩ := deref_ok hlt
      have hrule := h2.rule p
      rw [hr'] at hrule
      have hr : rule st1 p = ⟨s.limit, s.window⟩ := by unfold rule; rw [hs]
      rw [hr] at hrule
      simp only [Rule.mk.injEq] at hrule
      rcases h6 p s' hs' with h | h
      · rw [hs', h]
      · rw [hs', hs]
        congr 1
        cases s; cases s'
        simp only at hsw h hrule
        simp only [Strategy.mk.injEq]
        refine ⟨hrule.1, hrule.2, ?_⟩
        rw [h, hsw, hrule.2]
    · exact h4 p fun hm => h p (hperm.mem_iff.1 hp) (hsort2.1.mem_iff.1 hm)

/-- **C44 is false.** One strategy, 2 calls per 10 ns, used first for a limiter with small windows of 1 ns: its third
call within the window is rejected. Building another limiter with small windows of 10 ns from the same strategy object
changes the first one: the third call is accepted. -/
theorem C44_independent_refuted :
    ∃ (st st1 st2 : Store) (l l2 : Lim), st = [newStrategy 2 10] ∧ Start st 1 [0] st1 l ∧
      SortedBy st1 [0] [0] ∧ new st1 10 [0] [0] = .ok (st2, .ok l2) ∧
      (∃ l', Runs st1 l [0, 1, 2] [⟨0, none⟩, ⟨1, none⟩, ⟨2, some (2, 10)⟩] l') ∧
      (∃ l', Runs st2 l [0, 1, 2] [⟨0, none⟩, ⟨1, none⟩, ⟨2, none⟩] l') := by
  refine ⟨[newStrategy 2 10], [⟨2, 10, 10⟩], [⟨2, 10, 1⟩], ⟨[0], 1, []⟩, ⟨[0], 10, []⟩, rfl, ?_,
    ⟨List.Perm.refl _, by simp⟩, by decide, ?_, ?_⟩
  · refine ⟨by decide, by decide, by decide, by decide, [0], ⟨List.Perm.refl _, by simp⟩, by decide⟩
  · exact ⟨_, .cons _ (List.Perm.refl _) rfl (.cons _ (List.Perm.refl _) rfl (.cons _ (List.Perm.refl _) rfl (.nil _)))⟩
  · exact ⟨_, .cons _ (List.Perm.refl _) rfl (.cons _ (List.Perm.refl _) rfl (.cons _ (List.Perm.refl _) rfl (.nil _)))⟩

end Log
end Verif.Limiter
