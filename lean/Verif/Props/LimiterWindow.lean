import Verif.Proof.Counters
import Verif.Props.Limiter

/-! # C39, C40: the sliding window -/

namespace Verif.Limiter

/-! ## Specification

A call is described by its time only.  The small windows are the intervals `[k * small, (k + 1) * small)`. -/

namespace WindowSpec

/-- The beginning of the small window of time `t`. -/
def slot (small t : Int) : Int := t / small * small

/-- A call at `t` is admitted if fewer than `limit` calls were accepted in the `window / small` small windows that end with
the one of `t`. -/
def admits (limit window small : Int) (acc : List Int) (t : Int) : Bool :=
  decide (((acc.countP fun a => decide (slot small t - (window - small) ≤ slot small a) : Nat) : Int) < limit)

/-- The answers to a sequence of calls, `acc` being the times of the calls accepted before. -/
def answers (limit window small : Int) (acc : List Int) : List Int → List Event
  | [] => []
  | t :: ts =>
    if admits limit window small acc t then ⟨t, true⟩ :: answers limit window small (t :: acc) ts
    else ⟨t, false⟩ :: answers limit window small acc ts

end WindowSpec

open WindowSpec

theorem slot_le {small t : Int} (hs : 0 < small) : slot small t ≤ t := by
  unfold slot
  have := Int.mul_ediv_add_emod t small
  have := Int.emod_nonneg t (Int.ne_of_gt hs)
  rw [Int.mul_comm]
  omega

theorem lt_slot {small t : Int} (hs : 0 < small) : t - small < slot small t := by
  unfold slot
  have := Int.mul_ediv_add_emod t small
  have := Int.emod_lt_of_pos t hs
  rw [Int.mul_comm]
  omega

theorem slot_mono {small t u : Int} (hs : 0 < small) (h : t ≤ u) : slot small t ≤ slot small u := by
  unfold slot
  exact Int.mul_le_mul_of_nonneg_right (Int.ediv_le_ediv hs h) (by omega)

theorem slot_dvd (small t : Int) : small ∣ slot small t := ⟨t / small, by unfold slot; rw [Int.mul_comm]⟩

theorem slot_nonneg {small t : Int} (hs : 0 < small) (h : 0 ≤ t) : 0 ≤ slot small t :=
  Int.mul_nonneg (Int.ediv_nonneg h (by omega)) (by omega)

/-- Two multiples of `small` less than `k * small` apart are at most `(k - 1) * small` apart. -/
theorem aligned_le {small a b w : Int} (hs : 0 < small) (ha : small ∣ a) (hb : small ∣ b) (hw : small ∣ w) (h : b < a + w) :
    b ≤ a + w - small := by
  obtain ⟨x, rfl⟩ := ha
  obtain ⟨y, rfl⟩ := hb
  obtain ⟨z, rfl⟩ := hw
  rw [← Int.mul_add] at h ⊢
  have h1 : y < x + z := Int.lt_of_mul_lt_mul_left h (by omega)
  have h2 : small * y ≤ small * (x + z - 1) := Int.mul_le_mul_of_nonneg_left (by omega) (by omega)
  rw [Int.mul_sub] at h2
  omega

theorem smallWindowOf_ok {now small : Int} (hs : 0 < small) (h0 : 0 ≤ now) (h1 : now < 2 ^ 63) :
    smallWindowOf now small = .ok (slot small now) := by
  have hd : 0 ≤ now / small := Int.ediv_nonneg h0 (by omega)
  have hd2 : now / small ≤ now := Int.ediv_le_self _ h0
  have h2 := slot_le (t := now) hs
  have h3 := slot_nonneg hs h0
  unfold smallWindowOf
  rw [if_neg (by omega), Int.tdiv_eq_ediv_of_nonneg h0, wrap64_of_in (x := now / small) (by unfold InI64; omega)]
  unfold slot at *
  rw [wrap64_of_in (by unfold InI64; omega)]

/-- The start of the window, without machine arithmetic. -/
theorem start_ok {cur small window : Int} (hs : 0 < small) (hw : 0 < window) (hw2 : window < 2 ^ 63) (hdvd : small ∣ window)
    (h0 : 0 ≤ cur) (h1 : cur < 2 ^ 63) :
    wrap64 (cur - wrap64 (small * wrap64 (wrap64 (window.tdiv small) - 1))) = cur - (window - small) := by
  obtain ⟨n, rfl⟩ := hdvd
  have hn : 0 < n := Int.pos_of_mul_pos_right hw hs
  have hnle : n ≤ small * n := by
    have := Int.mul_le_mul_of_nonneg_right (show 1 ≤ small by omega) (show 0 ≤ n by omega)
    omega
  have hsle : small ≤ small * n := by
    have := Int.mul_le_mul_of_nonneg_left (show 1 ≤ n by omega) (show 0 ≤ small by omega)
    omega
  rw [Int.mul_tdiv_cancel_left n (by omega), wrap64_of_in (x := n) (by unfold InI64; omega),
    wrap64_of_in (x := n - 1) (by unfold InI64; omega), Int.mul_sub, Int.mul_one,
    wrap64_of_in (x := small * n - small) (by unfold InI64; omega), wrap64_of_in (by unfold InI64; omega)]

namespace Window

open Counters

theorem scan_eq (start : Int) : ∀ (order : List (Int × Int)) (m : Counters) (n : Int),
    scan start order (m, wrap64 n) =
      (m.filter fun e => !decide (e.1 < start ∧ e.1 ∈ order.map Prod.fst), wrap64 (n + sumFrom start order))
  | [], m, n => by simp [scan, sumFrom]
  | (w, c) :: order, m, n => by
    simp only [scan, sumFrom_cons]
    by_cases h : w < start
    · rw [if_pos h, scan_eq start order, if_neg (by omega)]
      refine Prod.ext ?_ ?_
      · simp only [Counters.del, List.filter_filter]
        apply List.filter_congr
        rintro ⟨x, y⟩ _
        by_cases hxw : x = w
        · subst hxw; simp [h]
        · have : x ∈ List.map Prod.fst ((w, c) :: order) ↔ x ∈ List.map Prod.fst order := by
            rw [List.map_cons, List.mem_cons]; simp only [hxw, false_or]
          simp only [this] <;> simp [hxw]
      · simp
    · rw [if_neg h, wrap64_add_wrap64, scan_eq start order, if_pos (by omega)]
      refine Prod.ext ?_ ?_
      · apply List.filter_congr
        rintro ⟨x, y⟩ _
        by_cases hxw : x = w
        · subst hxw; simp [h]
        · have : x ∈ List.map Prod.fst ((w, c) :: order) ↔ x ∈ List.map Prod.fst order := by
            rw [List.map_cons, List.mem_cons]; simp only [hxw, false_or]
          simp only [this] <;> simp [hxw]
      · simp only [Int.add_assoc]

/-- The scan of a whole map: the counters before `start` are gone, the others are added up. -/
theorem scan_map {start : Int} {order : List (Int × Int)} {m : Counters} (hp : order.Perm m) :
    scan start order (m, 0) = (m.filter fun e => decide (start ≤ e.1), wrap64 (sumFrom start order)) := by
  have h := scan_eq start order m 0
  rw [show wrap64 0 = 0 by decide] at h
  rw [h]
  refine Prod.ext ?_ (by simp)
  apply List.filter_congr
  rintro ⟨x, y⟩ hx
  have : x ∈ order.map Prod.fst := List.mem_map.2 ⟨(x, y), hp.mem_iff.2 hx, rfl⟩
  simp only [this, and_true]
  rw [Bool.eq_iff_iff]
  simp

/-- What is known about a limiter after calls up to time `cur`, `acc` being the times of the accepted ones. -/
structure Good (limit window small : Int) (l : Lim) (acc : List Int) (cur : Int) : Prop where
  lim : l.limit = limit
  sw : l.smallWindow = small
  sws : l.smallWindows = wrap64 (window.tdiv small)
  rep : ∃ D, D ≤ slot small cur - (window - small) ∧ Rep l.counters (acc.map (slot small)) D
  old : ∀ a ∈ acc, a ≤ cur
  bound : ∀ A, small ∣ A → ((acc.countP fun a => decide (A ≤ slot small a ∧ slot small a < A + window) : Nat) : Int) ≤
    max limit 0

/-- The hypotheses on the parameters. -/
structure Params (limit window small : Int) : Prop where
  l : InI64 limit
  s : 0 < small
  w : 0 < window
  w2 : window < 2 ^ 63
  dvd : small ∣ window

theorem countP_le_one_more {p q : Int → Bool} (t : Int) (acc : List Int) (h : ∀ a ∈ acc, p a = true → q a = true) :
    (t :: acc).countP p ≤ acc.countP q + 1 := by
  rw [List.countP_cons]
  have := List.countP_mono_left h
  split <;> omega

/-- One call answers as the specification says, in whatever order the map is visited. -/
theorem step {limit window small : Int} (P : Params limit window small) {l : Lim} {acc : List Int} {cur t : Int}
    (g : Good limit window small l acc cur) (hct : cur ≤ t) (h0 : 0 ≤ t) (h1 : t < 2 ^ 63) {order : List (Int × Int)}
    (hp : order.Perm l.counters) :
    ∃ l', tryAcquire l order t = .ok (l', admits limit window small acc t) ∧
      Good limit window small l' (if admits limit window small acc t then t :: acc else acc) t ∧
      (∀ e ∈ l'.counters, slot small t - (window - small) ≤ e.1 ∧ e.1 ≤ slot small t ∧ small ∣ e.1) ∧
      (l'.counters.map Prod.fst).Nodup := by
  obtain ⟨hl, hs, hw, hw2, hdvd⟩ := P
  obtain ⟨D, hD, rep⟩ := g.rep
  have hslot0 := slot_nonneg hs h0
  have hslot1 := slot_le (t := t) hs
  have hmono := slot_mono hs hct
  have hsw : small ≤ window := Int.le_of_dvd hw hdvd
  have hDs : D ≤ slot small t - (window - small) := by omega
  -- the count
  have hsum := (rep.perm hp).sum hDs
  rw [List.countP_map] at hsum
  have hcomp : ((fun w => decide (slot small t - (window - small) ≤ w)) ∘ slot small) =
      fun a => decide (slot small t - (window - small) ≤ slot small a) := rfl
  rw [hcomp] at hsum
  have hbound : ((acc.countP fun a => decide (slot small t - (window - small) ≤ slot small a) : Nat) : Int) ≤ max limit 0 := by
    refine le_trans ?_ (g.bound (slot small t - (window - small)) ?_)
    · refine Int.ofNat_le.2 (List.countP_mono_left ?_)
      intro a ha h
      simp only [decide_eq_true_eq] at h ⊢
      have := slot_mono hs (show a ≤ t from by have := g.old a ha; omega)
      exact ⟨h, by omega⟩
    · exact Int.dvd_sub (slot_dvd _ _) (Int.dvd_sub hdvd (Int.dvd_refl _))
  have hl2 := hl.2
  have hl1 := hl.1
  have hstart : wrap64 (slot small t - wrap64 (l.smallWindow * wrap64 (l.smallWindows - 1))) =
      slot small t - (window - small) := by
    rw [g.sw, g.sws]; exact start_ok hs hw hw2 hdvd hslot0 (by omega)
  have hdrop := rep.drop hDs
  have hkeys : ∀ e ∈ l.counters.filter (fun e => decide (slot small t - (window - small) ≤ e.1)),
      slot small t - (window - small) ≤ e.1 ∧ e.1 ≤ slot small t ∧ small ∣ e.1 := by
    intro e he
    obtain ⟨e1, e2, e3⟩ := hdrop.ent e he
    refine ⟨e1, ?_⟩
    have : e.1 ∈ acc.map (slot small) := by
      apply Decidable.byContradiction
      intro hno
      rw [List.count_eq_zero.2 hno] at e2
      omega
    obtain ⟨a, ha, hae⟩ := List.mem_map.1 this
    rw [← hae]
    exact ⟨slot_mono hs (by have := g.old a ha; omega), slot_dvd _ _⟩
  have hold : ∀ a ∈ acc, a ≤ t := fun a ha => by have := g.old a ha; omega
  unfold tryAcquire
  rw [g.sw, smallWindowOf_ok hs h0 h1]
  simp only [Go.bind_ok]
  rw [g.sw] at hstart
  rw [hstart, scan_map hp, hsum, wrap64_of_in (by unfold InI64; omega), g.lim]
  by_cases hc : ((acc.countP fun a => decide (slot small t - (window - small) ≤ slot small a) : Nat) : Int) ≥ limit
  · have hadm : admits limit window small acc t = false := by
      unfold admits; simp only [decide_eq_false_iff_not]; omega
    rw [hadm]
    simp only [if_pos hc]
    refine ⟨_, rfl, ?_, hkeys, hdrop.nodup⟩
    exact ⟨rfl, rfl, g.sws, ⟨_, Int.le_refl _, hdrop⟩, hold, g.bound⟩
  · have hadm : admits limit window small acc t = true := by
      unfold admits; simp only [decide_eq_true_eq]; omega
    rw [hadm]
    simp only [if_neg hc, if_true]
    have hcnt : (((acc.map (slot small)).count (slot small t) : Nat) : Int) ≤
        (acc.countP fun a => decide (slot small t - (window - small) ≤ slot small a) : Nat) := by
      rw [List.count_eq_countP, List.countP_map]
      refine Int.ofNat_le.2 (List.countP_mono_left ?_)
      intro a _ h
      simp only [Function.comp_apply, beq_iff_eq] at h
      simp only [decide_eq_true_eq, h]
      omega
    have hincr := hdrop.incr (w := slot small t) (by omega) (by omega)
    refine ⟨_, rfl, ?_, ?_, hincr.nodup⟩
    · refine ⟨rfl, rfl, g.sws, ⟨_, Int.le_refl _, hincr⟩, ?_, ?_⟩
      · intro a ha
        rcases List.mem_cons.1 ha with h | h
        · omega
        · exact hold a h
      · intro A hA
        by_cases hin : A ≤ slot small t ∧ slot small t < A + window
        · have hal := aligned_le hs hA (slot_dvd small t) hdvd hin.2
          have := countP_le_one_more (p := fun a => decide (A ≤ slot small a ∧ slot small a < A + window))
            (q := fun a => decide (slot small t - (window - small) ≤ slot small a)) t acc (by
              intro a ha h
              simp only [decide_eq_true_eq] at h ⊢
              omega)
          omega
        · have := g.bound A hA
          rw [List.countP_cons, if_neg (by simpa using hin)]
          simpa using this
    · intro e he
      simp only [Counters.incr, Counters.put, Counters.del, List.mem_cons, List.mem_filter] at he
      rcases he with he | he
      · rw [he]; exact ⟨by show _ ≤ slot small t; omega, Int.le_refl _, slot_dvd _ _⟩
      · exact hkeys e (by simpa using he.1)

theorem run_spec {limit window small : Int} (P : Params limit window small) {l l' : Lim} {ts : List Int}
    {es : List Event} (hr : Runs l ts es l') : ∀ {acc : List Int} {cur : Int}, Good limit window small l acc cur →
      Mono cur ts → (∀ t ∈ ts, 0 ≤ t ∧ t < 2 ^ 63) → es = answers limit window small acc ts := by
  induction hr with
  | nil l => intros; rfl
  | cons order hp he hr ih =>
    intro acc cur g hm ht
    obtain ⟨h1, h2⟩ := mono_tail hm
    obtain ⟨l1, e1, g1, _⟩ := step P g h1 (ht _ (by simp)).1 (ht _ (by simp)).2 hp
    rw [he] at e1
    simp only [Except.ok.injEq, Prod.mk.injEq] at e1
    obtain ⟨rfl, rfl⟩ := e1
    have := ih g1 h2 (fun x hx => ht x (by simp [hx]))
    simp only [answers]
    split at this <;> rename_i hadm <;> simp only [hadm] <;> simp [this]

theorem good_new {limit window small cur : Int} {l : Lim} (h : new limit window small = .ok (some l)) :
    Good limit window small l [] cur := by
  unfold new at h
  split at h
  · cases h
  · split at h
    · cases h
    · simp only [Except.ok.injEq, Option.some.injEq] at h
      subst h
      refine ⟨rfl, rfl, rfl, ⟨_, Int.le_refl _, rep_nil _⟩, by simp, ?_⟩
      intro A _
      simp only [List.countP_nil]
      omega

theorem params_of_new {limit window small : Int} {l : Lim} (hl : InI64 limit) (hs : 0 < small) (hw : 0 < window)
    (hw2 : window < 2 ^ 63) (h : new limit window small = .ok (some l)) : Params limit window small := by
  refine ⟨hl, hs, hw, hw2, ?_⟩
  unfold new at h
  rw [if_neg (by omega)] at h
  by_cases hm : window.tmod small ≠ 0
  · rw [if_pos hm] at h; cases h
  · exact Int.dvd_of_tmod_eq_zero (Decidable.not_not.1 hm)

/-- **C39 (exact answers).** Every run of a sliding window limiter (positive window and small window, clock readings of the
years 1970-2262 that do not run backwards), whatever the iteration order of the map, answers each call as the
specification does.  In particular the answers do not depend on the iteration order. -/
theorem C39_exact {limit window small t0 : Int} {l l' : Lim} {ts : List Int} {es : List Event} (hl : InI64 limit)
    (hs : 0 < small) (hw : 0 < window) (hw2 : window < 2 ^ 63) (hnew : new limit window small = .ok (some l))
    (hr : Runs l ts es l') (hm : Mono t0 ts) (ht : ∀ t ∈ ts, 0 ≤ t ∧ t < 2 ^ 63) :
    es = answers limit window small [] ts :=
  run_spec (params_of_new hl hs hw hw2 hnew) hr (good_new (cur := t0) hnew) hm ht

/-! ### The constructor -/

/-- **C39 (constructor).** The constructor accepts exactly the small windows that divide the window. -/
theorem C39_new (limit window small : Int) (hs : small ≠ 0) :
    (∃ l, new limit window small = .ok (some l)) ↔ small ∣ window := by
  unfold new
  rw [if_neg hs]
  constructor
  · rintro ⟨l, h⟩
    split at h
    · cases h
    · rename_i hm; exact Int.dvd_of_tmod_eq_zero (Decidable.not_not.1 hm)
  · intro hd
    rw [if_neg (by rw [Int.tmod_eq_zero_of_dvd hd]; simp)]
    exact ⟨_, rfl⟩

/-! ### Bounds, from the specification alone -/

theorem accepted_answers_le {limit window small : Int} (hs : 0 < small) (hdvd : small ∣ window) (A : Int) (hA : small ∣ A) :
    ∀ (ts acc : List Int) (cur : Int), Mono cur ts → (∀ a ∈ acc, a ≤ cur) →
      ((acc.countP fun a => decide (A ≤ a ∧ a < A + window) : Nat) : Int) ≤ max limit 0 →
      ((acc.countP fun a => decide (A ≤ a ∧ a < A + window) : Nat) : Int) +
        accepted (fun t => A ≤ t ∧ t < A + window) (answers limit window small acc ts) ≤ max limit 0
  | [], acc, cur, _, _, h => by simp only [answers, accepted_nil]; omega
  | t :: ts, acc, cur, hm, hacc, h => by
    obtain ⟨h1, h2⟩ := mono_tail hm
    simp only [answers]
    split
    · rename_i hadm
      simp only [admits, decide_eq_true_eq] at hadm
      have key : (((t :: acc).countP fun a => decide (A ≤ a ∧ a < A + window) : Nat) : Int) ≤ max limit 0 := by
        by_cases hin : A ≤ t ∧ t < A + window
        · have hsl := slot_le (t := t) hs
          have hal := aligned_le hs hA (slot_dvd small t) hdvd (by omega)
          have := countP_le_one_more (p := fun a => decide (A ≤ a ∧ a < A + window))
            (q := fun a => decide (slot small t - (window - small) ≤ slot small a)) t acc (by
              intro a ha hh
              simp only [decide_eq_true_eq] at hh ⊢
              have h3 := slot_mono hs hh.1
              have : slot small A = A := by
                unfold slot; exact Int.ediv_mul_cancel hA
              omega)
          omega
        · rw [List.countP_cons, if_neg (by simpa using hin)]
          simpa using h
      have := accepted_answers_le (limit := limit) hs hdvd A hA ts (t :: acc) t h2 (by
        intro a ha
        rcases List.mem_cons.1 ha with h | h
        · omega
        · have := hacc a h; omega) key
      rw [accepted_cons]
      rw [List.countP_cons] at this
      simp only [true_and]
      simp only [decide_eq_true_eq] at this
      split
      · rename_i hcond; rw [if_pos hcond] at this; push_cast at this; omega
      · rename_i hcond; rw [if_neg hcond] at this; push_cast at this; omega
    · have := accepted_answers_le (limit := limit) hs hdvd A hA ts acc t h2 (fun a ha => by have := hacc a ha; omega) h
      rw [accepted_cons]
      simpa using this

/-- **C39 (aligned windows).** In every interval `[A, A + window)` whose start is a multiple of the small window at most
`limit` calls are accepted. -/
theorem C39_aligned {limit window small t0 : Int} {l l' : Lim} {ts : List Int} {es : List Event} (hl : InI64 limit)
    (hs : 0 < small) (hw : 0 < window) (hw2 : window < 2 ^ 63) (hnew : new limit window small = .ok (some l))
    (hr : Runs l ts es l') (hm : Mono t0 ts) (ht : ∀ t ∈ ts, 0 ≤ t ∧ t < 2 ^ 63) (A : Int) (hA : small ∣ A) :
    accepted (fun t => A ≤ t ∧ t < A + window) es ≤ max limit 0 := by
  rw [C39_exact hl hs hw hw2 hnew hr hm ht]
  have := accepted_answers_le (limit := limit) hs (params_of_new hl hs hw hw2 hnew).dvd A hA ts [] t0 hm (by simp)
    (by simp)
  simpa using this

theorem accepted_mono {p q : Int → Prop} [DecidablePred p] [DecidablePred q] (h : ∀ t, p t → q t) (es : List Event) :
    accepted p es ≤ accepted q es := by
  unfold accepted
  refine Int.ofNat_le.2 (List.countP_mono_left ?_)
  intro e _ he
  simp only [Bool.and_eq_true, decide_eq_true_eq] at he ⊢
  exact ⟨he.1, h _ he.2⟩

/-- **C39 (any interval).** In every interval `[a, b]` of length at most `window - smallWindow` at most `limit` calls are
accepted. -/
theorem C39_any_interval {limit window small t0 : Int} {l l' : Lim} {ts : List Int} {es : List Event} (hl : InI64 limit)
    (hs : 0 < small) (hw : 0 < window) (hw2 : window < 2 ^ 63) (hnew : new limit window small = .ok (some l))
    (hr : Runs l ts es l') (hm : Mono t0 ts) (ht : ∀ t ∈ ts, 0 ≤ t ∧ t < 2 ^ 63) (a b : Int)
    (hab : b - a ≤ window - small) :
    accepted (fun t => a ≤ t ∧ t ≤ b) es ≤ max limit 0 := by
  refine le_trans (accepted_mono ?_ es) (C39_aligned hl hs hw hw2 hnew hr hm ht (slot small a) (slot_dvd _ _))
  intro t h
  have h1 := slot_le (t := a) hs
  have h2 := lt_slot (t := a) hs
  omega

/-- A limiter with 2 calls per 20 ns in small windows of 10 ns. -/
example : answers 2 20 10 [] [5, 15, 19, 20, 30, 39] =
    [⟨5, true⟩, ⟨15, true⟩, ⟨19, false⟩, ⟨20, true⟩, ⟨30, true⟩, ⟨39, false⟩] := by decide

/-- Every sequence of calls has a run. -/
theorem runs_exist {limit window small : Int} (P : Params limit window small) : ∀ (ts : List Int) {l : Lim}
    {acc : List Int} {cur : Int}, Good limit window small l acc cur → Mono cur ts → (∀ t ∈ ts, 0 ≤ t ∧ t < 2 ^ 63) →
    ∃ es l', Runs l ts es l'
  | [], l, acc, cur, _, _, _ => ⟨[], l, .nil l⟩
  | t :: ts, l, acc, cur, g, hm, ht => by
    obtain ⟨h1, h2⟩ := mono_tail hm
    obtain ⟨l1, e1, g1, _⟩ := step P g h1 (ht t (by simp)).1 (ht t (by simp)).2 (List.Perm.refl _)
    obtain ⟨es, l', hr⟩ := runs_exist P ts g1 h2 (fun x hx => ht x (by simp [hx]))
    exact ⟨_, l', .cons _ (List.Perm.refl _) e1 hr⟩

theorem answers_fill (limit window small t : Int) : ∀ (n : Nat) (acc : List Int),
    ((acc.countP fun a => decide (slot small t - (window - small) ≤ slot small a) : Nat) : Int) + n ≤ limit → 
      0 < small → 0 < window → small ∣ window → ∀ us,
      answers limit window small acc (List.replicate n t ++ us) =
        List.replicate n ⟨t, true⟩ ++ answers limit window small (List.replicate n t ++ acc) us
  | 0, acc, _, _, _, _, us => by simp
  | n + 1, acc, h, hs, hw, hd, us => by
    have hsw : small ≤ window := Int.le_of_dvd hw hd
    rw [List.replicate_succ, List.cons_append, answers]
    rw [if_pos (by unfold admits; simp only [decide_eq_true_eq]; omega), List.replicate_succ, List.cons_append]
    rw [answers_fill limit window small t n (t :: acc) (by
      rw [List.countP_cons, if_pos (by simp only [decide_eq_true_eq]; omega)]; push_cast; omega) hs hw hd us]
    congr 3
    have : List.replicate n t ++ t :: acc = (List.replicate n t ++ [t]) ++ acc := by simp
    rw [this, ← List.replicate_succ', List.replicate_succ]

/-- **C39 (the bound on the length is sharp).** For every positive limit and every positive window there is a history in
which `2 * limit` calls are accepted within an interval of length `window - smallWindow + 1`, which is less than the window
if the small window is longer than 1 ns. -/
theorem C39_full_length_refuted (limit : Nat) (window small : Int) (hl : InI64 limit) (hl1 : 1 ≤ limit) (hs : 0 < small)
    (hw : 0 < window) (hw2 : window < 2 ^ 63) (hd : small ∣ window) :
    ∃ l ts, new limit window small = .ok (some l) ∧ Mono 0 ts ∧ (∀ t ∈ ts, 0 ≤ t ∧ t < 2 ^ 63) ∧
      (∃ es l', Runs l ts es l') ∧
      ∀ es l', Runs l ts es l' → accepted (fun t => small - 1 ≤ t ∧ t ≤ window) es = 2 * limit := by
  obtain ⟨l, hnew⟩ := (C39_new limit window small (by omega)).2 hd
  have hsw : small ≤ window := Int.le_of_dvd hw hd
  have P : Params limit window small := ⟨hl, hs, hw, hw2, hd⟩
  have hm : Mono 0 (List.replicate limit (small - 1) ++ List.replicate limit window) := by
    unfold Mono
    rw [List.pairwise_cons]
    constructor
    · intro t ht
      rw [List.mem_append, List.mem_replicate, List.mem_replicate] at ht
      omega
    · rw [List.pairwise_append]
      refine ⟨List.pairwise_replicate.2 (.inr (by omega)), List.pairwise_replicate.2 (.inr (by omega)), ?_⟩
      intro x hx y hy
      rw [List.mem_replicate] at hx hy
      omega
  have ht : ∀ t ∈ List.replicate limit (small - 1) ++ List.replicate limit window, 0 ≤ t ∧ t < 2 ^ 63 := by
    intro t ht
    rw [List.mem_append, List.mem_replicate, List.mem_replicate] at ht
    omega
  refine ⟨l, _, hnew, hm, ht, runs_exist P _ (good_new (cur := 0) hnew) hm ht, ?_⟩
  intro es l' hr
  rw [C39_exact hl hs hw hw2 hnew hr hm ht]
  have e1 : slot small (small - 1) = 0 := by
    unfold slot; rw [Int.ediv_eq_zero_of_lt (by omega) (by omega), Int.zero_mul]
  have e2 : slot small window = window := by unfold slot; exact Int.ediv_mul_cancel hd
  rw [answers_fill limit window small (small - 1) limit [] (by simp) hs hw hd]
  have h2 := answers_fill limit window small window limit (List.replicate limit (small - 1) ++ []) (by
    rw [List.append_nil, List.countP_replicate, if_neg (by simp only [decide_eq_true_eq, e1, e2]; omega)]; simp) hs hw hd []
  simp only [List.append_nil] at h2 ⊢
  rw [h2]
  unfold accepted
  simp only [answers, List.append_nil]
  rw [List.countP_append, List.countP_replicate, List.countP_replicate, if_pos (by simp; omega), if_pos (by simp; omega)]
  omega

/-! ### C40 -/

/-- **C40 (size).** After any call the map holds at most `window / smallWindow` counters. -/
theorem C40_size {limit window small t0 : Int} {l l' : Lim} {ts : List Int} {es : List Event} (hl : InI64 limit)
    (hs : 0 < small) (hw : 0 < window) (hw2 : window < 2 ^ 63) (hnew : new limit window small = .ok (some l))
    (hr : Runs l ts es l') (hm : Mono t0 ts) (ht : ∀ t ∈ ts, 0 ≤ t ∧ t < 2 ^ 63) :
    (l'.counters.length : Int) ≤ window / small := by
  have P := params_of_new hl hs hw hw2 hnew
  have hgo : ∀ {l l' : Lim} {ts : List Int} {es : List Event}, Runs l ts es l' → ∀ {acc : List Int} {cur : Int},
      Good limit window small l acc cur → Mono cur ts → (∀ t ∈ ts, 0 ≤ t ∧ t < 2 ^ 63) →
      (l.counters.length : Int) ≤ window / small → (l'.counters.length : Int) ≤ window / small := by
    intro l l' ts es hr
    induction hr with
    | nil l => intro _ _ _ _ _ h; exact h
    | cons order hp he hr ih =>
      intro acc cur g hm ht _
      obtain ⟨h1, h2⟩ := mono_tail hm
      obtain ⟨l1, e1, g1, hk, hn⟩ := step P g h1 (ht _ (by simp)).1 (ht _ (by simp)).2 hp
      rw [he] at e1
      simp only [Except.ok.injEq, Prod.mk.injEq] at e1
      obtain ⟨rfl, rfl⟩ := e1
      refine ih g1 h2 (fun x hx => ht x (by simp [hx])) ?_
      rename_i t _ _ _
      have hpos : 0 ≤ window / small := Int.ediv_nonneg (by omega) (by omega)
      have := length_le (n := (window / small).toNat) (small := small) (lo := slot small t - (window - small)) hs hn (by
        intro e hem
        obtain ⟨k1, k2, k3⟩ := hk e hem
        obtain ⟨x, hx⟩ := k3
        obtain ⟨y, hy⟩ := slot_dvd small t
        obtain ⟨n, hn⟩ := P.dvd
        have hwn : window / small = n := by rw [hn]; exact Int.mul_ediv_cancel_left n (by omega)
        rw [hx, hy, hn] at k1
        rw [hx, hy] at k2
        have i1 : x ≤ y := Int.le_of_mul_le_mul_left k2 hs
        have i2 : small * (y - n + 1) ≤ small * x := by rw [Int.mul_add, Int.mul_sub]; omega
        have i3 : y - n + 1 ≤ x := Int.le_of_mul_le_mul_left i2 hs
        refine ⟨(x - (y - n + 1)).toNat, by omega, ?_⟩
        rw [hx, hy, hn, Int.toNat_of_nonneg (by omega), Int.mul_sub, Int.mul_add, Int.mul_sub]
        omega)
      omega
  refine hgo hr (good_new (cur := t0) hnew) hm ht ?_
  have hc : l.counters = [] := by
    unfold new at hnew
    split at hnew
    · cases hnew
    · split at hnew
      · cases hnew
      · simp only [Except.ok.injEq, Option.some.injEq] at hnew; subst hnew; rfl
  rw [hc]
  exact Int.ediv_nonneg (by omega) (by omega)

theorem spec_reject {limit window small : Int} (hs : 0 < small) : ∀ (ts acc : List Int) (cur : Int), Mono cur ts →
    (∀ a ∈ acc, a ≤ cur) → ∀ before e after, answers limit window small acc ts = before ++ e :: after → e.ok = false →
      limit ≤ ((acc.countP fun a => decide (slot small e.time - (window - small) ≤ a ∧ a ≤ e.time) : Nat) : Int) +
        accepted (fun t => slot small e.time - (window - small) ≤ t ∧ t ≤ e.time) before
  | [], acc, cur, _, _, before, e, after, h, _ => by simp [answers] at h
  | t :: ts, acc, cur, hm, hacc, before, e, after, h, he => by
    obtain ⟨h1, h2⟩ := mono_tail hm
    simp only [answers] at h
    have hacc' : ∀ a ∈ acc, a ≤ t := fun a ha => by have := hacc a ha; omega
    split at h
    · cases before with
      | nil =>
        simp only [List.nil_append, List.cons.injEq] at h
        rw [← h.1] at he; cases he
      | cons e0 before =>
        simp only [List.cons_append, List.cons.injEq] at h
        have := spec_reject hs ts (t :: acc) t h2 (by
          intro a ha
          rcases List.mem_cons.1 ha with h | h
          · omega
          · exact hacc' a h) before e after h.2 he
        rw [← h.1, accepted_cons]
        rw [List.countP_cons] at this
        simp only [true_and]
        simp only [decide_eq_true_eq] at this
        split
        · rename_i hcond; rw [if_pos hcond] at this; push_cast at this; omega
        · rename_i hcond; rw [if_neg hcond] at this; push_cast at this; omega
    · rename_i hadm
      cases before with
      | nil =>
        simp only [List.nil_append, List.cons.injEq] at h
        rw [← h.1, accepted_nil]
        simp only [admits, decide_eq_true_eq] at hadm
        have : acc.countP (fun a => decide (slot small t - (window - small) ≤ slot small a)) ≤
            acc.countP (fun a => decide (slot small t - (window - small) ≤ a ∧ a ≤ t)) := by
          apply List.countP_mono_left
          intro a ha hh
          simp only [decide_eq_true_eq] at hh ⊢
          have := slot_le (t := a) hs
          exact ⟨by omega, hacc' a ha⟩
        simp only
        omega
      | cons e0 before =>
        simp only [List.cons_append, List.cons.injEq] at h
        have := spec_reject hs ts acc t h2 hacc' before e after h.2 he
        rw [← h.1, accepted_cons]
        simpa using this

/-- **C40 (rejections).** A call is rejected only if at least `limit` calls were accepted since the start of the current
window, that is within less than `window` before the call. -/
theorem C40_no_spurious {limit window small t0 : Int} {l l' : Lim} {ts : List Int} {es : List Event} (hl : InI64 limit)
    (hs : 0 < small) (hw : 0 < window) (hw2 : window < 2 ^ 63) (hnew : new limit window small = .ok (some l))
    (hr : Runs l ts es l') (hm : Mono t0 ts) (ht : ∀ t ∈ ts, 0 ≤ t ∧ t < 2 ^ 63)
    (before : List Event) (e : Event) (after : List Event) (h : es = before ++ e :: after) (he : e.ok = false) :
    limit ≤ accepted (fun t => e.time - window < t ∧ t ≤ e.time) before := by
  rw [C39_exact hl hs hw hw2 hnew hr hm ht] at h
  have := spec_reject hs ts [] t0 hm (by simp) before e after h he
  simp only [List.countP_nil, Nat.cast_zero, Int.zero_add] at this
  refine le_trans this (accepted_mono ?_ before)
  intro t h
  have := lt_slot (t := e.time) hs
  omega

/-- **C39 needs a positive window**: the constructor accepts the window 0, and such a limiter with a positive limit accepts
every call. -/
theorem C39_zero_window_refuted (limit small : Int) (hl : 0 < limit) (hs : 0 < small) (hs2 : small < 2 ^ 62) :
    ∃ l, new limit 0 small = .ok (some l) ∧ ∀ ts es l', Mono 0 ts → (∀ t ∈ ts, t < 2 ^ 62) → Runs l ts es l' →
      ∀ e ∈ es, e.ok = true := by
  refine ⟨⟨limit, 0, small, 0, []⟩, ?_, ?_⟩
  · unfold new; rw [if_neg (by omega)]; simp [wrap64]
  · intro ts es l' hm ht hr
    have hgo : ∀ {l l' : Lim} {ts : List Int} {es : List Event}, Runs l ts es l' → ∀ {cur : Int}, 0 ≤ cur → Mono cur ts →
        (∀ t ∈ ts, t < 2 ^ 62) → l.limit = limit → l.smallWindow = small → l.smallWindows = 0 →
        (∀ e ∈ l.counters, e.1 ≤ slot small cur) → ∀ e ∈ es, e.ok = true := by
      intro l l' ts es hr
      induction hr with
      | nil l => intros; simp_all
      | cons order hp he hr ih =>
        rename_i l l1 l2 t ts b es
        intro cur hc hm ht e1 e2 e3 hk e hem
        obtain ⟨h1, h2⟩ := mono_tail hm
        have ht1 := ht t (by simp)
        have hsl := slot_le (t := t) hs
        have hsl0 := slot_nonneg hs (show 0 ≤ t by omega)
        have hsm := slot_mono hs h1
        unfold tryAcquire at he
        rw [e2, smallWindowOf_ok hs (by omega) (by omega)] at he
        simp only [Go.bind_ok, e3] at he
        rw [show wrap64 ((0 : Int) - 1) = -1 by decide, wrap64_of_in (x := small * -1) (by unfold InI64; omega),
          wrap64_of_in (by unfold InI64; omega), scan_map hp] at he
        have hnone : ∀ e ∈ l.counters, ¬ (slot small t - small * -1 ≤ e.1) := by
          intro e he
          have := hk e he
          omega
        have hf1 : (l.counters.filter fun e => decide (slot small t - small * -1 ≤ e.1)) = [] := by
          rw [List.filter_eq_nil_iff]
          intro e he; simpa using hnone e he
        have hf2 : sumFrom (slot small t - small * -1) order = 0 := by
          unfold sumFrom
          rw [List.filter_eq_nil_iff.2 (by intro e he; simpa using hnone e (hp.mem_iff.1 he))]
          rfl
        rw [hf1, hf2, show wrap64 0 = 0 by decide, e1] at he
        simp only at he
        rw [if_neg (by omega)] at he
        simp only [Except.ok.injEq, Prod.mk.injEq] at he
        obtain ⟨rfl, rfl⟩ := he
        rcases List.mem_cons.1 hem with h | h
        · rw [h]
        · refine ih (cur := t) (by omega) h2 (fun x hx => ht x (by simp [hx])) rfl rfl rfl ?_ e h
          intro e he
          simp only [Counters.incr, Counters.put, Counters.del, List.filter_nil, List.mem_singleton] at he
          rw [he]
    exact hgo hr (Int.le_refl 0) hm ht rfl rfl rfl (by simp)

end Window
end Verif.Limiter
