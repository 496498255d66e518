import Verif.Model.Limiter
import Mathlib.Data.List.Basic
import Mathlib.Tactic.Linarith
import Mathlib.Tactic.Ring
import Mathlib.Tactic.Push

/-! # C32–C38: fixed window, leaky bucket, token bucket -/

namespace Verif.Limiter

/-- The clock does not run backwards: the times are non-decreasing from `t0` on. -/
def Mono (t0 : Int) (ts : List Int) : Prop := (t0 :: ts).Pairwise (· ≤ ·)

instance (t0 : Int) (ts : List Int) : Decidable (Mono t0 ts) := by unfold Mono; infer_instance

/-- Number of accepted calls among `es` whose time satisfies `p`. -/
def accepted (p : Int → Prop) [DecidablePred p] (es : List Event) : Int :=
  (es.countP fun e => e.ok && decide (p e.time) : Nat)

/-- Number of accepted calls. -/
def total (es : List Event) : Int := (es.countP fun e => e.ok : Nat)

theorem accepted_cons (p : Int → Prop) [DecidablePred p] (e : Event) (es : List Event) :
    accepted p (e :: es) = accepted p es + if e.ok = true ∧ p e.time then 1 else 0 := by
  unfold accepted
  rw [List.countP_cons]
  by_cases h1 : e.ok = true <;> by_cases h2 : p e.time <;> simp [h1, h2]

theorem accepted_nil (p : Int → Prop) [DecidablePred p] : accepted p [] = 0 := rfl

theorem total_cons (e : Event) (es : List Event) : total (e :: es) = total es + if e.ok = true then 1 else 0 := by
  unfold total
  rw [List.countP_cons]
  by_cases h1 : e.ok = true <;> simp [h1]

theorem total_nil : total [] = 0 := rfl

theorem accepted_nonneg (p : Int → Prop) [DecidablePred p] (es : List Event) : 0 ≤ accepted p es := by
  unfold accepted; omega

theorem mono_tail {t0 t : Int} {ts : List Int} (h : Mono t0 (t :: ts)) : t0 ≤ t ∧ Mono t ts := by
  unfold Mono at *
  rw [List.pairwise_cons] at h
  exact ⟨h.1 t (by simp), h.2⟩

theorem mono_mem {t0 : Int} {ts : List Int} (h : Mono t0 ts) : ∀ t ∈ ts, t0 ≤ t := by
  unfold Mono at h
  rw [List.pairwise_cons] at h
  exact h.1

theorem run_append {L : Type} (f : L → Int → L × Bool) : ∀ (ts us : List Int) (l : L),
    run f l (ts ++ us) = ((run f (run f l ts).1 us).1, (run f l ts).2 ++ (run f (run f l ts).1 us).2)
  | [], us, l => by simp [run]
  | t :: ts, us, l => by simp [run, run_append f ts us]

theorem mono_append {t0 : Int} {ts us : List Int} (h : Mono t0 (ts ++ us)) : Mono t0 ts :=
  List.Pairwise.sublist (List.cons_sublist_cons.2 (List.sublist_append_left ts us)) h

theorem mono_append_right {t0 t : Int} {ts us : List Int} (h : Mono t0 (ts ++ t :: us)) : Mono t us :=
  List.Pairwise.sublist ((List.sublist_append_right ts (t :: us)).trans (List.sublist_cons_self t0 _)) h

theorem mono_le {t0 t1 : Int} {ts : List Int} (h : Mono t0 ts) (h1 : ∀ t ∈ ts, t1 ≤ t) : Mono t1 ts := by
  unfold Mono at *
  rw [List.pairwise_cons] at *
  exact ⟨h1, h.2⟩

/-- The last time seen. -/
def lastOf (cur : Int) (ts : List Int) : Int := (cur :: ts).getLast (by simp)

theorem lastOf_cons (cur t : Int) (ts : List Int) : lastOf cur (t :: ts) = lastOf t ts := by
  unfold lastOf; rw [List.getLast_cons (by simp)]

theorem total_append (es fs : List Event) : total (es ++ fs) = total es + total fs := by
  unfold total; rw [List.countP_append]; omega

/-- The whole seconds in a `Duration`. -/
theorem tdiv_second {t u : Int} (h : u ≤ t) :
    (timeSub t u).tdiv second = timeSub t u / second ∧ 0 ≤ timeSub t u / second ∧
      timeSub t u / second ≤ (t - u) / second ∧ timeSub t u / second ≤ 9223372036 := by
  obtain ⟨h1, h2⟩ := timeSub_le h
  have h3 := (timeSub_in t u).2
  refine ⟨Int.tdiv_eq_ediv_of_nonneg h1, ?_, ?_, ?_⟩ <;> unfold second <;> omega

theorem run_length {L : Type} (f : L → Int → L × Bool) : ∀ (us : List Int) (l : L), (run f l us).2.length = us.length
  | [], l => by simp [run]
  | u :: us, l => by simp [run, run_length f us]

/-- The answers to the calls `ts` in the middle of a history. -/
theorem run_middle {L : Type} (f : L → Int → L × Bool) (l : L) (before ts after : List Int) :
    ((run f l (before ++ ts ++ after)).2.drop before.length).take ts.length = (run f (run f l before).1 ts).2 := by
  rw [List.append_assoc, run_append, List.drop_append_of_le_length (by rw [run_length]),
    List.drop_eq_nil_of_le (by rw [run_length]), List.nil_append, run_append,
    List.take_append_of_le_length (by rw [run_length]), List.take_of_length_le (by rw [run_length])]

/-- The clock between the end of `before` and the calls after it. -/
theorem mono_middle {t0 t : Int} {before ts after : List Int} (hm : Mono t0 (before ++ (t :: ts) ++ after)) :
    Mono t0 before ∧ lastOf t0 before ≤ t ∧ Mono t (t :: ts) := by
  rw [List.append_assoc] at hm
  refine ⟨mono_append hm, ?_, ?_⟩
  · have hm' : ((t0 :: before) ++ ((t :: ts) ++ after)).Pairwise (· ≤ ·) := hm
    rw [List.pairwise_append] at hm'
    exact hm'.2.2 _ (List.getLast_mem _) t (by simp)
  · have h2 := mono_append (mono_append_right (t0 := t0) (ts := before) hm)
    unfold Mono at *
    rw [List.pairwise_cons]
    refine ⟨?_, h2⟩
    intro x hx
    rcases List.mem_cons.1 hx with h | h
    · omega
    · exact (List.pairwise_cons.1 h2).1 x h

/-! ## Fixed window -/

namespace Fixed

/-- The windows of a limiter, by time alone: the first opens at `start`; a call later than `window` after the opening of
the current one opens the next.  `windowsOf` gives for each call the number of its window. -/
def windowsOf (window : Int) (k : Nat) (start : Int) : List Int → List Nat
  | [] => []
  | t :: ts => if t - start > window then (k + 1) :: windowsOf window (k + 1) t ts
    else k :: windowsOf window k start ts

/-- Accepted calls in window number `k`, given the window of each call. -/
def acceptedIn (k : Nat) (es : List Event) (ws : List Nat) : Int :=
  ((es.zip ws).countP fun x => x.1.ok && decide (x.2 = k) : Nat)

theorem acceptedIn_cons (k : Nat) (e : Event) (es : List Event) (w : Nat) (ws : List Nat) :
    acceptedIn k (e :: es) (w :: ws) = acceptedIn k es ws + if e.ok = true ∧ w = k then 1 else 0 := by
  unfold acceptedIn
  rw [List.zip_cons_cons, List.countP_cons]
  by_cases h1 : e.ok = true <;> by_cases h2 : w = k <;> simp [h1, h2]

theorem windowsOf_ge (window : Int) : ∀ (ts : List Int) (k : Nat) (start : Int), ∀ w ∈ windowsOf window k start ts, k ≤ w
  | [], _, _, w, h => by simp [windowsOf] at h
  | t :: ts, k, start, w, h => by
    simp only [windowsOf] at h
    split at h
    · rcases List.mem_cons.1 h with h | h
      · omega
      · have := windowsOf_ge window ts _ _ w h; omega
    · rcases List.mem_cons.1 h with h | h
      · omega
      · exact windowsOf_ge window ts _ _ w h

theorem acceptedIn_lt (window : Int) (ts : List Int) (k k' : Nat) (start : Int) (hk : k' < k) (es : List Event) :
    acceptedIn k' es (windowsOf window k start ts) = 0 := by
  unfold acceptedIn
  have : (es.zip (windowsOf window k start ts)).countP (fun x => x.1.ok && decide (x.2 = k')) = 0 := by
    rw [List.countP_eq_zero]
    rintro ⟨e, w⟩ hx
    have := windowsOf_ge window ts k start w (List.of_mem_zip hx).2
    simp; omega
  rw [this]; rfl

/-- One step, in terms of `reset` decided on the plain difference. -/
theorem reset_cases (l : Lim) (now : Int) (hw : l.window < 2 ^ 63 - 1) (hw2 : -2 ^ 63 ≤ l.window) :
    reset l now = if now - l.lastTime > l.window then { l with counter := 0, lastTime := now } else l := by
  unfold reset
  have : timeSub now l.lastTime > l.window ↔ now - l.lastTime > l.window := by
    unfold timeSub
    split
    · omega
    · split
      · omega
      · rfl
  simp only [this]

theorem c32_aux (limit window : Int) (hl : InI64 limit) (hw : window < 2 ^ 63 - 1) (hw2 : -2 ^ 63 ≤ window) :
    ∀ (ts : List Int) (c start : Int) (k : Nat), 0 ≤ c → c ≤ max limit 0 →
      (∀ k', acceptedIn k' (run tryAcquire ⟨limit, window, c, start⟩ ts).2 (windowsOf window k start ts) ≤
        if k' = k then max limit 0 - c else max limit 0)
  | [], c, start, k, h0, h1, k' => by
    simp only [run, windowsOf]
    show (0 : Int) ≤ _
    split <;> omega
  | t :: ts, c, start, k, h0, h1, k' => by
    have hl2 := hl.2
    simp only [run, tryAcquire, reset_cases ⟨limit, window, c, start⟩ t hw hw2, windowsOf]
    by_cases hr : t - start > window
    · rw [if_pos hr, if_pos hr]
      simp only
      by_cases hc : (0 : Int) ≥ limit
      · rw [if_pos hc]
        simp only [acceptedIn_cons]
        have := c32_aux limit window hl hw hw2 ts 0 t (k + 1) (by omega) (by omega) k'
        simp only [Bool.false_eq_true, false_and, if_false]
        split at this <;> split <;> omega
      · rw [if_neg hc, wrap64_of_in (by unfold InI64; omega)]
        simp only [acceptedIn_cons]
        have := c32_aux limit window hl hw hw2 ts (0 + 1) t (k + 1) (by omega) (by omega) k'
        simp only [true_and]
        by_cases hk : k' = k
        · subst hk
          rw [acceptedIn_lt _ _ _ _ _ (by omega)]
          simp; omega
        · rw [if_neg hk]
          split at this <;> split <;> omega
    · rw [if_neg hr, if_neg hr]
      simp only
      by_cases hc : c ≥ limit
      · rw [if_pos hc]
        simp only [acceptedIn_cons]
        have := c32_aux limit window hl hw hw2 ts c start k h0 h1 k'
        simp only [Bool.false_eq_true, false_and, if_false]
        split at this <;> split <;> omega
      · rw [if_neg hc, wrap64_of_in (by unfold InI64; omega)]
        simp only [acceptedIn_cons]
        have := c32_aux limit window hl hw hw2 ts (c + 1) start k (by omega) (by omega) k'
        simp only [true_and]
        split at this <;> (try split) <;> (try split) <;> omega

/-- **C32.** For every limit, every window (below `math.MaxInt64`) and every sequence of calls, at most `limit` calls
(none, if the limit is not positive) are accepted in each window of the limiter. -/
theorem C32_per_window (limit window t0 : Int) (ts : List Int) (hl : InI64 limit) (hw : InI64 window)
    (hw2 : window < 2 ^ 63 - 1) (k : Nat) :
    acceptedIn k (run tryAcquire (new limit window t0) ts).2 (windowsOf window 0 t0 ts) ≤ max limit 0 := by
  have := c32_aux limit window hl hw2 hw.1 ts 0 t0 0 (by omega) (by omega) k
  show acceptedIn k (run tryAcquire ⟨limit, window, 0, t0⟩ ts).2 _ ≤ _
  split at this <;> omega

/-- Two windows of a limiter with limit 2 and window 10. -/
example : (run tryAcquire (new 2 10 0) [1, 5, 10, 11, 11, 21]).2 =
      [⟨1, true⟩, ⟨5, true⟩, ⟨10, false⟩, ⟨11, true⟩, ⟨11, true⟩, ⟨21, false⟩] ∧
    windowsOf 10 0 0 [1, 5, 10, 11, 11, 21] = [0, 0, 0, 1, 1, 1] := by decide

theorem c33_aux (limit window a b : Int) (hl : InI64 limit) (hab : b - a ≤ window) :
    ∀ (ts : List Int) (c start cur N : Int), start ≤ cur → Mono cur ts → 0 ≤ c → c ≤ max limit 0 →
      N ≤ 2 * max limit 0 → (cur < a → N ≤ 0) → (start < a → N ≤ c) → (start ≤ b → N ≤ max limit 0 + c) →
      N + accepted (fun t => a ≤ t ∧ t ≤ b) (run tryAcquire ⟨limit, window, c, start⟩ ts).2 ≤ 2 * max limit 0
  | [], c, start, cur, N, _, _, h0, h1, h2, h5, h3, h4 => by
    simp only [run, accepted_nil]; omega
  | t :: ts, c, start, cur, N, hsc, hm, h0, h1, h2, h5, h3, h4 => by
    obtain ⟨hct, hm'⟩ := mono_tail hm
    have hl2 := hl.2
    simp only [run, tryAcquire, reset]
    have hsub := timeSub_le (t := t) (u := start) (by omega)
    by_cases hr : timeSub t start > window
    · rw [if_pos hr]
      simp only
      by_cases hc : (0 : Int) ≥ limit
      · rw [if_pos hc]
        simp only [accepted_cons, Bool.false_eq_true, false_and, if_false]
        have := c33_aux limit window a b hl hab ts 0 t t N (by omega) hm' (by omega) (by omega) h2 (by omega) (by omega) (by omega)
        omega
      · rw [if_neg hc, wrap64_of_in (by unfold InI64; omega)]
        simp only [accepted_cons, true_and]
        by_cases hin : a ≤ t ∧ t ≤ b
        · rw [if_pos hin]
          have := c33_aux limit window a b hl hab ts (0 + 1) t t (N + 1) (by omega) hm' (by omega) (by omega) (by omega)
            (by omega) (by omega) (by omega)
          omega
        · rw [if_neg hin]
          have := c33_aux limit window a b hl hab ts (0 + 1) t t N (by omega) hm' (by omega) (by omega) (by omega)
            (by omega) (by omega) (by omega)
          omega
    · rw [if_neg hr]
      simp only
      by_cases hc : c ≥ limit
      · rw [if_pos hc]
        simp only [accepted_cons, Bool.false_eq_true, false_and, if_false]
        have := c33_aux limit window a b hl hab ts c start t N (by omega) hm' h0 h1 h2 (by omega) h3 h4
        omega
      · rw [if_neg hc, wrap64_of_in (by unfold InI64; omega)]
        simp only [accepted_cons, true_and]
        by_cases hin : a ≤ t ∧ t ≤ b
        · rw [if_pos hin]
          have := c33_aux limit window a b hl hab ts (c + 1) start t (N + 1) (by omega) hm' (by omega) (by omega)
            (by omega) (by omega) (by omega)
          omega
        · rw [if_neg hin]
          have := c33_aux limit window a b hl hab ts (c + 1) start t N (by omega) hm' (by omega) (by omega)
            (by omega) (by omega) (by omega)
          omega

/-- **C33.** With a clock that does not run backwards, at most `2 * limit` calls are accepted in any interval `[a, b]` no
longer than the window. -/
theorem C33_any_interval (limit window t0 a b : Int) (ts : List Int) (hl : InI64 limit) (hm : Mono t0 ts)
    (hab : b - a ≤ window) :
    accepted (fun t => a ≤ t ∧ t ≤ b) (run tryAcquire (new limit window t0) ts).2 ≤ 2 * max limit 0 := by
  have := c33_aux limit window a b hl hab ts 0 t0 t0 0 (by omega) hm (by omega) (by omega) (by omega) (by omega) (by omega)
    (by omega)
  rw [Int.zero_add] at this
  exact this

/-- Filling up a window at one point of time. -/
theorem fill (limit window : Int) (hl : InI64 limit) (t start : Int) (hr : ¬ timeSub t start > window) :
    ∀ (n : Nat) (c : Int), 0 ≤ c → c + n ≤ limit →
      run tryAcquire ⟨limit, window, c, start⟩ (List.replicate n t) =
        (⟨limit, window, c + n, start⟩, List.replicate n ⟨t, true⟩)
  | 0, c, _, _ => by simp [run]
  | n + 1, c, h0, h => by
    have hl2 := hl.2
    have hc : ¬ c ≥ limit := by omega
    simp only [List.replicate_succ, run, tryAcquire, reset, if_neg hr]
    rw [if_neg hc, wrap64_of_in (by unfold InI64; omega), fill limit window hl t start hr n (c + 1) (by omega) (by omega)]
    simp only [Prod.mk.injEq, Lim.mk.injEq, true_and, and_true]
    omega

/-- **C33, the bound is reached, the bound `limit` is false**: for every positive limit and window there is a history
with `2 * limit` accepted calls within one nanosecond. -/
theorem C33_limit_refuted (limit : Nat) (window : Int) (hl : InI64 limit) (hl1 : 1 ≤ limit) (hw : 1 ≤ window)
    (hw2 : window < 2 ^ 63 - 1) :
    ∃ ts, Mono 0 ts ∧ ∃ a b, b - a ≤ window ∧
      accepted (fun t => a ≤ t ∧ t ≤ b) (run tryAcquire (new limit window 0) ts).2 = 2 * limit := by
  refine ⟨List.replicate limit window ++ List.replicate limit (window + 1), ?_, window, window + 1, by omega, ?_⟩
  · unfold Mono
    rw [List.pairwise_cons]
    constructor
    · intro t ht
      rw [List.mem_append, List.mem_replicate, List.mem_replicate] at ht
      omega
    · rw [List.pairwise_append]
      refine ⟨?_, ?_, ?_⟩
      · exact List.pairwise_replicate.2 (.inr (by omega))
      · exact List.pairwise_replicate.2 (.inr (by omega))
      · intro x hx y hy
        rw [List.mem_replicate] at hx hy
        omega
  · rw [run_append]
    have h1 := fill limit window hl window 0 (by unfold timeSub; split <;> (try split) <;> omega) limit 0 (by omega) (by omega)
    show accepted _ ((run tryAcquire ⟨limit, window, 0, 0⟩ (List.replicate limit window)).2 ++ _) = _
    have hn : new limit window 0 = ⟨limit, window, 0, 0⟩ := rfl
    rw [hn, h1]
    obtain ⟨n, rfl⟩ : ∃ n, limit = n + 1 := ⟨limit - 1, by omega⟩
    have h2 : run tryAcquire ⟨(n + 1 : Nat), window, 0 + (n + 1 : Nat), 0⟩ (List.replicate (n + 1) (window + 1)) =
        (⟨(n + 1 : Nat), window, 1 + n, window + 1⟩, List.replicate (n + 1) ⟨window + 1, true⟩) := by
      have hr : timeSub (window + 1) 0 > window := by unfold timeSub; split <;> (try split) <;> omega
      have hr' : ¬ timeSub (window + 1) (window + 1) > window := by unfold timeSub; split <;> (try split) <;> omega
      have hc : ¬ (0 : Int) ≥ ((n + 1 : Nat) : Int) := by omega
      have hl2 := hl.2
      simp only [List.replicate_succ, run, tryAcquire, reset, if_pos hr]
      rw [if_neg hc, wrap64_of_in (by unfold InI64; omega)]
      have := fill (n + 1 : Nat) window ⟨by omega, hl2⟩ (window + 1) (window + 1) hr' n (0 + 1) (by omega) (by omega)
      simp only [this]
      norm_num
    rw [h2]
    unfold accepted
    rw [List.countP_append, List.countP_replicate, List.countP_replicate]
    simp only [Bool.true_and]
    rw [if_pos (by simp), if_pos (by simp)]
    omega

/-- Invariant for C34: the counter counts accepted calls not older than the opening of the window. -/
theorem c34_aux (limit window : Int) (hl : InI64 limit) (hw : window < 2 ^ 63 - 1) (hw2 : -2 ^ 63 ≤ window) :
    ∀ (ts : List Int) (c start cur : Int) (past : List Event), start ≤ cur → Mono cur ts → 0 ≤ c →
      (∀ e ∈ past, e.time ≤ cur) → c ≤ accepted (fun t => start ≤ t) past →
      ∀ before e after, (run tryAcquire ⟨limit, window, c, start⟩ ts).2 = before ++ e :: after → e.ok = false →
        limit ≤ accepted (fun t => e.time - window ≤ t ∧ t ≤ e.time) (before ++ past)
  | [], c, start, cur, past, _, _, _, _, _, before, e, after, h, _ => by
    simp [run] at h
  | t :: ts, c, start, cur, past, hsc, hm, h0, hp, hcnt, before, e, after, h, he => by
    obtain ⟨hct, hm'⟩ := mono_tail hm
    obtain ⟨hl1, hl2⟩ := hl
    simp only [run, tryAcquire, reset_cases ⟨limit, window, c, start⟩ t hw hw2] at h
    have hp' : ∀ b, ∀ e ∈ (⟨t, b⟩ : Event) :: past, e.time ≤ t := by
      intro b e he
      rcases List.mem_cons.1 he with h | h
      · rw [h]
      · have := hp e h; omega
    by_cases hr : t - start > window
    · rw [if_pos hr] at h
      simp only at h
      by_cases hc : (0 : Int) ≥ limit
      · rw [if_pos hc] at h
        have := accepted_nonneg (fun t => e.time - window ≤ t ∧ t ≤ e.time) (before ++ past)
        omega
      · rw [if_neg hc, wrap64_of_in (by unfold InI64; omega)] at h
        cases before with
        | nil =>
          simp only [List.nil_append, List.cons.injEq] at h
          rw [← h.1] at he; simp at he
        | cons e0 before =>
          simp only [List.cons_append, List.cons.injEq] at h
          have := c34_aux limit window ⟨hl1, hl2⟩ hw hw2 ts (0 + 1) t t (⟨t, true⟩ :: past) (by omega) hm' (by omega) (hp' true)
            (by
              rw [accepted_cons]
              have := accepted_nonneg (fun x => t ≤ x) past
              simp; omega) before e after h.2 he
          rw [← h.1]
          refine le_trans this (le_of_eq ?_)
          unfold accepted
          congr 1
          apply List.Perm.countP_eq
          simp [List.perm_middle]
    · rw [if_neg hr] at h
      simp only at h
      by_cases hc : c ≥ limit
      · rw [if_pos hc] at h
        cases before with
        | nil =>
          simp only [List.nil_append, List.cons.injEq] at h
          rw [← h.1]
          simp only [List.nil_append]
          have : accepted (fun t => start ≤ t) past ≤ accepted (fun x => t - window ≤ x ∧ x ≤ t) past := by
            unfold accepted
            refine Int.ofNat_le.2 (List.countP_mono_left ?_)
            intro x hx hxx
            simp only [Bool.and_eq_true, decide_eq_true_eq] at hxx ⊢
            have := hp x hx
            exact ⟨hxx.1, by omega, by omega⟩
          omega
        | cons e0 before =>
          simp only [List.cons_append, List.cons.injEq] at h
          have := c34_aux limit window ⟨hl1, hl2⟩ hw hw2 ts c start t (⟨t, false⟩ :: past) (by omega) hm' h0 (hp' false)
            (by rw [accepted_cons]; simpa using hcnt) before e after h.2 he
          rw [← h.1]
          refine le_trans this (le_of_eq ?_)
          unfold accepted
          congr 1
          apply List.Perm.countP_eq
          simp [List.perm_middle]
      · rw [if_neg hc, wrap64_of_in (by unfold InI64; omega)] at h
        cases before with
        | nil =>
          simp only [List.nil_append, List.cons.injEq] at h
          rw [← h.1] at he; simp at he
        | cons e0 before =>
          simp only [List.cons_append, List.cons.injEq] at h
          have := c34_aux limit window ⟨hl1, hl2⟩ hw hw2 ts (c + 1) start t (⟨t, true⟩ :: past) (by omega) hm' (by omega)
            (hp' true) (by
              rw [accepted_cons, if_pos ⟨rfl, by show start ≤ t; omega⟩]; omega) before e after h.2 he
          rw [← h.1]
          refine le_trans this (le_of_eq ?_)
          unfold accepted
          congr 1
          apply List.Perm.countP_eq
          simp [List.perm_middle]

/-- **C34.** With a clock that does not run backwards, a call is rejected only if at least `limit` calls were accepted
within `window` before it. -/
theorem C34_no_spurious (limit window t0 : Int) (ts : List Int) (hl : InI64 limit) (hw : InI64 window)
    (hw2 : window < 2 ^ 63 - 1) (hm : Mono t0 ts) (before : List Event) (e : Event) (after : List Event)
    (h : (run tryAcquire (new limit window t0) ts).2 = before ++ e :: after) (he : e.ok = false) :
    limit ≤ accepted (fun t => e.time - window ≤ t ∧ t ≤ e.time) before := by
  have := c34_aux limit window hl hw2 hw.1 ts 0 t0 t0 [] (by omega) hm (by omega) (by simp) (by simp [accepted_nil])
    before e after h he
  simpa using this

end Fixed

/-! ## Leaky bucket -/

namespace Leaky

/-- The level and clock after draining, without machine arithmetic. -/
theorem drain_spec (l : Lim) (now : Int) (hv : 0 ≤ l.currentVelocity) (hv2 : l.currentVelocity ≤ 10 ^ 9)
    (hl : 0 ≤ l.currentLevel) (hl2 : l.currentLevel < 2 ^ 63) (ht : l.lastTime ≤ now) :
    (drain l now).peakLevel = l.peakLevel ∧ (drain l now).currentVelocity = l.currentVelocity ∧
    ((timeSub now l.lastTime < second ∧ drain l now = l) ∨
     (second ≤ timeSub now l.lastTime ∧ (drain l now).lastTime = now ∧
      (drain l now).currentLevel = max 0 (l.currentLevel - timeSub now l.lastTime / second * l.currentVelocity))) := by
  obtain ⟨h1, h2, h3, h4⟩ := tdiv_second ht
  have h5 : 0 ≤ timeSub now l.lastTime / second * l.currentVelocity := Int.mul_nonneg h2 hv
  have h6 : timeSub now l.lastTime / second * l.currentVelocity ≤ 9223372036 * 10 ^ 9 :=
    Int.mul_le_mul h4 hv2 hv (by omega)
  unfold drain
  by_cases hi : timeSub now l.lastTime ≥ second
  · simp only [if_pos hi, true_and]
    right
    refine ⟨hi, ?_⟩
    rw [h1, wrap64_of_in (x := _ * _) (by unfold InI64; omega), wrap64_of_in (by unfold InI64; omega)]
    unfold maxInt
    split <;> omega
  · simp only [if_neg hi, true_and]
    left
    exact ⟨by omega, trivial⟩

/-- The conditions on the limiter and the clock kept by all calls. -/
structure Good (l : Lim) (cur : Int) : Prop where
  v0 : 0 ≤ l.currentVelocity
  v1 : l.currentVelocity ≤ 10 ^ 9
  p1 : l.peakLevel < 2 ^ 63
  l0 : 0 ≤ l.currentLevel
  l1 : l.currentLevel ≤ l.peakLevel
  t0 : l.lastTime ≤ cur

theorem good_drain {l : Lim} {cur now : Int} (h : Good l cur) (hn : cur ≤ now) : Good (drain l now) now := by
  have h1 := h.l1
  have h2 := h.p1
  have h3 := h.t0
  obtain ⟨a, b, c⟩ := drain_spec l now h.v0 h.v1 h.l0 (by omega) (by omega)
  rcases c with ⟨_, c⟩ | ⟨_, c, d⟩
  · rw [c]
    exact { h with t0 := by omega }
  · obtain ⟨_, h5, _, _⟩ := tdiv_second (show l.lastTime ≤ now by omega)
    have h6 : 0 ≤ timeSub now l.lastTime / second * l.currentVelocity := Int.mul_nonneg h5 h.v0
    have h4 := h.l0
    refine ⟨b ▸ h.v0, b ▸ h.v1, a ▸ h.p1, ?_, ?_, ?_⟩
    · rw [d]; omega
    · rw [d, a]; omega
    · omega

theorem tryAcquire_cases {l : Lim} {cur now : Int} (h : Good l cur) (hn : cur ≤ now) :
    ((drain l now).currentLevel = l.peakLevel ∧ tryAcquire l now = (drain l now, false)) ∨
    ((drain l now).currentLevel < l.peakLevel ∧
      tryAcquire l now = ({ drain l now with currentLevel := (drain l now).currentLevel + 1 }, true)) := by
  have g := good_drain h hn
  have h1 := g.l0
  have h2 := g.l1
  have h3 := g.p1
  have h4 := h.l1
  have h5 := h.t0
  have hp : (drain l now).peakLevel = l.peakLevel :=
    (drain_spec l now h.v0 h.v1 h.l0 (by have := h.p1; omega) (by omega)).1
  unfold tryAcquire
  by_cases hc : (drain l now).currentLevel ≥ (drain l now).peakLevel
  · left
    simp only [if_pos hc, and_true]
    omega
  · right
    simp only [if_neg hc]
    rw [wrap64_of_in (by unfold InI64; omega)]
    exact ⟨by omega, rfl⟩

theorem good_try {l : Lim} {cur now : Int} (h : Good l cur) (hn : cur ≤ now) : Good (tryAcquire l now).1 now := by
  have g := good_drain h hn
  rcases tryAcquire_cases h hn with ⟨_, e⟩ | ⟨hlt, e⟩
  · rw [e]; exact g
  · have hp : (drain l now).peakLevel = l.peakLevel :=
      (drain_spec l now h.v0 h.v1 h.l0 (by have := h.p1; have := h.l1; omega) (by have := h.t0; omega)).1
    rw [e]
    have := g.l0
    exact ⟨g.v0, g.v1, g.p1, by show 0 ≤ (drain l now).currentLevel + 1; omega,
      by show (drain l now).currentLevel + 1 ≤ _; rw [hp]; omega, g.t0⟩

theorem good_run : ∀ (ts : List Int) {l : Lim} {cur : Int}, Good l cur → Mono cur ts →
    Good (run tryAcquire l ts).1 (lastOf cur ts)
  | [], l, cur, h, _ => by simpa [run, lastOf] using h
  | t :: ts, l, cur, h, hm => by
    obtain ⟨h1, h2⟩ := mono_tail hm
    simp only [run, lastOf_cons]
    exact good_run ts (good_try h h1) h2

theorem drain_budget {l : Lim} {cur t b : Int} (h : Good l cur) (h1 : cur ≤ t) (htb : t ≤ b) :
    l.currentLevel + l.currentVelocity * ((b - (drain l t).lastTime) / second) ≤
      (drain l t).currentLevel + l.currentVelocity * ((b - l.lastTime) / second) := by
  have h3 := h.t0
  obtain ⟨a, b', c⟩ := drain_spec l t h.v0 h.v1 h.l0 (by have := h.p1; have := h.l1; omega) (by omega)
  rcases c with ⟨_, c⟩ | ⟨_, c, d⟩
  · rw [c]
  · obtain ⟨_, h5, h6, _⟩ := tdiv_second (show l.lastTime ≤ t by omega)
    rw [c, d]
    have h7 : timeSub t l.lastTime / second + (b - t) / second ≤ (b - l.lastTime) / second := by
      unfold second at *; omega
    have h8 := Int.mul_le_mul_of_nonneg_left h7 h.v0
    rw [Int.mul_add] at h8
    rw [Int.mul_comm (_ / _)]
    omega

theorem budget : ∀ (ts : List Int) {l : Lim} {cur b : Int}, Good l cur → Mono cur ts → cur ≤ b → (∀ t ∈ ts, t ≤ b) →
    total (run tryAcquire l ts).2 ≤ l.peakLevel - l.currentLevel + l.currentVelocity * ((b - l.lastTime) / second)
  | [], l, cur, b, h, _, hb, _ => by
    have := h.l1
    have h2 := h.t0
    have : 0 ≤ l.currentVelocity * ((b - l.lastTime) / second) :=
      Int.mul_nonneg h.v0 (by unfold second; omega)
    simp only [run, total_nil]
    omega
  | t :: ts, l, cur, b, h, hm, hb, hts => by
    obtain ⟨h1, h2⟩ := mono_tail hm
    have htb := hts t (by simp)
    have ih := budget ts (good_try h h1) h2 htb (fun x hx => hts x (by simp [hx]))
    have hd := drain_budget h h1 htb
    have hp := drain_spec l t h.v0 h.v1 h.l0 (by have := h.p1; have := h.l1; omega) (by have := h.t0; omega)
    rcases tryAcquire_cases h h1 with ⟨h4, e⟩ | ⟨h4, e⟩
    · simp only [run, total_cons]
      rw [e] at ih ⊢
      simp only at ih
      rw [← hp.1, ← hp.2.1]
      rw [← hp.2.1] at hd
      simp only [Bool.false_eq_true, if_false]
      omega
    · simp only [run, total_cons]
      rw [e] at ih ⊢
      simp only at ih
      rw [← hp.1, ← hp.2.1]
      rw [← hp.2.1] at hd
      simp only [if_true]
      omega

theorem drain_idem {l : Lim} {cur t : Int} (h : Good l cur) (h1 : cur ≤ t) : drain (drain l t) t = drain l t := by
  obtain ⟨_, _, c⟩ := drain_spec l t h.v0 h.v1 h.l0 (by have := h.p1; have := h.l1; omega) (by have := h.t0; omega)
  rcases c with ⟨_, c⟩ | ⟨_, c, d⟩
  · rw [c, c]
  · have : ¬ timeSub t (drain l t).lastTime ≥ second := by
      rw [c]; unfold timeSub second; split <;> (try split) <;> omega
    show (if timeSub t (drain l t).lastTime ≥ second then _ else _) = _
    rw [if_neg this]

theorem drain_recent {l : Lim} {cur t : Int} (h : Good l cur) (h1 : cur ≤ t) : t - second < (drain l t).lastTime := by
  have h3 := h.t0
  obtain ⟨_, _, c⟩ := drain_spec l t h.v0 h.v1 h.l0 (by have := h.p1; have := h.l1; omega) (by omega)
  rcases c with ⟨d, c⟩ | ⟨_, c, d⟩
  · rw [c]
    unfold timeSub second at *
    split at d
    · omega
    · split at d <;> omega
  · rw [c]; unfold second; omega

theorem good_new (peak vel t0 : Int) (hp : 0 ≤ peak) (hp2 : InI64 peak) (hv : 0 ≤ vel) (hv2 : vel ≤ 10 ^ 9) :
    Good (new peak vel t0) t0 := ⟨hv, hv2, hp2.2, Int.le_refl 0, hp, Int.le_refl t0⟩

theorem run_keeps : ∀ (ts : List Int) {l : Lim} {cur : Int}, Good l cur → Mono cur ts →
    (run tryAcquire l ts).1.peakLevel = l.peakLevel ∧ (run tryAcquire l ts).1.currentVelocity = l.currentVelocity
  | [], l, cur, h, _ => ⟨rfl, rfl⟩
  | t :: ts, l, cur, h, hm => by
    obtain ⟨h1, h2⟩ := mono_tail hm
    have ih := run_keeps ts (good_try h h1) h2
    have hp := drain_spec l t h.v0 h.v1 h.l0 (by have := h.p1; have := h.l1; omega) (by have := h.t0; omega)
    simp only [run]
    rw [ih.1, ih.2]
    rcases tryAcquire_cases h h1 with ⟨h4, e⟩ | ⟨h4, e⟩ <;> rw [e] <;> exact ⟨hp.1, hp.2.1⟩

/-- **C35.** For every peak level, every velocity up to 10^9 per second and every history `before ++ ts ++ after` with a
clock that does not run backwards: if the calls `ts` lie between `a` and `b`, then at most
`peak + velocity * (⌊(b - a) / 1s⌋ + 1)` of them are accepted.  (The calls `after` do not matter.) -/
theorem C35_burst_and_rate (peak vel t0 a b : Int) (before ts after : List Int) (hp : 0 ≤ peak) (hp2 : InI64 peak)
    (hv : 0 ≤ vel) (hv2 : vel ≤ 10 ^ 9) (hm : Mono t0 (before ++ ts ++ after)) (hts : ∀ t ∈ ts, a ≤ t ∧ t ≤ b)
    (hab : a ≤ b) :
    total (((run tryAcquire (new peak vel t0) (before ++ ts ++ after)).2.drop before.length).take ts.length) ≤
      peak + vel * ((b - a) / second + 1) := by
  rw [run_middle]
  have g0 := good_new peak vel t0 hp hp2 hv hv2
  have hm1 : Mono t0 before := by rw [List.append_assoc] at hm; exact mono_append hm
  have g := good_run before g0 hm1
  obtain ⟨e1, e2⟩ := run_keeps before g0 hm1
  generalize (run tryAcquire (new peak vel t0) before).1 = l at *
  change l.peakLevel = peak at e1
  change l.currentVelocity = vel at e2
  cases ts with
  | nil =>
    simp only [run, total_nil]
    have : 0 ≤ vel * ((b - a) / second + 1) := Int.mul_nonneg hv (by unfold second; omega)
    omega
  | cons t ts =>
    obtain ⟨_, hct, hmt⟩ := mono_middle hm
    have gd := good_drain g hct
    have hrun : run tryAcquire l (t :: ts) = run tryAcquire (drain l t) (t :: ts) := by
      simp only [run, tryAcquire, drain_idem g hct]
    rw [hrun]
    have hbud := budget (b := b) (t :: ts) gd hmt (hts t (by simp)).2 (fun x hx => (hts x hx).2)
    have hp' := drain_spec l t g.v0 g.v1 g.l0 (by have := g.p1; have := g.l1; omega) (by have := g.t0; omega)
    have hrec := drain_recent g hct
    rw [hp'.1, hp'.2.1, e1, e2] at hbud
    have h0 := gd.l0
    have ha := (hts t (by simp)).1
    have hdiv : (b - (drain l t).lastTime) / second ≤ (b - a) / second + 1 := by
      unfold second at *; omega
    have := Int.mul_le_mul_of_nonneg_left hdiv hv
    omega

/-- A burst of 3 and then 2 per second. -/
example : (run tryAcquire (new 3 2 0) [5, 6, 7, 8, 1000000005, 1000000006, 1000000007]).2.map (·.ok) =
    [true, true, true, false, true, true, false] := by decide

/-- **C36 (range).** The level stays between 0 and the peak. -/
theorem C36_level_range (peak vel t0 : Int) (ts : List Int) (hp : 0 ≤ peak) (hp2 : InI64 peak)
    (hv : 0 ≤ vel) (hv2 : vel ≤ 10 ^ 9) (hm : Mono t0 ts) :
    0 ≤ (run tryAcquire (new peak vel t0) ts).1.currentLevel ∧
      (run tryAcquire (new peak vel t0) ts).1.currentLevel ≤ peak := by
  have g0 := good_new peak vel t0 hp hp2 hv hv2
  have g := good_run ts g0 hm
  have := run_keeps ts g0 hm
  refine ⟨g.l0, ?_⟩
  have h := g.l1
  rw [this.1] at h
  exact h

theorem reject_aux : ∀ (ts : List Int) {l : Lim} {cur : Int} (n : Int), Good l cur → Mono cur ts → l.currentLevel ≤ n →
    ∀ before e after, (run tryAcquire l ts).2 = before ++ e :: after → e.ok = false →
      l.peakLevel ≤ n + total before
  | [], l, cur, n, _, _, _, before, e, after, h, _ => by simp [run] at h
  | t :: ts, l, cur, n, g, hm, hn, before, e, after, h, he => by
    obtain ⟨h1, h2⟩ := mono_tail hm
    have hp := drain_spec l t g.v0 g.v1 g.l0 (by have := g.p1; have := g.l1; omega) (by have := g.t0; omega)
    have hle : (drain l t).currentLevel ≤ l.currentLevel := by
      rcases hp.2.2 with ⟨_, c⟩ | ⟨_, _, c⟩
      · rw [c]
      · obtain ⟨_, h5, _, _⟩ := tdiv_second (show l.lastTime ≤ t by have := g.t0; omega)
        have := Int.mul_nonneg h5 g.v0
        have := g.l0
        rw [c]; omega
    have g' := good_try g h1
    simp only [run] at h
    cases before with
    | nil =>
      simp only [List.nil_append, List.cons.injEq] at h
      rcases tryAcquire_cases g h1 with ⟨h4, e'⟩ | ⟨h4, e'⟩
      · rw [total_nil]; omega
      · rw [e'] at h; rw [← h.1] at he; simp at he
    | cons e0 before =>
      simp only [List.cons_append, List.cons.injEq] at h
      rcases tryAcquire_cases g h1 with ⟨h4, e'⟩ | ⟨h4, e'⟩
      · rw [e'] at h g'
        have := reject_aux ts n g' h2 (by simp only; omega) before e after h.2 he
        rw [← h.1, total_cons]
        simp only [hp.1] at this
        simp only [Bool.false_eq_true, if_false]; omega
      · rw [e'] at h g'
        have := reject_aux ts (n + 1) g' h2 (by simp only; omega) before e after h.2 he
        rw [← h.1, total_cons]
        simp only [hp.1] at this
        simp only [if_true]; omega

/-- **C36 (rejections).** A call is rejected only if at least `peak` calls were accepted before. -/
theorem C36_reject_only_full (peak vel t0 : Int) (ts : List Int) (hp : 0 ≤ peak) (hp2 : InI64 peak)
    (hv : 0 ≤ vel) (hv2 : vel ≤ 10 ^ 9) (hm : Mono t0 ts) (before : List Event) (e : Event) (after : List Event)
    (h : (run tryAcquire (new peak vel t0) ts).2 = before ++ e :: after) (he : e.ok = false) :
    peak ≤ total before := by
  have := reject_aux ts 0 (good_new peak vel t0 hp hp2 hv hv2) hm (Int.le_refl 0) before e after h he
  rw [Int.zero_add] at this
  exact this

theorem accept_aux : ∀ (us : List Int) {l : Lim} {cur : Int}, Good l cur → Mono cur us →
    l.currentLevel + us.length ≤ l.peakLevel → ∀ e ∈ (run tryAcquire l us).2, e.ok = true
  | [], l, cur, _, _, _, e, h => by simp [run] at h
  | t :: us, l, cur, g, hm, hlen, e, h => by
    obtain ⟨h1, h2⟩ := mono_tail hm
    have hp := drain_spec l t g.v0 g.v1 g.l0 (by have := g.p1; have := g.l1; omega) (by have := g.t0; omega)
    have hle : (drain l t).currentLevel ≤ l.currentLevel := by
      rcases hp.2.2 with ⟨_, c⟩ | ⟨_, _, c⟩
      · rw [c]
      · obtain ⟨_, h5, _, _⟩ := tdiv_second (show l.lastTime ≤ t by have := g.t0; omega)
        have := Int.mul_nonneg h5 g.v0
        have := g.l0
        rw [c]; omega
    have g' := good_try g h1
    simp only [List.length_cons] at hlen
    rcases tryAcquire_cases g h1 with ⟨h4, e'⟩ | ⟨h4, e'⟩
    · omega
    · simp only [run, List.mem_cons] at h
      rcases h with h | h
      · rw [h, e']
      · rw [e'] at h g'
        exact accept_aux us g' h2 (by simp only [hp.1]; omega) e h

/-- **C36 (recovery).** Whatever happened before, after an idle period of `k` seconds with `k * velocity ≥ peak` the next
`peak` calls are accepted, at whatever times they come. -/
theorem C36_recovers (peak vel t0 k : Int) (ts us : List Int) (hp : 0 ≤ peak) (hp2 : InI64 peak)
    (hv : 0 ≤ vel) (hv2 : vel ≤ 10 ^ 9) (hm : Mono t0 ts) (hk : 1 ≤ k) (hk2 : k ≤ 9223372036) (hk3 : peak ≤ k * vel)
    (hm2 : Mono (lastOf t0 ts + k * second) us) (hlen : us.length ≤ peak) :
    ∀ e ∈ (run tryAcquire (run tryAcquire (new peak vel t0) ts).1 us).2, e.ok = true := by
  have g0 := good_new peak vel t0 hp hp2 hv hv2
  have g := good_run ts g0 hm
  obtain ⟨e1, e2⟩ := run_keeps ts g0 hm
  generalize (run tryAcquire (new peak vel t0) ts).1 = l at *
  change l.peakLevel = peak at e1
  change l.currentVelocity = vel at e2
  cases us with
  | nil => simp [run]
  | cons t us =>
    have h1 := (mono_tail hm2).1
    have ht0 := g.t0
    have hct : lastOf t0 ts ≤ t := by unfold second at h1; omega
    have hrun : run tryAcquire l (t :: us) = run tryAcquire (drain l t) (t :: us) := by
      simp only [run, tryAcquire, drain_idem g hct]
    rw [hrun]
    have hp' := drain_spec l t g.v0 g.v1 g.l0 (by have := g.p1; have := g.l1; omega) (by omega)
    have hge : k ≤ timeSub t l.lastTime / second := by
      unfold timeSub second at *
      split
      · omega
      · split <;> omega
    have hsec : second ≤ timeSub t l.lastTime := by
      unfold second at *; omega
    refine accept_aux (t :: us) (cur := t) (good_drain g hct) ?_ ?_
    · unfold Mono at *
      rw [List.pairwise_cons] at hm2 ⊢
      refine ⟨?_, hm2.2⟩
      intro x hx
      rcases List.mem_cons.1 hx with h | h
      · omega
      · exact (List.pairwise_cons.1 hm2.2).1 x h
    · have hlev : (drain l t).currentLevel = 0 := by
        rcases hp'.2.2 with ⟨h, _⟩ | ⟨_, _, c⟩
        · omega
        · have := Int.mul_le_mul_of_nonneg_right hge hv
          have := g.l1
          rw [c, e2]; omega
      rw [hlev, hp'.1, e1]; omega

/-- Full at time 3, empty again two seconds later. -/
example : (run tryAcquire (new 2 1 0) [1, 2, 3, 2000000003, 2000000003, 2000000003]).2.map (·.ok) =
    [true, true, false, true, true, false] := by decide

/-- **C36 needs the bound on the velocity**: with velocity 2^62 the multiplication overflows and the first call after
three seconds is rejected although nothing was ever accepted. -/
theorem C36_overflow_refuted : (run tryAcquire (new 1 (2 ^ 62) 0) [3 * second]).2 = [⟨3 * second, false⟩] := by decide

end Leaky
end Verif.Limiter
