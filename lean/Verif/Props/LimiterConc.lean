import Verif.Model.LimiterConc
import Verif.Proof.Mutex
import Verif.Props.LimiterToken
import Verif.Props.LimiterLog

/-! # C45: the limiters under concurrent use -/

namespace Verif.Limiter

open Mutex

/-- The effects of an explanation as answered calls. -/
def effects {Op : Type} (H : List (Ev Op Bool)) : List Event := (H.filterMap Ev.done).map fun d => ⟨d.now, d.res⟩

/-- The clock readings of an explanation. -/
def times {Op ρ : Type} (H : List (Ev Op ρ)) : List Int := (H.filterMap Ev.done).map (·.now)

theorem mono_of {t0 t1 : Int} {ns : List Int} (h : (t0 :: (ns ++ [t1])).Pairwise (· ≤ ·)) :
    Mono t0 ns ∧ t0 ≤ t1 ∧ ∀ t ∈ ns, t ≤ t1 := by
  have h' : ((t0 :: ns) ++ [t1]).Pairwise (· ≤ ·) := h
  rw [List.pairwise_append] at h'
  exact ⟨h'.1, h'.2.2 t0 (by simp) t1 (by simp), fun t ht => h'.2.2 t (by simp [ht]) t1 (by simp)⟩

/-- A sequential execution of a method with a deterministic meaning `f` is a run of `f`. -/
theorem seq_run {σ L : Type} {B : Body σ Unit L Bool} {f : σ → Int → σ × Bool}
    (hf : ∀ op now s s' r, Exec B op now s s' r → f s now = (s', r)) {s s' : σ} {ds : List (Done Unit Bool)}
    (h : Seq B s ds s') : run f s (ds.map (·.now)) = (s', ds.map fun d => ⟨d.now, d.res⟩) := by
  induction h with
  | nil => rfl
  | snoc _ he ih =>
    rw [List.map_append, run_append, ih]
    have := hf _ _ _ _ _ he
    simp [run, this]

/-- **Linearizability, for a deterministic method.** -/
theorem linearize {σ L : Type} {B : Body σ Unit L Bool} {f : σ → Int → σ × Bool}
    (hf : ∀ op now s s' r, Exec B op now s s' r → f s now = (s', r)) {s : σ} {t0 : Int} {c : Config σ Unit L Bool}
    (h : Reach B s t0 c) :
    ∃ H, Explains B s t0 c.clock c.hist H ∧ effects H = (run f s (times H)).2 ∧ Mono t0 (times H) ∧ t0 ≤ c.clock ∧
      (∀ t ∈ times H, t ≤ c.clock) ∧ (c.holder = none → c.obj = (run f s (times H)).1) := by
  by_cases hn : c.holder = none
  · obtain ⟨H, hH, hs⟩ := linearizable_state B s t0 h hn
    have hr := seq_run hf hs
    obtain ⟨m1, m2, m3⟩ := mono_of hH.mono
    exact ⟨H, hH, by unfold effects times; rw [hr], m1, m2, m3, fun _ => by unfold times; rw [hr]⟩
  · obtain ⟨H, hH⟩ := linearizable B s t0 h
    obtain ⟨s', hs'⟩ := hH.seq
    have hr := seq_run hf hs'
    obtain ⟨m1, m2, m3⟩ := mono_of hH.mono
    exact ⟨H, hH, by unfold effects times; rw [hr], m1, m2, m3, fun h => absurd h hn⟩

/-! ## The bodies compute `TryAcquire` -/

namespace Fixed

/-- The outcome of the rest of the body. -/
def outcome : Lim × Loc → Lim × Bool
  | (s, .check now) => tryAcquire s now
  | (s, .zero now) => tryAcquire' { s with counter := 0, lastTime := now }
  | (s, .stamp now) => tryAcquire' { s with lastTime := now }
  | (s, .test) => tryAcquire' s
  | (s, .bump) => ({ s with counter := wrap64 (s.counter + 1) }, true)
  | (s, .ret b) => (s, b)
where
  tryAcquire' (l : Lim) : Lim × Bool :=
    if l.counter ≥ l.limit then (l, false) else ({ l with counter := wrap64 (l.counter + 1) }, true)

theorem exec_eq (op : Unit) (now : Int) (s s' : Lim) (r : Bool) (h : Exec body op now s s' r) : tryAcquire s now = (s', r) := by
  obtain ⟨l, h1, h2⟩ := exec_post (B := body) (Post := fun x z => outcome x = z) (by
    intro x y hs z hz
    rw [← hz]
    cases hs with
    | over s now h => simp only [outcome, tryAcquire, reset, if_pos h, outcome.tryAcquire']
    | same s now h => simp only [outcome, tryAcquire, reset, if_neg h, outcome.tryAcquire']
    | zero s now => rfl
    | stamp s now => rfl
    | full s h => simp only [outcome, outcome.tryAcquire', if_pos h]
    | free s h => simp only [outcome, outcome.tryAcquire', if_neg h]
    | bump s => rfl) (by
    intro s l r hr
    cases l <;> simp [body, final] at hr
    subst hr
    rfl) h
  have hl : l = .check now := h1
  subst hl
  exact h2

/-- **C45 (fixed window).** For any number of goroutines and every schedule, the calls have the results of a sequential run
with a clock that does not run backwards, each taking effect between its call and its return. -/
theorem C45_fixed (limit window t0 : Int) {c : Config Lim Unit Loc Bool} (h : Reach body (new limit window t0) t0 c) :
    ∃ H, Explains body (new limit window t0) t0 c.clock c.hist H ∧
      effects H = (run tryAcquire (new limit window t0) (times H)).2 ∧ Mono t0 (times H) ∧ t0 ≤ c.clock ∧
      (∀ t ∈ times H, t ≤ c.clock) ∧ (c.holder = none → c.obj = (run tryAcquire (new limit window t0) (times H)).1) :=
  linearize exec_eq h

/-- Hence the bound of C33 under concurrency. -/
theorem C45_fixed_bound (limit window t0 : Int) (hl : InI64 limit) {c : Config Lim Unit Loc Bool}
    (h : Reach body (new limit window t0) t0 c) :
    ∃ H, Explains body (new limit window t0) t0 c.clock c.hist H ∧
      ∀ a b, b - a ≤ window → accepted (fun t => a ≤ t ∧ t ≤ b) (effects H) ≤ 2 * max limit 0 := by
  obtain ⟨H, h1, h2, h3, _⟩ := C45_fixed limit window t0 h
  exact ⟨H, h1, fun a b hab => by rw [h2]; exact C33_any_interval limit window t0 a b _ hl h3 hab⟩

end Fixed

namespace Leaky

/-- The outcome of the rest of the body. -/
def outcome : Lim × Loc → Lim × Bool
  | (s, .check now) => tryAcquire s now
  | (s, .drop now interval) => rest
      { s with
        currentLevel := maxInt 0 (wrap64 (s.currentLevel - wrap64 (interval.tdiv second * s.currentVelocity)))
        lastTime := now }
  | (s, .stamp now) => rest { s with lastTime := now }
  | (s, .test) => rest s
  | (s, .bump) => ({ s with currentLevel := wrap64 (s.currentLevel + 1) }, true)
  | (s, .ret b) => (s, b)
where
  rest (l : Lim) : Lim × Bool :=
    if l.currentLevel ≥ l.peakLevel then (l, false) else ({ l with currentLevel := wrap64 (l.currentLevel + 1) }, true)

theorem exec_eq (op : Unit) (now : Int) (s s' : Lim) (r : Bool) (h : Exec body op now s s' r) : tryAcquire s now = (s', r) := by
  obtain ⟨l, h1, h2⟩ := exec_post (B := body) (Post := fun x z => outcome x = z) (by
    intro x y hs z hz
    rw [← hz]
    cases hs with
    | late s now h => simp only [outcome, tryAcquire, drain, if_pos h, outcome.rest]
    | early s now h => simp only [outcome, tryAcquire, drain, if_neg h, outcome.rest]
    | drop s now i => rfl
    | stamp s now => rfl
    | full s h => simp only [outcome, outcome.rest, if_pos h]
    | free s h => simp only [outcome, outcome.rest, if_neg h]
    | bump s => rfl) (by
    intro s l r hr
    cases l <;> simp [body, final] at hr
    subst hr
    rfl) h
  have hl : l = .check now := h1
  subst hl
  exact h2

/-- **C45 (leaky bucket).** -/
theorem C45_leaky (peak vel t0 : Int) {c : Config Lim Unit Loc Bool} (h : Reach body (new peak vel t0) t0 c) :
    ∃ H, Explains body (new peak vel t0) t0 c.clock c.hist H ∧
      effects H = (run tryAcquire (new peak vel t0) (times H)).2 ∧ Mono t0 (times H) ∧ t0 ≤ c.clock ∧
      (∀ t ∈ times H, t ≤ c.clock) ∧ (c.holder = none → c.obj = (run tryAcquire (new peak vel t0) (times H)).1) :=
  linearize exec_eq h

end Leaky

namespace Token

/-- The outcome of the rest of the body. -/
def outcome : Lim × Loc → Lim × Bool
  | (s, .check now) => tryAcquire s now
  | (s, .issue now interval) => rest
      { s with
        currentTokens := minInt s.capacity (wrap64 (s.currentTokens + wrap64 (interval.tdiv second * s.rate)))
        lastTime := now }
  | (s, .stamp now) => rest { s with lastTime := now }
  | (s, .test) => rest s
  | (s, .take) => ({ s with currentTokens := wrap64 (s.currentTokens - 1) }, true)
  | (s, .ret b) => (s, b)
where
  rest (l : Lim) : Lim × Bool :=
    if l.currentTokens = 0 then (l, false) else ({ l with currentTokens := wrap64 (l.currentTokens - 1) }, true)

theorem exec_eq (op : Unit) (now : Int) (s s' : Lim) (r : Bool) (h : Exec body op now s s' r) : tryAcquire s now = (s', r) := by
  obtain ⟨l, h1, h2⟩ := exec_post (B := body) (Post := fun x z => outcome x = z) (by
    intro x y hs z hz
    rw [← hz]
    cases hs with
    | late s now h => simp only [outcome, tryAcquire, refill, if_pos h, outcome.rest]
    | early s now h => simp only [outcome, tryAcquire, refill, if_neg h, outcome.rest]
    | issue s now i => rfl
    | stamp s now => rfl
    | empty s h => simp only [outcome, outcome.rest, if_pos h]
    | some s h => simp only [outcome, outcome.rest, if_neg h]
    | take s => rfl) (by
    intro s l r hr
    cases l <;> simp [body, final] at hr
    subst hr
    rfl) h
  have hl : l = .check now := h1
  subst hl
  exact h2

/-- **C45 (token bucket).** -/
theorem C45_token (capacity rate t0 : Int) {c : Config Lim Unit Loc Bool} (h : Reach body (new capacity rate t0) t0 c) :
    ∃ H, Explains body (new capacity rate t0) t0 c.clock c.hist H ∧
      effects H = (run tryAcquire (new capacity rate t0) (times H)).2 ∧ Mono t0 (times H) ∧ t0 ≤ c.clock ∧
      (∀ t ∈ times H, t ≤ c.clock) ∧ (c.holder = none → c.obj = (run tryAcquire (new capacity rate t0) (times H)).1) :=
  linearize exec_eq h

end Token

/-! ## Visible results -/

/-- One goroutine has returned no more often with result `r` than its calls took effect with result `r`. -/
theorem follows_count {Op ρ : Type} [DecidableEq ρ] (r : ρ) {es : List (Ev Op ρ)} {ph : Phase Op ρ} (h : Follows es ph) :
    (es.filterMap Ev.vis).countP (fun v => match v with | .res _ r' => decide (r' = r) | _ => false) +
      (match ph with | .effected r' => if r' = r then 1 else 0 | _ => 0) =
    (es.filterMap Ev.done).countP fun d => decide (d.res = r) := by
  induction h with
  | nil => rfl
  | inv op _ ih =>
    rw [List.filterMap_append, List.filterMap_append, List.countP_append, List.countP_append]
    simpa [Ev.vis, Ev.done, List.filterMap_cons] using ih
  | lin d _ ih =>
    rw [List.filterMap_append, List.filterMap_append, List.countP_append, List.countP_append, ← ih]
    simp [Ev.vis, Ev.done, List.filterMap_cons, List.countP_cons]
  | res r' _ ih =>
    rw [List.filterMap_append, List.filterMap_append, List.countP_append, List.countP_append, ← ih]
    simp [Ev.vis, Ev.done, List.filterMap_cons, List.countP_cons]

/-- All goroutines together. -/
theorem count_le {Op ρ : Type} [DecidableEq ρ] (r : ρ) : ∀ (n : Nat) (H : List (Ev Op ρ)), H.length ≤ n →
    (∀ i, ∃ ph, Follows (H.filter fun e => decide (e.tid = i)) ph) →
    (H.filterMap Ev.vis).countP (fun v => match v with | .res _ r' => decide (r' = r) | _ => false) ≤
      (H.filterMap Ev.done).countP fun d => decide (d.res = r)
  | n, [], _, _ => by simp
  | 0, e :: H, h, _ => by simp at h
  | n + 1, e :: H, hlen, hf => by
    let A := (e :: H).filter fun x => decide (x.tid = e.tid)
    let R := (e :: H).filter fun x => !decide (x.tid = e.tid)
    have hperm : ((e :: H).filter (fun x => decide (x.tid = e.tid)) ++ (e :: H).filter fun x => !decide (x.tid = e.tid)).Perm
        (e :: H) := List.filter_append_perm _ _
    have h1 := (hperm.filterMap Ev.vis).countP_eq
      (fun v => match v with | .res _ r' => decide (r' = r) | _ => false)
    have h2 := (hperm.filterMap Ev.done).countP_eq fun d => decide (d.res = r)
    rw [← h1, ← h2, List.filterMap_append, List.filterMap_append, List.countP_append, List.countP_append]
    obtain ⟨ph, hph⟩ := hf e.tid
    have h3 := follows_count r hph
    have h4 := count_le r n ((e :: H).filter fun x => !decide (x.tid = e.tid)) (by
      have : ((e :: H).filter fun x => !decide (x.tid = e.tid)) = H.filter fun x => !decide (x.tid = e.tid) := by
        rw [List.filter_cons_of_neg (by simp)]
      rw [this]
      have := List.length_filter_le (fun x => !decide (x.tid = e.tid)) H
      simp only [List.length_cons] at hlen
      omega) (by
      intro i
      rw [List.filter_filter]
      by_cases hi : i = e.tid
      · refine ⟨.idle, ?_⟩
        have : ((e :: H).filter fun a => (decide (a.tid = i) && !decide (a.tid = e.tid))) = [] := by
          rw [List.filter_eq_nil_iff]
          intro a _
          simp [hi]
        rw [this]
        exact .nil
      · obtain ⟨ph, hph⟩ := hf i
        refine ⟨ph, ?_⟩
        have : ((e :: H).filter fun a => (decide (a.tid = i) && !decide (a.tid = e.tid))) =
            (e :: H).filter fun a => decide (a.tid = i) := by
          apply List.filter_congr
          intro a _
          by_cases ha : a.tid = i
          · simp [ha, hi]
          · simp [ha]
        rw [this]
        exact hph)
    omega

/-- The number of calls that have returned `true`. -/
def returnedTrue {Op : Type} (h : List (Vis Op Bool)) : Int :=
  (h.countP fun v => match v with | .res _ r => r | _ => false : Nat)

theorem returnedTrue_le {σ Op L : Type} {B : Body σ Op L Bool} {s : σ} {t0 t1 : Int} {h : List (Vis Op Bool)}
    {H : List (Ev Op Bool)} (hH : Explains B s t0 t1 h H) : returnedTrue h ≤ total (effects H) := by
  have := count_le true H.length H (Nat.le_refl _) hH.follows
  unfold returnedTrue total effects
  rw [hH.vis] at this
  rw [List.countP_map]
  refine Int.ofNat_le.2 (le_trans (le_of_eq ?_) (le_trans this (le_of_eq ?_)))
  · congr 1
    funext v
    cases v <;> simp
  · congr 1
    funext d
    simp

/-- **C45 (token bucket, visible bound).** Under every schedule, the calls that have returned `true` by time `t1` number at
most `rate` per full second since the creation. -/
theorem Token.C45_token_bound (capacity rate t0 : Int) (hc : 0 ≤ capacity) (hc2 : InI64 capacity) (hr : 0 ≤ rate)
    {c : Config Token.Lim Unit Token.Loc Bool} (h : Reach Token.body (Token.new capacity rate t0) t0 c)
    (hf : Token.Fits capacity rate t0 c.clock) : returnedTrue c.hist ≤ rate * ((c.clock - t0) / second) := by
  obtain ⟨H, h1, h2, h3, h4, h5, _⟩ := Token.C45_token capacity rate t0 h
  refine le_trans (returnedTrue_le h1) ?_
  rw [h2]
  refine Token.C38_total capacity rate t0 c.clock _ hc hc2 hr h3 ?_ h5 h4
  intro t ht
  have h6 : (t - t0) / second ≤ (c.clock - t0) / second := by
    have := h5 t ht
    unfold second; omega
  have := Int.mul_le_mul_of_nonneg_left h6 hr
  unfold Token.Fits at *
  omega

/-! ## The sliding limiters -/

namespace Window

theorem Runs.snoc {l l' l'' : Lim} {ts : List Int} {es : List Event} (h : Runs l ts es l') {order : List (Int × Int)}
    {t : Int} {b : Bool} (hp : order.Perm l'.counters) (he : tryAcquire l' order t = .ok (l'', b)) :
    Runs l (ts ++ [t]) (es ++ [⟨t, b⟩]) l'' := by
  induction h with
  | nil l => exact .cons order hp he (.nil _)
  | cons o1 hp1 he1 _ ih => exact .cons o1 hp1 he1 (ih hp he)

/-- The end of the body. -/
def finish (s : Lim) (cur : Int) (x : Counters × Int) : Lim × Bool :=
  if x.2 ≥ s.limit then ({ s with counters := x.1 }, false) else ({ s with counters := x.1.incr cur }, true)

/-- The possible outcomes of the rest of the body. -/
def Post : Lim × Loc → Lim × Bool → Prop
  | (s, .begin now), z => ∃ order, order.Perm s.counters ∧ tryAcquire s order now = .ok z
  | (s, .range cur start), z => ∃ order, order.Perm s.counters ∧ z = finish s cur (scan start order (s.counters, 0))
  | (s, .loop cur start rest n), z => z = finish s cur (scan start rest (s.counters, n))
  | (s, .bump cur), z => z = ({ s with counters := s.counters.incr cur }, true)
  | (s, .ret b), z => z = (s, b)

theorem exec_eq (op : Unit) (now : Int) (s s' : Lim) (r : Bool) (h : Exec body op now s s' r) :
    ∃ order, order.Perm s.counters ∧ tryAcquire s order now = .ok (s', r) := by
  obtain ⟨l, h1, h2⟩ := exec_post (B := body) (Post := Post) (by
    intro x y hs z hz
    cases hs with
    | begin s now cur h =>
      obtain ⟨order, hp, rfl⟩ := hz
      refine ⟨order, hp, ?_⟩
      unfold tryAcquire
      rw [h]
      simp only [Go.bind_ok, finish]
      split <;> rfl
    | range s cur start order h => exact ⟨order, h, hz⟩
    | drop s cur start w c rest n h =>
      simp only [Post, finish] at hz ⊢
      rw [hz]
      simp only [scan, if_pos h]
    | add s cur start w c rest n h =>
      simp only [Post, finish] at hz ⊢
      rw [hz]
      simp only [scan, if_neg h]
    | full s cur start n h =>
      simp only [Post, finish, scan] at hz ⊢
      rw [hz]
      exact (if_pos (c := n ≥ s.limit) h).symm
    | free s cur start n h =>
      simp only [Post, finish, scan] at hz ⊢
      rw [hz]
      exact (if_neg (c := n ≥ s.limit) h).symm
    | bump s cur => exact hz) (by
    intro s l r hr
    cases l <;> simp [body, final] at hr
    subst hr
    rfl) h
  have hl : l = .begin now := h1
  subst hl
  exact h2

theorem seq_runs {s s' : Lim} {ds : List (Done Unit Bool)} (h : Seq body s ds s') :
    Runs s (ds.map (·.now)) (ds.map fun d => ⟨d.now, d.res⟩) s' := by
  induction h with
  | nil => exact .nil _
  | snoc _ he ih =>
    obtain ⟨order, hp, e⟩ := exec_eq _ _ _ _ _ he
    rw [List.map_append, List.map_append]
    exact ih.snoc hp e

/-- **C45 (sliding window).** Under every schedule and every iteration order the answers are those of the specification for
a sequence of calls with a clock that does not run backwards, each taking effect between its call and its return. -/
theorem C45_window {limit window small t0 : Int} {l : Lim} (hl : InI64 limit) (hs : 0 < small) (hw : 0 < window)
    (hw2 : window < 2 ^ 63) (h0 : 0 ≤ t0) (hnew : new limit window small = .ok (some l))
    {c : Config Lim Unit Loc Bool} (h : Reach body l t0 c) (hc : c.clock < 2 ^ 63) :
    ∃ H, Explains body l t0 c.clock c.hist H ∧ effects H = WindowSpec.answers limit window small [] (times H) ∧
      Mono t0 (times H) := by
  obtain ⟨H, hH⟩ := linearizable body l t0 h
  obtain ⟨s', hs'⟩ := hH.seq
  obtain ⟨m1, m2, m3⟩ := mono_of hH.mono
  refine ⟨H, hH, C39_exact hl hs hw hw2 hnew (seq_runs hs') m1 ?_, m1⟩
  intro t ht
  have h1 := m3 t ht
  have h2 := mono_mem m1 t ht
  omega

end Window

namespace Log

theorem Runs.snoc {st : Store} {l l' l'' : Lim} {ts : List Int} {es : List Ans} (h : Runs st l ts es l')
    {order : List (Int × Int)} {t : Int} {b : Option (Int × Int)} (hp : order.Perm l'.counters)
    (he : tryAcquire st l' order t = .ok (l'', b)) : Runs st l (ts ++ [t]) (es ++ [⟨t, b⟩]) l'' := by
  induction h with
  | nil l => exact .cons order hp he (.nil _)
  | cons o1 hp1 he1 _ ih => exact .cons o1 hp1 he1 (ih hp he)

/-- The end of the body. -/
def finish (st : Store) (s : Lim) (cur : Int) (x : Counters × List Int) : Go (Lim × Option (Int × Int)) := do
  match ← violated st s.strategies x.2 with
  | some v => .ok ({ s with counters := x.1 }, some v)
  | none => .ok ({ s with counters := x.1.incr cur }, none)

/-- The possible outcomes of the rest of the body. -/
def Post (st : Store) : Lim × Loc → Lim × Option (Int × Int) → Prop
  | (s, .begin now), z => ∃ order, order.Perm s.counters ∧ tryAcquire st s order now = .ok z
  | (s, .range cur ss), z => ∃ order, order.Perm s.counters ∧
      (scan ss order (s.counters, List.replicate s.strategies.length 0) >>= finish st s cur) = .ok z
  | (s, .loop cur ss rest n), z => (scan ss rest (s.counters, n) >>= finish st s cur) = .ok z
  | (s, .bump cur), z => z = ({ s with counters := s.counters.incr cur }, none)
  | (s, .ret b), z => z = (s, b)

theorem exec_eq (st : Store) (op : Unit) (now : Int) (s s' : Lim) (r : Option (Int × Int))
    (h : Exec (body st) op now s s' r) : ∃ order, order.Perm s.counters ∧ tryAcquire st s order now = .ok (s', r) := by
  obtain ⟨l, h1, h2⟩ := exec_post (B := body st) (Post := Post st) (by
    intro x y hs z hz
    cases hs with
    | begin s now cur ss h h' =>
      obtain ⟨order, hp, hz⟩ := hz
      refine ⟨order, hp, ?_⟩
      unfold tryAcquire
      rw [h]
      simp only [Go.bind_ok]
      rw [h']
      exact hz
    | range s cur start order h => exact ⟨order, h, hz⟩
    | drop s cur ss s0 w c rest n h h' =>
      simp only [Post] at hz ⊢
      simp only [scan, h, Go.bind_ok, if_pos h']
      exact hz
    | add s cur ss s0 w c rest n h h' =>
      simp only [Post] at hz ⊢
      simp only [scan, h, Go.bind_ok, if_neg h']
      exact hz
    | full s cur ss n v h =>
      simp only [Post, finish, scan, Go.bind_ok] at hz ⊢
      rw [hz, h]
      rfl
    | free s cur ss n h =>
      simp only [Post, finish, scan, Go.bind_ok] at hz ⊢
      rw [hz, h]
      rfl
    | bump s cur => exact hz) (by
    intro s l r hr
    cases l <;> simp [body, final] at hr
    subst hr
    rfl) h
  have hl : l = .begin now := h1
  subst hl
  exact h2

theorem seq_runs {st : Store} {s s' : Lim} {ds : List (Done Unit (Option (Int × Int)))} (h : Seq (body st) s ds s') :
    Runs st s (ds.map (·.now)) (ds.map fun d => ⟨d.now, d.res⟩) s' := by
  induction h with
  | nil => exact .nil _
  | snoc _ he ih =>
    obtain ⟨order, hp, e⟩ := exec_eq _ _ _ _ _ _ he
    rw [List.map_append, List.map_append]
    exact ih.snoc hp e

/-- **C45 (sliding log).** Under every schedule and every iteration order the effects are a sequential run of the limiter
with a clock that does not run backwards, so C41 and C42 apply to them; each takes effect between its call and its
return. -/
theorem C45_log {st : Store} {small t0 : Int} {ptrs : List Nat} {st' : Store} {l : Lim} (S : Start st small ptrs st' l)
    (h0 : 0 ≤ t0) {c : Config Lim Unit Loc (Option (Int × Int))} (h : Reach (body st') l t0 c) (hc : c.clock < 2 ^ 63) :
    ∃ H l', Explains (body st') l t0 c.clock c.hist H ∧ Mono t0 (times H) ∧ (∀ t ∈ times H, 0 ≤ t ∧ t < 2 ^ 63) ∧
      Runs st' l (times H) ((H.filterMap Ev.done).map fun d => ⟨d.now, d.res⟩) l' ∧
      ∀ p ∈ ptrs, ∀ A, small ∣ A →
        (((LogSpec.acceptedTimes ((H.filterMap Ev.done).map fun d => ⟨d.now, d.res⟩)).countP
          fun a => decide (A ≤ a ∧ a < A + (rule st p).window) : Nat) : Int) ≤ max (rule st p).limit 0 := by
  obtain ⟨H, hH⟩ := linearizable (body st') l t0 h
  obtain ⟨s', hs'⟩ := hH.seq
  obtain ⟨m1, m2, m3⟩ := mono_of hH.mono
  have ht : ∀ t ∈ times H, 0 ≤ t ∧ t < 2 ^ 63 := by
    intro t ht
    have h1 := m3 t ht
    have h2 := mono_mem m1 t ht
    omega
  exact ⟨H, s', hH, m1, ht, seq_runs hs', fun p hp A hA => C41_every_rule S (seq_runs hs') m1 ht p hp A hA⟩

end Log

/-! ## A schedule -/

/-- Two goroutines on a fixed window limiter with limit 1: both call, the second gets the mutex first and wins. -/
example : ∃ c : Config Fixed.Lim Unit Fixed.Loc Bool, Reach Fixed.body (Fixed.new 1 10 0) 0 c ∧
    c.hist = [.inv 0 (), .inv 1 (), .res 1 true, .res 0 false] := by
  have r := Reach.init (B := Fixed.body) (s := Fixed.new 1 10 0) (t0 := 0)
  have r := r.step (.call _ 0 () rfl)
  have r := r.step (.call _ 1 () rfl)
  have r := r.step (.lock _ 1 () rfl rfl)
  have r := r.step (.read _ 1 () _ rfl rfl)
  have r := r.step (.body _ 1 () 0 _ _ _ rfl (.same _ _ (by decide)))
  have r := r.step (.body _ 1 () 0 _ _ _ rfl (.free _ (by decide)))
  have r := r.step (.body _ 1 () 0 _ _ _ rfl (.bump _))
  have r := r.step (.unlock _ 1 () 0 _ true rfl rfl)
  have r := r.step (.lock _ 0 () rfl rfl)
  have r := r.step (.read _ 0 () _ rfl rfl)
  have r := r.step (.body _ 0 () 0 _ _ _ rfl (.same _ _ (by decide)))
  have r := r.step (.ret _ 1 true rfl)
  have r := r.step (.body _ 0 () 0 _ _ _ rfl (.full _ (by decide)))
  have r := r.step (.unlock _ 0 () 0 _ false rfl rfl)
  have r := r.step (.ret _ 0 false rfl)
  exact ⟨_, r, rfl⟩

end Verif.Limiter
