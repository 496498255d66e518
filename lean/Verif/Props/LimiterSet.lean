import Verif.Props.LimiterWindow

/-!
# C172: the sliding window when the clock is set

`TryAcquire` reads `time.Now().UnixNano()` (sliding_window/sliding_window.go:39), the clock on the wall. C39 and C40 suppose that it never runs
backwards; here it may show anything at every call.
-/

namespace Verif.Limiter

namespace WindowSpec

/-- What the limiter still remembers of the accepted calls when it is called at `t`. -/
def remembered (window small : Int) (mem : List Int) (t : Int) : List Int :=
  mem.filter fun a => decide (slot small t - (window - small) ≤ slot small a)

/-- The answers of a limiter that forgets accepted calls for good once they are too old. -/
def forgetting (limit window small : Int) (mem : List Int) : List Int → List Event
  | [] => []
  | t :: ts =>
    if ((remembered window small mem t).length : Int) < limit then
      ⟨t, true⟩ :: forgetting limit window small (t :: remembered window small mem t) ts
    else ⟨t, false⟩ :: forgetting limit window small (remembered window small mem t) ts

/-- How often the clock ran backwards, `prev` being the time before. -/
def setBacks (prev : Int) : List Int → Nat
  | [] => 0
  | t :: ts => (if t < prev then 1 else 0) + setBacks t ts

end WindowSpec

open WindowSpec

namespace Window

open Counters

/-- What is known about a limiter that remembers the calls at the times `mem`. -/
structure Holds (limit window small : Int) (l : Lim) (mem : List Int) : Prop where
  lim : l.limit = limit
  sw : l.smallWindow = small
  sws : l.smallWindows = wrap64 (window.tdiv small)
  rep : Rep l.counters (mem.map (slot small)) (-(2 ^ 64))
  bound : (mem.length : Int) ≤ max limit 0

theorem rep_filter {m : Counters} {acc : List Int} {D s : Int} (h : Rep m acc D) :
    Rep (m.filter fun e => decide (s ≤ e.1)) (acc.filter fun w => decide (s ≤ w)) D := by
  refine ⟨h.nodup.sublist ((List.filter_sublist).map _), ?_, ?_⟩
  · intro e he
    simp only [List.mem_filter, decide_eq_true_eq] at he
    obtain ⟨h1, h2, h3⟩ := h.ent e he.1
    exact ⟨h1, by rw [h2, List.count_filter (by simpa using he.2)], h3⟩
  · intro w hw hD
    simp only [List.mem_filter, decide_eq_true_eq] at hw
    have := h.key w hw.1 hD
    rw [List.mem_map] at this ⊢
    obtain ⟨e, he, rfl⟩ := this
    exact ⟨e, by simpa using ⟨he, hw.2⟩, rfl⟩

/-- One call at any time. -/
theorem step_any {limit window small : Int} (P : Params limit window small) {l : Lim} {mem : List Int} {t : Int}
    (g : Holds limit window small l mem) (h0 : 0 ≤ t) (h1 : t < 2 ^ 63) {order : List (Int × Int)} (hp : order.Perm l.counters) :
    ∃ l', tryAcquire l order t = .ok (l', decide (((remembered window small mem t).length : Int) < limit)) ∧
      Holds limit window small l' (if ((remembered window small mem t).length : Int) < limit then t :: remembered window small mem t
        else remembered window small mem t) := by
  obtain ⟨hl, hs, hw, hw2, hdvd⟩ := P
  have hslot0 := slot_nonneg hs h0
  have hslot1 := slot_le (t := t) hs
  have hsw : small ≤ window := Int.le_of_dvd hw hdvd
  have hsum := (g.rep.perm hp).sum (s := slot small t - (window - small)) (by omega)
  have hmap : ((mem.map (slot small)).filter fun w => decide (slot small t - (window - small) ≤ w)) =
      (remembered window small mem t).map (slot small) := by
    rw [List.filter_map]; rfl
  have hlen : (mem.map (slot small)).countP (fun w => decide (slot small t - (window - small) ≤ w)) = (remembered window small mem t).length := by
    rw [List.countP_eq_length_filter, hmap, List.length_map]
  rw [hlen] at hsum
  have hle : (remembered window small mem t).length ≤ mem.length := List.length_filter_le _ _
  have hb := g.bound
  have hl2 := hl.2
  have hl1 := hl.1
  have hstart : wrap64 (slot small t - wrap64 (small * wrap64 (l.smallWindows - 1))) = slot small t - (window - small) := by
    rw [g.sws]; exact start_ok hs hw hw2 hdvd hslot0 (by omega)
  have hfil := rep_filter (s := slot small t - (window - small)) g.rep
  rw [hmap] at hfil
  unfold tryAcquire
  rw [g.sw, smallWindowOf_ok hs h0 h1]
  simp only [Go.bind_ok]
  rw [hstart, scan_map hp, hsum, wrap64_of_in (by unfold InI64; omega), g.lim]
  by_cases hc : ((remembered window small mem t).length : Int) < limit
  · rw [if_pos hc, decide_eq_true hc]
    simp only [if_neg (show ¬ ((remembered window small mem t).length : Int) ≥ limit by omega)]
    refine ⟨_, rfl, rfl, rfl, g.sws, ?_, by rw [List.length_cons]; push_cast; omega⟩
    have hcnt : ((remembered window small mem t).map (slot small)).count (slot small t) ≤ (remembered window small mem t).length := by
      have := List.count_le_length (a := slot small t) (l := (remembered window small mem t).map (slot small))
      rwa [List.length_map] at this
    exact hfil.incr (w := slot small t) (by omega) (by omega)
  · rw [if_neg hc, decide_eq_false hc]
    simp only [if_pos (show ((remembered window small mem t).length : Int) ≥ limit by omega)]
    exact ⟨_, rfl, rfl, rfl, g.sws, hfil, by omega⟩

theorem run_any {limit window small : Int} (P : Params limit window small) {l l' : Lim} {ts : List Int} {es : List Event} (hr : Runs l ts es l') :
    ∀ {mem : List Int}, Holds limit window small l mem → (∀ t ∈ ts, 0 ≤ t ∧ t < 2 ^ 63) → es = forgetting limit window small mem ts := by
  induction hr with
  | nil l => intros; rfl
  | cons order hp he hr ih =>
    rename_i l l1 l2 t ts b es
    intro mem g ht
    obtain ⟨l3, e1, g1⟩ := step_any P g (ht t (by simp)).1 (ht t (by simp)).2 hp
    rw [he] at e1
    simp only [Except.ok.injEq, Prod.mk.injEq] at e1
    obtain ⟨rfl, rfl⟩ := e1
    have := ih g1 (fun x hx => ht x (by simp [hx]))
    rw [forgetting]
    split at this <;> rename_i hadm
    · rw [if_pos hadm, ← this, decide_eq_true hadm]
    · rw [if_neg hadm, ← this, decide_eq_false hadm]

theorem holds_new {limit window small : Int} {l : Lim} (h : new limit window small = .ok (some l)) : Holds limit window small l [] := by
  unfold new at h
  split at h
  · cases h
  · split at h
    · cases h
    · simp only [Except.ok.injEq, Option.some.injEq] at h
      subst h
      exact ⟨rfl, rfl, rfl, rep_nil _, by simp⟩

/-- **C172 (exact answers).** Every run, whatever the clock shows at each call and whatever the iteration order of the map, answers as a limiter that
forgets accepted calls for good once they are too old. -/
theorem C172_exact {limit window small : Int} {l l' : Lim} {ts : List Int} {es : List Event} (hl : InI64 limit) (hs : 0 < small) (hw : 0 < window)
    (hw2 : window < 2 ^ 63) (hnew : new limit window small = .ok (some l)) (hr : Runs l ts es l') (ht : ∀ t ∈ ts, 0 ≤ t ∧ t < 2 ^ 63) :
    es = forgetting limit window small [] ts :=
  run_any (params_of_new hl hs hw hw2 hnew) hr (holds_new hnew) ht

/-- Every sequence of calls has a run. -/
theorem runs_any {limit window small : Int} (P : Params limit window small) : ∀ (ts : List Int) {l : Lim} {mem : List Int},
    Holds limit window small l mem → (∀ t ∈ ts, 0 ≤ t ∧ t < 2 ^ 63) → ∃ es l', Runs l ts es l'
  | [], l, mem, _, _ => ⟨[], l, .nil l⟩
  | t :: ts, l, mem, g, ht => by
    obtain ⟨l1, e1, g1⟩ := step_any P g (ht t (by simp)).1 (ht t (by simp)).2 (List.Perm.refl _)
    obtain ⟨es, l', hr⟩ := runs_any P ts g1 (fun x hx => ht x (by simp [hx]))
    exact ⟨_, l', .cons _ (List.Perm.refl _) e1 hr⟩

/-! ### How much is let through -/

section bound

variable {limit window small : Int} (hs : 0 < small) (hw : 0 < window) (hd : small ∣ window) {A : Int} (hA : small ∣ A)

include hs hA in
theorem slot_ge {a : Int} (h : A ≤ a) : A ≤ slot small a := by
  have := slot_mono hs h
  have h2 : slot small A = A := by unfold slot; exact Int.ediv_mul_cancel hA
  omega

include hs hw hd hA in
/-- A call before the end of the interval keeps what is not before its start. -/
theorem kept {t : Int} (ht : t < A + window) (mem : List Int) :
    (remembered window small mem t).countP (fun a => decide (A ≤ a)) = mem.countP (fun a => decide (A ≤ a)) := by
  unfold remembered
  rw [List.countP_filter]
  apply List.countP_congr
  intro a _
  simp only [Bool.and_eq_true, decide_eq_true_eq, and_iff_left_iff_imp]
  intro ha
  have h1 := slot_ge hs hA ha
  have h2 := slot_le (t := t) hs
  have h3 := aligned_le hs hA (slot_dvd small t) hd (by omega)
  omega

include hs hw hd hA in
/-- A call after the end of the interval leaves nothing that is before its start. -/
theorem all_kept {t : Int} (ht : A + window ≤ t) (mem : List Int) {a : Int} (ha : a ∈ remembered window small mem t) : A ≤ a := by
  simp only [remembered, List.mem_filter, decide_eq_true_eq] at ha
  have h1 : A + window ≤ slot small t := slot_ge hs (Int.dvd_add hA hd) ht
  have h2 := slot_le (t := a) hs
  omega

theorem countP_all {l : List Int} {A : Int} (h : ∀ a ∈ l, A ≤ a) : l.countP (fun a => decide (A ≤ a)) = l.length :=
  List.countP_eq_length.2 fun a ha => by simpa using h a ha

include hs hw hd hA in
theorem forgetting_le (hl : 1 ≤ limit) : ∀ (ts mem : List Int) (prev : Int), (mem.length : Int) ≤ limit →
    (prev < A + window → accepted (fun t => A ≤ t ∧ t < A + window) (forgetting limit window small mem ts) +
      (mem.countP (fun a => decide (A ≤ a)) : Nat) ≤ limit + setBacks prev ts * (limit - 1)) ∧
    (A + window ≤ prev → mem ≠ [] → (∀ a ∈ mem, A ≤ a) →
      accepted (fun t => A ≤ t ∧ t < A + window) (forgetting limit window small mem ts) ≤ setBacks prev ts * (limit - 1))
  | [], mem, prev, hm => by
    simp only [forgetting, accepted_nil, setBacks]
    have : mem.countP (fun a => decide (A ≤ a)) ≤ mem.length := List.countP_le_length
    constructor
    · intro _; push_cast; omega
    · intros; simp
  | t :: ts, mem, prev, hm => by
    have hle : (remembered window small mem t).length ≤ mem.length := List.length_filter_le _ _
    have hcl : mem.countP (fun a => decide (A ≤ a)) ≤ mem.length := List.countP_le_length
    -- the calls from here on, after a call at `t`
    have key : (t < A + window → accepted (fun t => A ≤ t ∧ t < A + window) (forgetting limit window small mem (t :: ts)) +
          (mem.countP (fun a => decide (A ≤ a)) : Nat) ≤ limit + setBacks t ts * (limit - 1)) ∧
        (A + window ≤ t → accepted (fun t => A ≤ t ∧ t < A + window) (forgetting limit window small mem (t :: ts)) ≤
          setBacks t ts * (limit - 1)) := by
      rw [forgetting]
      split
      · rename_i hadm
        obtain ⟨i1, i2⟩ := forgetting_le hl ts (t :: remembered window small mem t) t (by rw [List.length_cons]; push_cast; omega)
        rw [accepted_cons]
        constructor
        · intro h
          have i1 := i1 h
          rw [List.countP_cons, kept hs hw hd hA h] at i1
          by_cases hat : A ≤ t
          · rw [if_pos (by simpa using hat)] at i1
            rw [if_pos ⟨rfl, hat, h⟩]
            push_cast at i1
            omega
          · rw [if_neg (by simpa using hat)] at i1
            rw [if_neg (by simp [hat])]
            simpa using i1
        · intro h
          rw [if_neg (by simp; omega), Int.add_zero]
          refine i2 h (by simp) fun a ha => ?_
          rcases List.mem_cons.1 ha with rfl | ha
          · omega
          · exact all_kept hs hw hd hA h mem ha
      · rename_i hadm
        obtain ⟨i1, i2⟩ := forgetting_le hl ts (remembered window small mem t) t (by omega)
        rw [accepted_cons, if_neg (by simp), Int.add_zero]
        constructor
        · intro h
          have i1 := i1 h
          rwa [kept hs hw hd hA h] at i1
        · intro h
          refine i2 h (fun e => ?_) fun a ha => all_kept hs hw hd hA h mem ha
          rw [e] at hadm
          simp at hadm
          omega
    have hnn : 0 ≤ (setBacks t ts : Int) * (limit - 1) := Int.mul_nonneg (by omega) (by omega)
    rw [setBacks]
    obtain ⟨k1, k2⟩ := key
    by_cases hb : t < prev
    · rw [if_pos hb]
      push_cast
      rw [Int.add_mul, Int.one_mul]
      constructor
      · intro hp
        have := k1 (by omega)
        omega
      · intro hp hne hall
        by_cases ht : t < A + window
        · have h1 := k1 ht
          rw [countP_all hall] at h1
          have h2 : 0 < mem.length := List.length_pos_iff.2 hne
          omega
        · have := k2 (by omega)
          omega
    · rw [if_neg hb]
      push_cast
      rw [Int.zero_add]
      constructor
      · intro hp
        by_cases ht : t < A + window
        · exact k1 ht
        · have := k2 (by omega)
          omega
      · intro hp _ _
        exact k2 (by omega)

end bound

/-- **C172 (bound).** If the clock runs backwards `k` times, at most `limit + k (limit - 1)` calls are accepted in an interval `[A, A + window)` whose
start is a multiple of the small window. -/
theorem C172_bound {limit window small : Int} {l l' : Lim} {ts : List Int} {es : List Event} (hl : InI64 limit) (hl1 : 1 ≤ limit) (hs : 0 < small)
    (hw : 0 < window) (hw2 : window < 2 ^ 63) (hnew : new limit window small = .ok (some l)) (hr : Runs l ts es l')
    (ht : ∀ t ∈ ts, 0 ≤ t ∧ t < 2 ^ 63) (A : Int) (hA : small ∣ A) :
    accepted (fun t => A ≤ t ∧ t < A + window) es ≤ limit + setBacks 0 ts * (limit - 1) := by
  have P := params_of_new hl hs hw hw2 hnew
  rw [C172_exact hl hs hw hw2 hnew hr ht]
  by_cases h0 : 0 < A + window
  · have := (forgetting_le hs hw P.dvd hA hl1 ts [] 0 (by simp; omega)).1 h0
    simpa using this
  · have hz : ∀ (ts mem : List Int), (∀ t ∈ ts, 0 ≤ t ∧ t < 2 ^ 63) →
        accepted (fun t => A ≤ t ∧ t < A + window) (forgetting limit window small mem ts) = 0 := by
      intro ts
      induction ts with
      | nil => intro mem _; rfl
      | cons t ts ih =>
        intro mem h
        have h1 := h t (by simp)
        rw [forgetting]
        split <;> rw [accepted_cons, if_neg (by rintro ⟨_, h2, h3⟩; dsimp only at h2 h3; omega), ih _ fun x hx => h x (by simp [hx])] <;> rfl
    rw [hz ts [] ht]
    have : 0 ≤ (setBacks 0 ts : Int) * (limit - 1) := Int.mul_nonneg (by omega) (by omega)
    omega

/-- `limit - 1` calls at time 0 after the clock was set forth to `i * window` for one call and back. -/
def swings (limit : Nat) (window : Int) : Nat → Nat → List Int
  | _, 0 => []
  | i, k + 1 => (i : Int) * window :: (List.replicate (limit - 1) 0 ++ swings limit window (i + 1) k)

section sharp

variable {limit : Nat} {window small : Int} (hs : 0 < small) (hw : 0 < window) (hd : small ∣ window)

theorem remembered_zero (hs : 0 < small) (hw : 0 < window) (hd : small ∣ window) {mem : List Int} (h : ∀ a ∈ mem, 0 ≤ a) :
    remembered window small mem 0 = mem := by
  have hsw : small ≤ window := Int.le_of_dvd hw hd
  unfold remembered
  rw [List.filter_eq_self]
  intro a ha
  have := slot_nonneg hs (h a ha)
  have h0 : slot small 0 = 0 := by unfold slot; simp
  rw [h0]
  simp only [decide_eq_true_eq]
  omega

theorem forgetting_fill (hs : 0 < small) (hw : 0 < window) (hd : small ∣ window) : ∀ (n : Nat) (mem us : List Int), (∀ a ∈ mem, 0 ≤ a) →
    mem.length + n ≤ limit → forgetting limit window small mem (List.replicate n 0 ++ us) =
      List.replicate n ⟨0, true⟩ ++ forgetting limit window small (List.replicate n 0 ++ mem) us
  | 0, mem, us, _, _ => by simp
  | n + 1, mem, us, h, hle => by
    rw [List.replicate_succ, List.cons_append, forgetting, remembered_zero hs hw hd h, if_pos (by omega),
      forgetting_fill hs hw hd n (0 :: mem) us (by
        intro a ha
        rcases List.mem_cons.1 ha with rfl | ha
        · omega
        · exact h a ha) (by rw [List.length_cons]; omega), List.replicate_succ, List.cons_append]
    congr 3
    have : List.replicate n (0 : Int) ++ 0 :: mem = (List.replicate n 0 ++ [0]) ++ mem := by simp
    rw [this, ← List.replicate_succ', List.replicate_succ, List.cons_append]

theorem swings_accepted (hs : 0 < small) (hw : 0 < window) (hd : small ∣ window) (hl1 : 1 ≤ limit) : ∀ (k i : Nat) (mem : List Int), 0 < i →
    (∀ a ∈ mem, 0 ≤ a ∧ a ≤ ((i : Int) - 1) * window) →
    accepted (fun t => 0 ≤ t ∧ t < window) (forgetting limit window small mem (swings limit window i k)) = k * ((limit : Int) - 1)
  | 0, i, mem, _, _ => by simp [swings, forgetting, accepted_nil]
  | k + 1, i, mem, hi, h => by
    have e1 : remembered window small mem (i * window) = [] := by
      unfold remembered
      rw [List.filter_eq_nil_iff]
      intro a ha
      have h1 := h a ha
      have h2 := slot_le (t := a) hs
      have h3 : slot small (i * window) = i * window := by
        unfold slot; exact Int.ediv_mul_cancel (Int.dvd_trans hd (Int.dvd_mul_left _ _))
      rw [Int.sub_mul, Int.one_mul] at h1
      simp only [h3, decide_eq_true_eq]
      omega
    have hi0 : (0 : Int) ≤ i * window := Int.mul_nonneg (by omega) (by omega)
    rw [swings, forgetting, e1, if_pos (by simp; omega), accepted_cons,
      forgetting_fill hs hw hd (limit - 1) [(i : Int) * window] _ (by simpa using hi0) (by simp; omega)]
    have hcat : ∀ (xs ys : List Event), accepted (fun t => 0 ≤ t ∧ t < window) (xs ++ ys) =
        accepted (fun t => 0 ≤ t ∧ t < window) xs + accepted (fun t => 0 ≤ t ∧ t < window) ys := by
      intro xs ys
      unfold accepted
      rw [List.countP_append]
      push_cast
      rfl
    have hrep : accepted (fun t => 0 ≤ t ∧ t < window) (List.replicate (limit - 1) ⟨0, true⟩) = (limit : Int) - 1 := by
      unfold accepted
      rw [List.countP_replicate, if_pos (by simp; omega)]
      omega
    have hge : window ≤ (i : Int) * window := by
      have := Int.mul_le_mul_of_nonneg_right (show (1 : Int) ≤ i by omega) (show 0 ≤ window by omega)
      omega
    rw [hcat, hrep, if_neg (by simp; omega), swings_accepted hs hw hd hl1 k (i + 1) _ (by omega) (by
      intro a ha
      have e : (((i + 1 : Nat) : Int) - 1) * window = i * window := by push_cast; congr 1; omega
      rw [e]
      rcases List.mem_append.1 ha with ha | ha
      · rw [(List.mem_replicate.1 ha).2]; exact ⟨by omega, hi0⟩
      · rw [List.mem_singleton.1 ha]; exact ⟨hi0, by omega⟩)]
    push_cast
    rw [Int.add_mul, Int.one_mul]
    omega

theorem setBacks_append (p : Int) : ∀ (n : Nat) (us : List Int), setBacks 0 (List.replicate n 0 ++ us) = setBacks 0 us
  | 0, us => rfl
  | n + 1, us => by
    rw [List.replicate_succ, List.cons_append, setBacks, if_neg (by omega), Nat.zero_add]
    exact setBacks_append p n us

theorem swings_setBacks (hw : 0 < window) (hl1 : 2 ≤ limit) : ∀ (k i : Nat), 0 < i → setBacks 0 (swings limit window i k) = k
  | 0, i, _ => rfl
  | k + 1, i, hi => by
    have hge : 0 < (i : Int) * window := Int.mul_pos (by omega) hw
    obtain ⟨n, hn⟩ : ∃ n, limit - 1 = n + 1 := ⟨limit - 2, by omega⟩
    rw [swings, setBacks, if_neg (by omega), hn, List.replicate_succ, List.cons_append, setBacks, if_pos hge,
      setBacks_append 0, swings_setBacks hw hl1 k (i + 1) (by omega)]
    omega

theorem swings_mem {t : Int} (hw : 0 < window) : ∀ (k i : Nat), t ∈ swings limit window i k → 0 ≤ t ∧ t ≤ ((i + k : Nat) : Int) * window
  | 0, i, h => by cases h
  | k + 1, i, h => by
    have hnn : ∀ n : Nat, (0 : Int) ≤ n * window := fun n => Int.mul_nonneg (by omega) (by omega)
    rw [swings] at h
    rcases List.mem_cons.1 h with rfl | h
    · exact ⟨hnn i, Int.mul_le_mul_of_nonneg_right (by omega) (by omega)⟩
    · rcases List.mem_append.1 h with h | h
      · rw [(List.mem_replicate.1 h).2]; exact ⟨by omega, hnn _⟩
      · have := swings_mem hw k (i + 1) h
        rw [show i + 1 + k = i + (k + 1) by omega] at this
        exact this

end sharp

/-- **C172 (the limit is exceeded).** The bound is reached: for every limit of at least 2, every window and every number of times `k` there is a history
in which the clock is set back `k` times and `limit + k (limit - 1)` calls are accepted in `[0, window)`. -/
theorem C172_exceeded_refuted (limit k : Nat) (window small : Int) (hl : InI64 limit) (hl2 : 2 ≤ limit) (hs : 0 < small) (hw : 0 < window)
    (hd : small ∣ window) (hk : ((k : Int) + 1) * window < 2 ^ 63) :
    ∃ l ts, new limit window small = .ok (some l) ∧ (∀ t ∈ ts, 0 ≤ t ∧ t < 2 ^ 63) ∧ setBacks 0 ts = k ∧ (∃ es l', Runs l ts es l') ∧
      ∀ es l', Runs l ts es l' → accepted (fun t => 0 ≤ t ∧ t < window) es = limit + k * ((limit : Int) - 1) := by
  obtain ⟨l, hnew⟩ := (C39_new limit window small (by omega)).2 hd
  have hw2 : window < 2 ^ 63 := by
    have : 0 ≤ (k : Int) * window := Int.mul_nonneg (by omega) (by omega)
    rw [Int.add_mul, Int.one_mul] at hk
    omega
  have ht : ∀ t ∈ List.replicate limit 0 ++ swings limit window 1 k, 0 ≤ t ∧ t < 2 ^ 63 := by
    intro t h
    rcases List.mem_append.1 h with h | h
    · rw [(List.mem_replicate.1 h).2]; exact ⟨by omega, by decide⟩
    · have := swings_mem hw k 1 h
      push_cast at this
      rw [Int.add_comm] at this
      omega
  refine ⟨l, List.replicate limit 0 ++ swings limit window 1 k, hnew, ht, ?_,
    runs_any ⟨hl, hs, hw, hw2, hd⟩ _ (holds_new hnew) ht, ?_⟩
  · rw [setBacks_append 0, swings_setBacks hw hl2 k 1 (by omega)]
  · intro es l' hr
    rw [C172_exact hl hs hw hw2 hnew hr ht, forgetting_fill hs hw hd limit [] _ (by simp) (by simp)]
    unfold accepted
    rw [List.countP_append, List.countP_replicate, if_pos (by simp; omega)]
    have := swings_accepted hs hw hd (show 1 ≤ limit by omega) k 1 (List.replicate limit 0 ++ []) (by omega) (by
      intro a ha
      rw [List.append_nil] at ha
      rw [(List.mem_replicate.1 ha).2]
      simp)
    unfold accepted at this
    push_cast
    rw [this]

/-- Two calls per 20 ns: the clock is set forth and back twice, and four calls are accepted in 20 ns. -/
example : forgetting 2 20 10 [] [0, 0, 20, 0, 0, 40, 0, 0] =
    [⟨0, true⟩, ⟨0, true⟩, ⟨20, true⟩, ⟨0, true⟩, ⟨0, false⟩, ⟨40, true⟩, ⟨0, true⟩, ⟨0, false⟩] := by decide

/-! ### How long nothing is let through -/

theorem all_rejected {limit window small T : Int} (hs : 0 < small) (hd : small ∣ window) : ∀ (us mem : List Int),
    limit ≤ (mem.length : Int) → (∀ a ∈ mem, a = T) → (∀ u ∈ us, u < slot small T + window) →
    ∀ e ∈ forgetting limit window small mem us, e.ok = false
  | [], _, _, _, _, _, h => by cases h
  | u :: us, mem, h1, h2, h3, e, he => by
    have hkeep : remembered window small mem u = mem := by
      unfold remembered
      rw [List.filter_eq_self]
      intro a ha
      rw [h2 a ha]
      simp only [decide_eq_true_eq]
      have h4 := slot_le (t := u) hs
      have := aligned_le hs (slot_dvd small T) (slot_dvd small u) hd (by have := h3 u (by simp); omega)
      omega
    rw [forgetting, hkeep, if_neg (by omega)] at he
    rcases List.mem_cons.1 he with rfl | he
    · rfl
    · exact all_rejected hs hd us mem h1 h2 (fun u hu => h3 u (by simp [hu])) e he

/-- **C172 (outage).** If `limit` calls were accepted at `T` and the clock is set back, every call is rejected until the clock shows the end of the window of
`T` again: as long as it was set back, and longer. -/
theorem C172_outage_refuted (limit : Nat) (window small : Int) (hl : InI64 limit) (hs : 0 < small) (hw : 0 < window) (hw2 : window < 2 ^ 63)
    (hd : small ∣ window) (T : Int) (h0 : 0 ≤ T) (h1 : T < 2 ^ 63) (us : List Int) (hu : ∀ u ∈ us, 0 ≤ u ∧ u < 2 ^ 63 ∧ u < slot small T + window) :
    ∃ l, new limit window small = .ok (some l) ∧ (∃ es l', Runs l (List.replicate limit T ++ us) es l') ∧
      ∀ es l', Runs l (List.replicate limit T ++ us) es l' → ∃ rest, es = List.replicate limit ⟨T, true⟩ ++ rest ∧ rest.length = us.length ∧
        ∀ e ∈ rest, e.ok = false := by
  obtain ⟨l, hnew⟩ := (C39_new limit window small (by omega)).2 hd
  have ht : ∀ t ∈ List.replicate limit T ++ us, 0 ≤ t ∧ t < 2 ^ 63 := by
    intro t h
    rcases List.mem_append.1 h with h | h
    · rw [(List.mem_replicate.1 h).2]; exact ⟨h0, h1⟩
    · exact ⟨(hu t h).1, (hu t h).2.1⟩
  refine ⟨l, hnew, runs_any ⟨hl, hs, hw, hw2, hd⟩ _ (holds_new hnew) ht, fun es l' hr => ?_⟩
  rw [C172_exact hl hs hw hw2 hnew hr ht]
  have hfill : ∀ (n : Nat) (mem : List Int), (∀ a ∈ mem, a = T) → mem.length + n ≤ limit →
      forgetting limit window small mem (List.replicate n T ++ us) =
        List.replicate n ⟨T, true⟩ ++ forgetting limit window small (List.replicate n T ++ mem) us := by
    intro n
    induction n with
    | zero => intro mem _ _; simp
    | succ n ih =>
      intro mem hm hle
      have hkeep : remembered window small mem T = mem := by
        unfold remembered
        rw [List.filter_eq_self]
        intro a ha
        rw [hm a ha]
        simp only [decide_eq_true_eq]
        have : small ≤ window := Int.le_of_dvd hw hd
        omega
      rw [List.replicate_succ, List.cons_append, forgetting, hkeep, if_pos (by omega), ih (T :: mem) (by
        intro a ha
        rcases List.mem_cons.1 ha with rfl | ha
        · rfl
        · exact hm a ha) (by rw [List.length_cons]; omega), List.replicate_succ, List.cons_append]
      congr 3
      have : List.replicate n T ++ T :: mem = (List.replicate n T ++ [T]) ++ mem := by simp
      rw [this, ← List.replicate_succ', List.replicate_succ, List.cons_append]
  have hlen : ∀ (ts mem : List Int), (forgetting limit window small mem ts).length = ts.length := by
    intro ts
    induction ts with
    | nil => intro mem; rfl
    | cons t ts ih => intro mem; rw [forgetting]; split <;> simp [ih]
  refine ⟨_, hfill limit [] (by simp) (by simp), hlen _ _, ?_⟩
  exact all_rejected hs hd us _ (by simp) (by
    intro a ha
    rw [List.append_nil] at ha
    exact (List.mem_replicate.1 ha).2) fun u h => (hu u h).2.2

/-- Two calls per 20 ns: after two calls at 1000 the clock is set back to 0, and nothing is accepted until it shows 1020. -/
example : forgetting 2 20 10 [] [1000, 1000, 0, 500, 1019, 1020] =
    [⟨1000, true⟩, ⟨1000, true⟩, ⟨0, false⟩, ⟨500, false⟩, ⟨1019, false⟩, ⟨1020, true⟩] := by decide

end Window

end Verif.Limiter
