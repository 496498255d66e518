import Verif.Model.TimingRun
import Verif.Proof.TimingWheelRun

/-!
# The timing wheel: C56-C63, C99

`Reach k tick W t0 s`: `s` is reached from a new wheel with that tick and size made at time `t0`, by any interleaving of
the callers, of started tasks, of the queue's goroutine and of `Run`; `k` restricts when `Run` may process a bucket.
`fun _ _ => True` does not restrict it. `inOrder` says that no bucket in the queue or in the channel expires before the one
processed, which holds if `Run` gets each due bucket before another one with a smaller expiration is put into the queue.
-/

namespace Verif.TimingWheel

open Mutex (put put_self put_ne)

variable {tick t0 : Int} {W : Nat} {k : State → Ref → Prop}

/-- No restriction. -/
abbrev free : State → Ref → Prop := fun _ _ => True

theorem free_ok (s : State) (r : Ref) (_ : (fun _ _ => true : State → Ref → Bool) s r = true) : free s r := trivial

/-! ## C56: the right bucket -/

/-- The timer `t` with expiration `e` was put into the bucket `r` of the wheel `w`. -/
structure Placed (tw : Tw) (t : Nat) (r : Ref) (w : Wheel) (tw' : Tw) : Prop where
  wheel : tw'.wheels[r.level]? = some w
  /-- the wheel's span contains the expiration -/
  span : w.cur + w.tick ≤ (tw.timer t).exp ∧ (tw.timer t).exp < w.cur + w.interval
  /-- the spans of the lower wheels do not -/
  first : ∀ (j : Nat) (w' : Wheel), j < r.level → tw'.wheels[j]? = some w' → w'.cur + w'.interval ≤ (tw.timer t).exp
  /-- the bucket's tick contains the expiration -/
  bucket : w.tick ∣ (bucketAt tw'.wheels r).exp ∧ (bucketAt tw'.wheels r).exp ≤ (tw.timer t).exp ∧
    (tw.timer t).exp < (bucketAt tw'.wheels r).exp + w.tick
  slot : (r.slot : Int) = (bucketAt tw'.wheels r).exp / w.tick % W
  holds : (bucketAt tw'.wheels r).timers = (bucketAt tw.wheels r).timers ++ [t]
  others : ∀ r', r' ≠ r → bucketAt tw'.wheels r' = bucketAt tw.wheels r'
  owner : (tw'.timer t).bucket = some r ∧ ∀ t', t' ≠ t → tw'.timer t' = tw.timer t'
  /-- a bucket whose expiration changed is put into the queue -/
  queue : (bucketAt tw.wheels r).exp = (bucketAt tw'.wheels r).exp ∧ tw'.queue = tw.queue ∨
    (bucketAt tw.wheels r).exp ≠ (bucketAt tw'.wheels r).exp ∧ tw'.queue.Perm (r :: tw.queue)

/-- **C56** In every reachable state `add` of any timer reports it as due exactly if `e < currentTime + tick`, changing
nothing, and otherwise puts it into the right bucket of the first wheel whose span contains it. -/
theorem C56_add (hk : 0 < tick) (hW : 1 < W) (ht : 0 ≤ t0) {s : State} (h : Reach k tick W t0 s) (timer : Nat → Timer) (t : Nat) :
    ∃ n, ∀ fuel, n ≤ fuel →
      ((timer t).exp < curTime s.tw.wheels + tick ∧
        add fuel { s.tw with timer := timer } 0 t none = .ok ({ s.tw with timer := timer }, false)) ∨
      (curTime s.tw.wheels + tick ≤ (timer t).exp ∧ ∃ r w tw', add fuel { s.tw with timer := timer } 0 t none = .ok (tw', true) ∧
        Placed (W := W) { s.tw with timer := timer } t r w tw') := by
  have hi := inv_reach hk hW ht h
  obtain ⟨n, hn⟩ := add_total (tw := { s.tw with timer := timer }) t none hi.tinv.wf
  refine ⟨n, fun fuel hf => ?_⟩
  rcases hn fuel hf with ⟨h1, h2⟩ | ⟨h1, r, tw', ha, h2, _⟩
  · exact .inl ⟨h1, h2⟩
  · refine .inr ⟨h1, r, ?_⟩
    obtain ⟨bs, e1, e2⟩ := ha.wf.at ha.valid.1
    have hkp := ha.wf.kp r.level
    have hb : bucketAt tw'.wheels r = _ := (ha.bk r).trans (if_pos rfl)
    refine ⟨_, tw', h2 (by simp), e1, ⟨ha.lo, ha.hi⟩, ?_, ?_, ?_, ?_, ?_, ?_, ?_⟩
    · intro j w' hj hw'
      obtain ⟨_, _, a3, a4, _⟩ := ha.wf.each j w' hw'
      rw [a3, a4]
      exact ha.first j hj
    · rw [hb]
      exact ⟨fl_dvd _ _, fl_le hkp, lt_fl hkp⟩
    · rw [hb, ha.slot]
      dsimp only
      unfold slotOf
      rw [Int.toNat_of_nonneg (Int.emod_nonneg _ (by omega))]
    · rw [hb]
    · intro r' hr; rw [ha.bk, if_neg hr]
    · rw [ha.timer]
      exact ⟨by rw [put_self], fun t' ht' => put_ne _ _ ht'⟩
    · rw [hb]
      by_cases hs : (bucketAt s.tw.wheels r).exp = fl (timer t).exp (K tick W r.level)
      · exact .inl ⟨hs, ha.same hs⟩
      · refine .inr ⟨hs, ?_⟩
        obtain ⟨q, q1, q2⟩ := push_total tw'.wheels s.tw.queue r
        have := ha.push hs
        rw [q1] at this
        cases this
        exact q2

/-- **C56** The wheel at level `l` has tick `tick * W ^ l`, and its time is the time of the first wheel, rounded down. -/
theorem C56_levels (hk : 0 < tick) (hW : 1 < W) (ht : 0 ≤ t0) {s : State} (h : Reach k tick W t0 s) {l : Nat} {w : Wheel}
    (hw : s.tw.wheels[l]? = some w) : w.tick = tick * W ^ l ∧ w.interval = w.tick * W ∧ w.tick ∣ w.cur ∧
      w.cur ≤ curTime s.tw.wheels ∧ curTime s.tw.wheels < w.cur + w.tick ∧ w.buckets.length = W := by
  have hi := (inv_reach hk hW ht h).tinv.wf
  obtain ⟨h1, h2, h3, h4, h5⟩ := hi.each l w hw
  rw [h1, h3, h4]
  exact ⟨rfl, K_succ l, fl_dvd _ _, fl_le (hi.kp l), lt_fl (hi.kp l), h5⟩

/-- A timer on the second level (wheel of 4 slots, expiration 9 after time 0). -/
example : (run (fun _ _ => true) 1 4 0 [.after 9]).any (fun s =>
    decide ((s.tw.timer 0).bucket = some ⟨1, 2⟩ ∧ bucketAt s.tw.wheels ⟨1, 2⟩ = ⟨8, [0]⟩ ∧ s.tw.queue = [⟨1, 2⟩])) = true := by
  decide +kernel

/-! ## C57: not early -/

/-- **C57** If `Run` processes the buckets in order, a task is started only when the wheel's time has reached its
expiration truncated to a tick, and the wheel's time is never ahead of the clock. -/
theorem C57_not_early (hk : 0 < tick) (hW : 1 < W) (ht : 0 ≤ t0) {s : State} (h : Reach inOrder tick W t0 s) {x : Start}
    (hx : x ∈ s.started) : x.exp / tick * tick ≤ x.cur ∧ x.cur ≤ x.clock ∧ x.exp < x.clock + tick := by
  obtain ⟨h1, h2, h3⟩ := (ord_reach hk hW ht h).starts x hx
  have : fl x.exp tick ≤ x.cur := by
    have := @fl_le x.exp tick hk
    exact dvd_lt (fl_dvd _ _) h1 (by omega) hk
  exact ⟨this, h3, by omega⟩

/-- **C57** With a tick of one millisecond it is never early. -/
theorem C57_one (hW : 1 < W) (ht : 0 ≤ t0) {s : State} (h : Reach inOrder 1 W t0 s) {x : Start} (hx : x ∈ s.started) :
    x.exp ≤ x.clock := by
  have := (C57_not_early (by omega) hW ht h hx).2.2
  omega

/-- **C57** The expiration a timer is started with is the one `AfterFunc` gave it. -/
theorem C57_kept (hk : 0 < tick) (hW : 1 < W) (ht : 0 ≤ t0) {s : State} (h : Reach k tick W t0 s) {delay : Int} {fuel : Nat} {tw : Tw}
    {ok : Bool} (ha : add fuel { s.tw with timer := put s.tw.timer s.next ⟨s.clock + delay, none, false⟩ } 0 s.next (locked s.run)
      = .ok (tw, ok)) {s' : State}
    (f : From k { s with tw := tw, next := s.next + 1, scheduled := s.scheduled ++ [s.next]
                         dropped := if ok then s.dropped else s.dropped ++ [s.next] } s') {x : Start} (hx : x ∈ s'.started)
    (hid : x.id = s.next) : x.exp = s.clock + delay := by
  have h0 : ∀ x ∈ s.started, (s.tw.timer x.id).repeats = false → x.exp = (s.tw.timer x.id).exp := by
    obtain ⟨tw0, e0, f0⟩ := h
    exact (kept_from (new_inv hk hW ht e0).inv f0 (by intro x hx; simp [init] at hx)).2.2.2.2
  have hi := inv_reach hk hW ht h
  have st : Step k s _ := .afterFunc s delay fuel tw ok ha
  have hnew : (tw.timer s.next).exp = s.clock + delay ∧ (tw.timer s.next).repeats = false := by
    rcases add_cases (fresh_timer hi ⟨s.clock + delay, none, false⟩ rfl) ha with ⟨_, rfl, _⟩ | ⟨_, r, ha, _⟩
    · simp [put_self]
    · rw [ha.timer]; simp [put_self]
  have h1 := kept_from hi (.step .refl st) h0
  obtain ⟨_, k2, k3, _, k5⟩ := kept_from h1.1 f h1.2.2.2.2
  have hlt : s.next < s.next + 1 := Nat.lt_succ_self _
  have e1 := k3 s.next hlt hnew.2
  have e2 := k5 x hx (by rw [hid, k2 s.next hlt]; exact hnew.2)
  rw [e2, hid, e1]
  exact hnew.1

/-- A timer of the second level moves to the first and is started on time, one tick late. -/
example : (run inOrderB 1 4 0 [.after 9, .tick 9, .take, .advance, .lock, .unlink, .move, .done, .tick 1, .take, .advance, .lock,
    .unlink, .move, .done]).any (fun s => decide (s.started = [⟨0, 9, 9, 10⟩])) = true := by
  decide +kernel

/-- The due buckets reach `Run` out of order: the first two are buckets taken together, and the first one puts a timer back
into a bucket that expires before the second. -/
def outOfOrder : List Cmd :=
  [.after 5, .after 3, .tick 4, .take, .advance, .lock, .unlink, .move, .done, .after 2, .tick 3, .take, .take,
    .advance, .lock, .unlink, .move, .done, .advance, .lock, .unlink, .move, .done, .take]

/-- **C57 fails in general**: a task can be started more than a tick early. A bucket taken from the queue that is behind the
wheel's time gets a new timer, a whole turn later, and a new expiration before `Run` reads it. -/
theorem C57_refuted : ∃ s, Reach free 1 4 0 s ∧ ∃ x ∈ s.started, x.clock + 1 < x.exp := by
  obtain ⟨s, h1, h2⟩ := run_test (k := free) free_ok (tick := 1) (wheelSize := 4) (t0 := 0)
    (cs := outOfOrder ++ [.after 2, .advance, .lock, .unlink, .move, .unlink, .move])
    (p := fun s => s.started.any (fun x => decide (x.clock + 1 < x.exp))) (by decide +kernel)
  rw [List.any_eq_true] at h2
  obtain ⟨x, hx, h3⟩ := h2
  exact ⟨s, h1, x, hx, of_decide_eq_true h3⟩

/-! ## C58: no timer is lost -/

/-- **C58** Each scheduling of a timer was started, stopped or dropped, or is pending; the counts add up. -/
theorem C58_conserved (hk : 0 < tick) (hW : 1 < W) (ht : 0 ≤ t0) {s : State} (h : Reach k tick W t0 s) (t : Nat) :
    ∃ n, s.scheduled.count t = (s.started.map (·.id)).count t + s.stopped.count t + s.dropped.count t + n ∧
      (((∃ r, (s.tw.timer t).bucket = some r) ∨ ∃ r, s.run = .moving r t) ∧ n = 1 ∨
        (s.tw.timer t).bucket = none ∧ (∀ r, s.run ≠ .moving r t) ∧ n = 0) := by
  refine ⟨_, ((inv_reach hk hW ht h).book t).law, ?_⟩
  have hm : moves s.run t = true ↔ ∃ r, s.run = .moving r t := by
    cases s.run <;> simp [moves]
  by_cases hp : pending s t = true
  · left
    rw [hp]
    refine ⟨?_, rfl⟩
    unfold pending at hp
    rw [Bool.or_eq_true, Option.isSome_iff_exists, hm] at hp
    exact hp
  · right
    simp only [Bool.not_eq_true] at hp
    rw [hp]
    simp only [pending, Bool.or_eq_false_iff, Option.isSome_eq_false_iff, Option.isNone_iff_eq_none] at hp
    refine ⟨hp.1, fun r hr => ?_, rfl⟩
    have := hm.2 ⟨r, hr⟩
    rw [hp.2] at this
    simp at this

/-- **C58** A timer's bucket is the only one that holds it, and holds it once. -/
theorem C58_one_bucket (hk : 0 < tick) (hW : 1 < W) (ht : 0 ≤ t0) {s : State} (h : Reach k tick W t0 s) (t : Nat) (r : Ref) :
    (bucketAt s.tw.wheels r).timers.count t = if (s.tw.timer t).bucket = some r then 1 else 0 := by
  have hi := (inv_reach hk hW ht h).tinv
  rw [List.Nodup.count (hi.nodup r)]
  by_cases hb : (s.tw.timer t).bucket = some r
  · rw [if_pos hb, if_pos ((hi.mem t r).1 hb)]
  · rw [if_neg hb, if_neg (fun x => hb ((hi.mem t r).2 x))]

/-- **C58** A bucket that holds a timer has an expiration and is in the queue, on its way to `Run`, or in its hand. -/
theorem C58_registered (hk : 0 < tick) (hW : 1 < W) (ht : 0 ≤ t0) {s : State} (h : Reach k tick W t0 s) {r : Ref}
    (hr : (bucketAt s.tw.wheels r).timers ≠ []) : (bucketAt s.tw.wheels r).exp ≠ -1 ∧
      (r ∈ s.tw.queue ∨ r ∈ s.chan ∨ s.run = .advanced r ∨ s.run = .flushing r ∨ ∃ t, s.run = .moving r t) := by
  have hi := (inv_reach hk hW ht h).tinv
  refine ⟨hi.full r hr, (hi.reg r (hi.full r hr)).imp id ?_⟩
  intro hx
  rw [List.mem_append] at hx
  refine hx.imp id ?_
  cases s.run with
  | idle => simp [held]
  | advanced r' => intro hm; simp only [held, List.mem_singleton] at hm; subst hm; exact .inl rfl
  | flushing r' => intro hm; simp only [held, List.mem_singleton] at hm; subst hm; exact .inr (.inl rfl)
  | moving r' t => intro hm; simp only [held, List.mem_singleton] at hm; subst hm; exact .inr (.inr ⟨t, rfl⟩)

/-- **C58** A task is started at most once per scheduling; a task of `AfterFunc` at most once. -/
theorem C58_at_most_once (hk : 0 < tick) (hW : 1 < W) (ht : 0 ≤ t0) {s : State} (h : Reach k tick W t0 s) (t : Nat) :
    (s.started.map (·.id)).count t ≤ s.scheduled.count t ∧
      ((s.tw.timer t).repeats = false → (s.started.map (·.id)).count t ≤ 1) := by
  have hb := (inv_reach hk hW ht h).book t
  have h1 := hb.law
  refine ⟨by omega, fun hr => ?_⟩
  by_cases hn : t < s.next
  · have := hb.once hn hr; omega
  · have := (hb.fresh (by omega)).2.2.2; omega

/-- **C58** If buckets are processed in order, a bucket is registered once, exactly while it has an expiration. -/
theorem C58_registered_once (hk : 0 < tick) (hW : 1 < W) (ht : 0 ≤ t0) {s : State} (h : Reach inOrder tick W t0 s) (r : Ref) :
    (s.tw.queue ++ (s.chan ++ held s.run)).count r = if (bucketAt s.tw.wheels r).exp = -1 then 0 else 1 := by
  have ho := ord_reach hk hW ht h
  rw [List.Nodup.count ho.tord.nodup]
  by_cases he : (bucketAt s.tw.wheels r).exp = -1
  · rw [if_pos he, if_neg]
    intro hx
    exact ho.tord.live r (List.mem_append.1 hx) he
  · rw [if_neg he, if_pos]
    exact List.mem_append.2 (ho.inv.tinv.reg r he)

/-! ## C59: Stop -/

/-- **C59** When `Stop` of a timer has returned true its task is never started again (also for `ScheduleFunc`), and every later
`Stop` returns false: the timer is in no bucket. -/
theorem C59_stopped (hk : 0 < tick) (hW : 1 < W) (ht : 0 ≤ t0) {s s1 s2 : State} (h : Reach k tick W t0 s) (st : Step k s s1) {t : Nat}
    (hs : s1.stopped = s.stopped ++ [t]) (f : From k s1 s2) :
    (s2.started.map (·.id)).count t = (s1.started.map (·.id)).count t ∧ (s2.tw.timer t).bucket = none ∧
      ∀ r, s2.run ≠ .moving r t := by
  have hi := inv_reach hk hW ht h
  have hi1 := inv_step hi st
  have key : pending s1 t = false ∧ t ∉ s1.tasks ∧ t < s1.next := by
    have no : s.stopped = s.stopped ++ [t] → False := fun e => by have := congrArg List.length e; simp at this
    cases st with
    | stop t' r hb hl =>
      have : t' = t := by simpa using hs
      subst this
      have hp : pending s t' = true := by simp [pending, hb]
      have hmv : moves s.run t' = false := by
        cases hx : moves s.run t' with
        | false => rfl
        | true => have := (hi.book t').move hx; rw [hb] at this; simp at this
      refine ⟨by simp [pending, put_self, hmv], ?_, mem_lt hi (.inl hp)⟩
      intro hx
      have := ((hi.book t').task hx).2
      rw [hp] at this; simp at this
    | _ => exact (no hs).elim
  obtain ⟨_, d1, _, _, d2⟩ := dead_from hi1 f key.1 key.2.1 key.2.2
  refine ⟨d2, ?_, ?_⟩
  · simp only [pending, Bool.or_eq_false_iff, Option.isSome_eq_false_iff, Option.isNone_iff_eq_none] at d1
    exact d1.1
  · intro r hr
    simp [pending, hr, moves] at d1

/-- **C59** A task of `AfterFunc` that was stopped has not been started, in every reachable state. -/
theorem C59_never_both (hk : 0 < tick) (hW : 1 < W) (ht : 0 ≤ t0) {s : State} (h : Reach k tick W t0 s) {t : Nat}
    (hr : (s.tw.timer t).repeats = false) (hs : t ∈ s.stopped) : t ∉ s.started.map (·.id) ∧ s.stopped.count t = 1 := by
  have hb := (inv_reach hk hW ht h).book t
  have h1 := hb.law
  have h2 : 0 < s.stopped.count t := List.count_pos_iff.2 hs
  have h3 : s.scheduled.count t ≤ 1 := by
    by_cases hn : t < s.next
    · have := hb.once hn hr; omega
    · have := (hb.fresh (by omega)).2.2.2; omega
  exact ⟨fun x => by have := List.count_pos_iff.2 x; omega, by omega⟩

/-- **C59** Once the task of `AfterFunc` was started, `Stop` returns false. -/
theorem C59_started (hk : 0 < tick) (hW : 1 < W) (ht : 0 ≤ t0) {s : State} (h : Reach k tick W t0 s) {t : Nat}
    (hr : (s.tw.timer t).repeats = false) (hs : t ∈ s.started.map (·.id)) : (s.tw.timer t).bucket = none := by
  have hb := (inv_reach hk hW ht h).book t
  have h1 := hb.law
  have h2 : 0 < (s.started.map (·.id)).count t := List.count_pos_iff.2 hs
  have h3 : s.scheduled.count t ≤ 1 := by
    by_cases hn : t < s.next
    · have := hb.once hn hr; omega
    · have := (hb.fresh (by omega)).2.2.2; omega
  have hp : pending s t = false := by
    cases hx : pending s t with
    | false => rfl
    | true => rw [hx] at h1; simp at h1; omega
  simp only [pending, Bool.or_eq_false_iff, Option.isSome_eq_false_iff, Option.isNone_iff_eq_none] at hp
  exact hp.1

/-- **C59** But `Stop` returning false does not mean that the task was started, or that it will not be: while `flush` moves a
timer it is in no bucket, and `Stop` returns false; here the timer then goes to a lower wheel, and is started much later. -/
theorem C59_limbo : ∃ s, Reach inOrder 1 4 0 s ∧ (s.tw.timer 0).bucket = none ∧ s.started = [] ∧ s.stopped = [] ∧
    ∃ s', From inOrder s s' ∧ s'.stopped = [] ∧ s'.started = [⟨0, 7, 7, s.clock + 3⟩] := by
  have h : ∃ s, run inOrderB 1 4 0 [.after 7, .tick 5, .take, .advance, .lock, .unlink] = some s ∧
      (decide ((s.tw.timer 0).bucket = none ∧ s.started = [] ∧ s.stopped = []) &&
        (exec inOrderB s [.move, .done, .tick 3, .take, .advance, .lock, .unlink, .move]).any (fun s' =>
          decide (s'.stopped = [] ∧ s'.started = [⟨0, 7, 7, s.clock + 3⟩]))) = true :=
    ⟨_, rfl, by decide +kernel⟩
  obtain ⟨s, h1, h2⟩ := h
  rw [Bool.and_eq_true, decide_eq_true_eq] at h2
  obtain ⟨⟨a1, a2, a3⟩, h3⟩ := h2
  refine ⟨s, run_sound inOrderB_sound h1, a1, a2, a3, ?_⟩
  cases he : exec inOrderB s [.move, .done, .tick 3, .take, .advance, .lock, .unlink, .move] with
  | none => rw [he] at h3; simp at h3
  | some s' =>
    rw [he] at h3
    simp only [Option.any_some, decide_eq_true_eq] at h3
    exact ⟨s', exec_sound inOrderB_sound he, h3.1, h3.2⟩

/-- A run in which a timer is stopped. -/
example : (run inOrderB 1 4 0 [.after 3, .after 3, .stop 0, .tick 4, .take, .advance, .lock, .unlink, .move, .done]).any (fun s =>
    decide (s.stopped = [0] ∧ s.started = [⟨1, 3, 3, 4⟩])) = true := by decide +kernel

/-! ## C60: every task is started -/

/-- **C60** A delay of a tick or more is accepted: `AfterFunc` finishes, also while `Run` is flushing, and the timer is in a
bucket. -/
theorem C60_accepted (hk : 0 < tick) (hW : 1 < W) (ht : 0 ≤ t0) {s : State} (h : Reach inOrder tick W t0 s) {delay : Int}
    (hd : tick ≤ delay) : ∃ fuel tw, add fuel { s.tw with timer := put s.tw.timer s.next ⟨s.clock + delay, none, false⟩ } 0 s.next
      (locked s.run) = .ok (tw, true) ∧ ∃ r, (tw.timer s.next).bucket = some r := by
  have ho := ord_reach hk hW ht h
  obtain ⟨n, hn⟩ := add_total (tw := { s.tw with timer := put s.tw.timer s.next ⟨s.clock + delay, none, false⟩ }) s.next
    (locked s.run) ho.inv.tinv.wf
  rcases hn n (Nat.le_refl _) with ⟨h1, _⟩ | ⟨_, r, tw', ha, h1, _⟩
  · have := ho.now
    simp only [put_self] at h1
    omega
  · refine ⟨n, tw', h1 ?_, r, by rw [ha.timer, put_self]⟩
    intro hl
    obtain ⟨f1, _⟩ := (ho.inv.book s.next).fresh (Nat.le_refl _)
    have hto := timer_tord (v := ⟨s.clock + delay, none, false⟩) ho.inv.tinv ho.tord f1
    have hh : r ∈ held s.run := by
      cases hr : s.run <;> rw [hr] at hl <;> simp_all [locked, held]
    exact added_ne hto ha (h := r) (List.mem_append_right _ hh) (ho.hand r hh) rfl

/-- **C60** The work of `Run` and of the queue's goroutine comes to an end while the clock stands still. -/
theorem C60_ends (hk : 0 < tick) (hW : 1 < W) (ht : 0 ≤ t0) {s : State} (h : Reach inOrder tick W t0 s) :
    Acc (fun a b => Own b a) s ∧ ∃ s', Owns s s' ∧ ∀ s'', ¬ Own s' s'' := by
  have ho := ord_reach hk hW ht h
  exact ⟨own_acc _ ho (Nat.le_refl _), owns_end ho⟩

/-- **C60** Whenever it has come to an end, every timer that was pending and has expired has been started, once. -/
theorem C60_delivers_partial (hk : 0 < tick) (hW : 1 < W) (ht : 0 ≤ t0) {s s' : State} (h : Reach inOrder tick W t0 s)
    (hc : s.chan = []) (o : Owns s s') (hs : ∀ s'', ¬ Own s' s'') {t : Nat} {r : Ref}
    (hp : (s.tw.timer t).bucket = some r ∨ s.run = .moving r t) (hd : (s.tw.timer t).exp < s.clock) :
    (s'.started.map (·.id)).count t = (s.started.map (·.id)).count t + 1 := by
  refine all_started (ord_reach hk hW ht h) (.inl hc) o hs ?_ hd
  rcases hp with hp | hp
  · simp [pending, hp]
  · simp [pending, hp, moves]

/-- **C60** A task that `AfterFunc` drops is never started. -/
theorem C60_dropped (hk : 0 < tick) (hW : 1 < W) (ht : 0 ≤ t0) {s s' : State} (h : Reach k tick W t0 s) {t : Nat}
    (hr : (s.tw.timer t).repeats = false) (hd : t ∈ s.dropped) (f : From k s s') : t ∉ s'.started.map (·.id) := by
  have hi := inv_reach hk hW ht h
  have hb := hi.book t
  have h1 := hb.law
  have h2 : 0 < s.dropped.count t := List.count_pos_iff.2 hd
  have hn : t < s.next := by
    by_contra hn
    have := (hb.fresh (by omega)).2.2.2; omega
  have h3 := hb.once hn hr
  have hp : pending s t = false := by
    cases hx : pending s t with
    | false => rfl
    | true => rw [hx] at h1; simp at h1; omega
  have hnt : t ∉ s.tasks := fun x => by
    have := (hb.task x).1
    rw [hr] at this; simp at this
  obtain ⟨_, _, _, _, d⟩ := dead_from hi f hp hnt hn
  intro hx
  have := List.count_pos_iff.2 hx
  omega

/-- **C60 fails for short delays**: `AfterFunc` ignores the result of `add`. A task whose expiration is less than a tick after
the wheel's time is dropped (here the delay is 5 ms, the tick 10 ms), and never started. -/
theorem C60_refuted : ∃ s, Reach inOrder 10 4 0 s ∧ s.scheduled = [0] ∧ s.stopped = [] ∧
    ∀ s', From inOrder s s' → 0 ∉ s'.started.map (·.id) := by
  obtain ⟨s, h1, h2⟩ := run_test (k := inOrder) inOrderB_sound (tick := 10) (wheelSize := 4) (t0 := 0) (cs := [.after 5])
    (p := fun s => decide (s.scheduled = [0] ∧ s.stopped = [] ∧ (s.tw.timer 0).repeats = false ∧ s.dropped = [0])) (by decide +kernel)
  obtain ⟨a1, a2, a3, a4⟩ := of_decide_eq_true h2
  exact ⟨s, h1, a1, a2, fun s' f => C60_dropped (W := 4) (by omega) (by omega) (by omega) h1 a3 (by rw [a4]; simp) f⟩

/-- A delay of zero is dropped by every wheel, in every state whose time is the clock's. -/
theorem C60_zero_refuted (hk : 0 < tick) (hW : 1 < W) (ht : 0 ≤ t0) {s : State} (h : Reach k tick W t0 s) {delay : Int}
    (hd : s.clock + delay < curTime s.tw.wheels + tick) {fuel : Nat} {tw : Tw} {ok : Bool}
    (ha : add fuel { s.tw with timer := put s.tw.timer s.next ⟨s.clock + delay, none, false⟩ } 0 s.next (locked s.run) = .ok (tw, ok)) :
    ok = false := by
  have hi := inv_reach hk hW ht h
  rcases add_cases (fresh_timer hi ⟨s.clock + delay, none, false⟩ rfl) ha with ⟨h1, _⟩ | ⟨_, r, h1, _⟩
  · exact h1
  · have h2 := h1.lo
    simp only [put_self] at h2
    have hk1 := hi.tinv.wf.kp r.level
    have h3 : curTime s.tw.wheels < fl (curTime s.tw.wheels) (K tick W r.level) + K tick W r.level := lt_fl hk1
    have hdv : tick ∣ fl (curTime s.tw.wheels) (K tick W r.level) + K tick W r.level := by
      have : K tick W 0 ∣ K tick W r.level := K_dvd (Nat.zero_le _)
      rw [K_zero] at this
      exact Int.dvd_add (Int.dvd_trans this (fl_dvd _ _)) this
    have := dvd_lt (a := curTime s.tw.wheels + tick) (b := fl (curTime s.tw.wheels) (K tick W r.level) + K tick W r.level)
      (Int.dvd_add hi.tinv.wf.d (Int.dvd_refl _)) hdv (by omega) hk
    omega

/-! ## C61: cancelling -/

namespace Cancel

/-- **C61** After the cancellation `Run` can return in every state in which it is in the `select`. It may not get there, see
`C168_run_refuted`. -/
theorem C61_can_return {s : State} (h : s.run = .select) (hc : s.cancelled = true) :
    ∃ s', Step s s' ∧ s'.run = .returned := ⟨_, .stop s h hc, rfl⟩

/-- **C61** `Run` does not return or panic before the cancellation. -/
theorem C61_not_before {s : State} (h : Reach s) (hc : s.cancelled = false) : s.run = .select ∧ s.closed = false := by
  have key : s.cancelled = false → s.run = .select ∧ s.closed = false := by
    clear hc
    induction h with
    | refl => intro _; exact ⟨rfl, rfl⟩
    | step _ st ih =>
      cases st with
      | cancel => intro h; simp at h
      | take r h => exact ih
      | close h hc => intro hx; dsimp only at hx; rw [hc] at hx; simp at hx
      | send r h hl => exact ih
      | receive r rest h hb => exact ih
      | receiveNil h hb hc => intro hx; have := (ih hx).2; rw [hc] at this; simp at this
      | stop h hc => intro hx; dsimp only at hx; rw [hc] at hx; simp at hx
  exact key hc

/-- **C61 fails**: after the cancellation the queue's goroutine may close the channel before `Run` looks at its context;
`Run` then may receive a nil bucket and panics. -/
theorem C61_refuted : ∃ s, Reach s ∧ s.run = .panicked := by
  have r : Reach init := .refl
  have r := r.step (.cancel _)
  have r := r.step (.close _ rfl rfl)
  have r := r.step (.receiveNil _ rfl rfl rfl)
  exact ⟨_, r, rfl⟩

/-- **C61 (channel)** At most ten buckets wait in the channel, and ten may: only then does the queue's goroutine have to wait for `Run`. -/
theorem C61_buffer : (∀ s, Reach s → s.buf.length ≤ 10) ∧ (∃ s, Reach s ∧ s.buf.length = 10) ∧
    ∀ s r, s.queue = .sending r → ((∃ s', Step s s' ∧ s'.buf = s.buf ++ [r]) ↔ s.buf.length < 10) := by
  refine ⟨?_, ?_, ?_⟩
  · intro s h
    unfold Reach at h
    induction h with
    | refl => simp [init]
    | step _ st ih =>
      cases st with
      | cancel => exact ih
      | take r h => exact ih
      | close h hc => exact ih
      | send r h hl =>
        dsimp only at hl ⊢
        rw [List.length_append, List.length_singleton]
        exact hl
      | receive r rest h hb => rw [hb] at ih; exact Nat.le_of_succ_le ih
      | receiveNil h hb hc => exact ih
      | stop h hc => exact ih
  · have fill : ∀ n, n ≤ 10 → ∃ s, Reach s ∧ s.queue = .taking ∧ s.buf.length = n := by
      intro n
      induction n with
      | zero => intro _; exact ⟨init, .refl, rfl, rfl⟩
      | succ n ih =>
        intro hn
        obtain ⟨s, r, h3, h4⟩ := ih (by omega)
        have r1 := r.step (.take s ⟨0, 0⟩ h3)
        have r2 := r1.step (.send _ ⟨0, 0⟩ rfl (by dsimp only [size]; omega))
        exact ⟨_, r2, rfl, by simp [h4]⟩
    obtain ⟨s, h1, -, h2⟩ := fill 10 (Nat.le_refl _)
    exact ⟨s, h1, h2⟩
  · intro s r hq
    constructor
    · rintro ⟨s', st, hb⟩
      have hne : s.buf ≠ s.buf ++ [r] := fun h => by have := congrArg List.length h; simp at this
      cases st with
      | cancel => exact absurd hb hne
      | take r h => exact absurd hb hne
      | close h hc => exact absurd hb hne
      | send r h hl => exact hl
      | receive r' rest h hb' => rw [hb'] at hb; have := congrArg List.length hb; simp at this; omega
      | receiveNil h hb' hc => exact absurd hb hne
      | stop h hc => exact absurd hb hne
    · exact fun h => ⟨_, .send s r hq h, rfl⟩

/-- The queue's goroutine is stuck: `Run` has left and the channel is full. -/
def Stuck (s : State) : Prop := s.run ≠ .select ∧ s.buf.length = size ∧ ∃ r, s.queue = .sending r

/-- **C61 fails**: the queue's goroutine may outlive `Run` for ever, holding a bucket nobody will receive. -/
theorem C61_leak_refuted : ∃ s, Reach s ∧ s.run = .returned ∧ ∀ s', From s s' → s'.queue ≠ .exited := by
  have hst : ∀ {s s'}, Stuck s → Step s s' → Stuck s' := by
    rintro s s' ⟨h1, h2, r, h3⟩ st
    cases st with
    | cancel => exact ⟨h1, h2, r, h3⟩
    | take r' h => rw [h3] at h; simp at h
    | close h hc => rw [h3] at h; simp at h
    | send r' h hl => omega
    | receive r' rest h hb => exact absurd h h1
    | receiveNil h hb hc => exact absurd h h1
    | stop h hc => exact absurd h h1
  have fill : ∀ n, n ≤ size → ∃ s, Reach s ∧ s.run = .select ∧ s.cancelled = false ∧ s.queue = .taking ∧ s.buf.length = n := by
    intro n
    induction n with
    | zero => intro _; exact ⟨init, .refl, rfl, rfl, rfl, rfl⟩
    | succ n ih =>
      intro hn
      obtain ⟨s, r, h1, h2, h3, h4⟩ := ih (by omega)
      have r1 := r.step (.take s ⟨0, 0⟩ h3)
      have r2 := r1.step (.send _ ⟨0, 0⟩ rfl (by dsimp only; omega))
      exact ⟨_, r2, h1, h2, rfl, by simp [h4]⟩
  obtain ⟨s, r, h1, h2, h3, h4⟩ := fill size (Nat.le_refl _)
  have r1 := r.step (.take s ⟨0, 0⟩ h3)
  have r2 := r1.step (.cancel _)
  have r3 := r2.step (.stop _ h1 rfl)
  refine ⟨_, r3, rfl, ?_⟩
  intro s' f
  have : Stuck s' := by
    induction f with
    | refl => exact ⟨by simp, h4, _, rfl⟩
    | step _ st ih => exact hst ih st
  obtain ⟨_, _, r, h⟩ := this
  rw [h]; simp

end Cancel

/-! ## C62: overflow wheels -/

/-- **C62** `add` of any timer ends, with finitely many wheels (`fuel` bounds the number of wheels visited). -/
theorem C62_ends (hk : 0 < tick) (hW : 1 < W) (ht : 0 ≤ t0) {s : State} (h : Reach k tick W t0 s) (timer : Nat → Timer) (t : Nat) :
    ∃ n tw ok, ∀ fuel, n ≤ fuel → add fuel { s.tw with timer := timer } 0 t none = .ok (tw, ok) := by
  have hi := inv_reach hk hW ht h
  obtain ⟨n, hn⟩ := add_total (tw := { s.tw with timer := timer }) t none hi.tinv.wf
  have same : ∀ fuel, n ≤ fuel → add fuel { s.tw with timer := timer } 0 t none = add n { s.tw with timer := timer } 0 t none := by
    intro fuel hf
    have hm : ∀ (f : Nat) (tw tw' : Tw) (l : Nat) (ok : Bool), add f tw l t none = .ok (tw', ok) → add (f + 1) tw l t none = .ok (tw', ok) := by
      intro f
      induction f with
      | zero => intro tw tw' l ok e; simp [add] at e
      | succ f ih =>
        intro tw tw' l ok e
        rw [add] at e ⊢
        cases hw : tw.wheels[l]? with
        | none => rw [hw] at e; simp at e
        | some w =>
          rw [hw] at e
          dsimp only at e ⊢
          split
          · rename_i h1; rw [if_pos h1] at e; exact e
          · rename_i h1
            rw [if_neg h1] at e
            split
            · rename_i h2; rw [if_pos h2] at e; exact e
            · rename_i h2
              rw [if_neg h2] at e
              cases ho : overflow tw l w with
              | error x => rw [ho] at e; simp at e
              | ok tw1 => rw [ho, Go.bind_ok] at e; rw [Go.bind_ok]; exact ih _ _ _ _ e
    have hup : ∀ d, add (n + d) { s.tw with timer := timer } 0 t none = add n { s.tw with timer := timer } 0 t none := by
      intro d
      induction d with
      | zero => rfl
      | succ d ih =>
        rcases hn n (Nat.le_refl _) with ⟨_, h2⟩ | ⟨_, r, tw', _, h2, _⟩
        · rw [h2] at ih ⊢; exact hm _ _ _ _ _ ih
        · have h2 := h2 (by simp)
          rw [h2] at ih ⊢; exact hm _ _ _ _ _ ih
    obtain ⟨d, rfl⟩ : ∃ d, fuel = n + d := ⟨fuel - n, by omega⟩
    exact hup d
  rcases hn n (Nat.le_refl _) with ⟨_, h2⟩ | ⟨_, r, tw', _, h2, _⟩
  · exact ⟨n, _, _, fun fuel hf => by rw [same fuel hf]; exact h2⟩
  · exact ⟨n, tw', true, fun fuel hf => by rw [same fuel hf]; exact h2 (by simp)⟩

/-- **C62 fails for a wheel of one slot**: a timer that is not due at once makes `add` create overflow wheels for ever. -/
theorem C62_size_one_refuted (hk : 0 < tick) (c : Int) (hc : 0 ≤ c) (hd : tick ∣ c) (t : Nat) (locked : Option Ref) (fuel : Nat) :
    ∀ (tw : Tw) (l : Nat), c + tick ≤ (tw.timer t).exp → l < tw.wheels.length →
      (∀ (j : Nat) (w : Wheel), tw.wheels[j]? = some w → w.tick = tick ∧ w.wheelSize = 1 ∧ w.interval = tick ∧ w.cur = c) →
      add fuel tw l t locked = .error .diverge := by
  induction fuel with
  | zero => intros; rfl
  | succ fuel ih =>
    intro tw l he hl hw
    have hget := List.getElem?_eq_getElem hl
    obtain ⟨h1, h2, h3, h4⟩ := hw l _ hget
    rw [add, hget]
    dsimp only
    rw [h1, h3, h4, if_neg (by omega), if_neg (by omega)]
    unfold overflow
    by_cases hlt : l + 1 < tw.wheels.length
    · rw [if_pos hlt, Go.bind_ok]
      exact ih tw (l + 1) he hlt hw
    · rw [if_neg hlt]
      have hn : newWheel tick 1 c = .ok ⟨tick, 1, tick, c, [newBucket]⟩ := by
        unfold newWheel
        rw [truncate_ok hc hk, Go.bind_ok, if_neg (by omega), fl_of_dvd hd]
        simp
      rw [h2, h3, h4, hn, Go.bind_ok, Go.bind_ok]
      refine ih _ (l + 1) he (by dsimp only; rw [List.length_append]; simp; omega) ?_
      intro j w hj
      dsimp only at hj
      by_cases hjl : j < tw.wheels.length
      · rw [List.getElem?_append_left hjl] at hj
        exact hw j w hj
      · rw [List.getElem?_append_right (by omega)] at hj
        have := List.mem_of_getElem? hj
        simp only [List.mem_singleton] at this
        subst this
        exact ⟨rfl, rfl, rfl, rfl⟩

/-- So the first `AfterFunc` with a delay of a tick or more never returns on a new wheel of one slot. -/
theorem C62_size_one_new_refuted (hk : 0 < tick) (ht : 0 ≤ t0) {tw : Tw} (hn : new tick 1 t0 = .ok tw) {delay : Int} (hd : tick ≤ delay)
    (fuel : Nat) : add fuel { tw with timer := put tw.timer 0 ⟨t0 + delay, none, false⟩ } 0 0 none = .error .diverge := by
  unfold new newWheel at hn
  rw [truncate_ok ht hk] at hn
  simp at hn
  subst hn
  have hle : fl t0 tick ≤ t0 := fl_le hk
  refine C62_size_one_refuted hk (fl t0 tick) (fl_nonneg hk ht) (fl_dvd _ _) 0 none fuel _ 0 ?_ (by simp) ?_
  · simp only [put_self]; omega
  · intro j w hj
    have := List.mem_of_getElem? hj
    simp only [List.mem_singleton] at this
    subst this
    exact ⟨rfl, rfl, rfl, rfl⟩

/-- **C62** A wheel without slots panics (division by zero) when a timer is added that is not due. -/
theorem C62_size_zero (hk : 0 < tick) (ht : 0 ≤ t0) {tw : Tw} (hn : new tick 0 t0 = .ok tw) {delay : Int} (hd : tick ≤ delay)
    (fuel : Nat) : add (fuel + 1) { tw with timer := put tw.timer 0 ⟨t0 + delay, none, false⟩ } 0 0 none = .error .divZero := by
  unfold new newWheel at hn
  rw [truncate_ok ht hk] at hn
  simp at hn
  subst hn
  have hle : fl t0 tick ≤ t0 := fl_le hk
  rw [add]
  simp only [List.getElem?_cons_zero, put_self]
  rw [if_neg (by omega), if_neg (by omega)]
  simp [overflow, newWheel, truncate, rem]

/-- **C62** A tick of zero and a negative size make `New` panic. -/
theorem C62_new_panics (size : Int) : new 0 size t0 = .error .divZero ∧
    (tick ≠ 0 → size < 0 → new tick size t0 = .error .makeLen) := by
  refine ⟨by simp [new, newWheel, truncate, rem], fun h1 h2 => ?_⟩
  simp [new, newWheel, truncate, rem, h1, h2]

/-! ## C63: no self-deadlock -/

/-- **C63** If buckets are processed in order, no timer is ever added to the bucket in `Run`'s hand: every `add` of a timer that
is in no bucket ends, whoever calls it. -/
theorem C63_no_deadlock (hk : 0 < tick) (hW : 1 < W) (ht : 0 ≤ t0) {s : State} (h : Reach inOrder tick W t0 s) {t : Nat}
    (hb : (s.tw.timer t).bucket = none) (e : Int) :
    ∃ fuel tw ok, add fuel { s.tw with timer := put s.tw.timer t { s.tw.timer t with exp := e } } 0 t (locked s.run) = .ok (tw, ok) ∧
      ∀ r, locked s.run = some r → (tw.timer t).bucket ≠ some r := by
  have ho := ord_reach hk hW ht h
  have hto := timer_tord (v := { s.tw.timer t with exp := e }) ho.inv.tinv ho.tord hb
  obtain ⟨n, hn⟩ := add_total (tw := { s.tw with timer := put s.tw.timer t { s.tw.timer t with exp := e } }) t (locked s.run) ho.inv.tinv.wf
  rcases hn n (Nat.le_refl _) with ⟨_, h1⟩ | ⟨_, r, tw', ha, h1, _⟩
  · refine ⟨n, _, _, h1, ?_⟩
    intro r _
    simp [put_self, hb]
  · have hne : locked s.run ≠ some r := by
      intro hl
      have hh : r ∈ held s.run := by
        cases hr : s.run <;> rw [hr] at hl <;> simp_all [locked, held]
      exact added_ne hto ha (h := r) (List.mem_append_right _ hh) (ho.hand r hh) rfl
    refine ⟨n, tw', true, h1 hne, ?_⟩
    intro r' hl hx
    rw [ha.timer, put_self] at hx
    exact hne (hl.trans hx.symm)

/-- **C63** If buckets are processed in order, `flush` puts a timer only into a bucket of a lower wheel. -/
theorem C63_lower (hk : 0 < tick) (hW : 1 < W) (ht : 0 ≤ t0) {s : State} (h : Reach inOrder tick W t0 s) {r : Ref} {t fuel : Nat} {tw : Tw}
    (hr : s.run = .moving r t) (ha : add fuel s.tw 0 t (some r) = .ok (tw, true)) :
    ∃ r', (tw.timer t).bucket = some r' ∧ r'.level < r.level := by
  have ho := ord_reach hk hW ht h
  rcases add_cases ho.inv.tinv ha with ⟨hx, _⟩ | ⟨_, r', h1, _⟩
  · simp at hx
  · exact ⟨r', by rw [h1.timer, put_self], readd_lower ho hr h1⟩

/-- **C63** `Run` never gets stuck in `flush`. -/
theorem C63_goes_on (hk : 0 < tick) (hW : 1 < W) (ht : 0 ≤ t0) {s : State} (h : Reach inOrder tick W t0 s) (hr : s.run ≠ .idle) :
    ∃ s', Step inOrder s s' ∧ s' ≠ s ∧ s'.clock = s.clock ∧ s'.scheduled = s.scheduled ∧ s'.stopped = s.stopped := by
  obtain ⟨s', o, _⟩ := run_goes_on (ord_reach hk hW ht h) hr
  exact ⟨s', o.1, o.2.1, o.2.2.1, o.2.2.2.1, o.2.2.2.2.1⟩

/-- **C63 fails in general**: as in `C57_refuted`, but the new timer arrives after `advance`. `Run`, holding the bucket's mutex,
calls `add` for a timer that goes into this very bucket, and blocks for ever. -/
theorem C63_refuted : ∃ s, Reach free 1 4 0 s ∧ ∃ r t, s.run = .moving r t ∧ ∀ fuel, 0 < fuel → add fuel s.tw 0 t (some r) = .error .diverge := by
  obtain ⟨s, h1, h2⟩ := run_test (k := free) free_ok (tick := 1) (wheelSize := 4) (t0 := 0)
    (cs := outOfOrder ++ [.advance, .after 2, .lock, .unlink, .move, .unlink])
    (p := fun s => decide (s.run = .moving ⟨0, 1⟩ 3 ∧ (add 1 s.tw 0 3 (some ⟨0, 1⟩)).isOk = false ∧ (s.tw.timer 3).exp = 9 ∧
      (s.tw.wheels[0]?.map (fun w : Wheel => (w.cur, w.tick, w.interval, w.wheelSize))) = some (6, 1, 4, 4))) (by decide +kernel)
  obtain ⟨a1, a2, a3, a4⟩ := of_decide_eq_true h2
  refine ⟨s, h1, ⟨0, 1⟩, 3, a1, ?_⟩
  have hi := inv_reach (W := 4) (by omega) (by omega) (by omega) h1
  cases hw : s.tw.wheels[0]? with
  | none => rw [hw] at a4; simp at a4
  | some w =>
    rw [hw] at a4
    simp at a4
    obtain ⟨b1, b2, b3, b4⟩ := a4
    have hlen := (hi.tinv.wf.each 0 w hw).2.2.2.2
    intro fuel hf
    obtain ⟨f, rfl⟩ : ∃ f, fuel = f + 1 := ⟨fuel - 1, by omega⟩
    rw [add, hw]
    dsimp only
    rw [a3, b1, b2, b3, if_neg (by omega), if_pos (by omega)]
    unfold place
    simp [a3, b2, b4, quo, rem, hlen]

/-! ## C99: waiting for the next bucket -/

/-- The time `take` waits for the timer it makes, timingwheel/delayqueue.go:65-77, in milliseconds: `now - expiration`. `none` if the bucket is
due already. -/
def waits (now exp : Int) : Option Int := if now > exp then none else some (now - exp)

/-- **C99 fails**: `take` should sleep until the first bucket has expired. The duration has the wrong sign: it is never
positive, so the timer fires at once, and `take` polls. -/
theorem C99_refuted (now exp d : Int) (h : waits now exp = some d) : d ≤ 0 ∧ (now < exp → now + d < exp) := by
  unfold waits at h
  split at h
  · simp at h
  · simp only [Option.some.injEq] at h
    omega

example : waits 5 9 = some (-4) := by decide

end Verif.TimingWheel
