import Verif.Proof.Timing64
import Verif.Props.TimingPaced

/-!
# C162: the timing wheel with 64-bit times
-/

namespace Verif.TimingFine

open Mutex (put put_self put_ne)
open TimingWheel (Ref Bucket Wheel Timer Tw Start bucketAt curTime K)

variable {tick t0 B : Int} {W : Nat}

/-- **C162** If no expiration, and neither the tick nor the time at the start, is greater than `B`, and `B * (wheelSize + 1)` is less than 2^63, then the
machine with 64-bit times has exactly the executions of the machine with unbounded times. -/
theorem C162_same {g : State → Act → Prop} (hk : 0 < tick) (hW : 1 < W) (ht : 0 ≤ t0) (h1 : tick ≤ B) (h2 : t0 ≤ B) (hB : B * (W + 1) < 2 ^ 63)
    (hg : ∀ s a, g s a → Small B s a) :
    ∃ tw, new64 tick W t0 = .ok tw ∧ TimingWheel.new tick W t0 = .ok tw ∧
      ∀ s, FromG exec64 g (init tw t0) s ↔ FromG exec g (init tw t0) s := by
  have hB' : B * W + B < 2 ^ 63 := by rw [Int.mul_add, Int.mul_one] at hB; exact hB
  have e1 : new64 tick W t0 = TimingWheel.new tick W t0 := by
    unfold new64 TimingWheel.new
    rw [newWheel64_eq hB' hk h1 ht h2]
  have e2 : ∃ tw, TimingWheel.new tick W t0 = .ok tw := by
    unfold TimingWheel.new TimingWheel.newWheel
    rw [TimingWheel.truncate_ok ht hk]
    simp only [Go.bind_ok]
    rw [if_neg (by omega)]
    exact ⟨_, rfl⟩
  obtain ⟨tw, e2⟩ := e2
  exact ⟨tw, by rw [e1, e2], e2, fun s => from64_iff hB' (by omega) hg (init_inv hk hW ht e2) (init_fits hk ht h1 h2 e2)⟩

/-- The guard of C161. -/
def paced (s : State) (a : Act) : Prop := a = .advance → inOrder s = true ∧ nobodyAdds s = true

theorem paced_from {g : State → Act → Prop} (hg : ∀ s a, g s a → paced s a) {s0 s : State} (h : FromG exec g s0 s) : Paced s0 s := by
  induction h with
  | refl => exact .refl
  | step a _ ga e ih => exact .step a ih (hg _ _ ga) e

/-- **C162** So, in range, what C161 says holds with 64-bit times too: no task is started early. -/
theorem C162_not_early (hk : 0 < tick) (hW : 1 < W) (ht : 0 ≤ t0) (h1 : tick ≤ B) (h2 : t0 ≤ B) (hB : B * (W + 1) < 2 ^ 63) {tw : Tw}
    (e : new64 tick W t0 = .ok tw) {s : State} (h : FromG exec64 (fun s a => Small B s a ∧ paced s a) (init tw t0) s) {x : Start}
    (hx : x ∈ s.started) : x.exp < x.cur + tick ∧ x.cur ≤ x.clock := by
  obtain ⟨tw', e1, e2, h3⟩ := C162_same (g := fun s a => Small B s a ∧ paced s a) hk hW ht h1 h2 hB (fun _ _ h => h.1)
  rw [e] at e1
  cases e1
  exact C161_not_early hk hW ht ⟨tw, e2, paced_from (fun _ _ h => h.2) ((h3 s).1 h)⟩ hx

/-- **C162** With at most 500000 buckets all calls of `AfterFunc` are in range until the year 2233 (the delay is a number of nanoseconds below 2^63). -/
theorem C162_after (hW : W ≤ 500000) : (2 ^ 44 : Int) * (W + 1) < 2 ^ 63 ∧
    ∀ s delay ns, 0 ≤ s.clock → s.clock ≤ 8300000000000 → InI64 ns → delay = ns / 1000000 → Small (2 ^ 44) s (.after delay) := by
  refine ⟨by omega, ?_⟩
  rintro s delay ns h1 h2 ⟨h3, h4⟩ rfl
  show -2 ^ 63 ≤ s.clock + ns / 1000000 ∧ s.clock + ns / 1000000 ≤ 2 ^ 44
  omega

instance (B : Int) (s : State) (a : Act) : Decidable (Small B s a) := by
  cases a <;> unfold Small <;> infer_instance

/-- A list of actions; `Run` processes in order and takes a bucket only when nobody is inside `add`; the times fit into 64 bits. -/
def execs64 (s : State) : List Act → Option State
  | [] => some s
  | a :: as =>
    if ¬ Small (2 ^ 63 - 1) s a ∨ a = .advance ∧ (inOrder s && nobodyAdds s) = false then none
    else
      match exec64 s a with
      | some s => execs64 s as
      | none => none

theorem execs64_from {s0 s s' : State} {as : List Act} (h : FromG exec64 (fun s a => Small (2 ^ 63 - 1) s a ∧ paced s a) s0 s)
    (e : execs64 s as = some s') : FromG exec64 (fun s a => Small (2 ^ 63 - 1) s a ∧ paced s a) s0 s' := by
  induction as generalizing s with
  | nil => cases e; exact h
  | cons a as ih =>
    rw [execs64] at e
    split at e
    · cases e
    · rename_i hg
      rw [not_or, Decidable.not_not] at hg
      cases he : exec64 s a with
      | none => rw [he] at e; cases e
      | some s1 =>
        rw [he] at e
        refine ih (.step a h ⟨hg.1, fun ha => ?_⟩ he) e
        rw [← Bool.and_eq_true]
        by_contra hx
        exact hg.2 ⟨ha, by simpa using hx⟩

/-- The states reachable from a new wheel. -/
def Reach64 (tick wheelSize t0 : Int) (s : State) : Prop :=
  ∃ tw, new64 tick wheelSize t0 = .ok tw ∧ FromG exec64 (fun s a => Small (2 ^ 63 - 1) s a ∧ paced s a) (init tw t0) s

def runs64 (tick size t0 : Int) (as : List Act) : Option State :=
  match new64 tick size t0 with
  | .ok tw => execs64 (init tw t0) as
  | .error _ => none

theorem runs64_reach {tick size t0 : Int} {as : List Act} {p : State → Bool} (h : (runs64 tick size t0 as).any p = true) :
    ∃ s, Reach64 tick size t0 s ∧ p s = true := by
  unfold runs64 at h
  cases e : new64 tick size t0 with
  | error x => rw [e] at h; cases h
  | ok tw =>
    rw [e] at h
    dsimp only at h
    rw [Option.any_eq_true] at h
    obtain ⟨s, h1, h2⟩ := h
    exact ⟨s, ⟨tw, e, execs64_from .refl h1⟩, h2⟩

/-- The hypotheses are met: an expiration in the year 2315, in a wheel at level 9, is in range. -/
example : (2 ^ 44 : Int) * (20 + 1) < 2 ^ 63 ∧ ∃ s, Reach64 1 20 1700000000000 s ∧
    (decide ((s.tw.timer 0).bucket = some ⟨9, 1⟩) && decide ((bucketAt s.tw.wheels ⟨9, 1⟩).exp = 10752000000000)) = true :=
  ⟨by decide, runs64_reach (as := [.after 9223372036854] ++ List.replicate 21 (.act 0)) (by decide +kernel)⟩

def panics : Go (Tw × Pc) → Bool
  | .error .divZero => true
  | _ => false

/-- **C162** Out of range `add` can panic: with 2^21 buckets and a tick of a millisecond, `AfterFunc` with the greatest `time.Duration` (292 years) divides by
zero, since the interval of the third wheel is 2^63 and that of the fourth one 0. -/
theorem C162_panic_refuted : ∃ s, Reach64 1 (2 ^ 21) 1700000000000 s ∧ (s.tw.timer 0).exp = 1700000000000 + (2 ^ 63 - 1) / 1000000 ∧
    ∃ c, s.adders = [⟨0, false, .loaded 3 c⟩] ∧ addStep64 (locked s.run) s.tw 0 (.loaded 3 c) = .error .divZero := by
  obtain ⟨s, h, hp⟩ := runs64_reach (tick := 1) (size := 2 ^ 21) (t0 := 1700000000000) (as := [.after 9223372036854] ++ List.replicate 7 (.act 0))
    (p := fun s => decide ((s.tw.timer 0).exp = 1700000000000 + (2 ^ 63 - 1) / 1000000) &&
      (match s.adders with
      | [⟨0, false, .loaded 3 c⟩] => panics (addStep64 (locked s.run) s.tw 0 (.loaded 3 c))
      | _ => false)) (by decide +kernel)
  rw [Bool.and_eq_true, decide_eq_true_eq] at hp
  obtain ⟨h1, h2⟩ := hp
  refine ⟨s, h, h1, ?_⟩
  split at h2
  · rename_i c hc
    refine ⟨c, hc, ?_⟩
    unfold panics at h2
    split at h2
    · assumption
    · cases h2
  · cases h2

/-- **C162** And one timer can stop the wheel for good: with 20 buckets and a tick of a millisecond, a timer scheduled for the time 2^62 (in 146 million
years) gets into a bucket that has expired already, and there `Run` waits forever for a mutex that it holds itself. -/
theorem C162_stuck_refuted : ∃ s, Reach64 1 20 1700000000000 s ∧ s.scheduled = [0] ∧ (s.tw.timer 0).exp = 2 ^ 62 ∧
    ∃ rn, s.run = rn ∧ rn ≠ .idle ∧ ∀ g s', FromG exec64 g s s' → s'.run = rn := by
  obtain ⟨s, h, hp⟩ := runs64_reach (tick := 1) (size := 20) (t0 := 1700000000000)
    (as := [.schedule (2 ^ 62)] ++ List.replicate 47 (.act 0) ++ [.take, .advance, .lock, .unlink] ++ List.replicate 43 .move)
    (p := fun s => decide (s.run = .moving ⟨21, 0⟩ 0 (.loaded 21 0)) && decide (0 < s.next) && decide (s.tasks = []) && decide (s.adders = []) &&
      decide ((s.tw.timer 0).exp = 2 ^ 62) && decide (s.scheduled = [0]) &&
      (match s.tw.wheels[21]? with
      | some w => decide (w.tick = -5135277853620830208) && decide (w.wheelSize = 20) && decide (w.interval = 7974907369840705536) &&
          decide (w.buckets.length = 20)
      | none => false)) (by decide +kernel)
  simp only [Bool.and_eq_true, decide_eq_true_eq] at hp
  obtain ⟨⟨⟨⟨⟨⟨h1, h2⟩, h3⟩, h4⟩, h5⟩, h6⟩, h7⟩ := hp
  have hs : Stuck ⟨21, 0⟩ 0 21 0 (2 ^ 62) (-5135277853620830208) 20 7974907369840705536 20 s := by
    refine ⟨h1, h2, by rw [h3]; simp, by rw [h4]; simp, h5, ?_⟩
    split at h7
    · rename_i w hw
      simp only [Bool.and_eq_true, decide_eq_true_eq] at h7
      exact ⟨w, hw, h7.1.1.1, h7.1.1.2, h7.1.2, h7.2⟩
    · cases h7
  refine ⟨s, h, h6, h5, _, h1, by simp, fun g s' f => ?_⟩
  exact (stuck_from hs (fun s hs => stuck_step hs (by decide) (by decide) (by decide) (by decide) (by decide) (by decide) (by decide)) f).run

end Verif.TimingFine
