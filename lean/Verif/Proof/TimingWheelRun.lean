import Verif.Proof.TimingWheelLive

/-! # Concrete executions of the timing wheel -/

namespace Verif.TimingWheel

open Mutex (put)

inductive Cmd
  | tick (d : Nat)
  | after (delay : Int)
  | schedule (e : Int)
  | again (t : Nat) (e : Int)
  | stop (t : Nat)
  | take
  | advance
  | lock
  | unlink
  | move
  | done

/-- One step of the machine, chosen by a command. -/
def exec1 (chk : State → Ref → Bool) (s : State) : Cmd → Option State
  | .tick d => some { s with clock := s.clock + d }
  | .after delay =>
    match add 9 ⟨s.tw.wheels, s.tw.queue, put s.tw.timer s.next ⟨s.clock + delay, none, false⟩⟩ 0 s.next (locked s.run) with
    | .ok (tw, ok) => some { s with tw := tw, next := s.next + 1, scheduled := s.scheduled ++ [s.next]
                                    dropped := if ok then s.dropped else s.dropped ++ [s.next] }
    | .error _ => none
  | .schedule e =>
    match add 9 ⟨s.tw.wheels, s.tw.queue, put s.tw.timer s.next ⟨e, none, true⟩⟩ 0 s.next (locked s.run) with
    | .ok (tw, true) => some { s with tw := tw, next := s.next + 1, scheduled := s.scheduled ++ [s.next] }
    | _ => none
  | .again t e =>
    if t ∈ s.tasks then
      match add 9 ⟨s.tw.wheels, s.tw.queue, put s.tw.timer t { s.tw.timer t with exp := e }⟩ 0 t (locked s.run) with
      | .ok (tw, true) => some { s with tw := tw, tasks := s.tasks.erase t, scheduled := s.scheduled ++ [t] }
      | _ => none
    else none
  | .stop t =>
    match (s.tw.timer t).bucket with
    | none => none
    | some r =>
      if locked s.run = some r then none
      else some { s with tw := ⟨setBucket s.tw.wheels r ⟨(bucketAt s.tw.wheels r).exp, (bucketAt s.tw.wheels r).timers.erase t⟩,
                                 s.tw.queue, put s.tw.timer t { s.tw.timer t with bucket := none }⟩
                         stopped := s.stopped ++ [t] }
  | .take =>
    match s.tw.queue[0]? with
    | none => none
    | some r =>
      if s.clock > (bucketAt s.tw.wheels r).exp then
        match Heap.pop (less s.tw.wheels) s.tw.queue with
        | .ok (r', q) => if r' = r then some { s with tw := { s.tw with queue := q }, chan := s.chan ++ [r] } else none
        | .error _ => none
      else none
  | .advance =>
    match s.run, s.chan with
    | .idle, r :: rest =>
      if chk s r then
        match TimingWheel.advance (bucketAt s.tw.wheels r).exp s.tw.wheels with
        | .ok ws => some { s with tw := { s.tw with wheels := ws }, chan := rest, run := .advanced r }
        | .error _ => none
      else none
    | _, _ => none
  | .lock =>
    match s.run with
    | .advanced r => some { s with run := .flushing r }
    | _ => none
  | .unlink =>
    match s.run with
    | .flushing r =>
      match (bucketAt s.tw.wheels r).timers with
      | t :: ts =>
        some { s with tw := ⟨setBucket s.tw.wheels r ⟨(bucketAt s.tw.wheels r).exp, ts⟩, s.tw.queue,
                             put s.tw.timer t { s.tw.timer t with bucket := none }⟩
                      run := .moving r t }
      | [] => none
    | _ => none
  | .move =>
    match s.run with
    | .moving r t =>
      match add 9 s.tw 0 t (some r) with
      | .ok (tw, true) => some { s with tw := tw, run := .flushing r }
      | .ok (tw, false) => some { start s tw t with run := .flushing r }
      | .error _ => none
    | _ => none
  | .done =>
    match s.run with
    | .flushing r =>
      if (bucketAt s.tw.wheels r).timers = [] then
        some { s with tw := { s.tw with wheels := setBucket s.tw.wheels r ⟨-1, []⟩ }, run := .idle }
      else none
    | _ => none

def exec (chk : State → Ref → Bool) (s : State) : List Cmd → Option State
  | [] => some s
  | c :: cs => (exec1 chk s c).bind (fun s' => exec chk s' cs)

theorem exec1_sound {k : State → Ref → Prop} {chk : State → Ref → Bool} (hk : ∀ s r, chk s r = true → k s r) {s s' : State} {c : Cmd}
    (e : exec1 chk s c = some s') : Step k s s' := by
  cases c with
  | tick d => simp only [exec1, Option.some.injEq] at e; subst e; exact .tick s d (by omega)
  | after delay =>
    simp only [exec1] at e
    split at e
    · rename_i tw ok h
      cases e
      exact .afterFunc s delay 9 tw ok h
    · simp at e
  | schedule x =>
    simp only [exec1] at e
    split at e
    · rename_i tw h
      cases e
      exact .schedule s x 9 tw h
    · simp at e
  | again t x =>
    simp only [exec1] at e
    split at e
    · rename_i hm
      split at e
      · rename_i tw h
        cases e
        exact .again s t x 9 tw hm h
      · simp at e
    · simp at e
  | stop t =>
    simp only [exec1] at e
    split at e
    · simp at e
    · rename_i r hb
      split at e
      · simp at e
      · rename_i hl
        cases e
        exact .stop s t r hb hl
  | take =>
    simp only [exec1] at e
    split at e
    · simp at e
    · rename_i r h0
      split at e
      · rename_i hc
        split at e
        · rename_i r' q hp
          split at e
          · rename_i hr
            subst hr
            cases e
            exact .take s r' q h0 hc hp
          · simp at e
        · simp at e
      · simp at e
  | advance =>
    simp only [exec1] at e
    split at e
    · rename_i r rest h1 h2
      split at e
      · rename_i hc
        split at e
        · rename_i ws h
          cases e
          exact .advance s r rest ws h1 h2 (hk s r hc) h
        · simp at e
      · simp at e
    · simp at e
  | lock =>
    simp only [exec1] at e
    split at e
    · rename_i r h
      cases e
      exact .lock s r h
    · simp at e
  | unlink =>
    simp only [exec1] at e
    split at e
    · rename_i r h
      split at e
      · rename_i t ts ht
        cases e
        exact .unlink s r t ts h ht
      · simp at e
    · simp at e
  | move =>
    simp only [exec1] at e
    split at e
    · rename_i r t h
      split at e
      · rename_i tw ha
        cases e
        exact .readd s r t 9 tw h ha
      · rename_i tw ha
        cases e
        exact .fire s r t 9 tw h ha
      · simp at e
    · simp at e
  | done =>
    simp only [exec1] at e
    split at e
    · rename_i r h
      split at e
      · rename_i ht
        cases e
        exact .done s r h ht
      · simp at e
    · simp at e

theorem from_trans {k : State → Ref → Prop} {s s1 s2 : State} (h1 : From k s s1) (h2 : From k s1 s2) : From k s s2 := by
  induction h2 with
  | refl => exact h1
  | step _ st ih => exact .step ih st

theorem exec_sound {k : State → Ref → Prop} {chk : State → Ref → Bool} (hk : ∀ s r, chk s r = true → k s r) :
    ∀ {cs : List Cmd} {s s' : State}, exec chk s cs = some s' → From k s s'
  | [], s, s', e => by simp only [exec, Option.some.injEq] at e; subst e; exact .refl
  | c :: cs, s, s', e => by
    simp only [exec, Option.bind_eq_some_iff] at e
    obtain ⟨s1, e1, e2⟩ := e
    exact from_trans (.step .refl (exec1_sound hk e1)) (exec_sound hk e2)

/-- A test for `inOrder`. -/
def inOrderB (s : State) (r : Ref) : Bool :=
  (s.tw.queue ++ s.chan).all (fun r' => decide ((bucketAt s.tw.wheels r).exp ≤ (bucketAt s.tw.wheels r').exp))

theorem inOrderB_sound (s : State) (r : Ref) (h : inOrderB s r = true) : inOrder s r := by
  intro r' hr
  unfold inOrderB at h
  rw [List.all_eq_true] at h
  exact of_decide_eq_true (h r' (List.mem_append.2 hr))

/-- A command list run from a new wheel. -/
def run (chk : State → Ref → Bool) (tick wheelSize t0 : Int) (cs : List Cmd) : Option State :=
  match new tick wheelSize t0 with
  | .ok tw => exec chk (init tw t0) cs
  | .error _ => none

theorem run_sound {k : State → Ref → Prop} {chk : State → Ref → Bool} (hk : ∀ s r, chk s r = true → k s r)
    {tick wheelSize t0 : Int} {cs : List Cmd} {s : State} (e : run chk tick wheelSize t0 cs = some s) :
    Reach k tick wheelSize t0 s := by
  unfold run at e
  split at e
  · rename_i tw h
    exact ⟨tw, h, exec_sound hk e⟩
  · simp at e

/-- The state at the end of a command list, described by a test. -/
theorem run_test {k : State → Ref → Prop} {chk : State → Ref → Bool} (hk : ∀ s r, chk s r = true → k s r)
    {tick wheelSize t0 : Int} {cs : List Cmd} {p : State → Bool} (e : (run chk tick wheelSize t0 cs).any p = true) :
    ∃ s, Reach k tick wheelSize t0 s ∧ p s = true := by
  cases h : run chk tick wheelSize t0 cs with
  | none => rw [h] at e; simp at e
  | some s => rw [h] at e; exact ⟨s, run_sound hk h, by simpa using e⟩

end Verif.TimingWheel
