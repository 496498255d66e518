import Verif.Proof.TimingWhole
import Verif.Proof.Heap
import Mathlib.Data.List.Perm.Basic

/-!
# The protocol of the wheel's queue: an invariant
-/

namespace Verif.TimingWhole

open Mutex (put)
open TimingWheel (Ref Bucket Wheel Timer Tw Start bucketAt setBucket less curTime)
open TimingFine (addStep)

/-- The goroutine holds the mutex. -/
def crit : Pc → Bool
  | .base _ => false
  | _ => true

def isSend : Pc → Bool
  | .send => true
  | _ => false

/-- The goroutine of `channel` holds the mutex. -/
def takeCrit : Take → Nat
  | .looking | .have _ | .arm _ | .armed _ => 1
  | _ => 0

/-- All goroutines in `add`. -/
def runPcs : Run → List Pc
  | .moving _ _ pc => [pc]
  | _ => []

def pcs (s : State) : List Pc := s.adders.map (·.pc) ++ runPcs s.run

/-- The flag and the senders. -/
def Flag (sleeping : Bool) (n : Nat) : Take → Prop
  | .select _ | .fired => (sleeping = true ∧ n = 0) ∨ (sleeping = false ∧ n = 1)
  | .armed _ => sleeping = true ∧ n = 0
  | .drain => sleeping = false ∧ n = 1
  | .exited => True
  | _ => sleeping = false ∧ n = 0

/-- Nobody sleeps without a timer when there is a bucket, unless somebody is about to wake them. -/
def Awake (ps : List Pc) (sleeping : Bool) (queue : List Ref) : Take → Prop
  | .arm false => queue = []
  | .armed false => queue = []
  | .select false => sleeping = true → queue = [] ∨ (∃ r, queue = [r] ∧ .added r ∈ ps) ∨ .head ∈ ps
  | _ => True

structure Prot (ps : List Pc) (mutex sleeping : Bool) (queue : List Ref) (take : Take) : Prop where
  one : ps.countP crit + takeCrit take = if mutex then 1 else 0
  flag : Flag sleeping (ps.countP isSend) take
  awake : Awake ps sleeping queue take
  added : ∀ r, .added r ∈ ps → queue ≠ []

theorem Prot.perm {ps qs : List Pc} {m b : Bool} {q : List Ref} {k : Take} (h : Prot ps m b q k) (hp : ps.Perm qs) : Prot qs m b q k := by
  refine ⟨by rw [← hp.countP_eq]; exact h.one, by rw [← hp.countP_eq]; exact h.flag, ?_,
    fun r hr => h.added r (hp.mem_iff.2 hr)⟩
  have ha := h.awake
  cases k with
  | select t => cases t <;> simpa [Awake, hp.mem_iff] using ha
  | arm t => cases t <;> exact ha
  | armed t => cases t <;> exact ha
  | _ => exact ha

/-- Nobody is in the critical section but the given goroutine. -/
theorem Prot.rest {ps : List Pc} {pc : Pc} {m b : Bool} {q : List Ref} {k : Take} (h : Prot (pc :: ps) m b q k) (hc : crit pc = true) :
    m = true ∧ takeCrit k = 0 ∧ ps.countP crit = 0 := by
  have h1 := h.one
  rw [List.countP_cons, if_pos hc] at h1
  cases m
  · simp at h1
  · simp only [if_true] at h1
    exact ⟨rfl, by omega, by omega⟩

theorem send_le (ps : List Pc) : ps.countP isSend ≤ ps.countP crit :=
  List.countP_mono_left (by intro x _ h; cases x <;> first | rfl | cases h)

theorem mem_crit {ps : List Pc} {pc : Pc} (h : ps.countP crit = 0) (hp : pc ∈ ps) : crit pc = false := by
  simpa using (List.countP_eq_zero.1 h) pc hp

/-- `add` outside of `push` leaves the queue alone. -/
theorem addStep_queue {lk : Option Ref} {tw tw' : Tw} {t : Nat} {p p' : TimingFine.Pc} (hp : ∀ r, p ≠ .pushing r)
    (h : addStep lk tw t p = .ok (tw', p')) : tw'.queue = tw.queue := by
  cases p with
  | enter l =>
    simp only [addStep] at h
    split at h <;> cases h
    rfl
  | loaded l c =>
    simp only [addStep] at h
    split at h
    · cases h
    · rename_i w _
      split at h
      · cases h; rfl
      · split at h
        · cases h1 : TimingWheel.quo (tw.timer t).exp w.tick with
          | error e => rw [h1] at h; cases h
          | ok ticks =>
            rw [h1] at h
            simp only [Go.bind_ok] at h
            cases h2 : TimingWheel.rem ticks w.wheelSize with
            | error e => rw [h2] at h; cases h
            | ok i =>
              rw [h2] at h
              simp only [Go.bind_ok] at h
              split at h
              · cases h
              · cases h3 : Go.idx w.buckets i.toNat with
                | error e => rw [h3] at h; cases h
                | ok b =>
                  rw [h3] at h
                  simp only [Go.bind_ok] at h
                  split at h
                  · cases h
                  · cases h; rfl
        · split at h
          · cases h; rfl
          · cases h1 : TimingWheel.newWheel w.interval w.wheelSize c with
            | error e => rw [h1] at h; cases h
            | ok o => rw [h1] at h; cases h; rfl
  | inBucket r e => simp only [addStep] at h; cases h; rfl
  | pushing r => exact absurd rfl (hp r)
  | returned ok => simp only [addStep] at h; cases h; rfl

theorem push_nil (lt : Ref → Ref → Bool) (r : Ref) : Heap.push lt [] r = .ok [r] := by
  simp [Heap.push, Heap.pushRaw, Heap.up, Heap.upLoop]

theorem push_ne {lt : Ref → Ref → Bool} {q q' : List Ref} {r : Ref} (h : Heap.push lt q r = .ok q') : q' ≠ [] := by
  obtain ⟨q'', e, hp⟩ := Heap.pushN_total lt 2 (by omega) q r
  rw [Heap.push_eq] at h
  rw [h] at e
  cases e
  rintro rfl
  have := hp.length_eq
  simp at this

theorem Prot.base {ps : List Pc} {m b : Bool} {q : List Ref} {k : Take} (h : Prot ps m b q k) (p : TimingFine.Pc) : Prot (.base p :: ps) m b q k := by
  refine ⟨by simpa [List.countP_cons, crit] using h.one, by simpa [List.countP_cons, isSend] using h.flag, ?_, fun r hr => h.added r (by simpa using hr)⟩
  have ha := h.awake
  cases k with
  | select t => cases t <;> simpa [Awake] using ha
  | arm t => cases t <;> exact ha
  | armed t => cases t <;> exact ha
  | _ => exact ha

theorem Prot.unbase {ps : List Pc} {m b : Bool} {q : List Ref} {k : Take} {p : TimingFine.Pc} (h : Prot (.base p :: ps) m b q k) : Prot ps m b q k := by
  refine ⟨by simpa [List.countP_cons, crit] using h.one, by simpa [List.countP_cons, isSend] using h.flag, ?_, fun r hr => h.added r (by simp [hr])⟩
  have ha := h.awake
  cases k with
  | select t => cases t <;> simpa [Awake] using ha
  | arm t => cases t <;> exact ha
  | armed t => cases t <;> exact ha
  | _ => exact ha

theorem prot_go {lk : Option Ref} {x x' : Shared} {t : Nat} {pc pc' : Pc} {ps : List Pc} {k : Take}
    (h : Prot (pc :: ps) x.mutex x.sleeping x.tw.queue k) (e : goStep lk x t pc = some (x', pc')) :
    Prot (pc' :: ps) x'.mutex x'.sleeping x'.tw.queue k := by
  cases pc with
  | base p =>
    by_cases hp : ∃ r, p = .pushing r
    · obtain ⟨r, rfl⟩ := hp
      simp only [goStep] at e
      split at e
      · cases e
      · rename_i hm
        cases e
        have h0 := h.unbase
        have h1 := h0.one
        simp only [Bool.not_eq_true] at hm
        rw [hm] at h1
        refine ⟨by
          have : ps.countP crit = 0 ∧ takeCrit k = 0 := by
            simp only [Bool.false_eq_true, if_false] at h1; omega
          simp [List.countP_cons, crit, this.1, this.2], by simpa [List.countP_cons, isSend] using h0.flag, ?_,
          fun r hr => h0.added r (by simpa using hr)⟩
        have ha := h0.awake
        cases k with
        | select t =>
          cases t with
          | true => trivial
          | false =>
            intro hs
            rcases ha hs with ha | ⟨r, ha, hr⟩ | ha
            · exact .inl ha
            · exact .inr (.inl ⟨r, ha, by simp [hr]⟩)
            · exact .inr (.inr (by simp [ha]))
        | arm t => cases t <;> exact ha
        | armed t => cases t <;> exact ha
        | _ => exact ha
    · have hp : ∀ r, p ≠ .pushing r := fun r hr => hp ⟨r, hr⟩
      have e' : (match addStep lk x.tw t p with
          | .ok (tw, p') => some ({ x with tw := tw }, Pc.base p')
          | .error _ => none) = some (x', pc') := by
        cases p with
        | pushing r => exact absurd rfl (hp r)
        | _ => exact e
      split at e'
      · rename_i hadd
        cases e'
        have hq := addStep_queue hp hadd
        have := h.unbase.base (p := by assumption)
        simp only [hq]
        exact this
      · cases e'
  | locked r =>
    simp only [goStep] at e
    obtain ⟨hm, hk, hc⟩ := h.rest rfl
    split at e
    · rename_i q hq
      cases e
      refine ⟨by simpa [List.countP_cons, crit] using h.one, by simpa [List.countP_cons, isSend] using h.flag, ?_,
        fun _ _ => push_ne hq⟩
      have ha := h.awake
      cases k with
      | select t =>
        cases t with
        | true => trivial
        | false =>
          intro hs
          rcases ha hs with ha | ⟨r', _, hr⟩ | ha
          · rw [ha, push_nil] at hq
            cases hq
            exact .inr (.inl ⟨r, rfl, by simp⟩)
          · rcases List.mem_cons.1 hr with hr | hr
            · cases hr
            · have := mem_crit hc hr; cases this
          · rcases List.mem_cons.1 ha with hr | hr
            · cases hr
            · have := mem_crit hc hr; cases this
      | arm t => cases hk
      | armed t => cases hk
      | _ => trivial
    · cases e
  | added r =>
    simp only [goStep] at e
    obtain ⟨hm, hk, hc⟩ := h.rest rfl
    split at e
    · rename_i y hy
      cases e
      refine ⟨by rw [hm]; split <;> simp [List.countP_cons, crit, hc, hk],
        by have := h.flag; simp only [List.countP_cons, isSend] at this ⊢; split <;> simpa using this, ?_, ?_⟩
      rotate_left
      · intro r' hr'
        rcases List.mem_cons.1 hr' with hr' | hr'
        · split at hr' <;> cases hr'
        · have := mem_crit hc hr'; cases this
      have ha := h.awake
      cases k with
      | select t =>
        cases t with
        | true => trivial
        | false =>
          intro hs
          rcases ha hs with ha | ⟨r', hq, hr⟩ | ha
          · rw [ha] at hy; cases hy
          · rw [hq] at hy
            have hyr : r' = y := by simpa [Heap.peek, Go.idx] using hy
            rcases List.mem_cons.1 hr with hr | hr
            · cases hr
              rw [if_pos hyr.symm]
              exact .inr (.inr (by simp))
            · have := mem_crit hc hr; cases this
          · rcases List.mem_cons.1 ha with hr | hr
            · cases hr
            · have := mem_crit hc hr; cases this
      | arm t => cases hk
      | armed t => cases hk
      | _ => trivial
    · cases e
  | head =>
    simp only [goStep] at e
    obtain ⟨hm, hk, hc⟩ := h.rest rfl
    have hs0 : ps.countP isSend = 0 := by have := send_le ps; omega
    have hf := h.flag
    simp only [List.countP_cons, isSend, hs0] at hf
    split at e
    · rename_i hsl
      cases e
      refine ⟨by simpa [List.countP_cons, crit] using h.one, ?_, ?_, fun r hr => by
        rcases List.mem_cons.1 hr with hr | hr
        · cases hr
        · have := mem_crit hc hr; cases this⟩
      · simp only [List.countP_cons, isSend, hs0]
        rw [hsl] at hf
        cases k <;> simp [Flag] at hf ⊢
        cases hk
      · have ha := h.awake
        cases k with
        | select t => cases t <;> simp [Awake]
        | arm t => cases hk
        | armed t => cases hk
        | _ => trivial
    · rename_i hsl
      cases e
      refine ⟨by simpa [List.countP_cons, crit] using h.one, by simpa [List.countP_cons, isSend, hs0] using hf, ?_, fun r hr => by
        rcases List.mem_cons.1 hr with hr | hr
        · cases hr
        · have := mem_crit hc hr; cases this⟩
      cases k with
      | select t =>
        cases t with
        | true => trivial
        | false => intro hs; exact absurd hs hsl
      | arm t => cases hk
      | armed t => cases hk
      | _ => trivial
  | send => cases e
  | unlock =>
    cases e
    obtain ⟨hm, hk, hc⟩ := h.rest rfl
    have hs0 : ps.countP isSend = 0 := by have := send_le ps; omega
    have hf := h.flag
    simp only [List.countP_cons, isSend, hs0] at hf
    refine ⟨by simp [List.countP_cons, crit, hc, hk], by simpa [List.countP_cons, isSend, hs0] using hf, ?_, fun r hr => by
        rcases List.mem_cons.1 hr with hr | hr
        · cases hr
        · have := mem_crit hc hr; cases this⟩
    have ha := h.awake
    cases k with
    | select t =>
      cases t with
      | true => trivial
      | false =>
        intro hs
        rcases ha hs with ha | ⟨r', hq, hr⟩ | ha
        · exact .inl ha
        · rcases List.mem_cons.1 hr with hr | hr
          · cases hr
          · have := mem_crit hc hr; cases this
        · rcases List.mem_cons.1 ha with hr | hr
          · cases hr
          · have := mem_crit hc hr; cases this
    | arm t => cases hk
    | armed t => cases hk
    | _ => trivial

theorem prot_wake {ps : List Pc} {m b : Bool} {q : List Ref} {k : Take} (h : Prot (.send :: ps) m b q k) (hk : receives k = true) :
    Prot (.unlock :: ps) m b q .waiting := by
  obtain ⟨hm, hk', hc⟩ := h.rest rfl
  have hs0 : ps.countP isSend = 0 := by have := send_le ps; omega
  have hf := h.flag
  simp only [List.countP_cons, isSend, hs0] at hf
  refine ⟨by rw [hm]; simp [List.countP_cons, crit, hc, takeCrit], ?_, trivial, fun r hr => by
        rcases List.mem_cons.1 hr with hr | hr
        · cases hr
        · have := mem_crit hc hr; cases this⟩
  simp only [List.countP_cons, isSend, hs0]
  cases k with
  | select t => simp [Flag] at hf; exact ⟨hf, rfl⟩
  | drain => simp [Flag] at hf; exact ⟨hf, rfl⟩
  | _ => cases hk

theorem set_perm {l : List Adder} {i : Nat} {a : Adder} (h : l[i]? = some a) :
    (l.map (·.pc)).Perm (a.pc :: (l.eraseIdx i).map (·.pc)) ∧
      ∀ b : Adder, ((l.set i b).map (·.pc)).Perm (b.pc :: (l.eraseIdx i).map (·.pc)) := by
  obtain ⟨hi, ha⟩ := List.getElem?_eq_some_iff.1 h
  constructor
  · have := (List.getElem_cons_eraseIdx_perm hi).symm.map (fun a : Adder => a.pc)
    rw [ha] at this
    exact this
  · intro b
    exact (List.set_perm_cons_eraseIdx hi b).map _

/-- The invariant of a state. -/
def Inv (s : State) : Prop := Prot (pcs s) s.sh.mutex s.sh.sleeping s.sh.tw.queue s.take

theorem inv_init (tw : Tw) (t0 : Int) (hq : tw.queue = []) : Inv (init tw t0) := by
  exact ⟨rfl, ⟨rfl, rfl⟩, trivial, fun r hr => by cases hr⟩

/-- The goroutine of `channel` goes on. -/
theorem take_inv {s s' : State} (h : Inv s) (e : takeStep s = some s') : Inv s' := by
  unfold takeStep at e
  unfold Inv at h
  have h1 := h.one
  have hf := h.flag
  have ha := h.awake
  have hle := send_le (pcs s)
  have had := h.added
  cases hk : s.take with
  | waiting =>
    rw [hk] at e h1 hf
    dsimp only at e
    split at e
    · cases e
    · rename_i hm
      cases e
      simp only [Bool.not_eq_true] at hm
      rw [hm] at h1
      exact ⟨by show (pcs s).countP crit + 1 = 1; simp [takeCrit] at h1; simpa using h1, hf, trivial, had⟩
  | looking =>
    rw [hk] at e h1 hf
    dsimp only at e
    split at e
    · rename_i hq
      cases e
      refine ⟨h1, hf, ?_, had⟩
      show s.sh.tw.queue = []
      cases hq' : s.sh.tw.queue with
      | nil => rfl
      | cons a l => rw [hq'] at hq; cases hq
    · split at e
      · split at e
        · cases e
          refine ⟨h1, hf, trivial, fun r hr => ?_⟩
          have hc : (pcs s).countP crit = 0 := by simp only [takeCrit] at h1; split at h1 <;> omega
          have := mem_crit hc (pc := .added r) hr
          cases this
        · cases e
      · cases e
        exact ⟨h1, hf, trivial, had⟩
  | «have» r =>
    rw [hk] at e h1 hf
    cases e
    refine ⟨?_, hf, trivial, had⟩
    show (pcs s).countP crit + 0 = 0
    simp only [takeCrit] at h1
    split at h1 <;> omega
  | arm b =>
    rw [hk] at e h1 hf ha
    cases e
    exact ⟨h1, ⟨rfl, hf.2⟩, by cases b <;> exact ha, had⟩
  | armed b =>
    rw [hk] at e h1 hf ha
    cases e
    refine ⟨?_, .inl hf, ?_, had⟩
    · show (pcs s).countP crit + 0 = 0
      simp only [takeCrit] at h1
      split at h1 <;> omega
    · cases b with
      | true => trivial
      | false => intro _; exact .inl ha
  | fired =>
    rw [hk] at e h1 hf
    dsimp only at e
    split at e
    · rename_i hs
      cases e
      refine ⟨h1, ⟨rfl, ?_⟩, trivial, had⟩
      rcases hf with hf | hf
      · exact hf.2
      · rw [hf.1] at hs; cases hs
    · rename_i hs
      cases e
      refine ⟨h1, ?_, trivial, had⟩
      rcases hf with hf | hf
      · exact absurd hf.1 hs
      · exact hf
  | sending r =>
    rw [hk] at e h1 hf
    dsimp only at e
    split at e
    · cases e
      exact ⟨h1, hf, trivial, had⟩
    · cases e
  | select b => rw [hk] at e; cases e
  | drain => rw [hk] at e; cases e
  | exited => rw [hk] at e; cases e

theorem inv_of_pcs {s s' : State} (h : Inv s) (hp : (pcs s).Perm (pcs s')) (hm : s'.sh.mutex = s.sh.mutex) (hs : s'.sh.sleeping = s.sh.sleeping)
    (hq : s'.sh.tw.queue = s.sh.tw.queue) (hk : s'.take = s.take) : Inv s' := by
  unfold Inv
  rw [hm, hs, hq, hk]
  exact Prot.perm h hp

theorem exec_inv {s s' : State} {a : Act} (h : Inv s) (e : exec s a = some s') : Inv s' := by
  have keyA : ∀ (s' : State) (b : Adder) (p : TimingFine.Pc), b.pc = .base p → s'.adders = s.adders ++ [b] → s'.run = s.run →
      s'.sh.mutex = s.sh.mutex → s'.sh.sleeping = s.sh.sleeping → s'.sh.tw.queue = s.sh.tw.queue → s'.take = s.take → Inv s' := by
    intro s' b p hb hadd hrun hm hs hq hk
    unfold Inv
    rw [hm, hs, hq, hk]
    refine (Prot.base h p).perm ?_
    unfold pcs
    rw [hadd, hrun, List.map_append, List.map_cons, List.map_nil, hb, List.append_assoc]
    exact (List.perm_middle (l₁ := s.adders.map (·.pc)) (l₂ := runPcs s.run)).symm
  cases a with
  | tick d => cases e; exact h
  | after d => cases e; exact keyA _ ⟨s.next, false, .base (.enter 0)⟩ _ rfl rfl rfl rfl rfl rfl rfl
  | schedule d => cases e; exact keyA _ ⟨s.next, true, .base (.enter 0)⟩ _ rfl rfl rfl rfl rfl rfl rfl
  | again t d =>
    simp only [exec] at e
    split at e
    · cases e; exact keyA _ ⟨t, true, .base (.enter 0)⟩ _ rfl rfl rfl rfl rfl rfl rfl
    · cases e
  | enough t =>
    simp only [exec] at e
    split at e
    · cases e; exact h
    · cases e
  | act i =>
    simp only [exec] at e
    cases hi : s.adders[i]? with
    | none => rw [hi] at e; cases e
    | some a =>
      obtain ⟨t, runs, pc⟩ := a
      rw [hi] at e
      obtain ⟨p1, p2⟩ := set_perm hi
      have h' : Prot (pc :: ((s.adders.eraseIdx i).map (·.pc) ++ runPcs s.run)) s.sh.mutex s.sh.sleeping s.sh.tw.queue s.take :=
        h.perm (p1.append_right (runPcs s.run))
      have key : ∀ x' pc', goStep (lockedRef s.run) s.sh t pc = some (x', pc') →
          s' = { s with sh := x', adders := s.adders.set i ⟨t, runs, pc'⟩ } → Inv s' := by
        intro x' pc' hg hs
        subst hs
        exact (prot_go h' hg).perm ((p2 ⟨t, runs, pc'⟩).append_right (runPcs s.run)).symm
      cases pc with
      | base p =>
        cases p with
        | returned ok =>
          dsimp only at e
          have := h'.unbase
          cases ok <;> cases runs <;> simp at e <;> subst e <;> exact this
        | _ =>
          dsimp only at e
          split at e
          · rename_i hg; exact key _ _ hg (by cases e; rfl)
          · cases e
      | _ =>
        dsimp only at e
        split at e
        · rename_i hg; exact key _ _ hg (by cases e; rfl)
        · cases e
  | stop t =>
    simp only [exec] at e
    split at e
    · cases e
    · split at e
      · cases e
      · cases e; exact h
  | advance =>
    simp only [exec] at e
    split at e
    · rename_i hr hb
      split at e
      · cases e
        exact inv_of_pcs h (by unfold pcs; rw [hr]; exact .refl _) rfl rfl rfl rfl
      · cases e
    · cases e
  | lock =>
    simp only [exec] at e
    split at e
    · rename_i hr
      cases e
      exact inv_of_pcs h (by unfold pcs; rw [hr]; exact .refl _) rfl rfl rfl rfl
    · cases e
  | unlink =>
    simp only [exec] at e
    split at e
    · rename_i hr
      split at e
      · cases e
      · cases e
        have h0 : pcs s = s.adders.map (·.pc) := by unfold pcs; rw [hr]; simp [runPcs]
        have h1 := Prot.base h (.enter 0)
        rw [h0] at h1
        exact h1.perm (List.perm_append_singleton _ _).symm
    · cases e
  | move =>
    simp only [exec] at e
    cases hr : s.run with
    | moving r t pc =>
      rw [hr] at e
      have p2 : ∀ pc : Pc, (s.adders.map (·.pc) ++ [pc]).Perm (pc :: s.adders.map (·.pc)) := fun pc => List.perm_append_singleton _ _
      have h' : Prot (pc :: s.adders.map (·.pc)) s.sh.mutex s.sh.sleeping s.sh.tw.queue s.take := by
        refine Prot.perm h ?_
        unfold pcs
        rw [hr]
        exact p2 pc
      have key : ∀ x' pc', goStep (some r) s.sh t pc = some (x', pc') → s' = { s with sh := x', run := .moving r t pc' } → Inv s' := by
        intro x' pc' hg hs
        subst hs
        exact (prot_go h' hg).perm (p2 pc').symm
      cases pc with
      | base p =>
        cases p with
        | returned ok =>
          dsimp only at e
          have := h'.unbase.perm (qs := s.adders.map (·.pc) ++ []) (by simp)
          cases ok <;> simp at e <;> subst e <;> exact this
        | _ =>
          dsimp only at e
          split at e
          · rename_i hg; exact key _ _ hg (by cases e; rfl)
          · cases e
      | _ =>
        dsimp only at e
        split at e
        · rename_i hg; exact key _ _ hg (by cases e; rfl)
        · cases e
    | _ => rw [hr] at e; cases e
  | done =>
    simp only [exec] at e
    split at e
    · rename_i hr
      split at e
      · cases e
        exact inv_of_pcs h (by unfold pcs; rw [hr]; exact .refl _) rfl rfl rfl rfl
      · cases e
    · cases e
  | take => exact take_inv h e
  | timer =>
    simp only [exec] at e
    split at e
    · rename_i hk
      cases e
      have h1 := h.one
      have hf := h.flag
      rw [hk] at h1 hf
      exact ⟨h1, hf, trivial, h.added⟩
    · cases e
  | wake o =>
    cases o with
    | none =>
      simp only [exec] at e
      split at e
      · rename_i r t hr
        split at e
        · rename_i hc
          cases e
          have h' : Prot (.send :: s.adders.map (·.pc)) s.sh.mutex s.sh.sleeping s.sh.tw.queue s.take := by
            refine Prot.perm h ?_
            unfold pcs
            rw [hr]
            exact List.perm_append_singleton _ _
          exact (prot_wake h' hc).perm (List.perm_append_singleton _ _).symm
        · cases e
      · cases e
    | some i =>
      simp only [exec] at e
      split at e
      · rename_i t runs hi
        split at e
        · rename_i hc
          cases e
          obtain ⟨p1, p2⟩ := set_perm hi
          have h' : Prot (.send :: ((s.adders.eraseIdx i).map (·.pc) ++ runPcs s.run)) s.sh.mutex s.sh.sleeping s.sh.tw.queue s.take :=
            Prot.perm h (p1.append_right (runPcs s.run))
          exact (prot_wake h' hc).perm ((p2 ⟨t, runs, .unlock⟩).append_right (runPcs s.run)).symm
        · cases e
      · cases e
  | cancel => cases e; exact h
  | quit =>
    simp only [exec] at e
    split at e
    · rename_i hk
      split at e
      · cases e
        have h1 := h.one
        rw [hk] at h1
        exact ⟨h1, trivial, trivial, h.added⟩
      · cases e
    · cases e
  | leave =>
    simp only [exec] at e
    split at e
    · rename_i hr
      cases e
      exact inv_of_pcs h (by unfold pcs; rw [hr.1]; exact .refl _) rfl rfl rfl rfl
    · cases e
  | recvNil =>
    simp only [exec] at e
    split at e
    · rename_i hr
      cases e
      exact inv_of_pcs h (by unfold pcs; rw [hr.1]; exact .refl _) rfl rfl rfl rfl
    · cases e

theorem reach_inv {tick W t0 : Int} {s : State} (h : Reach tick W t0 s) : Inv s := by
  obtain ⟨tw, h1, h2⟩ := h
  induction h2 with
  | refl =>
    refine inv_init _ _ ?_
    simp only [TimingWheel.new] at h1
    cases hw : TimingWheel.newWheel tick W t0 with
    | error e => rw [hw] at h1; cases h1
    | ok w => rw [hw] at h1; cases h1; rfl
  | step a _ e ih => exact exec_inv ih e

end Verif.TimingWhole
