import Verif.Proof.TimingFine
import Verif.Proof.TimingWheelOrd

/-! # The timing wheel with interruptible `add`, if `Run` begins with a bucket only when nobody is inside `add` -/

namespace Verif.TimingFine

open Mutex (put put_self put_ne)
open TimingWheel (Ref Bucket Wheel Timer Tw Start quo rem truncate newWheel newBucket bucketAt setBucket less advance curTime K K_pos K_succ K_zero
  K_le K_dvd fl fl_dvd fl_le lt_fl le_fl fl_mono fl_fl fl_of_dvd fl_nonneg fl_unique truncate_ok Valid bucketAt_of setBucket_of length_setBucket
  push_total pop_total push_heap pop_heap Wf slotOf slot_inj curTime_eq setBucket_wf overflow_spec overflow heap_congr advance_spec)

variable {k0 : Int} {W : Nat}

/-- The time `e` belongs to the bucket `r` at the current time `c`. -/
structure Slotted (k0 : Int) (W : Nat) (c : Int) (r : Ref) (e : Int) : Prop where
  dvd : K k0 W r.level ∣ e
  slot : r.slot = slotOf k0 W r.level e
  lo : fl c (K k0 W r.level) ≤ e
  hi : e < fl c (K k0 W r.level) + K k0 W (r.level + 1)

theorem Slotted.inj {c : Int} {r : Ref} {e1 e2 : Int} (h0 : 0 < k0) (hW : 0 < W) (h1 : Slotted k0 W c r e1) (h2 : Slotted k0 W c r e2) : e1 = e2 :=
  slot_inj h0 hW h1.dvd h2.dvd h1.lo h1.hi h2.lo h2.hi (by rw [← h1.slot, ← h2.slot])

/-- What holds for a goroutine in `add` with a timer that expires at `x`; the current time is `c`. -/
def PcGood (k0 : Int) (W : Nat) (c x : Int) : Pc → Prop
  | .enter l => ∀ j, j < l → fl c (K k0 W j) + K k0 W (j + 1) ≤ x
  | .loaded l cur => cur = fl c (K k0 W l) ∧ ∀ j, j < l → fl c (K k0 W j) + K k0 W (j + 1) ≤ x
  | .inBucket r e => Slotted k0 W c r e ∧ fl c (K k0 W r.level) + K k0 W r.level ≤ e
  | .pushing _ => True
  | .returned ok => ok = false → x < c + k0

/-- How often a bucket is in the queue, on its way to `Run`, in its hands, or about to be pushed. -/
def regs (tw : Tw) (jobs : List (Nat × Pc)) (extra : List Ref) (r : Ref) : Nat :=
  tw.queue.count r + extra.count r + jobs.countP (fun j => j.2 == .pushing r)

/-- Buckets, expirations and timers fit. -/
structure FT (k0 : Int) (W : Nat) (tw : Tw) (jobs : List (Nat × Pc)) (extra : List Ref) : Prop where
  wf : Wf k0 W (curTime tw.wheels) tw.wheels
  one : ∀ r, regs tw jobs extra r ≤ 1
  live : ∀ r, 0 < regs tw jobs extra r → (bucketAt tw.wheels r).exp ≠ -1
  exps : ∀ r, (bucketAt tw.wheels r).exp ≠ -1 → Slotted k0 W (curTime tw.wheels) r (bucketAt tw.wheels r).exp
  timers : ∀ r t, t ∈ (bucketAt tw.wheels r).timers → Slotted k0 W (curTime tw.wheels) r (fl (tw.timer t).exp (K k0 W r.level))
  heap : Heap.HeapN (less tw.wheels) 2 tw.queue.length tw.queue
  pcs : ∀ j ∈ jobs, PcGood k0 W (curTime tw.wheels) (tw.timer j.1).exp j.2

theorem FT.wpos {tw : Tw} {jobs : List (Nat × Pc)} {extra : List Ref} (h : FT k0 W tw jobs extra) : 0 < W := by have := h.wf.w; omega

theorem regs_mid (tw : Tw) (l1 l2 : List (Nat × Pc)) (a : Nat × Pc) (extra : List Ref) (r : Ref) :
    regs tw (l1 ++ a :: l2) extra r = regs tw (l1 ++ l2) extra r + (a.2 == .pushing r).toNat := by
  unfold regs
  rw [countP_mid]
  omega

theorem heap_same {ws ws' : List Wheel} {q : List Ref} (h : ∀ r ∈ q, (bucketAt ws' r).exp = (bucketAt ws r).exp)
    (hh : Heap.HeapN (less ws) 2 q.length q) : Heap.HeapN (less ws') 2 q.length q := by
  refine heap_congr ?_ hh
  intro a ha b hb
  unfold less
  rw [h a ha, h b hb]

theorem regs_queue {tw : Tw} {jobs : List (Nat × Pc)} {extra : List Ref} {r : Ref} (h : r ∈ tw.queue) : 0 < regs tw jobs extra r := by
  unfold regs
  have := List.count_pos_iff.2 h
  omega

theorem regs_extra {tw : Tw} {jobs : List (Nat × Pc)} {extra : List Ref} {r : Ref} (h : r ∈ extra) : 0 < regs tw jobs extra r := by
  unfold regs
  have := List.count_pos_iff.2 h
  omega

/-- An action of `add` that leaves buckets, timers and the queue alone. -/
theorem ft_quiet {tw : Tw} {ws : List Wheel} {l1 l2 : List (Nat × Pc)} {t : Nat} {pc pc' : Pc} {extra : List Ref}
    (h : FT k0 W tw (l1 ++ (t, pc) :: l2) extra) (hwf : Wf k0 W (curTime tw.wheels) ws) (hb : ∀ r, bucketAt ws r = bucketAt tw.wheels r)
    (h1 : ∀ r, pc' ≠ .pushing r) (hpc : PcGood k0 W (curTime tw.wheels) (tw.timer t).exp pc') :
    FT k0 W { tw with wheels := ws } (l1 ++ (t, pc') :: l2) extra ∧ curTime ws = curTime tw.wheels := by
  have hc := curTime_eq hwf
  have hreg : ∀ r, regs { tw with wheels := ws } (l1 ++ (t, pc') :: l2) extra r ≤ regs tw (l1 ++ (t, pc) :: l2) extra r := by
    intro r
    rw [regs_mid, regs_mid]
    have : (pc' == Pc.pushing r) = false := by simpa using h1 r
    rw [this]
    show regs tw (l1 ++ l2) extra r + 0 ≤ _
    omega
  refine ⟨⟨by dsimp only; rw [hc]; exact hwf, fun r => Nat.le_trans (hreg r) (h.one r), ?_, ?_, ?_, ?_, ?_⟩, hc⟩
  · intro r hr
    dsimp only
    rw [hb]
    exact h.live r (Nat.lt_of_lt_of_le hr (hreg r))
  · intro r hr
    dsimp only at hr ⊢
    rw [hb] at hr ⊢
    rw [hc]
    exact h.exps r hr
  · intro r t' ht'
    dsimp only at ht' ⊢
    rw [hb] at ht'
    rw [hc]
    exact h.timers r t' ht'
  · exact heap_same (fun r _ => by rw [hb]) h.heap
  · intro j hj
    dsimp only
    rw [hc]
    simp only [List.mem_append, List.mem_cons] at hj
    rcases hj with hj | rfl | hj
    · exact h.pcs j (by simp [hj])
    · exact hpc
    · exact h.pcs j (by simp [hj])

/-- The parts of `add` into a bucket. -/
theorem into_bucket {lk : Option Ref} {tw : Tw} {t l : Nat} {c : Int} (hwf : Wf k0 W c tw.wheels) (hl : l < tw.wheels.length)
    (lo : fl c (K k0 W l) + K k0 W l ≤ (tw.timer t).exp) (hi : (tw.timer t).exp < fl c (K k0 W l) + K k0 W (l + 1)) :
    ∃ r : Ref, r.level = l ∧ Valid W tw.wheels r ∧ Slotted k0 W c r (fl (tw.timer t).exp (K k0 W l)) ∧
      fl c (K k0 W l) + K k0 W l ≤ fl (tw.timer t).exp (K k0 W l) ∧
      addStep lk tw t (.loaded l (fl c (K k0 W l))) = if lk = some r then .error .diverge else
        .ok (⟨setBucket tw.wheels r ⟨(bucketAt tw.wheels r).exp, (bucketAt tw.wheels r).timers ++ [t]⟩, tw.queue,
          put tw.timer t { tw.timer t with bucket := some r }⟩, .inBucket r (fl (tw.timer t).exp (K k0 W l))) := by
  have hk := hwf.kp l
  have hW := hwf.w
  have hc : 0 ≤ fl c (K k0 W l) := fl_nonneg hk hwf.c
  obtain ⟨bs, hw, hb⟩ := hwf.at hl
  have he : 0 ≤ (tw.timer t).exp := by omega
  have hq0 : 0 ≤ (tw.timer t).exp / K k0 W l := Int.ediv_nonneg he (by omega)
  have hi0 : 0 ≤ (tw.timer t).exp / K k0 W l % (W : Int) := Int.emod_nonneg _ (by omega)
  have hi1 : (tw.timer t).exp / K k0 W l % (W : Int) < W := Int.emod_lt_of_pos _ (by omega)
  have hlt : ((tw.timer t).exp / K k0 W l % (W : Int)).toNat < bs.length := by omega
  have hlo : fl c (K k0 W l) + K k0 W l ≤ fl (tw.timer t).exp (K k0 W l) :=
    le_fl hk (Int.dvd_add (fl_dvd _ _) (Int.dvd_refl _)) lo
  have hle : fl (tw.timer t).exp (K k0 W l) ≤ (tw.timer t).exp := fl_le hk
  refine ⟨⟨l, ((tw.timer t).exp / K k0 W l % (W : Int)).toNat⟩, rfl, ⟨hl, by dsimp only; omega⟩, ⟨fl_dvd _ _, ?_, by dsimp only; omega,
    by dsimp only; omega⟩, hlo, ?_⟩
  · dsimp only
    unfold slotOf fl
    rw [Int.mul_ediv_cancel _ (by omega)]
  · rw [addStep, hw]
    dsimp only
    rw [if_neg (by omega), if_pos hi]
    unfold quo rem
    have hbk : bucketAt tw.wheels ⟨l, ((tw.timer t).exp / K k0 W l % (W : Int)).toNat⟩ =
        bs[((tw.timer t).exp / K k0 W l % (W : Int)).toNat] := by
      rw [bucketAt_of (r := ⟨l, _⟩) hw]
      dsimp only
      rw [List.getElem?_eq_getElem hlt, Option.getD_some]
    simp only [if_neg (show ¬ K k0 W l = 0 by omega), if_neg (show ¬ (W : Int) = 0 by omega), Go.bind_ok,
      Int.tdiv_eq_ediv_of_nonneg he, Int.tmod_eq_emod_of_nonneg hq0,
      if_neg (show ¬ (tw.timer t).exp / K k0 W l % (W : Int) < 0 by omega), Go.idx_of_lt _ _ hlt]
    rw [hbk]
    rfl

/-- A bucket changes, its expiration only if it has none. -/
theorem ft_bucket {tw : Tw} {f : Nat → Timer} {l1 l2 : List (Nat × Pc)} {t : Nat} {pc pc' : Pc} {extra : List Ref} {r : Ref} {E : Int} {ts : List Nat}
    (h : FT k0 W tw (l1 ++ (t, pc) :: l2) extra) (hv : Valid W tw.wheels r) (hf : ∀ t', (f t').exp = (tw.timer t').exp)
    (hE : (bucketAt tw.wheels r).exp = -1 ∨ E = (bucketAt tw.wheels r).exp) (hE' : E ≠ -1 → Slotted k0 W (curTime tw.wheels) r E)
    (hts : ∀ t' ∈ ts, Slotted k0 W (curTime tw.wheels) r (fl (tw.timer t').exp (K k0 W r.level)))
    (hp : ∀ x, pc ≠ .pushing x) (h1 : ∀ x, pc' = .pushing x → x = r ∧ (bucketAt tw.wheels r).exp = -1 ∧ E ≠ -1)
    (hpc : PcGood k0 W (curTime tw.wheels) (tw.timer t).exp pc') :
    FT k0 W ⟨setBucket tw.wheels r ⟨E, ts⟩, tw.queue, f⟩ (l1 ++ (t, pc') :: l2) extra ∧
      curTime (setBucket tw.wheels r ⟨E, ts⟩) = curTime tw.wheels ∧
      ∀ x ∈ extra, (bucketAt (setBucket tw.wheels r ⟨E, ts⟩) x).exp = (bucketAt tw.wheels x).exp := by
  have hwf := setBucket_wf h.wf r ⟨E, ts⟩
  have hc := curTime_eq hwf
  have hbk := TimingWheel.bucketAt_set h.wf hv ⟨E, ts⟩
  have hold : ∀ x, (bucketAt tw.wheels x).exp ≠ -1 → (bucketAt (setBucket tw.wheels r ⟨E, ts⟩) x).exp = (bucketAt tw.wheels x).exp := by
    intro x hx
    rw [hbk]
    split
    · rename_i e
      subst e
      exact hE.resolve_left hx
    · rfl
  have hreg : ∀ x, regs ⟨setBucket tw.wheels r ⟨E, ts⟩, tw.queue, f⟩ (l1 ++ (t, pc') :: l2) extra x =
      regs tw (l1 ++ (t, pc) :: l2) extra x + (pc' == .pushing x).toNat := by
    intro x
    rw [regs_mid, regs_mid]
    have : (pc == Pc.pushing x) = false := by simpa using hp x
    rw [this]
    rfl
  refine ⟨⟨by dsimp only; rw [hc]; exact hwf, ?_, ?_, ?_, ?_, ?_, ?_⟩, hc, ?_⟩
  · intro x
    rw [hreg]
    by_cases hx : pc' = .pushing x
    · obtain ⟨rfl, h2, -⟩ := h1 x hx
      have : ¬ 0 < regs tw (l1 ++ (t, pc) :: l2) extra x := fun h3 => h.live x h3 h2
      have h4 : (pc' == Pc.pushing x).toNat ≤ 1 := by cases pc' == Pc.pushing x <;> decide
      omega
    · have : (pc' == Pc.pushing x) = false := by simpa using hx
      rw [this]
      exact h.one x
  · intro x hx
    rw [hreg] at hx
    dsimp only
    by_cases hx' : pc' = .pushing x
    · obtain ⟨rfl, -, h3⟩ := h1 x hx'
      rw [hbk, if_pos rfl]
      exact h3
    · have : (pc' == Pc.pushing x) = false := by simpa using hx'
      rw [this] at hx
      have := h.live x hx
      rw [hold x this]
      exact this
  · intro x hx
    dsimp only at hx ⊢
    rw [hc]
    rw [hbk] at hx ⊢
    by_cases e : x = r
    · subst e
      rw [if_pos rfl] at hx ⊢
      exact hE' hx
    · rw [if_neg e] at hx ⊢
      exact h.exps x hx
  · intro x t' ht'
    dsimp only at ht' ⊢
    rw [hc, hf]
    rw [hbk] at ht'
    by_cases e : x = r
    · subst e
      rw [if_pos rfl] at ht'
      exact hts t' ht'
    · rw [if_neg e] at ht'
      exact h.timers x t' ht'
  · exact heap_same (fun x hx => hold x (h.live x (regs_queue hx))) h.heap
  · intro j hj
    dsimp only
    rw [hc, hf]
    simp only [List.mem_append, List.mem_cons] at hj
    rcases hj with hj | rfl | hj
    · exact h.pcs j (by simp [hj])
    · exact hpc
    · exact h.pcs j (by simp [hj])
  · intro x hx
    exact hold x (h.live x (regs_extra hx))

/-- An action of `add`. -/
theorem addStep_ft {lk : Option Ref} {tw tw' : Tw} {l1 l2 : List (Nat × Pc)} {t : Nat} {pc pc' : Pc} {extra : List Ref}
    (hi : TInv k0 W tw (l1 ++ (t, pc) :: l2) extra) (h : FT k0 W tw (l1 ++ (t, pc) :: l2) extra) (e : addStep lk tw t pc = .ok (tw', pc')) :
    FT k0 W tw' (l1 ++ (t, pc') :: l2) extra ∧ curTime tw'.wheels = curTime tw.wheels ∧
      ∀ x ∈ extra, (bucketAt tw'.wheels x).exp = (bucketAt tw.wheels x).exp := by
  have hpc : PcOk W tw.wheels pc := hi.pcs (t, pc) (by simp)
  have hg := h.pcs (t, pc) (by simp)
  dsimp only at hg
  cases pc with
  | enter l =>
    rw [addStep] at e
    cases hw : tw.wheels[l]? with
    | none => rw [hw] at e; cases e
    | some w =>
      rw [hw] at e
      cases e
      obtain ⟨a, b⟩ := ft_quiet (pc' := .loaded l w.cur) h h.wf (fun _ => rfl) (by simp) ⟨(h.wf.each l w hw).2.2.2.1, hg⟩
      exact ⟨a, b, fun _ _ => rfl⟩
  | loaded l cur =>
    obtain ⟨hl, hc0⟩ := hpc
    obtain ⟨hcur, first⟩ := hg
    subst hcur
    have hk := h.wf.kp l
    by_cases h1 : (tw.timer t).exp < fl (curTime tw.wheels) (K k0 W l) + K k0 W l
    · obtain ⟨bs, hw, hb⟩ := h.wf.at hl
      rw [addStep, hw] at e
      dsimp only at e
      rw [if_pos h1] at e
      cases e
      obtain ⟨a, b⟩ := ft_quiet (pc' := .returned false) h h.wf (fun _ => rfl) (by simp) (fun _ => by
        cases l with
        | zero => rw [K_zero, fl_of_dvd h.wf.d] at h1; exact h1
        | succ l =>
          have := first l (by omega)
          have : fl (curTime tw.wheels) (K k0 W (l + 1)) ≤ fl (curTime tw.wheels) (K k0 W l) := by
            rw [← fl_fl (h.wf.kp l) (h.wf.kp (l + 1)) (K_dvd (by omega))]
            exact fl_le (h.wf.kp (l + 1))
          omega)
      exact ⟨a, b, fun _ _ => rfl⟩
    by_cases h2 : (tw.timer t).exp < fl (curTime tw.wheels) (K k0 W l) + K k0 W (l + 1)
    · obtain ⟨r, rfl, hv, hs, hlo, he⟩ := into_bucket (lk := lk) h.wf hl (by omega) h2
      rw [he] at e
      split at e
      · cases e
      · cases e
        refine ft_bucket h hv ?_ (.inr rfl) (h.exps r) ?_ (by simp) (by simp) ⟨hs, hlo⟩
        · intro t'
          by_cases ht' : t' = t
          · subst ht'; rw [put_self]
          · rw [put_ne _ _ ht']
        · intro t' ht'
          rcases List.mem_append.1 ht' with ht' | ht'
          · exact h.timers r t' ht'
          · rw [List.mem_singleton] at ht'
            subst ht'
            exact hs
    · obtain ⟨bs, hw, hb⟩ := h.wf.at hl
      obtain ⟨ws, o1, o2, o3, o4, o5⟩ := overflow_spec h.wf hw
      have hgood : PcGood k0 W (curTime tw.wheels) (tw.timer t).exp (.enter (l + 1)) := by
        intro j hj
        rcases Nat.lt_succ_iff_lt_or_eq.1 hj with hj | rfl
        · exact first j hj
        · omega
      rw [addStep, hw] at e
      dsimp only at e
      rw [if_neg h1, if_neg h2] at e
      unfold overflow at o1
      split at e
      · cases e
        obtain ⟨a, b⟩ := ft_quiet (pc' := .enter (l + 1)) h h.wf (fun _ => rfl) (by simp) hgood
        exact ⟨a, b, fun _ _ => rfl⟩
      · rename_i hlt
        rw [if_neg hlt] at o1
        dsimp only at o1
        cases hn : newWheel (K k0 W (l + 1)) W (fl (curTime tw.wheels) (K k0 W l)) with
        | error x => rw [hn] at o1; cases o1
        | ok o =>
          rw [hn, Go.bind_ok] at o1 e
          cases e
          have hws : tw.wheels ++ [o] = ws := congrArg Tw.wheels (Except.ok.inj o1)
          rw [hws]
          obtain ⟨a, b⟩ := ft_quiet (pc' := .enter (l + 1)) h o2 o3 (by simp) hgood
          exact ⟨a, b, fun x _ => by dsimp only; rw [o3]⟩
  | inBucket r E =>
    obtain ⟨hv, hE0⟩ := hpc
    obtain ⟨hs, hlo⟩ := hg
    rw [addStep] at e
    have hsame : (bucketAt tw.wheels r).exp ≠ -1 → E = (bucketAt tw.wheels r).exp := fun hx => hs.inj h.wf.k h.wpos (h.exps r hx)
    have hor : (bucketAt tw.wheels r).exp = -1 ∨ E = (bucketAt tw.wheels r).exp := by
      by_cases hx : (bucketAt tw.wheels r).exp = -1
      · exact .inl hx
      · exact .inr (hsame hx)
    cases e
    by_cases hx : (bucketAt tw.wheels r).exp = E
    · rw [if_pos hx]
      exact ft_bucket h hv (fun _ => rfl) hor (fun _ => hs) (h.timers r) (by simp) (by simp) (by simp [PcGood])
    · rw [if_neg hx]
      refine ft_bucket h hv (fun _ => rfl) hor (fun _ => hs) (h.timers r) (by simp) ?_ (by simp [PcGood])
      intro x hx'
      cases hx'
      exact ⟨rfl, hor.resolve_right (fun e => hx e.symm), by omega⟩
  | pushing r =>
    rw [addStep] at e
    obtain ⟨q, e1, e2⟩ := push_total tw.wheels tw.queue r
    rw [e1, Go.bind_ok] at e
    cases e
    have hreg : ∀ x, regs { tw with queue := q } (l1 ++ (t, .returned true) :: l2) extra x = regs tw (l1 ++ (t, .pushing r) :: l2) extra x := by
      intro x
      rw [regs_mid, regs_mid]
      unfold regs
      dsimp only
      have h3 : (Pc.returned true == Pc.pushing x) = false := beq_eq_false_iff_ne.2 (by simp)
      rw [e2.count_eq, List.count_cons, h3]
      by_cases hx : r = x
      · subst hx; simp; omega
      · have h1 : (r == x) = false := by simpa using hx
        have h2 : (Pc.pushing r == Pc.pushing x) = false := by simpa using hx
        rw [h1, h2]
        simp
    refine ⟨⟨h.wf, ?_, ?_, h.exps, h.timers, push_heap _ h.heap e1, ?_⟩, rfl, fun _ _ => rfl⟩
    · intro x; rw [hreg]; exact h.one x
    · intro x hx; rw [hreg] at hx; exact h.live x hx
    · intro j hj
      simp only [List.mem_append, List.mem_cons] at hj
      rcases hj with hj | rfl | hj
      · exact h.pcs j (by simp [hj])
      · simp [PcGood]
      · exact h.pcs j (by simp [hj])
  | returned ok =>
    rw [addStep] at e
    cases e
    exact ⟨h, rfl, fun _ _ => rfl⟩

/-- `add` does not meet the bucket in hand. -/
theorem addStep_free {tw : Tw} {l1 l2 : List (Nat × Pc)} {t : Nat} {pc : Pc} {extra : List Ref} {lk : Option Ref}
    (hi : TInv k0 W tw (l1 ++ (t, pc) :: l2) extra) (h : FT k0 W tw (l1 ++ (t, pc) :: l2) extra)
    (hh : ∀ r, lk = some r → r ∈ extra ∧ (bucketAt tw.wheels r).exp = fl (curTime tw.wheels) (K k0 W r.level)) :
    ∃ tw' pc', addStep lk tw t pc = .ok (tw', pc') := by
  have hpc : PcOk W tw.wheels pc := hi.pcs (t, pc) (by simp)
  have hg := h.pcs (t, pc) (by simp)
  dsimp only at hg
  cases pc with
  | enter l =>
    obtain ⟨bs, hw, hb⟩ := h.wf.at hpc
    rw [addStep, hw]
    exact ⟨_, _, rfl⟩
  | loaded l cur =>
    obtain ⟨hl, hc0⟩ := hpc
    obtain ⟨hcur, first⟩ := hg
    subst hcur
    have hk := h.wf.kp l
    obtain ⟨bs, hw, hb⟩ := h.wf.at hl
    by_cases h1 : (tw.timer t).exp < fl (curTime tw.wheels) (K k0 W l) + K k0 W l
    · rw [addStep, hw]
      dsimp only
      rw [if_pos h1]
      exact ⟨_, _, rfl⟩
    by_cases h2 : (tw.timer t).exp < fl (curTime tw.wheels) (K k0 W l) + K k0 W (l + 1)
    · obtain ⟨x, rfl, hv, hs, hlo, he⟩ := into_bucket (lk := lk) h.wf hl (by omega) h2
      rw [he, if_neg]
      · exact ⟨_, _, rfl⟩
      · intro hx
        obtain ⟨hr, hh⟩ := hh _ hx
        have := hs.inj h.wf.k h.wpos (h.exps _ (h.live _ (regs_extra hr)))
        omega
    · obtain ⟨ws, o1, -⟩ := overflow_spec h.wf hw
      rw [addStep, hw]
      dsimp only
      rw [if_neg h1, if_neg h2]
      unfold overflow at o1
      split
      · exact ⟨_, _, rfl⟩
      · rename_i hlt
        rw [if_neg hlt] at o1
        dsimp only at o1
        cases hn : newWheel (K k0 W (l + 1)) W (fl (curTime tw.wheels) (K k0 W l)) with
        | error x => rw [hn] at o1; cases o1
        | ok o => exact ⟨_, _, rfl⟩
  | inBucket x E => exact ⟨_, _, rfl⟩
  | pushing x =>
    rw [addStep]
    obtain ⟨q, e1, e2⟩ := push_total tw.wheels tw.queue x
    rw [e1]
    exact ⟨_, _, rfl⟩
  | returned ok => exact ⟨_, _, rfl⟩

/-! ## States -/

theorem FT.perm {tw : Tw} {j j' : List (Nat × Pc)} {x x' : List Ref} (h : FT k0 W tw j x) (hj : j.Perm j') (hx : x.Perm x') : FT k0 W tw j' x' := by
  have hr : ∀ r, regs tw j' x' r = regs tw j x r := by
    intro r
    unfold regs
    rw [hj.countP_eq, hx.count_eq]
  exact ⟨h.wf, fun r => by rw [hr]; exact h.one r, fun r => by rw [hr]; exact h.live r, h.exps, h.timers, h.heap,
    fun a ha => h.pcs a (hj.mem_iff.2 ha)⟩

/-- A goroutine leaves `add`. -/
theorem FT.leave {tw : Tw} {j : List (Nat × Pc)} {x : List Ref} {a : Nat × Pc} (h : FT k0 W tw (a :: j) x) : FT k0 W tw j x := by
  have hr : ∀ r, regs tw j x r ≤ regs tw (a :: j) x r := by
    intro r
    unfold regs
    rw [List.countP_cons]
    omega
  exact ⟨h.wf, fun r => Nat.le_trans (hr r) (h.one r), fun r hx => h.live r (Nat.lt_of_lt_of_le hx (hr r)), h.exps, h.timers, h.heap,
    fun a ha => h.pcs a (List.mem_cons_of_mem _ ha)⟩

/-- A goroutine enters `add` with a timer that is nowhere. -/
theorem FT.enter {tw : Tw} {j : List (Nat × Pc)} {x : List Ref} (hi : TInv k0 W tw j x) (h : FT k0 W tw j x) {t : Nat} (ht : place tw j t = 0) (m : Timer) :
    FT k0 W { tw with timer := put tw.timer t m } ((t, .enter 0) :: j) x := by
  have hr : ∀ r, regs { tw with timer := put tw.timer t m } ((t, .enter 0) :: j) x r = regs tw j x r := by
    intro r
    unfold regs
    rw [List.countP_cons]
    have : (Pc.enter 0 == Pc.pushing r) = false := beq_eq_false_iff_ne.2 (by simp)
    dsimp only
    rw [this]
    simp
  have hn := place_zero ht
  refine ⟨h.wf, fun r => by rw [hr]; exact h.one r, fun r => by rw [hr]; exact h.live r, h.exps, ?_, h.heap, ?_⟩
  · intro r t' ht'
    dsimp only at ht' ⊢
    have hne : t' ≠ t := by
      rintro rfl
      have := (hi.mem t' r).2 ht'
      rw [hn] at this
      cases this
    rw [put_ne _ _ hne]
    exact h.timers r t' ht'
  · intro a ha
    rcases List.mem_cons.1 ha with rfl | ha
    · intro l hl
      omega
    · dsimp only
      by_cases hne : a.1 = t
      · have hg := h.pcs a ha
        have hh : holds a.2 = false := by
          unfold place at ht
          have := List.countP_eq_zero.1 (Nat.eq_zero_of_add_eq_zero_left ht) a ha
          simp only [hne, beq_self_eq_true, Bool.true_and] at this
          simpa using this
        obtain ⟨t', pc⟩ := a
        dsimp only at hg hh ⊢
        cases pc with
        | enter l => cases hh
        | loaded l c => cases hh
        | inBucket r e => exact hg
        | pushing r => trivial
        | returned ok =>
          intro hf
          subst hf
          cases hh
      · rw [put_ne _ _ hne]
        exact h.pcs a ha

/-- A timer is taken out of its bucket. -/
theorem FT.out {tw : Tw} {j : List (Nat × Pc)} {x : List Ref} (hi : TInv k0 W tw j x) (h : FT k0 W tw j x) {t : Nat} {r : Ref} {ts : List Nat}
    (hb : (tw.timer t).bucket = some r) (hts : ∀ a ∈ ts, a ∈ (bucketAt tw.wheels r).timers) :
    FT k0 W ⟨setBucket tw.wheels r ⟨(bucketAt tw.wheels r).exp, ts⟩, tw.queue, put tw.timer t { tw.timer t with bucket := none }⟩ j x ∧
      curTime (setBucket tw.wheels r ⟨(bucketAt tw.wheels r).exp, ts⟩) = curTime tw.wheels ∧
      ∀ a, (bucketAt (setBucket tw.wheels r ⟨(bucketAt tw.wheels r).exp, ts⟩) a).exp = (bucketAt tw.wheels a).exp := by
  have hv := hi.valid ((hi.mem t r).1 hb)
  have hwf := setBucket_wf h.wf r ⟨(bucketAt tw.wheels r).exp, ts⟩
  have hc := curTime_eq hwf
  have hbk := TimingWheel.bucketAt_set h.wf hv ⟨(bucketAt tw.wheels r).exp, ts⟩
  have hexp : ∀ a, (bucketAt (setBucket tw.wheels r ⟨(bucketAt tw.wheels r).exp, ts⟩) a).exp = (bucketAt tw.wheels a).exp := by
    intro a
    rw [hbk]
    split
    · rename_i e; subst e; rfl
    · rfl
  have hf : ∀ t', (put tw.timer t { tw.timer t with bucket := none } t').exp = (tw.timer t').exp := by
    intro t'
    by_cases e : t' = t
    · subst e; rw [put_self]
    · rw [put_ne _ _ e]
  refine ⟨⟨by dsimp only; rw [hc]; exact hwf, h.one, ?_, ?_, ?_, heap_same (fun a _ => hexp a) h.heap, ?_⟩, hc, hexp⟩
  · intro a ha; dsimp only; rw [hexp]; exact h.live a ha
  · intro a ha; dsimp only at ha ⊢; rw [hexp] at ha ⊢; rw [hc]; exact h.exps a ha
  · intro a t' ht'
    dsimp only at ht' ⊢
    rw [hc, hf]
    rw [hbk] at ht'
    by_cases e : a = r
    · subst e
      rw [if_pos rfl] at ht'
      exact h.timers a t' (hts t' ht')
    · rw [if_neg e] at ht'
      exact h.timers a t' ht'
  · intro a ha; dsimp only; rw [hc, hf]; exact h.pcs a ha

/-- What holds if `Run` begins with a bucket only when nobody is inside `add`. -/
structure Good (k0 : Int) (W : Nat) (s : State) : Prop where
  inv : Inv k0 W s
  ft : FT k0 W s.tw (jobs s) (s.chan ++ held s.run)
  hand : ∀ r, r ∈ held s.run → (bucketAt s.tw.wheels r).exp = fl (curTime s.tw.wheels) (K k0 W r.level)
  now : curTime s.tw.wheels ≤ s.clock
  due : ∀ r, r ∈ s.chan ++ held s.run → (bucketAt s.tw.wheels r).exp < s.clock
  starts : ∀ x, x ∈ s.started → k0 ∣ x.cur ∧ x.exp < x.cur + k0 ∧ x.cur ≤ x.clock

/-- A step that leaves the time, the buckets in hand and the started tasks alone. -/
theorem Good.same {s s' : State} (h : Good k0 W s) (hinv : Inv k0 W s') (hft : FT k0 W s'.tw (jobs s') (s'.chan ++ held s'.run))
    (h1 : curTime s'.tw.wheels = curTime s.tw.wheels) (h2 : s'.chan = s.chan) (h3 : held s'.run = held s.run)
    (h4 : ∀ x ∈ s.chan ++ held s.run, (bucketAt s'.tw.wheels x).exp = (bucketAt s.tw.wheels x).exp) (h5 : s'.clock = s.clock)
    (h6 : s'.started = s.started) : Good k0 W s' := by
  refine ⟨hinv, hft, ?_, by rw [h1, h5]; exact h.now, ?_, by rw [h6]; exact h.starts⟩
  · intro r hr
    rw [h3] at hr
    rw [h4 r (List.mem_append_right _ hr), h1]
    exact h.hand r hr
  · intro r hr
    rw [h2, h3] at hr
    rw [h4 r hr, h5]
    exact h.due r hr

/-- A task is started. -/
theorem Good.fire {s s1 : State} {t : Nat} (h : Good k0 W s) (hj : (jobs s).Perm ((t, .returned false) :: jobs s1))
    (e : ∃ ad rn, s1 = { s with adders := ad, run := rn }) (hx : held s1.run = held s.run) : Good k0 W (start s1 t) := by
  obtain ⟨ad, rn, rfl⟩ := e
  have hx' : ∀ r, r ∈ s.chan ++ held s.run → r ∈ s.chan ++ held rn := by
    intro r hr
    rw [show held rn = held s.run from hx]
    exact hr
  obtain ⟨a1, -⟩ := h.inv.started hj ⟨_, _, rfl⟩ hx'
  have hft := h.ft.perm hj (.refl _)
  have hp := hft.pcs (t, .returned false) (List.mem_cons_self ..) rfl
  refine ⟨a1, ?_, ?_, h.now, ?_, ?_⟩
  · have := hft.leave
    rw [← hx] at this
    exact this
  · intro r hr
    have hr : r ∈ held rn := hr
    exact h.hand r (by rw [← hx]; exact hr)
  · intro r hr
    have hr : r ∈ s.chan ++ held rn := hr
    exact h.due r (by rw [← hx]; exact hr)
  · intro x hx
    have hx : x ∈ s.started ++ [⟨t, (s.tw.timer t).exp, curTime s.tw.wheels, s.clock⟩] := hx
    rcases List.mem_append.1 hx with hx | hx
    · exact h.starts x hx
    · rw [List.mem_singleton] at hx
      subst hx
      exact ⟨h.ft.wf.d, hp, h.now⟩

/-- A timer is scheduled. -/
theorem Good.sched {s s' : State} {t : Nat} {m : Timer} {b : Bool} {n : Nat} {ts : List Nat} (h : Good k0 W s) (hinv : Inv k0 W s')
    (ht : place s.tw (jobs s) t = 0) (e : s' = withAdder s t m b n ts) : Good k0 W s' := by
  subst e
  refine h.same hinv ?_ rfl rfl rfl (fun _ _ => rfl) rfl rfl
  refine (h.ft.enter h.inv.tw ht m).perm ?_ (.refl _)
  unfold jobs withAdder
  simp only [List.map_append, List.map_cons, List.map_nil, List.append_assoc]
  exact (List.perm_middle (a := (t, Pc.enter 0)) (l₁ := s.adders.map (fun a => (a.t, a.pc))) (l₂ := runJob s.run)).symm

/-- `Run` takes the next bucket. -/
theorem good_advance {s : State} {r : Ref} {rest : List Ref} {ws : List Wheel} (h : Good k0 W s) (hr : s.run = .idle) (hc : s.chan = r :: rest)
    (ho : inOrder s = true) (hn : nobodyAdds s = true) (ha : advance (bucketAt s.tw.wheels r).exp s.tw.wheels = .ok ws)
    (hinv : Inv k0 W { s with tw := { s.tw with wheels := ws }, chan := rest, run := .advanced r }) :
    Good k0 W { s with tw := { s.tw with wheels := ws }, chan := rest, run := .advanced r } := by
  obtain ⟨ws', e1, hwf, hbk, -⟩ := advance_spec h.ft.wf (bucketAt s.tw.wheels r).exp
  rw [ha] at e1
  cases e1
  have hext : s.chan ++ held s.run = r :: rest := by rw [hr, hc]; simp [held]
  have hmem : r ∈ s.chan ++ held s.run := by rw [hext]; exact List.mem_cons_self ..
  have hlive := h.ft.live r (regs_extra hmem)
  have hsl := h.ft.exps r hlive
  have hd0 : k0 ∣ (bucketAt s.tw.wheels r).exp := by
    have : K k0 W 0 ∣ K k0 W r.level := K_dvd (Nat.zero_le _)
    rw [K_zero] at this
    exact Int.dvd_trans this hsl.dvd
  have hcur : curTime ws = max (curTime s.tw.wheels) (bucketAt s.tw.wheels r).exp := by
    rw [curTime_eq hwf, fl_of_dvd hd0]
  rw [fl_of_dvd hd0, ← hcur] at hwf
  have hmono : curTime s.tw.wheels ≤ curTime ws := by rw [hcur]; exact Int.le_max_left _ _
  have hjobs : ∀ j ∈ jobs s, j.2 = .enter 0 ∨ ∃ ok, j.2 = .returned ok := by
    intro j hj
    unfold jobs at hj
    rw [hr] at hj
    simp only [runJob, List.append_nil, List.mem_map] at hj
    obtain ⟨a, ha, rfl⟩ := hj
    unfold nobodyAdds at hn
    rw [List.all_eq_true] at hn
    have := hn a ha
    dsimp only
    split at this
    · rename_i e; exact .inl e
    · rename_i ok e; exact .inr ⟨ok, e⟩
    · cases this
  have hmin : ∀ x, (bucketAt s.tw.wheels x).exp ≠ -1 → (bucketAt s.tw.wheels r).exp ≤ (bucketAt s.tw.wheels x).exp := by
    intro x hx
    unfold inOrder at ho
    rw [hc] at ho
    dsimp only at ho
    rw [List.all_eq_true] at ho
    have : x ∈ s.tw.queue ++ (r :: rest) := by
      rcases h.inv.tw.reg x hx with h1 | h1 | ⟨t, h1⟩
      · exact List.mem_append_left _ h1
      · rw [hext] at h1; exact List.mem_append_right _ h1
      · rcases hjobs _ h1 with h2 | ⟨ok, h2⟩ <;> cases h2
    simpa using ho x this
  have hslot : ∀ x, (bucketAt s.tw.wheels x).exp ≠ -1 → Slotted k0 W (curTime ws) x (bucketAt s.tw.wheels x).exp := by
    intro x hx
    have hs := h.ft.exps x hx
    have hm := hmin x hx
    have hk := h.ft.wf.kp x.level
    have hf := fl_mono hk hmono
    refine ⟨hs.dvd, hs.slot, ?_, Int.lt_of_lt_of_le hs.hi (by omega)⟩
    rcases Int.le_total (curTime s.tw.wheels) (bucketAt s.tw.wheels r).exp with hc | hc
    · rw [hcur, Int.max_eq_right hc]
      exact Int.le_trans (fl_le hk) hm
    · rw [hcur, Int.max_eq_left hc]
      exact hs.lo
  have hj : jobs { s with tw := { s.tw with wheels := ws }, chan := rest, run := .advanced r } = jobs s := by
    unfold jobs
    rw [hr]
    rfl
  have hperm : (s.chan ++ held s.run).Perm (rest ++ held (.advanced r)) := by
    rw [hext]
    exact List.perm_append_comm (l₁ := [r]) (l₂ := rest)
  refine ⟨hinv, ?_, ?_, ?_, ?_, h.starts⟩
  · rw [hj]
    refine FT.perm (x := s.chan ++ held s.run) ⟨hwf, h.ft.one, ?_, ?_, ?_, heap_same (fun x _ => by rw [hbk]) h.ft.heap, ?_⟩ (.refl _) hperm
    · intro x hx; dsimp only; rw [hbk]; exact h.ft.live x hx
    · intro x hx; dsimp only at hx ⊢; rw [hbk] at hx ⊢; exact hslot x hx
    · intro x t ht
      dsimp only at ht ⊢
      rw [hbk] at ht
      have hx : (bucketAt s.tw.wheels x).exp ≠ -1 := by
        rcases h.inv.tw.full x (List.ne_nil_of_mem ht) with h1 | ⟨t', e, h1⟩
        · exact h1
        · rcases hjobs _ h1 with h2 | ⟨ok, h2⟩ <;> cases h2
      rw [(h.ft.timers x t ht).inj h.ft.wf.k h.ft.wpos (h.ft.exps x hx)]
      exact hslot x hx
    · intro j hj
      dsimp only
      have hp := h.ft.pcs j hj
      rcases hjobs j hj with h1 | ⟨ok, h1⟩
      · rw [h1]
        intro l hl
        omega
      · rw [h1] at hp ⊢
        intro hok
        have := hp hok
        omega
  · intro x hx
    simp only [held, List.mem_singleton] at hx
    subst hx
    dsimp only
    rw [hbk, hcur]
    rcases Int.le_total (curTime s.tw.wheels) (bucketAt s.tw.wheels x).exp with hc | hc
    · rw [Int.max_eq_right hc]; exact (fl_of_dvd hsl.dvd).symm
    · rw [Int.max_eq_left hc]
      have := le_fl (h.ft.wf.kp x.level) hsl.dvd hc
      have := hsl.lo
      omega
  · dsimp only
    rw [hcur]
    have := h.now
    have := h.due r hmem
    omega
  · intro x hx
    dsimp only
    rw [hbk]
    exact h.due x (hperm.mem_iff.2 hx)

/-- `Run` is done with a bucket. -/
theorem good_done {s : State} {r : Ref} (h : Good k0 W s) (hr : s.run = .flushing r)
    (hinv : Inv k0 W { s with tw := { s.tw with wheels := setBucket s.tw.wheels r ⟨-1, []⟩ }, run := .idle }) :
    Good k0 W { s with tw := { s.tw with wheels := setBucket s.tw.wheels r ⟨-1, []⟩ }, run := .idle } := by
  have hbk := bucketAt_clear h.inv.tw.shape r
  have hwf := setBucket_wf h.ft.wf r ⟨-1, []⟩
  have hc := curTime_eq hwf
  have hext : s.chan ++ held s.run = s.chan ++ [r] := by rw [hr]; rfl
  have hft := h.ft
  rw [hext] at hft
  have hj : jobs { s with tw := { s.tw with wheels := setBucket s.tw.wheels r ⟨-1, []⟩ }, run := .idle } = jobs s := by
    unfold jobs
    rw [hr]
    rfl
  have hreg : ∀ x, regs { s.tw with wheels := setBucket s.tw.wheels r ⟨-1, []⟩ } (jobs s) (s.chan ++ held .idle) x + [r].count x =
      regs s.tw (jobs s) (s.chan ++ [r]) x := by
    intro x
    unfold regs
    simp only [held, List.append_nil, List.count_append]
    omega
  have hne : ∀ x, 0 < regs { s.tw with wheels := setBucket s.tw.wheels r ⟨-1, []⟩ } (jobs s) (s.chan ++ held .idle) x → x ≠ r := by
    rintro x hx rfl
    have h1 := hreg x
    have h2 := hft.one x
    rw [List.count_singleton_self] at h1
    omega
  refine ⟨hinv, ?_, ?_, ?_, ?_, h.starts⟩
  · rw [hj]
    refine ⟨by dsimp only; rw [hc]; exact hwf, ?_, ?_, ?_, ?_, ?_, ?_⟩
    · intro x
      have h1 := hreg x
      have h2 := hft.one x
      rw [← h1] at h2
      exact Nat.le_trans (Nat.le_add_right _ _) h2
    · intro x hx
      have h1 : 0 < regs s.tw (jobs s) (s.chan ++ [r]) x := by
        rw [← hreg x]
        exact Nat.lt_of_lt_of_le hx (Nat.le_add_right _ _)
      dsimp only
      rw [hbk, if_neg (hne x hx)]
      exact hft.live x h1
    · intro x hx
      dsimp only at hx ⊢
      rw [hc]
      rw [hbk] at hx ⊢
      by_cases e : x = r
      · rw [if_pos e] at hx; exact absurd rfl hx
      · rw [if_neg e] at hx ⊢; exact hft.exps x hx
    · intro x t ht
      dsimp only at ht ⊢
      rw [hc]
      rw [hbk] at ht
      by_cases e : x = r
      · rw [if_pos e] at ht; cases ht
      · rw [if_neg e] at ht; exact hft.timers x t ht
    · refine heap_same (fun x hx => ?_) hft.heap
      rw [hbk, if_neg (hne x (regs_queue hx))]
    · intro j hj; dsimp only; rw [hc]; exact hft.pcs j hj
  · intro x hx; cases hx
  · dsimp only; rw [hc]; exact h.now
  · intro x hx
    have hx' : 0 < regs { s.tw with wheels := setBucket s.tw.wheels r ⟨-1, []⟩ } (jobs s) (s.chan ++ held .idle) x := regs_extra hx
    dsimp only
    rw [hbk, if_neg (hne x hx')]
    refine h.due x ?_
    rw [hext]
    simp only [held, List.append_nil] at hx
    exact List.mem_append_left _ hx

/-- The queue goroutine takes a bucket. -/
theorem good_take {s : State} {r : Ref} {q : List Ref} (h : Good k0 W s) (hq : s.tw.queue[0]? = some r)
    (hc : s.clock > (bucketAt s.tw.wheels r).exp) (hpop : Heap.pop (less s.tw.wheels) s.tw.queue = .ok (r, q))
    (hinv : Inv k0 W { s with tw := { s.tw with queue := q }, chan := s.chan ++ [r] }) :
    Good k0 W { s with tw := { s.tw with queue := q }, chan := s.chan ++ [r] } := by
  obtain ⟨q', e1, hp⟩ := pop_total s.tw.wheels hq
  rw [hpop] at e1
  cases e1
  have hreg : ∀ x, regs { s.tw with queue := q } (jobs s) (s.chan ++ [r] ++ held s.run) x = regs s.tw (jobs s) (s.chan ++ held s.run) x := by
    intro x
    unfold regs
    have := hp.count_eq x
    rw [show (r :: q) = [r] ++ q from rfl, List.count_append] at this
    simp only [List.count_append]
    omega
  refine ⟨hinv, ⟨h.ft.wf, fun x => ?_, fun x hx => ?_, h.ft.exps, h.ft.timers, pop_heap _ h.ft.heap hpop, h.ft.pcs⟩, h.hand, h.now, ?_, h.starts⟩
  · have := h.ft.one x
    rw [← hreg] at this
    exact this
  · have hx : 0 < regs { s.tw with queue := q } (jobs s) (s.chan ++ [r] ++ held s.run) x := hx
    rw [hreg] at hx
    exact h.ft.live x hx
  · intro x hx
    have hx : x ∈ s.chan ++ [r] ++ held s.run := hx
    simp only [List.mem_append, List.mem_singleton] at hx
    rcases hx with (hx | rfl) | hx
    · exact h.due x (List.mem_append_left _ hx)
    · exact hc
    · exact h.due x (List.mem_append_right _ hx)

theorem exec_good {s s' : State} {a : Act} (h : Good k0 W s) (hg : a = .advance → inOrder s = true ∧ nobodyAdds s = true) (e : exec s a = some s') :
    Good k0 W s' := by
  have hinv := exec_inv h.inv e
  cases a with
  | tick d =>
    rw [exec] at e
    cases e
    refine ⟨hinv, h.ft, h.hand, ?_, ?_, h.starts⟩
    · have := h.now; dsimp only; omega
    · intro x hx; have := h.due x hx; dsimp only; omega
  | after delay =>
    rw [exec] at e
    cases e
    exact h.sched (t := s.next) hinv (h.inv.fresh s.next (Nat.le_refl _)).1 rfl
  | schedule e' =>
    rw [exec] at e
    cases e
    exact h.sched (t := s.next) hinv (h.inv.fresh s.next (Nat.le_refl _)).1 rfl
  | again t e' =>
    rw [exec] at e
    split at e
    · rename_i ht
      cases e
      exact h.sched (t := t) hinv (h.inv.task t ht).1 rfl
    · cases e
  | enough t =>
    rw [exec] at e
    split at e
    · cases e
      exact h.same hinv h.ft rfl rfl rfl (fun _ _ => rfl) rfl rfl
    · cases e
  | act i =>
    rw [exec] at e
    cases ha : s.adders[i]? with
    | none => rw [ha] at e; cases e
    | some a =>
      obtain ⟨t, runs, pc⟩ := a
      rw [ha] at e
      have step : ∀ {pc0 : Pc}, pc = pc0 → (match addStep (locked s.run) s.tw t pc0 with
          | .ok (tw, pc) => some { s with tw := tw, adders := s.adders.set i ⟨t, runs, pc⟩ }
          | .error _ => none) = some s' → Good k0 W s' := by
        intro pc0 hpc e
        subst hpc
        cases hs : addStep (locked s.run) s.tw t pc with
        | error x => rw [hs] at e; cases e
        | ok p =>
          obtain ⟨tw', pc'⟩ := p
          rw [hs] at e
          cases e
          obtain ⟨l1, l2, h1, h2, -⟩ := set_eq (b := (⟨t, runs, pc'⟩ : Adder)) ha
          have ht := h.inv.tw
          have hf := h.ft
          have hj : jobs s = l1.map (fun a => (a.t, a.pc)) ++ (t, pc) :: (l2.map (fun a => (a.t, a.pc)) ++ runJob s.run) := by
            unfold jobs
            rw [h1]
            simp
          have hj' : jobs { s with tw := tw', adders := s.adders.set i ⟨t, runs, pc'⟩ } =
              l1.map (fun a => (a.t, a.pc)) ++ (t, pc') :: (l2.map (fun a => (a.t, a.pc)) ++ runJob s.run) := by
            unfold jobs
            dsimp only
            rw [h2]
            simp
          rw [hj] at ht hf
          obtain ⟨h3, h4, h5⟩ := addStep_ft ht hf hs
          exact h.same hinv (by rw [hj']; exact h3) h4 rfl rfl h5 rfl rfl
      cases pc with
      | returned ok =>
        dsimp only at e
        obtain ⟨l1, l2, h1, -, h2⟩ := set_eq (b := (⟨t, runs, .returned ok⟩ : Adder)) ha
        have hj : (jobs s).Perm ((t, .returned ok) :: jobs { s with adders := s.adders.eraseIdx i }) := by
          unfold jobs
          dsimp only
          rw [h2, h1]
          simp only [List.map_append, List.map_cons, List.append_assoc, List.cons_append]
          exact List.perm_middle
        cases ok with
        | true =>
          simp only [if_true, Option.some.injEq] at e
          subst e
          exact h.same hinv (h.ft.perm hj (.refl _)).leave rfl rfl rfl (fun _ _ => rfl) rfl rfl
        | false =>
          simp only [Bool.false_eq_true, if_false] at e
          split at e
          · cases e
            exact h.fire hj ⟨_, _, rfl⟩ rfl
          · cases e
            exact h.same hinv (h.ft.perm hj (.refl _)).leave rfl rfl rfl (fun _ _ => rfl) rfl rfl
      | enter l => exact step rfl e
      | loaded l c => exact step rfl e
      | inBucket r e' => exact step rfl e
      | pushing r => exact step rfl e
  | stop t =>
    rw [exec] at e
    cases hb : (s.tw.timer t).bucket with
    | none => rw [hb] at e; cases e
    | some r =>
      rw [hb] at e
      dsimp only at e
      split at e
      · cases e
      · cases e
        obtain ⟨h1, h2, h3⟩ := h.ft.out (ts := (bucketAt s.tw.wheels r).timers.erase t) h.inv.tw hb (fun a ha => List.mem_of_mem_erase ha)
        exact h.same hinv h1 h2 rfl rfl (fun x _ => h3 x) rfl rfl
  | take =>
    rw [exec] at e
    cases hq : s.tw.queue[0]? with
    | none => rw [hq] at e; cases e
    | some r =>
      rw [hq] at e
      dsimp only at e
      split at e
      · rename_i hc
        cases hpop : Heap.pop (less s.tw.wheels) s.tw.queue with
        | error x => rw [hpop] at e; cases e
        | ok p =>
          obtain ⟨r', q⟩ := p
          rw [hpop] at e
          cases e
          obtain ⟨q0, hp1, -⟩ := pop_total s.tw.wheels hq
          rw [hpop] at hp1
          cases hp1
          exact good_take h hq hc hpop hinv
      · cases e
  | advance =>
    obtain ⟨g1, g2⟩ := hg rfl
    rw [exec] at e
    cases hr : s.run with
    | idle =>
      cases hc : s.chan with
      | nil => rw [hr, hc] at e; cases e
      | cons r rest =>
        rw [hr, hc] at e
        dsimp only at e
        cases ha : advance (bucketAt s.tw.wheels r).exp s.tw.wheels with
        | error x => rw [ha] at e; cases e
        | ok ws =>
          rw [ha] at e
          cases e
          exact good_advance h hr hc g1 g2 ha hinv
    | advanced r => rw [hr] at e; cases e
    | flushing r => rw [hr] at e; cases e
    | moving r t pc => rw [hr] at e; cases e
  | lock =>
    rw [exec] at e
    cases hr : s.run with
    | advanced r =>
      rw [hr] at e
      cases e
      have hj : jobs { s with run := .flushing r } = jobs s := by unfold jobs; rw [hr]; rfl
      have hh : held s.run = held (.flushing r) := by rw [hr]; rfl
      refine h.same hinv ?_ rfl rfl hh.symm (fun _ _ => rfl) rfl rfl
      rw [hj]
      dsimp only
      rw [← hh]
      exact h.ft
    | idle => rw [hr] at e; cases e
    | flushing r => rw [hr] at e; cases e
    | moving r t pc => rw [hr] at e; cases e
  | unlink =>
    rw [exec] at e
    cases hr : s.run with
    | flushing r =>
      rw [hr] at e
      dsimp only at e
      cases htm : (bucketAt s.tw.wheels r).timers with
      | nil => rw [htm] at e; cases e
      | cons t ts =>
        rw [htm] at e
        cases e
        have hb := (h.inv.tw.mem t r).2 (by rw [htm]; exact List.mem_cons_self)
        obtain ⟨h1, h2, h3⟩ := h.ft.out (ts := ts) h.inv.tw hb (fun a ha => by rw [htm]; exact List.mem_cons_of_mem _ ha)
        obtain ⟨i1, i2, i3⟩ := h.inv.tw.out hb
        rw [htm, List.erase_cons_head] at i1 i3
        dsimp only at i1 i3
        generalize hws : setBucket s.tw.wheels r ⟨(bucketAt s.tw.wheels r).exp, ts⟩ = ws at *
        have h4 := h1.enter i1 i3 { s.tw.timer t with bucket := none }
        have hpp : put (put s.tw.timer t { s.tw.timer t with bucket := none }) t { s.tw.timer t with bucket := none } =
            put s.tw.timer t { s.tw.timer t with bucket := none } := by
          funext t'
          by_cases e : t' = t
          · subst e; rw [put_self, put_self]
          · rw [put_ne _ _ e]
        dsimp only at h4
        rw [hpp] at h4
        have hj : ((t, Pc.enter 0) :: jobs s).Perm (jobs { s with
            tw := ⟨ws, s.tw.queue, put s.tw.timer t { s.tw.timer t with bucket := none }⟩
            run := .moving r t (.enter 0) }) := by
          unfold jobs
          rw [hr]
          simp only [runJob, List.append_nil]
          exact (List.perm_append_singleton _ _).symm
        have hh : held s.run = held (.moving r t (.enter 0)) := by rw [hr]; rfl
        refine h.same hinv ?_ h2 rfl hh.symm (fun x _ => h3 x) rfl rfl
        dsimp only
        rw [← hh]
        exact h4.perm hj (.refl _)
    | idle => rw [hr] at e; cases e
    | advanced r => rw [hr] at e; cases e
    | moving r t pc => rw [hr] at e; cases e
  | move =>
    rw [exec] at e
    cases hr : s.run with
    | moving r t pc =>
      rw [hr] at e
      have step : ∀ {pc0 : Pc}, pc = pc0 → (match addStep (some r) s.tw t pc0 with
          | .ok (tw, pc) => some { s with tw := tw, run := .moving r t pc }
          | .error _ => none) = some s' → Good k0 W s' := by
        intro pc0 hpc e
        subst hpc
        cases hs : addStep (some r) s.tw t pc with
        | error x => rw [hs] at e; cases e
        | ok p =>
          obtain ⟨tw', pc'⟩ := p
          rw [hs] at e
          cases e
          have ht := h.inv.tw
          have hf := h.ft
          have hj : jobs s = s.adders.map (fun a => (a.t, a.pc)) ++ (t, pc) :: [] := by
            unfold jobs
            rw [hr]
            rfl
          have hj' : jobs { s with tw := tw', run := .moving r t pc' } = s.adders.map (fun a => (a.t, a.pc)) ++ (t, pc') :: [] := rfl
          have hh : held s.run = held (.moving r t pc') := by rw [hr]; rfl
          rw [hj] at ht hf
          obtain ⟨h3, h4, h5⟩ := addStep_ft ht hf hs
          refine h.same hinv ?_ h4 rfl hh.symm h5 rfl rfl
          rw [hj']
          dsimp only
          rw [← hh]
          exact h3
      cases pc with
      | returned ok =>
        dsimp only at e
        have hj : (jobs s).Perm ((t, .returned ok) :: jobs { s with run := .flushing r }) := by
          unfold jobs
          rw [hr]
          simp only [runJob, List.append_nil]
          exact List.perm_append_singleton _ _
        have hh : held s.run = held (.flushing r) := by rw [hr]; rfl
        cases ok with
        | true =>
          simp only [if_true, Option.some.injEq] at e
          subst e
          refine h.same hinv ?_ rfl rfl hh.symm (fun _ _ => rfl) rfl rfl
          dsimp only
          rw [← hh]
          exact (h.ft.perm hj (.refl _)).leave
        | false =>
          simp only [Bool.false_eq_true, if_false] at e
          cases e
          exact h.fire hj ⟨_, _, rfl⟩ hh.symm
      | enter l => exact step rfl e
      | loaded l c => exact step rfl e
      | inBucket r e' => exact step rfl e
      | pushing r => exact step rfl e
    | idle => rw [hr] at e; cases e
    | advanced r => rw [hr] at e; cases e
    | flushing r => rw [hr] at e; cases e
  | done =>
    rw [exec] at e
    cases hr : s.run with
    | flushing r =>
      rw [hr] at e
      dsimp only at e
      split at e
      · cases e
        exact good_done h hr hinv
      · cases e
    | idle => rw [hr] at e; cases e
    | advanced r => rw [hr] at e; cases e
    | moving r t pc => rw [hr] at e; cases e

theorem init_good {tick t0 : Int} (hk : 0 < tick) (hW : 1 < W) (ht : 0 ≤ t0) {tw : Tw} (e : TimingWheel.new tick W t0 = .ok tw) :
    Good tick W (init tw t0) := by
  have hinv := init_inv hk hW ht e
  unfold TimingWheel.new newWheel at e
  rw [truncate_ok ht hk] at e
  simp only [Go.bind_ok] at e
  rw [if_neg (by omega), Go.bind_ok] at e
  cases e
  have hc : curTime [⟨tick, W, tick * W, fl t0 tick, List.replicate (W : Int).toNat newBucket⟩] = fl t0 tick := rfl
  have hb : ∀ r, bucketAt [⟨tick, W, tick * W, fl t0 tick, List.replicate (W : Int).toNat newBucket⟩] r = newBucket := by
    intro r
    unfold bucketAt
    cases r.level with
    | zero =>
      simp only [List.getElem?_cons_zero]
      rw [List.getElem?_replicate]
      split <;> rfl
    | succ l => simp
  have hwf : Wf tick W (fl t0 tick) [⟨tick, W, tick * W, fl t0 tick, List.replicate (W : Int).toNat newBucket⟩] := by
    refine ⟨hk, hW, fl_nonneg hk ht, fl_dvd _ _, by simp, ?_⟩
    intro l w hw
    cases l with
    | zero =>
      simp only [List.getElem?_cons_zero, Option.some.injEq] at hw
      subst hw
      exact ⟨by rw [K_zero], rfl, by rw [K_succ, K_zero], by rw [K_zero, fl_of_dvd (fl_dvd _ _)], by simp⟩
    | succ l => simp at hw
  refine ⟨hinv, ⟨?_, ?_, ?_, ?_, ?_, ?_, ?_⟩, ?_, ?_, ?_, ?_⟩
  · dsimp only [init]; rw [hc]; exact hwf
  · intro r; simp [regs, init, jobs, runJob, held]
  · intro r hr; simp [regs, init, jobs, runJob, held] at hr
  · intro r hr; dsimp only [init] at hr; rw [hb] at hr; exact absurd rfl hr
  · intro r t hr; dsimp only [init] at hr; rw [hb] at hr; cases hr
  · intro j _ hj; simp [init] at hj
  · intro j hj; cases hj
  · intro r hr; cases hr
  · dsimp only [init]; rw [hc]; exact fl_le hk
  · intro r hr; cases hr
  · intro x hx; cases hx

theorem paced_good {tick t0 : Int} (hk : 0 < tick) (hW : 1 < W) (ht : 0 ≤ t0) {tw : Tw} (e : TimingWheel.new tick W t0 = .ok tw) {s : State}
    (h : Paced (init tw t0) s) : Good tick W s := by
  induction h with
  | refl => exact init_good hk hW ht e
  | step a _ hg e ih => exact exec_good ih hg e

/-- The bucket whose mutex `Run` holds. -/
theorem Good.lk {s : State} (h : Good k0 W s) (r : Ref) (hr : locked s.run = some r) :
    r ∈ s.chan ++ held s.run ∧ (bucketAt s.tw.wheels r).exp = fl (curTime s.tw.wheels) (K k0 W r.level) := by
  have : r ∈ held s.run := by
    cases hs : s.run with
    | idle => rw [hs] at hr; cases hr
    | advanced x => rw [hs] at hr; cases hr
    | flushing x => rw [hs] at hr; cases hr; simp [held]
    | moving x t pc => rw [hs] at hr; cases hr; simp [held]
  exact ⟨List.mem_append_right _ this, h.hand r this⟩

end Verif.TimingFine
