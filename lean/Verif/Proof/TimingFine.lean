import Verif.Model.TimingFine
import Verif.Proof.TimingWheel

/-! # The timing wheel with interruptible `add`: what holds in every execution -/

namespace Verif.TimingFine

open Mutex (put put_self put_ne)
open TimingWheel (Ref Bucket Wheel Timer Tw Start quo rem truncate newWheel newBucket bucketAt setBucket less advance curTime K K_pos K_succ K_zero fl
  fl_nonneg truncate_ok Valid bucketAt_of setBucket_of length_setBucket push_total pop_total)

variable {k0 : Int} {W : Nat}

/-! ## Wheels -/

structure Shape (k0 : Int) (W : Nat) (ws : List Wheel) : Prop where
  k : 0 < k0
  w : 1 < W
  ne : 0 < ws.length
  each : ∀ (l : Nat) (w : Wheel), ws[l]? = some w → w.tick = K k0 W l ∧ w.wheelSize = W ∧ w.interval = K k0 W (l + 1) ∧
    0 ≤ w.cur ∧ w.buckets.length = W

theorem Shape.kp {ws : List Wheel} (h : Shape k0 W ws) (l : Nat) : 0 < K k0 W l := K_pos h.k (by have := h.w; omega) l

theorem bucketAt_invalid {ws : List Wheel} (h : Shape k0 W ws) {r : Ref} (hr : ¬ Valid W ws r) : bucketAt ws r = newBucket := by
  by_cases hl : r.level < ws.length
  · have e := List.getElem?_eq_getElem hl
    have hb := (h.each _ _ e).2.2.2.2
    rw [bucketAt_of e]
    have : ¬ r.slot < W := fun hs => hr ⟨hl, hs⟩
    rw [List.getElem?_eq_none (by omega), Option.getD_none]
  · unfold bucketAt
    rw [List.getElem?_eq_none (by omega)]

theorem setBucket_shape {ws : List Wheel} (h : Shape k0 W ws) (r : Ref) (b : Bucket) : Shape k0 W (setBucket ws r b) := by
  refine ⟨h.k, h.w, by rw [length_setBucket]; exact h.ne, ?_⟩
  intro l w hw
  unfold setBucket at hw
  cases e : ws[r.level]? with
  | none => rw [e] at hw; exact h.each l w hw
  | some w' =>
    rw [e] at hw
    dsimp only at hw
    by_cases hl : r.level = l
    · subst hl
      have hlt : r.level < ws.length := by
        by_contra hn
        rw [List.getElem?_eq_none (by omega)] at e
        simp at e
      rw [List.getElem?_set_self hlt] at hw
      cases hw
      obtain ⟨h1, h2, h3, h4, h5⟩ := h.each _ _ e
      exact ⟨h1, h2, h3, h4, by simpa using h5⟩
    · rw [List.getElem?_set_ne hl] at hw
      exact h.each l w hw

theorem bucketAt_set {ws : List Wheel} (h : Shape k0 W ws) {r : Ref} (hr : Valid W ws r) (b : Bucket) (r' : Ref) :
    bucketAt (setBucket ws r b) r' = if r' = r then b else bucketAt ws r' := by
  obtain ⟨w, e⟩ : ∃ w, ws[r.level]? = some w := ⟨_, List.getElem?_eq_getElem hr.1⟩
  have hb := (h.each _ _ e).2.2.2.2
  rw [setBucket_of e]
  by_cases hl : r'.level = r.level
  · have e' : (ws.set r.level { w with buckets := w.buckets.set r.slot b })[r'.level]? =
        some { w with buckets := w.buckets.set r.slot b } := by
      rw [hl, List.getElem?_set_self hr.1]
    rw [bucketAt_of e']
    dsimp only
    by_cases hs : r'.slot = r.slot
    · have : r' = r := by cases r; cases r'; simp_all
      rw [if_pos this, hs, List.getElem?_set_self (by rw [hb]; exact hr.2), Option.getD_some]
    · rw [if_neg (fun e => hs (by rw [e])), List.getElem?_set_ne (fun e => hs e.symm)]
      rw [← hl] at e
      rw [bucketAt_of e]
  · rw [if_neg (fun e => hl (by rw [e]))]
    unfold bucketAt
    rw [List.getElem?_set_ne (fun e => hl e.symm)]

theorem valid_set {ws : List Wheel} {r : Ref} {b : Bucket} {r' : Ref} : Valid W (setBucket ws r b) r' ↔ Valid W ws r' := by
  unfold Valid
  rw [length_setBucket]

/-- A new wheel on top. -/
theorem append_shape {ws : List Wheel} (h : Shape k0 W ws) {w : Wheel} {l : Nat} (hw : ws[l]? = some w) (hl : ¬ l + 1 < ws.length) {cur : Int}
    (hc : 0 ≤ cur) : ∃ o, newWheel w.interval w.wheelSize cur = .ok o ∧ Shape k0 W (ws ++ [o]) ∧ ∀ r, bucketAt (ws ++ [o]) r = bucketAt ws r := by
  obtain ⟨h1, h2, h3, h4, h5⟩ := h.each l w hw
  have hlt : l < ws.length := by
    by_contra hn
    rw [List.getElem?_eq_none (by omega)] at hw
    cases hw
  have hlen : ws.length = l + 1 := by omega
  have hW := h.w
  have hk := h.kp (l + 1)
  unfold newWheel
  rw [h2, h3, truncate_ok hc hk]
  simp only [Go.bind_ok]
  rw [if_neg (by omega)]
  refine ⟨_, rfl, ⟨h.k, h.w, by simp, ?_⟩, ?_⟩
  · intro j w' hj
    rcases Nat.lt_or_ge j ws.length with hjl | hjl
    · rw [List.getElem?_append_left hjl] at hj
      exact h.each j w' hj
    · rw [List.getElem?_append_right hjl] at hj
      have hj0 : j - ws.length = 0 := by
        cases hz : j - ws.length with
        | zero => rfl
        | succ n => rw [hz] at hj; simp at hj
      rw [hj0] at hj
      simp only [List.getElem?_cons_zero, Option.some.injEq] at hj
      subst hj
      have : j = l + 1 := by omega
      subst this
      refine ⟨rfl, rfl, ?_, fl_nonneg hk hc, by simp⟩
      rw [K_succ (l + 1)]
  · intro r
    unfold bucketAt
    rcases Nat.lt_or_ge r.level ws.length with hr | hr
    · rw [List.getElem?_append_left hr]
    · rw [List.getElem?_append_right hr, List.getElem?_eq_none hr]
      cases hz : r.level - ws.length with
      | zero =>
        simp only [List.getElem?_cons_zero]
        rw [List.getElem?_replicate]
        split <;> rfl
      | succ n => simp

theorem advance_keeps : ∀ {ws ws' : List Wheel} {e : Int}, advance e ws = .ok ws' → (∀ w ∈ ws, 0 < w.tick ∧ 0 ≤ w.cur) →
    List.Forall₂ (fun w w' : Wheel => w'.tick = w.tick ∧ w'.wheelSize = w.wheelSize ∧ w'.interval = w.interval ∧ w'.buckets = w.buckets ∧ 0 ≤ w'.cur)
      ws ws'
  | [], ws', e, h, _ => by cases h; exact .nil
  | w :: ws, ws', e, h, hp => by
    obtain ⟨hw, hc⟩ := hp w List.mem_cons_self
    have hps : ∀ w ∈ ws, 0 < w.tick ∧ 0 ≤ w.cur := fun w hw => hp w (List.mem_cons_of_mem _ hw)
    have hself : ∀ l : List Wheel, (∀ w ∈ l, 0 < w.tick ∧ 0 ≤ w.cur) → List.Forall₂ (fun w w' : Wheel => w'.tick = w.tick ∧ w'.wheelSize = w.wheelSize ∧
        w'.interval = w.interval ∧ w'.buckets = w.buckets ∧ 0 ≤ w'.cur) l l := by
      intro l
      induction l with
      | nil => intro _; exact .nil
      | cons a l ih =>
        intro h
        exact .cons ⟨rfl, rfl, rfl, rfl, (h a List.mem_cons_self).2⟩ (ih (fun w hw => h w (List.mem_cons_of_mem _ hw)))
    rw [advance] at h
    split at h
    · rename_i hge
      rw [truncate_ok (by omega) hw, Go.bind_ok] at h
      cases hr : advance (fl e w.tick) ws with
      | error x => rw [hr] at h; cases h
      | ok ws1 =>
        rw [hr, Go.bind_ok] at h
        cases h
        exact .cons ⟨rfl, rfl, rfl, rfl, fl_nonneg hw (by omega)⟩ (advance_keeps hr hps)
    · cases h
      exact hself _ hp

theorem forall2_get {α : Type} {R : α → α → Prop} : ∀ {l l' : List α}, List.Forall₂ R l l' → ∀ i : Nat, (l[i]? = none ∧ l'[i]? = none) ∨
    ∃ a b, l[i]? = some a ∧ l'[i]? = some b ∧ R a b
  | [], [], .nil, i => by simp
  | a :: l, b :: l', .cons h hs, 0 => by simp [h]
  | a :: l, b :: l', .cons h hs, i + 1 => by simpa using forall2_get hs i

theorem advance_shape {ws ws' : List Wheel} {e : Int} (h : Shape k0 W ws) (ha : advance e ws = .ok ws') :
    Shape k0 W ws' ∧ (∀ r, bucketAt ws' r = bucketAt ws r) ∧ ws'.length = ws.length := by
  have hk := advance_keeps ha (by
    intro w hw
    obtain ⟨i, hi⟩ := List.getElem?_of_mem hw
    obtain ⟨h1, -, -, h4, -⟩ := h.each i w hi
    exact ⟨by rw [h1]; exact h.kp i, h4⟩)
  have hlen := hk.length_eq
  refine ⟨⟨h.k, h.w, by rw [← hlen]; exact h.ne, ?_⟩, ?_, hlen.symm⟩
  · intro l w hw
    rcases forall2_get hk l with ⟨-, h2⟩ | ⟨a, b, h1, h2, r1, r2, r3, r4, r5⟩
    · rw [h2] at hw; cases hw
    · rw [h2] at hw
      cases hw
      obtain ⟨a1, a2, a3, a4, a5⟩ := h.each l a h1
      exact ⟨r1.trans a1, r2.trans a2, r3.trans a3, r5, by rw [r4]; exact a5⟩
  · intro r
    unfold bucketAt
    rcases forall2_get hk r.level with ⟨h1, h2⟩ | ⟨a, b, h1, h2, r1, r2, r3, r4, r5⟩
    · rw [h1, h2]
    · rw [h1, h2]
      dsimp only
      rw [r4]

/-! ## Timers, buckets and the goroutines in `add` -/

/-- The timer is still in the goroutine's hand. -/
def holds : Pc → Bool
  | .enter _ | .loaded _ _ | .returned false => true
  | _ => false

/-- How many hands and buckets the timer is in. -/
def place (tw : Tw) (jobs : List (Nat × Pc)) (t : Nat) : Nat :=
  (tw.timer t).bucket.isSome.toNat + jobs.countP (fun j => j.1 == t && holds j.2)

def PcOk (W : Nat) (ws : List Wheel) : Pc → Prop
  | .enter l => l < ws.length
  | .loaded l cur => l < ws.length ∧ 0 ≤ cur
  | .inBucket r e => Valid W ws r ∧ 0 ≤ e
  | .pushing r => Valid W ws r
  | .returned _ => True

/-- Timers and buckets agree; a bucket that has timers is registered, or will be. -/
structure TInv (k0 : Int) (W : Nat) (tw : Tw) (jobs : List (Nat × Pc)) (extra : List Ref) : Prop where
  shape : Shape k0 W tw.wheels
  pcs : ∀ j ∈ jobs, PcOk W tw.wheels j.2
  mem : ∀ t r, (tw.timer t).bucket = some r ↔ t ∈ (bucketAt tw.wheels r).timers
  nodup : ∀ r, (bucketAt tw.wheels r).timers.Nodup
  reg : ∀ r, (bucketAt tw.wheels r).exp ≠ -1 → r ∈ tw.queue ∨ r ∈ extra ∨ ∃ t, (t, Pc.pushing r) ∈ jobs
  full : ∀ r, (bucketAt tw.wheels r).timers ≠ [] → (bucketAt tw.wheels r).exp ≠ -1 ∨ ∃ t e, (t, Pc.inBucket r e) ∈ jobs
  right : ∀ t r, t ∈ (bucketAt tw.wheels r).timers → (r.slot : Int) = (tw.timer t).exp / K k0 W r.level % W
  one : ∀ t, place tw jobs t ≤ 1

theorem TInv.valid {tw : Tw} {jobs : List (Nat × Pc)} {extra : List Ref} (h : TInv k0 W tw jobs extra) {t : Nat} {r : Ref}
    (ht : t ∈ (bucketAt tw.wheels r).timers) : Valid W tw.wheels r := by
  by_contra hv
  rw [bucketAt_invalid h.shape hv] at ht
  simp [newBucket] at ht

theorem pcOk_mono {ws ws' : List Wheel} (h : ws.length ≤ ws'.length) : ∀ {pc : Pc}, PcOk W ws pc → PcOk W ws' pc
  | .enter _, hp => Nat.lt_of_lt_of_le hp h
  | .loaded _ _, hp => ⟨Nat.lt_of_lt_of_le hp.1 h, hp.2⟩
  | .inBucket _ _, hp => ⟨⟨Nat.lt_of_lt_of_le hp.1.1 h, hp.1.2⟩, hp.2⟩
  | .pushing _, hp => ⟨Nat.lt_of_lt_of_le hp.1 h, hp.2⟩
  | .returned _, _ => trivial

theorem countP_mid (p : Nat × Pc → Bool) (l1 l2 : List (Nat × Pc)) (a : Nat × Pc) :
    (l1 ++ a :: l2).countP p = (l1 ++ l2).countP p + (p a).toNat := by
  rw [List.countP_append, List.countP_append, List.countP_cons]
  cases p a <;> simp [Nat.add_assoc]

/-- What does not change by an action of `add`: the expirations; the timer stays in one place. -/
structure Acted (tw tw' : Tw) (l1 l2 : List (Nat × Pc)) (t : Nat) (pc pc' : Pc) : Prop where
  exp : ∀ t', (tw'.timer t').exp = (tw.timer t').exp
  reps : ∀ t', (tw'.timer t').repeats = (tw.timer t').repeats
  place : ∀ t', place tw' (l1 ++ (t, pc') :: l2) t' = place tw (l1 ++ (t, pc) :: l2) t'

/-- The action changes neither timers nor buckets nor the queue, only wheels and the goroutine. -/
theorem quiet {tw tw' : Tw} {l1 l2 : List (Nat × Pc)} {t : Nat} {pc pc' : Pc} {extra : List Ref}
    (h : TInv k0 W tw (l1 ++ (t, pc) :: l2) extra) (hs : Shape k0 W tw'.wheels) (hl : tw.wheels.length ≤ tw'.wheels.length)
    (hb : ∀ r, bucketAt tw'.wheels r = bucketAt tw.wheels r) (ht : tw'.timer = tw.timer) (hq : tw'.queue = tw.queue)
    (hpc : PcOk W tw'.wheels pc') (hh : holds pc' = holds pc) (h1 : ∀ r, pc ≠ .pushing r) (h2 : ∀ r e, pc ≠ .inBucket r e) :
    TInv k0 W tw' (l1 ++ (t, pc') :: l2) extra ∧ Acted tw tw' l1 l2 t pc pc' := by
  have hmem : ∀ j, j ∈ l1 ++ (t, pc) :: l2 → j ≠ (t, pc) → j ∈ l1 ++ (t, pc') :: l2 := by
    intro j hj hne
    simp only [List.mem_append, List.mem_cons] at hj ⊢
    rcases hj with hj | hj | hj
    · exact .inl hj
    · exact absurd hj hne
    · exact .inr (.inr hj)
  have hpl : ∀ t', place tw' (l1 ++ (t, pc') :: l2) t' = place tw (l1 ++ (t, pc) :: l2) t' := by
    intro t'
    unfold place
    rw [countP_mid, countP_mid, ht]
    dsimp only
    rw [hh]
  refine ⟨⟨hs, ?_, ?_, ?_, ?_, ?_, ?_, ?_⟩, ⟨fun t' => by rw [ht], fun t' => by rw [ht], hpl⟩⟩
  · intro j hj
    simp only [List.mem_append, List.mem_cons] at hj
    rcases hj with hj | rfl | hj
    · exact pcOk_mono hl (h.pcs j (by simp [hj]))
    · exact hpc
    · exact pcOk_mono hl (h.pcs j (by simp [hj]))
  · intro t r; rw [ht, hb]; exact h.mem t r
  · intro r; rw [hb]; exact h.nodup r
  · intro r hr
    rw [hb] at hr
    rw [hq]
    rcases h.reg r hr with hx | hx | ⟨t', hx⟩
    · exact .inl hx
    · exact .inr (.inl hx)
    · exact .inr (.inr ⟨t', hmem _ hx (fun e => h1 r (by rw [Prod.mk.injEq] at e; exact e.2.symm))⟩)
  · intro r hr
    rw [hb] at hr ⊢
    rcases h.full r hr with hx | ⟨t', e, hx⟩
    · exact .inl hx
    · exact .inr ⟨t', e, hmem _ hx (fun e' => h2 r e (by rw [Prod.mk.injEq] at e'; exact e'.2.symm))⟩
  · intro t r hr; rw [hb] at hr; rw [ht]; exact h.right t r hr
  · intro t'; rw [hpl]; exact h.one t'

theorem addStep_inv {lk : Option Ref} {tw tw' : Tw} {l1 l2 : List (Nat × Pc)} {t : Nat} {pc pc' : Pc} {extra : List Ref}
    (h : TInv k0 W tw (l1 ++ (t, pc) :: l2) extra) (e : addStep lk tw t pc = .ok (tw', pc')) :
    TInv k0 W tw' (l1 ++ (t, pc') :: l2) extra ∧ Acted tw tw' l1 l2 t pc pc' := by
  have hpc : PcOk W tw.wheels pc := h.pcs (t, pc) (by simp)
  have hW := h.shape.w
  cases pc with
  | enter l =>
    rw [addStep] at e
    cases hw : tw.wheels[l]? with
    | none => rw [hw] at e; cases e
    | some w =>
      rw [hw] at e
      cases e
      exact quiet h h.shape (Nat.le_refl _) (fun _ => rfl) rfl rfl ⟨hpc, (h.shape.each l w hw).2.2.2.1⟩ rfl (by simp) (by simp)
  | loaded l cur =>
    rw [addStep] at e
    obtain ⟨hl, hc⟩ := hpc
    cases hw : tw.wheels[l]? with
    | none => rw [hw] at e; cases e
    | some w =>
      rw [hw] at e
      dsimp only at e
      obtain ⟨a1, a2, a3, a4, a5⟩ := h.shape.each l w hw
      have hk := h.shape.kp l
      split at e
      · cases e
        exact quiet h h.shape (Nat.le_refl _) (fun _ => rfl) rfl rfl trivial rfl (by simp) (by simp)
      · rename_i hlo
        split at e
        · have he : 0 ≤ (tw.timer t).exp := by omega
          have hq0 : 0 ≤ (tw.timer t).exp / K k0 W l := Int.ediv_nonneg he (by omega)
          have hi0 : 0 ≤ (tw.timer t).exp / K k0 W l % (W : Int) := Int.emod_nonneg _ (by omega)
          have hi1 : (tw.timer t).exp / K k0 W l % (W : Int) < W := Int.emod_lt_of_pos _ (by omega)
          have hlt : ((tw.timer t).exp / K k0 W l % (W : Int)).toNat < w.buckets.length := by omega
          unfold quo rem at e
          rw [a1, a2] at e
          simp only [if_neg (show ¬ K k0 W l = 0 by omega), if_neg (show ¬ (W : Int) = 0 by omega), Go.bind_ok,
            Int.tdiv_eq_ediv_of_nonneg he, Int.tmod_eq_emod_of_nonneg hq0,
            if_neg (show ¬ (tw.timer t).exp / K k0 W l % (W : Int) < 0 by omega), Go.idx_of_lt _ _ hlt] at e
          split at e
          · cases e
          have hbk : bucketAt tw.wheels ⟨l, ((tw.timer t).exp / K k0 W l % (W : Int)).toNat⟩ =
              w.buckets[((tw.timer t).exp / K k0 W l % (W : Int)).toNat] := by
            rw [bucketAt_of (r := ⟨l, _⟩) hw]
            dsimp only
            rw [List.getElem?_eq_getElem hlt, Option.getD_some]
          rw [← hbk] at e
          have hslot : (((⟨l, ((tw.timer t).exp / K k0 W l % (W : Int)).toNat⟩ : Ref).slot : Nat) : Int) =
              (tw.timer t).exp / K k0 W (⟨l, ((tw.timer t).exp / K k0 W l % (W : Int)).toNat⟩ : Ref).level % W := by
            dsimp only
            omega
          have hv : Valid W tw.wheels ⟨l, ((tw.timer t).exp / K k0 W l % (W : Int)).toNat⟩ := ⟨hl, by dsimp only; omega⟩
          have hE : 0 ≤ (tw.timer t).exp / K k0 W l * K k0 W l := Int.mul_nonneg hq0 (by omega)
          generalize (⟨l, ((tw.timer t).exp / K k0 W l % (W : Int)).toNat⟩ : Ref) = r at *
          generalize (tw.timer t).exp / K k0 W l * K k0 W l = E at *
          cases e
          have hone := h.one t
          unfold place at hone
          rw [countP_mid] at hone
          simp only [beq_self_eq_true, holds, Bool.and_true, Bool.toNat_true] at hone
          have hnone : (tw.timer t).bucket = none := by
            cases hb : (tw.timer t).bucket with
            | none => rfl
            | some x => rw [hb] at hone; simp at hone
          have hbs := bucketAt_set h.shape hv ⟨(bucketAt tw.wheels r).exp, (bucketAt tw.wheels r).timers ++ [t]⟩
          have hnot : ∀ r', t ∉ (bucketAt tw.wheels r').timers := by
            intro r' hr'
            rw [← h.mem, hnone] at hr'
            cases hr'
          have hpl : ∀ t', place ⟨setBucket tw.wheels r ⟨(bucketAt tw.wheels r).exp, (bucketAt tw.wheels r).timers ++ [t]⟩, tw.queue,
              put tw.timer t { tw.timer t with bucket := some r }⟩ (l1 ++ (t, Pc.inBucket r E) :: l2) t' =
              place tw (l1 ++ (t, Pc.loaded l cur) :: l2) t' := by
            intro t'
            unfold place
            rw [countP_mid, countP_mid]
            dsimp only
            by_cases ht' : t' = t
            · subst ht'
              rw [put_self, hnone]
              simp [holds]
              omega
            · rw [put_ne _ _ ht']
              have : (t == t') = false := by simp; exact fun e => ht' e.symm
              simp [this]
          refine ⟨⟨setBucket_shape h.shape _ _, ?_, ?_, ?_, ?_, ?_, ?_, ?_⟩, ⟨?_, ?_, hpl⟩⟩
          · intro j hj
            have hlen : tw.wheels.length ≤ (setBucket tw.wheels r ⟨(bucketAt tw.wheels r).exp, (bucketAt tw.wheels r).timers ++ [t]⟩).length := by
              rw [length_setBucket]
            simp only [List.mem_append, List.mem_cons] at hj
            rcases hj with hj | rfl | hj
            · exact pcOk_mono hlen (h.pcs j (by simp [hj]))
            · exact ⟨valid_set.2 hv, hE⟩
            · exact pcOk_mono hlen (h.pcs j (by simp [hj]))
          · intro t' r'
            dsimp only
            rw [hbs]
            by_cases ht' : t' = t
            · subst ht'
              rw [put_self]
              dsimp only
              by_cases hr' : r' = r
              · subst hr'; simp
              · rw [if_neg hr']
                simp only [Option.some.injEq]
                exact ⟨fun e => absurd e.symm hr', fun e => absurd e (hnot r')⟩
            · rw [put_ne _ _ ht', h.mem]
              by_cases hr' : r' = r
              · subst hr'; simp [ht']
              · rw [if_neg hr']
          · intro r'
            dsimp only
            rw [hbs]
            by_cases hr' : r' = r
            · subst hr'
              rw [if_pos rfl]
              dsimp only
              rw [List.nodup_append]
              refine ⟨h.nodup r', by simp, ?_⟩
              intro a ha b hb
              simp only [List.mem_singleton] at hb
              subst hb
              exact fun e => hnot r' (e ▸ ha)
            · rw [if_neg hr']; exact h.nodup r'
          · intro r' hr'
            have hx : (bucketAt tw.wheels r').exp ≠ -1 := by
              dsimp only at hr'
              rw [hbs] at hr'
              by_cases hrr : r' = r
              · subst hrr; rw [if_pos rfl] at hr'; exact hr'
              · rw [if_neg hrr] at hr'; exact hr'
            rcases h.reg r' hx with hx | hx | ⟨t', hx⟩
            · exact .inl hx
            · exact .inr (.inl hx)
            · refine .inr (.inr ⟨t', ?_⟩)
              simp only [List.mem_append, List.mem_cons, Prod.mk.injEq, reduceCtorEq, and_false, false_or] at hx ⊢
              exact hx
          · intro r' hr'
            by_cases hrr : r' = r
            · subst hrr
              exact .inr ⟨t, E, by simp⟩
            · dsimp only at hr' ⊢
              rw [hbs, if_neg hrr] at hr' ⊢
              rcases h.full r' hr' with hx | ⟨t', e', hx⟩
              · exact .inl hx
              · refine .inr ⟨t', e', ?_⟩
                simp only [List.mem_append, List.mem_cons, Prod.mk.injEq, reduceCtorEq, and_false, false_or] at hx
                simp only [List.mem_append, List.mem_cons]
                exact hx.imp id .inr
          · intro t' r' hr'
            dsimp only at hr' ⊢
            rw [hbs] at hr'
            by_cases ht' : t' = t
            · subst ht'
              rw [put_self]
              by_cases hrr : r' = r
              · subst hrr; exact hslot
              · rw [if_neg hrr] at hr'; exact absurd hr' (hnot r')
            · rw [put_ne _ _ ht']
              refine h.right t' r' ?_
              by_cases hrr : r' = r
              · subst hrr; simpa [ht'] using hr'
              · rw [if_neg hrr] at hr'; exact hr'
          · intro t'
            rw [hpl]
            exact h.one t'
          · intro t'
            dsimp only
            by_cases ht' : t' = t
            · subst ht'; rw [put_self]
            · rw [put_ne _ _ ht']
          · intro t'
            dsimp only
            by_cases ht' : t' = t
            · subst ht'; rw [put_self]
            · rw [put_ne _ _ ht']
        · split at e
          · rename_i hlt
            cases e
            exact quiet h h.shape (Nat.le_refl _) (fun _ => rfl) rfl rfl hlt rfl (by simp) (by simp)
          · rename_i hlt
            obtain ⟨o, h1, h2, h3⟩ := append_shape h.shape hw hlt hc
            rw [h1, Go.bind_ok] at e
            cases e
            exact quiet h h2 (by simp) h3 rfl rfl (by show l + 1 < _; simp; omega) rfl (by simp) (by simp)
  | inBucket r E =>
    rw [addStep] at e
    obtain ⟨hv, hE⟩ := hpc
    have hbs := bucketAt_set h.shape hv ⟨E, (bucketAt tw.wheels r).timers⟩
    have hpc' : holds pc' = false ∧ ∀ r' e', pc' ≠ .inBucket r' e' := by
      rw [Except.ok.injEq, Prod.mk.injEq] at e
      rw [← e.2]
      split <;> exact ⟨rfl, by simp⟩
    have htm : ∀ r', (bucketAt tw'.wheels r').timers = (bucketAt tw.wheels r').timers := by
      intro r'
      rw [Except.ok.injEq, Prod.mk.injEq] at e
      rw [← e.1]
      dsimp only
      rw [hbs]
      split
      · rename_i hr; rw [hr]
      · rfl
    have hex : ∀ r', (bucketAt tw'.wheels r').exp = if r' = r then E else (bucketAt tw.wheels r').exp := by
      intro r'
      rw [Except.ok.injEq, Prod.mk.injEq] at e
      rw [← e.1]
      dsimp only
      rw [hbs]
      split <;> rfl
    have hpp : (bucketAt tw.wheels r).exp ≠ E → pc' = .pushing r := by
      intro hne
      rw [Except.ok.injEq, Prod.mk.injEq, if_neg hne] at e
      exact e.2.symm
    have hok : PcOk W tw'.wheels pc' := by
      rw [Except.ok.injEq, Prod.mk.injEq] at e
      obtain ⟨rfl, rfl⟩ := e
      split
      · trivial
      · exact valid_set.2 hv
    have htw : tw'.timer = tw.timer ∧ tw'.queue = tw.queue ∧ tw'.wheels = setBucket tw.wheels r ⟨E, (bucketAt tw.wheels r).timers⟩ := by
      rw [Except.ok.injEq, Prod.mk.injEq] at e
      obtain ⟨rfl, -⟩ := e
      exact ⟨rfl, rfl, rfl⟩
    obtain ⟨ht, hq, hws⟩ := htw
    have hpl : ∀ t', place tw' (l1 ++ (t, pc') :: l2) t' = place tw (l1 ++ (t, Pc.inBucket r E) :: l2) t' := by
      intro t'
      unfold place
      rw [countP_mid, countP_mid, ht]
      dsimp only
      rw [hpc'.1]
      simp [holds]
    have hmem : ∀ j, j ∈ l1 ++ (t, Pc.inBucket r E) :: l2 → j ≠ (t, Pc.inBucket r E) → j ∈ l1 ++ (t, pc') :: l2 := by
      intro j hj hne
      simp only [List.mem_append, List.mem_cons] at hj ⊢
      rcases hj with hj | hj | hj
      · exact .inl hj
      · exact absurd hj hne
      · exact .inr (.inr hj)
    refine ⟨⟨by rw [hws]; exact setBucket_shape h.shape _ _, ?_, ?_, ?_, ?_, ?_, ?_, ?_⟩, ⟨fun t' => by rw [ht], fun t' => by rw [ht], hpl⟩⟩
    · intro j hj
      have hlen : tw.wheels.length ≤ tw'.wheels.length := by rw [hws, length_setBucket]
      simp only [List.mem_append, List.mem_cons] at hj
      rcases hj with hj | rfl | hj
      · exact pcOk_mono hlen (h.pcs j (by simp [hj]))
      · exact hok
      · exact pcOk_mono hlen (h.pcs j (by simp [hj]))
    · intro t' r'; rw [ht, htm]; exact h.mem t' r'
    · intro r'; rw [htm]; exact h.nodup r'
    · intro r' hr'
      rw [hex] at hr'
      rw [hq]
      by_cases hnew : r' = r ∧ (bucketAt tw.wheels r).exp ≠ E
      · obtain ⟨rfl, hne⟩ := hnew
        exact .inr (.inr ⟨t, by rw [hpp hne]; simp⟩)
      · have hx : (bucketAt tw.wheels r').exp ≠ -1 := by
          by_cases hrr : r' = r
          · subst hrr
            have : (bucketAt tw.wheels r').exp = E := by by_contra hc; exact hnew ⟨rfl, hc⟩
            rw [this]; omega
          · rw [if_neg hrr] at hr'; exact hr'
        rcases h.reg r' hx with hx | hx | ⟨t', hx⟩
        · exact .inl hx
        · exact .inr (.inl hx)
        · exact .inr (.inr ⟨t', hmem _ hx (by simp)⟩)
    · intro r' hr'
      rw [htm] at hr'
      rw [hex]
      by_cases hrr : r' = r
      · rw [if_pos hrr]; left; omega
      · rw [if_neg hrr]
        rcases h.full r' hr' with hx | ⟨t', e', hx⟩
        · exact .inl hx
        · refine .inr ⟨t', e', hmem _ hx ?_⟩
          intro he
          rw [Prod.mk.injEq, Pc.inBucket.injEq] at he
          exact hrr he.2.1
    · intro t' r' hr'; rw [htm] at hr'; rw [ht]; exact h.right t' r' hr'
    · intro t'; rw [hpl]; exact h.one t'
  | pushing r =>
    rw [addStep] at e
    obtain ⟨q, hq1, hq2⟩ := push_total tw.wheels tw.queue r
    rw [hq1, Go.bind_ok] at e
    cases e
    have hpl : ∀ t', place { tw with queue := q } (l1 ++ (t, Pc.returned true) :: l2) t' = place tw (l1 ++ (t, Pc.pushing r) :: l2) t' := by
      intro t'
      unfold place
      rw [countP_mid, countP_mid]
      simp [holds]
    refine ⟨⟨h.shape, ?_, h.mem, h.nodup, ?_, ?_, h.right, ?_⟩, ⟨fun _ => rfl, fun _ => rfl, hpl⟩⟩
    · intro j hj
      simp only [List.mem_append, List.mem_cons] at hj
      rcases hj with hj | rfl | hj
      · exact h.pcs j (by simp [hj])
      · trivial
      · exact h.pcs j (by simp [hj])
    · intro r' hr'
      dsimp only
      rcases h.reg r' hr' with hx | hx | ⟨t', hx⟩
      · exact .inl (hq2.mem_iff.2 (List.mem_cons_of_mem _ hx))
      · exact .inr (.inl hx)
      · simp only [List.mem_append, List.mem_cons, Prod.mk.injEq, Pc.pushing.injEq] at hx
        rcases hx with hx | ⟨-, rfl⟩ | hx
        · exact .inr (.inr ⟨t', by simp [hx]⟩)
        · exact .inl (hq2.mem_iff.2 List.mem_cons_self)
        · exact .inr (.inr ⟨t', by simp [hx]⟩)
    · intro r' hr'
      rcases h.full r' hr' with hx | ⟨t', e', hx⟩
      · exact .inl hx
      · refine .inr ⟨t', e', ?_⟩
        simp only [List.mem_append, List.mem_cons, Prod.mk.injEq, reduceCtorEq, and_false, false_or] at hx ⊢
        exact hx
    · intro t'; rw [hpl]; exact h.one t'
  | returned ok =>
    rw [addStep] at e
    cases e
    exact ⟨h, ⟨fun _ => rfl, fun _ => rfl, fun _ => rfl⟩⟩

/-! ## The whole state -/

def runJob : Run → List (Nat × Pc)
  | .moving _ t pc => [(t, pc)]
  | _ => []

/-- Who is in `add`, and with which timer. -/
def jobs (s : State) : List (Nat × Pc) := s.adders.map (fun a => (a.t, a.pc)) ++ runJob s.run

/-- The bucket `Run` is processing. -/
def held : Run → List Ref
  | .idle => []
  | .advanced r | .flushing r | .moving r _ _ => [r]

theorem place_perm {tw : Tw} {j j' : List (Nat × Pc)} (h : j.Perm j') (t : Nat) : place tw j t = place tw j' t := by
  unfold place
  rw [h.countP_eq]

theorem TInv.perm {tw : Tw} {j j' : List (Nat × Pc)} {x x' : List Ref} (h : TInv k0 W tw j x) (hj : j.Perm j') (hx : ∀ r, r ∈ x → r ∈ x') :
    TInv k0 W tw j' x' where
  shape := h.shape
  pcs := fun a ha => h.pcs a (hj.mem_iff.2 ha)
  mem := h.mem
  nodup := h.nodup
  reg := fun r hr => by
    rcases h.reg r hr with h1 | h1 | ⟨t, h1⟩
    · exact .inl h1
    · exact .inr (.inl (hx r h1))
    · exact .inr (.inr ⟨t, hj.mem_iff.1 h1⟩)
  full := fun r hr => by
    rcases h.full r hr with h1 | ⟨t, e, h1⟩
    · exact .inl h1
    · exact .inr ⟨t, e, hj.mem_iff.1 h1⟩
  right := h.right
  one := fun t => by rw [← place_perm hj]; exact h.one t

theorem place_cons (tw : Tw) (j : List (Nat × Pc)) (t t' : Nat) (pc : Pc) :
    place tw ((t, pc) :: j) t' = place tw j t' + (if t' = t ∧ holds pc = true then 1 else 0) := by
  unfold place
  rw [List.countP_cons, ← Nat.add_assoc]
  congr 1
  by_cases h : t' = t
  · subst h
    cases holds pc <;> simp
  · have : (t == t') = false := by simp; exact fun e => h e.symm
    simp [this, h]

theorem place_zero {tw : Tw} {j : List (Nat × Pc)} {t : Nat} (h : place tw j t = 0) : (tw.timer t).bucket = none := by
  unfold place at h
  cases hb : (tw.timer t).bucket with
  | none => rfl
  | some r => rw [hb] at h; simp at h

/-- A goroutine comes with a timer that is nowhere. -/
theorem TInv.enter {tw : Tw} {j : List (Nat × Pc)} {x : List Ref} (h : TInv k0 W tw j x) {t : Nat} (ht : place tw j t = 0) {m : Timer}
    (hm : m.bucket = none) :
    TInv k0 W { tw with timer := put tw.timer t m } ((t, .enter 0) :: j) x ∧
    ∀ t', place { tw with timer := put tw.timer t m } ((t, .enter 0) :: j) t' = place tw j t' + if t' = t then 1 else 0 := by
  have hn := place_zero ht
  have hb : ∀ t', (put tw.timer t m t').bucket = (tw.timer t').bucket := by
    intro t'
    by_cases e : t' = t
    · subst e; rw [put_self, hm, hn]
    · rw [put_ne _ _ e]
  have hp : ∀ t', place { tw with timer := put tw.timer t m } ((t, .enter 0) :: j) t' = place tw j t' + if t' = t then 1 else 0 := by
    intro t'
    rw [place_cons]
    unfold place
    dsimp only
    rw [hb]
    simp [holds]
  refine ⟨⟨h.shape, ?_, ?_, h.nodup, ?_, ?_, ?_, ?_⟩, hp⟩
  · intro a ha
    rcases List.mem_cons.1 ha with rfl | ha
    · exact h.shape.ne
    · exact h.pcs a ha
  · intro t' r
    dsimp only
    rw [hb]
    exact h.mem t' r
  · intro r hr
    rcases h.reg r hr with h1 | h1 | ⟨t', h1⟩
    · exact .inl h1
    · exact .inr (.inl h1)
    · exact .inr (.inr ⟨t', List.mem_cons_of_mem _ h1⟩)
  · intro r hr
    rcases h.full r hr with h1 | ⟨t', e, h1⟩
    · exact .inl h1
    · exact .inr ⟨t', e, List.mem_cons_of_mem _ h1⟩
  · intro t' r hr
    dsimp only
    have : t' ≠ t := by
      rintro rfl
      rw [← h.mem, hn] at hr
      cases hr
    rw [put_ne _ _ this]
    exact h.right t' r hr
  · intro t'
    rw [hp]
    split
    · rename_i e; rw [e, ht]
    · exact h.one t'

/-- A goroutine has returned from `add`. -/
theorem TInv.leave {tw : Tw} {j : List (Nat × Pc)} {x : List Ref} {t : Nat} {ok : Bool} (h : TInv k0 W tw ((t, .returned ok) :: j) x) :
    TInv k0 W tw j x where
  shape := h.shape
  pcs := fun a ha => h.pcs a (List.mem_cons_of_mem _ ha)
  mem := h.mem
  nodup := h.nodup
  reg := fun r hr => by
    rcases h.reg r hr with h1 | h1 | ⟨t', h1⟩
    · exact .inl h1
    · exact .inr (.inl h1)
    · simp only [List.mem_cons, Prod.mk.injEq, reduceCtorEq, and_false, false_or] at h1
      exact .inr (.inr ⟨t', h1⟩)
  full := fun r hr => by
    rcases h.full r hr with h1 | ⟨t', e, h1⟩
    · exact .inl h1
    · simp only [List.mem_cons, Prod.mk.injEq, reduceCtorEq, and_false, false_or] at h1
      exact .inr ⟨t', e, h1⟩
  right := h.right
  one := fun t' => by
    have := h.one t'
    rw [place_cons] at this
    omega

/-- A timer is taken out of its bucket. -/
theorem TInv.out {tw : Tw} {j : List (Nat × Pc)} {x : List Ref} (h : TInv k0 W tw j x) {t : Nat} {r : Ref} (ht : (tw.timer t).bucket = some r) :
    let tw' : Tw := ⟨setBucket tw.wheels r ⟨(bucketAt tw.wheels r).exp, (bucketAt tw.wheels r).timers.erase t⟩, tw.queue,
      put tw.timer t { tw.timer t with bucket := none }⟩
    TInv k0 W tw' j x ∧ (∀ t', place tw' j t' + (if t' = t then 1 else 0) = place tw j t') ∧ place tw' j t = 0 := by
  have hm := (h.mem t r).1 ht
  have hv := h.valid hm
  have hbs := bucketAt_set h.shape hv ⟨(bucketAt tw.wheels r).exp, (bucketAt tw.wheels r).timers.erase t⟩
  have htm : ∀ r', (bucketAt (setBucket tw.wheels r ⟨(bucketAt tw.wheels r).exp, (bucketAt tw.wheels r).timers.erase t⟩) r').timers =
      if r' = r then (bucketAt tw.wheels r).timers.erase t else (bucketAt tw.wheels r').timers := by
    intro r'; rw [hbs]; split <;> rfl
  have hex : ∀ r', (bucketAt (setBucket tw.wheels r ⟨(bucketAt tw.wheels r).exp, (bucketAt tw.wheels r).timers.erase t⟩) r').exp =
      (bucketAt tw.wheels r').exp := by
    intro r'
    rw [hbs]
    split
    · rename_i e; rw [e]
    · rfl
  have hsub : ∀ t' r', t' ∈ (bucketAt (setBucket tw.wheels r ⟨(bucketAt tw.wheels r).exp, (bucketAt tw.wheels r).timers.erase t⟩) r').timers →
      t' ∈ (bucketAt tw.wheels r').timers := by
    intro t' r' hx
    rw [htm] at hx
    split at hx
    · rename_i e; rw [e]; exact List.mem_of_mem_erase hx
    · exact hx
  have hnt : ∀ r', t ∉ (bucketAt (setBucket tw.wheels r ⟨(bucketAt tw.wheels r).exp, (bucketAt tw.wheels r).timers.erase t⟩) r').timers := by
    intro r' hx
    rw [htm] at hx
    split at hx
    · exact ((h.nodup r).mem_erase_iff.1 hx).1 rfl
    · rename_i e
      rw [← h.mem, ht] at hx
      exact e (Option.some.inj hx).symm
  have hp : ∀ t', place ⟨setBucket tw.wheels r ⟨(bucketAt tw.wheels r).exp, (bucketAt tw.wheels r).timers.erase t⟩, tw.queue,
      put tw.timer t { tw.timer t with bucket := none }⟩ j t' + (if t' = t then 1 else 0) = place tw j t' := by
    intro t'
    unfold place
    dsimp only
    by_cases e : t' = t
    · subst e; rw [put_self, ht]; simp; omega
    · rw [put_ne _ _ e]; simp [e]
  dsimp only
  refine ⟨⟨setBucket_shape h.shape _ _, ?_, ?_, ?_, ?_, ?_, ?_, ?_⟩, hp, ?_⟩
  · intro a ha
    exact pcOk_mono (by dsimp only; rw [length_setBucket]) (h.pcs a ha)
  · intro t' r'
    dsimp only
    by_cases e : t' = t
    · subst e
      rw [put_self]
      dsimp only
      exact ⟨fun h => (by cases h), fun h => absurd h (hnt r')⟩
    · rw [put_ne _ _ e, h.mem, htm]
      split
      · rename_i e'; rw [e', List.mem_erase_of_ne e]
      · rfl
  · intro r'
    dsimp only
    rw [htm]
    split
    · exact (h.nodup r).erase t
    · exact h.nodup r'
  · intro r' hr'
    dsimp only at hr'
    rw [hex] at hr'
    exact h.reg r' hr'
  · intro r' hr'
    dsimp only at hr' ⊢
    rw [hex]
    refine h.full r' fun hnil => hr' ?_
    rw [List.eq_nil_iff_forall_not_mem]
    intro t' ht'
    have := hsub t' r' ht'
    rw [hnil] at this
    cases this
  · intro t' r' hr'
    dsimp only at hr' ⊢
    have hne : t' ≠ t := by rintro rfl; exact hnt r' hr'
    rw [put_ne _ _ hne]
    exact h.right t' r' (hsub t' r' hr')
  · intro t'
    exact Nat.le_trans (Nat.le_of_add_right_le (Nat.le_of_eq (hp t'))) (h.one t')
  · have h1 := (Nat.le_of_eq (hp t)).trans (h.one t)
    rw [if_pos rfl] at h1
    exact Nat.le_zero.1 (Nat.le_of_add_le_add_right h1)

/-- What holds in every reachable state. -/
structure Inv (k0 : Int) (W : Nat) (s : State) : Prop where
  tw : TInv k0 W s.tw (jobs s) (s.chan ++ held s.run)
  fresh : ∀ t, s.next ≤ t → place s.tw (jobs s) t = 0 ∧ t ∉ s.tasks ∧ s.scheduled.count t = 0
  tasks : s.tasks.Nodup
  task : ∀ t ∈ s.tasks, place s.tw (jobs s) t = 0 ∧ (s.tw.timer t).repeats = true
  law : ∀ t, s.scheduled.count t = s.started.countP (fun x => x.id == t) + s.stopped.count t + s.dropped.count t + place s.tw (jobs s) t
  once : ∀ t, (s.tw.timer t).repeats = false → s.scheduled.count t ≤ 1

theorem count_snoc (l : List Nat) (a t : Nat) : (l ++ [a]).count t = l.count t + if t = a then 1 else 0 := by
  rw [List.count_append, List.count_singleton]
  congr 1
  by_cases h : t = a
  · simp [h]
  · simp [h]; exact fun e => h e.symm

/-- The part of the invariant that the steps of `add` do not touch. -/
theorem Inv.quiet {s s' : State} (h : Inv k0 W s) (ht : TInv k0 W s'.tw (jobs s') (s'.chan ++ held s'.run))
    (hp : ∀ t, place s'.tw (jobs s') t = place s.tw (jobs s) t) (hr : ∀ t, (s'.tw.timer t).repeats = (s.tw.timer t).repeats)
    (h1 : s'.next = s.next) (h2 : s'.tasks = s.tasks) (h3 : s'.scheduled = s.scheduled) (h4 : s'.started = s.started)
    (h5 : s'.stopped = s.stopped) (h6 : s'.dropped = s.dropped) : Inv k0 W s' where
  tw := ht
  fresh := fun t => by rw [hp, h1, h2, h3]; exact h.fresh t
  tasks := by rw [h2]; exact h.tasks
  task := fun t => by rw [hp, h2, hr]; exact h.task t
  law := fun t => by rw [hp, h3, h4, h5, h6]; exact h.law t
  once := fun t => by rw [hr, h3]; exact h.once t

/-- The state after scheduling the timer `t` as `m`. -/
def withAdder (s : State) (t : Nat) (m : Timer) (b : Bool) (n : Nat) (ts : List Nat) : State :=
  { s with tw := { s.tw with timer := put s.tw.timer t m }, next := n, tasks := ts, scheduled := s.scheduled ++ [t],
           adders := s.adders ++ [⟨t, b, .enter 0⟩] }

/-- A timer is scheduled. -/
theorem Inv.sched {s : State} (h : Inv k0 W s) {t : Nat} (ht : place s.tw (jobs s) t = 0) {m : Timer} (hm : m.bucket = none) {b : Bool} {n : Nat}
    {ts : List Nat} (hn : s.next ≤ n) (htn : t < n) (hts : ts.Sublist s.tasks) (htt : t ∉ ts)
    (ho : m.repeats = false → s.scheduled.count t = 0) :
    Inv k0 W (withAdder s t m b n ts) := by
  obtain ⟨h1, h2⟩ := h.tw.enter ht hm
  have hj : ((t, Pc.enter 0) :: jobs s).Perm (jobs (withAdder s t m b n ts)) := by
    unfold jobs withAdder
    simp only [List.map_append, List.map_cons, List.map_nil, List.append_assoc, List.cons_append, List.nil_append]
    exact List.perm_middle.symm
  have hp := fun t' => (place_perm (tw := { s.tw with timer := put s.tw.timer t m }) hj t').symm.trans (h2 t')
  refine ⟨h1.perm hj (fun _ h => h), ?_, hts.nodup h.tasks, ?_, ?_, ?_⟩
  · intro t' ht'
    have ht' : n ≤ t' := ht'
    obtain ⟨a1, a2, a3⟩ := h.fresh t' (by omega)
    have hne : t' ≠ t := by omega
    refine ⟨?_, fun hx => a2 (hts.subset hx), ?_⟩
    · exact (hp t').trans (by rw [a1, if_neg hne])
    · show (s.scheduled ++ [t]).count t' = 0
      rw [count_snoc, a3, if_neg hne]
  · intro t' ht'
    have ht' : t' ∈ ts := ht'
    have hne : t' ≠ t := by rintro rfl; exact htt ht'
    obtain ⟨a1, a2⟩ := h.task t' (hts.subset ht')
    refine ⟨(hp t').trans (by rw [a1, if_neg hne]), ?_⟩
    show (put s.tw.timer t m t').repeats = true
    rw [put_ne _ _ hne]
    exact a2
  · intro t'
    have h3 := h.law t'
    have h4 := hp t'
    show (s.scheduled ++ [t]).count t' = s.started.countP _ + s.stopped.count t' + s.dropped.count t' + place { s.tw with timer := put s.tw.timer t m } _ t'
    rw [h4, count_snoc, h3]
    omega
  · intro t' hr
    have hr : (put s.tw.timer t m t').repeats = false := hr
    show (s.scheduled ++ [t]).count t' ≤ 1
    rw [count_snoc]
    by_cases hne : t' = t
    · subst hne
      rw [put_self] at hr
      rw [ho hr]
      simp
    · rw [put_ne _ _ hne] at hr
      have := h.once t' hr
      rw [if_neg hne]
      exact this

/-- A timer that is in the hand of a goroutine is started. -/
theorem Inv.started {s s1 : State} (h : Inv k0 W s) {t : Nat} (hj : (jobs s).Perm ((t, .returned false) :: jobs s1))
    (e : ∃ ad rn, s1 = { s with adders := ad, run := rn }) (hx : ∀ r, r ∈ s.chan ++ held s.run → r ∈ s1.chan ++ held s1.run) :
    Inv k0 W (start s1 t) ∧ Inv k0 W { s1 with dropped := s1.dropped ++ [t] } := by
  have h1 : TInv k0 W s.tw (jobs s1) (s1.chan ++ held s1.run) := (h.tw.perm hj hx).leave
  have hp : ∀ t', place s.tw (jobs s) t' = place s.tw (jobs s1) t' + if t' = t then 1 else 0 := by
    intro t'
    rw [place_perm hj, place_cons]
    simp [holds]
  have hj1 : jobs (start s1 t) = jobs s1 := rfl
  have hj2 : jobs { s1 with dropped := s1.dropped ++ [t] } = jobs s1 := rfl
  have h0 : place s.tw (jobs s1) t = 0 := by
    have := hp t
    have := h.tw.one t
    rw [if_pos rfl] at *
    omega
  have hnt : t ∉ s.tasks := fun hx => by
    have := (h.task t hx).1
    have := hp t
    rw [if_pos rfl] at this
    omega
  have hlt : t < s.next := by
    by_contra hc
    have := (h.fresh t (by omega)).1
    have := hp t
    rw [if_pos rfl] at this
    omega
  obtain ⟨ad, rn, rfl⟩ := e
  generalize jobs { s with adders := ad, run := rn } = J at *
  have hfresh : ∀ t', s.next ≤ t' → place s.tw J t' = 0 ∧ t' ∉ s.tasks ∧ s.scheduled.count t' = 0 := by
    intro t' ht'
    obtain ⟨a1, a2, a3⟩ := h.fresh t' ht'
    have := hp t'
    exact ⟨by omega, a2, a3⟩
  have htask : ∀ t' ∈ s.tasks, place s.tw J t' = 0 ∧ (s.tw.timer t').repeats = true := by
    intro t' ht'
    obtain ⟨a1, a2⟩ := h.task t' ht'
    have := hp t'
    exact ⟨by omega, a2⟩
  constructor
  · refine ⟨by rw [hj1]; exact h1, ?_, ?_, ?_, ?_, ?_⟩
    · rw [hj1]
      intro t' ht'
      obtain ⟨a1, a2, a3⟩ := hfresh t' ht'
      refine ⟨a1, ?_, a3⟩
      unfold start
      dsimp only at ht' ⊢
      split
      · simp only [List.mem_append, List.mem_singleton, not_or]
        have hn : s.next ≤ t' := ht'
        exact ⟨a2, by omega⟩
      · exact a2
    · unfold start
      dsimp only
      split
      · rw [List.nodup_append]
        refine ⟨h.tasks, by simp, ?_⟩
        intro a ha b hb
        simp only [List.mem_singleton] at hb
        subst hb
        exact fun e => hnt (e ▸ ha)
      · exact h.tasks
    · rw [hj1]
      intro t' ht'
      unfold start at ht'
      dsimp only at ht'
      split at ht'
      · rename_i hrep
        simp only [List.mem_append, List.mem_singleton] at ht'
        rcases ht' with ht' | rfl
        · exact htask t' ht'
        · exact ⟨h0, hrep⟩
      · exact htask t' ht'
    · rw [hj1]
      intro t'
      have h3 := h.law t'
      have h4 := hp t'
      unfold start
      dsimp only
      rw [h3, h4, List.countP_append, List.countP_cons, List.countP_nil]
      by_cases e : t' = t
      · subst e; simp; omega
      · have : (t == t') = false := by simp; exact fun h => e h.symm
        simp [this, e]
    · exact h.once
  · refine ⟨by rw [hj2]; exact h1, by rw [hj2]; exact hfresh, h.tasks, by rw [hj2]; exact htask, ?_, h.once⟩
    intro t'
    have h3 := h.law t'
    have h4 := hp t'
    rw [hj2]
    show s.scheduled.count t' = s.started.countP _ + s.stopped.count t' + (s.dropped ++ [t]).count t' + place s.tw J t'
    rw [h3, h4, count_snoc]
    omega

theorem set_eq {α : Type} {l : List α} {i : Nat} {a b : α} (h : l[i]? = some a) :
    ∃ l1 l2, l = l1 ++ a :: l2 ∧ l.set i b = l1 ++ b :: l2 ∧ l.eraseIdx i = l1 ++ l2 := by
  induction l generalizing i with
  | nil => simp at h
  | cons c l ih =>
    cases i with
    | zero =>
      simp only [List.getElem?_cons_zero, Option.some.injEq] at h
      subst h
      exact ⟨[], l, rfl, rfl, rfl⟩
    | succ i =>
      rw [List.getElem?_cons_succ] at h
      obtain ⟨l1, l2, h1, h2, h3⟩ := ih h
      exact ⟨c :: l1, l2, by rw [h1]; rfl, by rw [List.set_cons_succ, h2]; rfl, by rw [List.eraseIdx_cons_succ, h3]; rfl⟩

theorem bucketAt_clear {ws : List Wheel} (h : Shape k0 W ws) (r r' : Ref) :
    bucketAt (setBucket ws r ⟨-1, []⟩) r' = if r' = r then ⟨-1, []⟩ else bucketAt ws r' := by
  by_cases hv : Valid W ws r
  · exact bucketAt_set h hv _ _
  · have h1 := bucketAt_invalid h hv
    have h2 : bucketAt (setBucket ws r ⟨-1, []⟩) r' = bucketAt ws r' := by
      unfold setBucket
      cases e : ws[r.level]? with
      | none => rfl
      | some w =>
        dsimp only
        have hb := (h.each _ _ e).2.2.2.2
        have hlt : r.level < ws.length := by
          by_contra hn
          rw [List.getElem?_eq_none (by omega)] at e
          cases e
        have hle : w.buckets.length ≤ r.slot := by
          have : ¬ r.slot < W := fun hs => hv ⟨hlt, hs⟩
          omega
        rw [List.set_eq_of_length_le hle]
        rw [show ({ w with buckets := w.buckets } : Wheel) = w from rfl]
        congr 1
        apply List.ext_getElem?
        intro i
        by_cases hi : r.level = i
        · subst hi; rw [List.getElem?_set_self hlt, e]
        · rw [List.getElem?_set_ne hi]
    rw [h2]
    split
    · rename_i e; rw [e, h1]; rfl
    · rfl

theorem exec_inv {s s' : State} {a : Act} (h : Inv k0 W s) (e : exec s a = some s') : Inv k0 W s' := by
  cases a with
  | tick d =>
    rw [exec] at e
    cases e
    exact h.quiet h.tw (fun _ => rfl) (fun _ => rfl) rfl rfl rfl rfl rfl rfl
  | after delay =>
    rw [exec] at e
    cases e
    obtain ⟨h1, h2, h3⟩ := h.fresh s.next (Nat.le_refl _)
    exact h.sched h1 rfl (by omega) (by omega) (List.Sublist.refl _) h2 (fun _ => h3)
  | schedule e' =>
    rw [exec] at e
    cases e
    obtain ⟨h1, h2, h3⟩ := h.fresh s.next (Nat.le_refl _)
    exact h.sched h1 rfl (by omega) (by omega) (List.Sublist.refl _) h2 (fun _ => h3)
  | again t e' =>
    rw [exec] at e
    split at e
    · rename_i ht
      cases e
      obtain ⟨h1, h2⟩ := h.task t ht
      refine h.sched h1 (m := { s.tw.timer t with exp := e' }) (place_zero h1) (Nat.le_refl _) ?_ List.erase_sublist ?_ ?_
      · by_contra hc
        exact (h.fresh t (by omega)).2.1 ht
      · intro hx
        exact (h.tasks.mem_erase_iff.1 hx).1 rfl
      · intro hr
        dsimp only at hr
        rw [h2] at hr
        cases hr
    · cases e
  | enough t =>
    rw [exec] at e
    split at e
    · cases e
      refine ⟨h.tw, ?_, h.tasks.erase t, ?_, h.law, h.once⟩
      · intro t' ht'
        obtain ⟨a1, a2, a3⟩ := h.fresh t' ht'
        exact ⟨a1, fun hx => a2 (List.mem_of_mem_erase hx), a3⟩
      · intro t' ht'
        exact h.task t' (List.mem_of_mem_erase ht')
    · cases e
  | act i =>
    rw [exec] at e
    cases ha : s.adders[i]? with
    | none => rw [ha] at e; cases e
    | some a =>
      obtain ⟨t, runs, pc⟩ := a
      rw [ha] at e
      have step : ∀ {pc0 : Pc}, pc = pc0 → (match addStep (locked s.run) s.tw t pc0 with
          | .ok (tw, pc) => some { s with tw := tw, adders := s.adders.set i ⟨t, runs, pc⟩ }
          | .error _ => none) = some s' → Inv k0 W s' := by
        intro pc0 hpc e
        subst hpc
        cases hs : addStep (locked s.run) s.tw t pc with
        | error x => rw [hs] at e; cases e
        | ok p =>
          obtain ⟨tw', pc'⟩ := p
          rw [hs] at e
          cases e
          obtain ⟨l1, l2, h1, h2, -⟩ := set_eq (b := (⟨t, runs, pc'⟩ : Adder)) ha
          have ht := h.tw
          have hj : jobs s = l1.map (fun a => (a.t, a.pc)) ++ (t, pc) :: (l2.map (fun a => (a.t, a.pc)) ++ runJob s.run) := by
            unfold jobs
            rw [h1]
            simp
          have hj' : jobs { s with tw := tw', adders := s.adders.set i ⟨t, runs, pc'⟩ } =
              l1.map (fun a => (a.t, a.pc)) ++ (t, pc') :: (l2.map (fun a => (a.t, a.pc)) ++ runJob s.run) := by
            unfold jobs
            dsimp only
            rw [h2]
            simp
          rw [hj] at ht
          obtain ⟨h3, h4⟩ := addStep_inv ht hs
          exact h.quiet (by rw [hj']; exact h3) (fun t' => by rw [hj', hj]; exact h4.place t') h4.reps rfl rfl rfl rfl rfl rfl
      cases pc with
      | returned ok =>
        dsimp only at e
        obtain ⟨l1, l2, h1, -, h2⟩ := set_eq (b := (⟨t, runs, .returned ok⟩ : Adder)) ha
        have hj : (jobs s).Perm ((t, .returned ok) :: jobs { s with adders := s.adders.eraseIdx i }) := by
          unfold jobs
          dsimp only
          rw [h2, h1]
          simp only [List.map_append, List.map_cons, List.append_assoc, List.cons_append]
          exact List.perm_middle
        cases ok with
        | true =>
          simp only [if_true, Option.some.injEq] at e
          subst e
          refine h.quiet (h.tw.perm hj (fun _ h => h)).leave ?_ (fun _ => rfl) rfl rfl rfl rfl rfl rfl
          intro t'
          show place s.tw _ t' = _
          rw [place_perm hj, place_cons]
          simp [holds]
        | false =>
          obtain ⟨a1, a2⟩ := h.started hj ⟨_, _, rfl⟩ (fun _ h => h)
          simp only [Bool.false_eq_true, if_false] at e
          split at e
          · cases e; exact a1
          · cases e; exact a2
      | enter l => exact step rfl e
      | loaded l c => exact step rfl e
      | inBucket r e' => exact step rfl e
      | pushing r => exact step rfl e
  | stop t =>
    rw [exec] at e
    cases hb : (s.tw.timer t).bucket with
    | none => rw [hb] at e; cases e
    | some r =>
      rw [hb] at e
      dsimp only at e
      split at e
      · cases e
      · cases e
        obtain ⟨h1, h2, h3⟩ := h.tw.out hb
        dsimp only at h1 h2 h3
        have hrep : ∀ t', (put s.tw.timer t { s.tw.timer t with bucket := none } t').repeats = (s.tw.timer t').repeats := by
          intro t'
          by_cases e : t' = t
          · subst e; rw [put_self]
          · rw [put_ne _ _ e]
        refine ⟨h1, ?_, h.tasks, ?_, ?_, ?_⟩
        · intro t' ht'
          obtain ⟨a1, a2, a3⟩ := h.fresh t' ht'
          exact ⟨Nat.le_zero.1 ((Nat.le_of_add_right_le (Nat.le_of_eq (h2 t'))).trans (Nat.le_of_eq a1)), a2, a3⟩
        · intro t' ht'
          obtain ⟨a1, a2⟩ := h.task t' ht'
          exact ⟨Nat.le_zero.1 ((Nat.le_of_add_right_le (Nat.le_of_eq (h2 t'))).trans (Nat.le_of_eq a1)), (hrep t').trans a2⟩
        · intro t'
          have h4 := h.law t'
          have h5 := h2 t'
          show s.scheduled.count t' = s.started.countP _ + (s.stopped ++ [t]).count t' + s.dropped.count t' + place _ (jobs s) t'
          rw [count_snoc, h4, ← h5]
          have : ∀ a b c d e : Nat, a + b + c + (d + e) = a + (b + e) + c + d := by omega
          exact this _ _ _ _ _
        · intro t' hr
          have hr : (put s.tw.timer t { s.tw.timer t with bucket := none } t').repeats = false := hr
          rw [hrep] at hr
          exact h.once t' hr
  | take =>
    rw [exec] at e
    cases hq : s.tw.queue[0]? with
    | none => rw [hq] at e; cases e
    | some r =>
      rw [hq] at e
      dsimp only at e
      split at e
      · cases hpop : Heap.pop (less s.tw.wheels) s.tw.queue with
        | error x => rw [hpop] at e; cases e
        | ok p =>
          obtain ⟨r', q⟩ := p
          rw [hpop] at e
          cases e
          obtain ⟨q0, hp1, hp2⟩ := pop_total s.tw.wheels hq
          rw [hpop] at hp1
          cases hp1
          refine h.quiet ⟨h.tw.shape, h.tw.pcs, h.tw.mem, h.tw.nodup, ?_, h.tw.full, h.tw.right, h.tw.one⟩ (fun _ => rfl) (fun _ => rfl) rfl rfl rfl
            rfl rfl rfl
          intro x hx
          rcases h.tw.reg x hx with h1 | h1 | h1
          · have h1 := hp2.mem_iff.2 h1
            rcases List.mem_cons.1 h1 with rfl | h1
            · exact .inr (.inl (by simp))
            · exact .inl h1
          · refine .inr (.inl ?_)
            simp only [List.mem_append] at h1 ⊢
            tauto
          · exact .inr (.inr h1)
      · cases e
  | advance =>
    rw [exec] at e
    cases hr : s.run with
    | idle =>
      cases hc : s.chan with
      | nil => rw [hr, hc] at e; cases e
      | cons r rest =>
        rw [hr, hc] at e
        dsimp only at e
        cases ha : advance (bucketAt s.tw.wheels r).exp s.tw.wheels with
        | error x => rw [ha] at e; cases e
        | ok ws =>
          rw [ha] at e
          cases e
          obtain ⟨h1, h2, h3⟩ := advance_shape h.tw.shape ha
          have hj : jobs { s with tw := { s.tw with wheels := ws }, chan := rest, run := .advanced r } = jobs s := by
            unfold jobs
            rw [hr]
            rfl
          refine h.quiet ?_ (fun t' => by rw [hj]; rfl) (fun _ => rfl) rfl rfl rfl rfl rfl rfl
          rw [hj]
          have ht := h.tw
          refine ⟨h1, fun a ha => pcOk_mono (by dsimp only; omega) (ht.pcs a ha), ?_, ?_, ?_, ?_, ?_, ht.one⟩
          · intro t' r'; dsimp only; rw [h2]; exact ht.mem t' r'
          · intro r'; dsimp only; rw [h2]; exact ht.nodup r'
          · intro r' hr'
            dsimp only at hr' ⊢
            rw [h2] at hr'
            rcases ht.reg r' hr' with h1 | h1 | h1
            · exact .inl h1
            · refine .inr (.inl ?_)
              rw [hr, hc] at h1
              simp only [held, List.append_nil, List.mem_cons, List.mem_append, List.mem_singleton] at h1 ⊢
              simp only [List.not_mem_nil, or_false]
              tauto
            · exact .inr (.inr h1)
          · intro r' hr'; dsimp only at hr' ⊢; rw [h2] at hr' ⊢; exact ht.full r' hr'
          · intro t' r' hr'; dsimp only at hr' ⊢; rw [h2] at hr'; exact ht.right t' r' hr'
    | advanced r => rw [hr] at e; cases e
    | flushing r => rw [hr] at e; cases e
    | moving r t pc => rw [hr] at e; cases e
  | lock =>
    rw [exec] at e
    cases hr : s.run with
    | advanced r =>
      rw [hr] at e
      cases e
      have hj : jobs { s with run := .flushing r } = jobs s := by unfold jobs; rw [hr]; rfl
      refine h.quiet ?_ (fun t' => by rw [hj]) (fun _ => rfl) rfl rfl rfl rfl rfl rfl
      rw [hj]
      have ht := h.tw
      rw [hr] at ht
      exact ht
    | idle => rw [hr] at e; cases e
    | flushing r => rw [hr] at e; cases e
    | moving r t pc => rw [hr] at e; cases e
  | unlink =>
    rw [exec] at e
    cases hr : s.run with
    | flushing r =>
      rw [hr] at e
      dsimp only at e
      cases htm : (bucketAt s.tw.wheels r).timers with
      | nil => rw [htm] at e; cases e
      | cons t ts =>
        rw [htm] at e
        cases e
        have hb := (h.tw.mem t r).2 (by rw [htm]; exact List.mem_cons_self)
        obtain ⟨h1, h2, h3⟩ := h.tw.out hb
        rw [htm, List.erase_cons_head] at h1 h2 h3
        dsimp only at h1 h2 h3
        generalize hws : setBucket s.tw.wheels r ⟨(bucketAt s.tw.wheels r).exp, ts⟩ = ws at *
        obtain ⟨h4, h5⟩ := h1.enter h3 (m := { s.tw.timer t with bucket := none }) rfl
        have hpp : put (put s.tw.timer t { s.tw.timer t with bucket := none }) t { s.tw.timer t with bucket := none } =
            put s.tw.timer t { s.tw.timer t with bucket := none } := by
          funext t'
          by_cases e : t' = t
          · subst e; rw [put_self, put_self]
          · rw [put_ne _ _ e]
        dsimp only at h4 h5
        rw [hpp] at h4 h5
        have hj : ((t, Pc.enter 0) :: jobs s).Perm (jobs { s with
            tw := ⟨ws, s.tw.queue, put s.tw.timer t { s.tw.timer t with bucket := none }⟩
            run := .moving r t (.enter 0) }) := by
          unfold jobs
          rw [hr]
          simp only [runJob, List.append_nil]
          exact (List.perm_append_singleton _ _).symm
        refine h.quiet ?_ ?_ ?_ rfl rfl rfl rfl rfl rfl
        · refine h4.perm hj ?_
          rw [hr]
          exact fun _ h => h
        · intro t'
          rw [← place_perm hj]
          show place ⟨ws, s.tw.queue, put s.tw.timer t { s.tw.timer t with bucket := none }⟩ _ t' = _
          rw [h5, h2]
        · intro t'
          show (put s.tw.timer t { s.tw.timer t with bucket := none } t').repeats = _
          by_cases e : t' = t
          · subst e; rw [put_self]
          · rw [put_ne _ _ e]
    | idle => rw [hr] at e; cases e
    | advanced r => rw [hr] at e; cases e
    | moving r t pc => rw [hr] at e; cases e
  | move =>
    rw [exec] at e
    cases hr : s.run with
    | moving r t pc =>
      rw [hr] at e
      have step : ∀ {pc0 : Pc}, pc = pc0 → (match addStep (some r) s.tw t pc0 with
          | .ok (tw, pc) => some { s with tw := tw, run := .moving r t pc }
          | .error _ => none) = some s' → Inv k0 W s' := by
        intro pc0 hpc e
        subst hpc
        cases hs : addStep (some r) s.tw t pc with
        | error x => rw [hs] at e; cases e
        | ok p =>
          obtain ⟨tw', pc'⟩ := p
          rw [hs] at e
          cases e
          have ht := h.tw
          have hj : jobs s = s.adders.map (fun a => (a.t, a.pc)) ++ (t, pc) :: [] := by
            unfold jobs
            rw [hr]
            rfl
          have hj' : jobs { s with tw := tw', run := .moving r t pc' } = s.adders.map (fun a => (a.t, a.pc)) ++ (t, pc') :: [] := rfl
          rw [hj, hr] at ht
          obtain ⟨h3, h4⟩ := addStep_inv ht hs
          exact h.quiet (by rw [hj']; exact h3) (fun t' => by rw [hj', hj]; exact h4.place t') h4.reps rfl rfl rfl rfl rfl rfl
      cases pc with
      | returned ok =>
        dsimp only at e
        have hj : (jobs s).Perm ((t, .returned ok) :: jobs { s with run := .flushing r }) := by
          unfold jobs
          rw [hr]
          simp only [runJob, List.append_nil]
          exact List.perm_append_singleton _ _
        have hx : ∀ x, x ∈ s.chan ++ held s.run → x ∈ s.chan ++ held (.flushing r) := by
          rw [hr]
          exact fun _ h => h
        cases ok with
        | true =>
          simp only [if_true, Option.some.injEq] at e
          subst e
          refine h.quiet (h.tw.perm hj hx).leave ?_ (fun _ => rfl) rfl rfl rfl rfl rfl rfl
          intro t'
          show place s.tw _ t' = _
          rw [place_perm hj, place_cons]
          simp [holds]
        | false =>
          obtain ⟨a1, -⟩ := h.started hj ⟨_, _, rfl⟩ hx
          simp only [Bool.false_eq_true, if_false] at e
          cases e
          exact a1
      | enter l => exact step rfl e
      | loaded l c => exact step rfl e
      | inBucket r e' => exact step rfl e
      | pushing r => exact step rfl e
    | idle => rw [hr] at e; cases e
    | advanced r => rw [hr] at e; cases e
    | flushing r => rw [hr] at e; cases e
  | done =>
    rw [exec] at e
    cases hr : s.run with
    | flushing r =>
      rw [hr] at e
      dsimp only at e
      split at e
      · rename_i hnil
        cases e
        have hj : jobs { s with tw := { s.tw with wheels := setBucket s.tw.wheels r ⟨-1, []⟩ }, run := .idle } = jobs s := by
          unfold jobs
          rw [hr]
          rfl
        have ht := h.tw
        have hbs := bucketAt_clear ht.shape r
        have htm : ∀ r', (bucketAt (setBucket s.tw.wheels r ⟨-1, []⟩) r').timers = (bucketAt s.tw.wheels r').timers := by
          intro r'
          rw [hbs]
          split
          · rename_i e; rw [e, hnil]
          · rfl
        refine h.quiet ?_ (fun t' => by rw [hj]; rfl) (fun _ => rfl) rfl rfl rfl rfl rfl rfl
        rw [hj]
        refine ⟨setBucket_shape ht.shape _ _, fun a ha => pcOk_mono (by dsimp only; rw [length_setBucket]) (ht.pcs a ha), ?_, ?_, ?_, ?_, ?_, ht.one⟩
        · intro t' r'; dsimp only; rw [htm]; exact ht.mem t' r'
        · intro r'; dsimp only; rw [htm]; exact ht.nodup r'
        · intro r' hr'
          dsimp only at hr' ⊢
          rw [hbs] at hr'
          split at hr'
          · exact absurd rfl hr'
          · rename_i hne
            rcases ht.reg r' hr' with h1 | h1 | h1
            · exact .inl h1
            · refine .inr (.inl ?_)
              rw [hr] at h1
              simp only [held, List.mem_append, List.mem_singleton, hne, or_false] at h1
              simp [h1]
            · exact .inr (.inr h1)
        · intro r' hr'
          dsimp only at hr' ⊢
          rw [htm] at hr'
          rw [hbs]
          split
          · rename_i e; rw [e] at hr'; exact absurd hnil hr'
          · exact ht.full r' hr'
        · intro t' r' hr'; dsimp only at hr' ⊢; rw [htm] at hr'; exact ht.right t' r' hr'
      · cases e
    | idle => rw [hr] at e; cases e
    | advanced r => rw [hr] at e; cases e
    | moving r t pc => rw [hr] at e; cases e

theorem init_inv {tick t0 : Int} (hk : 0 < tick) (hW : 1 < W) (ht : 0 ≤ t0) {tw : Tw} (e : TimingWheel.new tick W t0 = .ok tw) :
    Inv tick W (init tw t0) := by
  unfold TimingWheel.new newWheel at e
  rw [truncate_ok ht hk] at e
  simp only [Go.bind_ok] at e
  rw [if_neg (by omega), Go.bind_ok] at e
  cases e
  have hs : Shape tick W [⟨tick, W, tick * W, fl t0 tick, List.replicate (W : Int).toNat newBucket⟩] := by
    refine ⟨hk, hW, by simp, ?_⟩
    intro l w hw
    cases l with
    | zero =>
      simp only [List.getElem?_cons_zero, Option.some.injEq] at hw
      subst hw
      exact ⟨by rw [K_zero], rfl, by rw [K_succ, K_zero], fl_nonneg hk ht, by simp⟩
    | succ l => simp at hw
  have hb : ∀ r, bucketAt [⟨tick, W, tick * W, fl t0 tick, List.replicate (W : Int).toNat newBucket⟩] r = newBucket := by
    intro r
    unfold bucketAt
    cases r.level with
    | zero =>
      simp only [List.getElem?_cons_zero]
      rw [List.getElem?_replicate]
      split <;> rfl
    | succ l => simp
  refine ⟨⟨hs, ?_, ?_, ?_, ?_, ?_, ?_, ?_⟩, ?_, List.nodup_nil, ?_, ?_, ?_⟩
  · intro j hj; cases hj
  · intro t r; dsimp only [init]; rw [hb]; simp [newBucket]
  · intro r; dsimp only [init]; rw [hb]; exact List.nodup_nil
  · intro r hr; dsimp only [init] at hr; rw [hb] at hr; exact absurd rfl hr
  · intro r hr; dsimp only [init] at hr; rw [hb] at hr; exact absurd rfl hr
  · intro t r hr; dsimp only [init] at hr; rw [hb] at hr; cases hr
  · intro t; simp [place, init, jobs, runJob]
  · intro t _; simp [place, init, jobs, runJob]
  · intro t hx; cases hx
  · intro t; simp [place, init, jobs, runJob]
  · intro t _; simp [init]

theorem from_inv {o : Bool} {s s' : State} (h : Inv k0 W s) (f : From o s s') : Inv k0 W s' := by
  induction f with
  | refl => exact h
  | step a _ _ e ih => exact exec_inv ih e

theorem reach_inv {o : Bool} {tick t0 : Int} (hk : 0 < tick) (hW : 1 < W) (ht : 0 ≤ t0) {s : State} (h : Reach o tick W t0 s) : Inv tick W s := by
  obtain ⟨tw, e, f⟩ := h
  exact from_inv (init_inv hk hW ht e) f

theorem addStep_exp {lk : Option Ref} {tw tw' : Tw} {t : Nat} {pc pc' : Pc} (e : addStep lk tw t pc = .ok (tw', pc')) (t' : Nat) :
    (tw'.timer t').exp = (tw.timer t').exp := by
  cases pc with
  | enter l =>
    rw [addStep] at e
    split at e
    · cases e
    · cases e; rfl
  | loaded l cur =>
    rw [addStep] at e
    split at e
    · cases e
    · rename_i w hw
      split at e
      · cases e; rfl
      · split at e
        · cases h1 : quo (tw.timer t).exp w.tick with
          | error x => rw [h1] at e; cases e
          | ok q =>
            rw [h1, Go.bind_ok] at e
            cases h2 : rem q w.wheelSize with
            | error x => rw [h2] at e; cases e
            | ok i =>
              rw [h2, Go.bind_ok] at e
              split at e
              · cases e
              · cases h3 : Go.idx w.buckets i.toNat with
                | error x => rw [h3] at e; cases e
                | ok b =>
                  rw [h3, Go.bind_ok] at e
                  split at e
                  · cases e
                  · cases e
                    dsimp only
                    by_cases ht : t' = t
                    · subst ht; rw [put_self]
                    · rw [put_ne _ _ ht]
        · split at e
          · cases e; rfl
          · cases h1 : newWheel w.interval w.wheelSize cur with
            | error x => rw [h1] at e; cases e
            | ok o => rw [h1, Go.bind_ok] at e; cases e; rfl
  | inBucket r E => rw [addStep] at e; cases e; rfl
  | pushing r =>
    rw [addStep] at e
    cases h1 : Heap.push (less tw.wheels) tw.queue r with
    | error x => rw [h1] at e; cases e
    | ok q => rw [h1, Go.bind_ok] at e; cases e; rfl
  | returned ok => rw [addStep] at e; cases e; rfl

/-- The expiration of a pending timer does not change. -/
theorem exec_exp {s s' : State} {a : Act} (h : Inv k0 W s) (e : exec s a = some s') {t : Nat} (ht : 0 < place s.tw (jobs s) t) :
    (s'.tw.timer t).exp = (s.tw.timer t).exp := by
  have hlt : t < s.next := by
    by_contra hc
    have := (h.fresh t (by omega)).1
    omega
  have hnt : t ∉ s.tasks := fun hx => by
    have := (h.task t hx).1
    omega
  cases a with
  | tick d => rw [exec] at e; cases e; rfl
  | after delay => rw [exec] at e; cases e; dsimp only; rw [put_ne _ _ (by omega)]
  | schedule e' => rw [exec] at e; cases e; dsimp only; rw [put_ne _ _ (by omega)]
  | again t' e' =>
    rw [exec] at e
    split at e
    · rename_i hm
      cases e
      dsimp only
      rw [put_ne]
      rintro rfl
      exact hnt hm
    · cases e
  | enough t' =>
    rw [exec] at e
    split at e
    · cases e; rfl
    · cases e
  | act i =>
    rw [exec] at e
    split at e
    · cases e
    · dsimp only at e
      split at e
      · cases e; rfl
      · split at e
        · cases e; rfl
        · cases e; rfl
    · split at e
      · rename_i hs
        cases e
        exact addStep_exp hs t
      · cases e
  | stop t' =>
    rw [exec] at e
    split at e
    · cases e
    · split at e
      · cases e
      · cases e
        dsimp only
        by_cases ht' : t = t'
        · subst ht'; rw [put_self]
        · rw [put_ne _ _ ht']
  | take =>
    rw [exec] at e
    split at e
    · cases e
    · split at e
      · split at e
        · cases e; rfl
        · cases e
      · cases e
  | advance =>
    rw [exec] at e
    split at e
    · split at e
      · cases e; rfl
      · cases e
    · cases e
  | lock =>
    rw [exec] at e
    split at e
    · cases e; rfl
    · cases e
  | unlink =>
    rw [exec] at e
    split at e
    · split at e
      · cases e
      · rename_i t' ts hts
        cases e
        dsimp only
        by_cases ht' : t = t'
        · subst ht'; rw [put_self]
        · rw [put_ne _ _ ht']
    · cases e
  | move =>
    rw [exec] at e
    split at e
    · dsimp only at e
      split at e
      · cases e; rfl
      · cases e; rfl
    · split at e
      · rename_i hs
        cases e
        exact addStep_exp hs t
      · cases e
    · cases e
  | done =>
    rw [exec] at e
    split at e
    · split at e
      · cases e; rfl
      · cases e
    · cases e

/-- `Run` moves the timer back into the bucket whose mutex it holds. -/
structure Blocked (k0 : Int) (W : Nat) (s : State) (r : Ref) (t : Nat) (l : Nat) (cur : Int) : Prop where
  run : s.run = .moving r t (.loaded l cur)
  lo : cur + K k0 W l ≤ (s.tw.timer t).exp
  hi : (s.tw.timer t).exp < cur + K k0 W (l + 1)
  same : r.level = l ∧ (r.slot : Int) = (s.tw.timer t).exp / K k0 W l % W

theorem blocked_step {s : State} (h : Inv k0 W s) {r : Ref} {t l : Nat} {cur : Int} (b : Blocked k0 W s r t l cur) :
    addStep (some r) s.tw t (.loaded l cur) = .error .diverge := by
  have hpc := h.tw.pcs (t, .loaded l cur) (by unfold jobs; rw [b.run]; simp [runJob])
  obtain ⟨hl, hc⟩ := hpc
  have hl : l < s.tw.wheels.length := hl
  have hc : 0 ≤ cur := hc
  have hw := List.getElem?_eq_getElem hl
  obtain ⟨a1, a2, a3, a4, a5⟩ := h.tw.shape.each l _ hw
  generalize s.tw.wheels[l] = w at *
  have hk := h.tw.shape.kp l
  have hW := h.tw.shape.w
  obtain ⟨b1, b2, b3, b4, b5⟩ := b
  have he : 0 ≤ (s.tw.timer t).exp := by omega
  have hq0 : 0 ≤ (s.tw.timer t).exp / K k0 W l := Int.ediv_nonneg he (by omega)
  have hi0 : 0 ≤ (s.tw.timer t).exp / K k0 W l % (W : Int) := Int.emod_nonneg _ (by omega)
  have hi1 : (s.tw.timer t).exp / K k0 W l % (W : Int) < W := Int.emod_lt_of_pos _ (by omega)
  have hlt : ((s.tw.timer t).exp / K k0 W l % (W : Int)).toNat < w.buckets.length := by omega
  have hr : r = ⟨l, ((s.tw.timer t).exp / K k0 W l % (W : Int)).toNat⟩ := by
    cases r
    simp only [Ref.mk.injEq]
    dsimp only at b4 b5
    exact ⟨b4, by omega⟩
  rw [addStep, hw]
  dsimp only
  rw [a1, a3, if_neg (by omega), if_pos (by omega)]
  unfold quo rem
  rw [a2]
  simp only [if_neg (show ¬ K k0 W l = 0 by omega), if_neg (show ¬ (W : Int) = 0 by omega), Go.bind_ok,
    Int.tdiv_eq_ediv_of_nonneg he, Int.tmod_eq_emod_of_nonneg hq0,
    if_neg (show ¬ (s.tw.timer t).exp / K k0 W l % (W : Int) < 0 by omega), Go.idx_of_lt _ _ hlt]
  rw [if_pos (by rw [hr])]

theorem blocked_exec {s s' : State} {a : Act} (h : Inv k0 W s) {r : Ref} {t l : Nat} {cur : Int} (b : Blocked k0 W s r t l cur)
    (e : exec s a = some s') : Blocked k0 W s' r t l cur := by
  have hp : 0 < place s.tw (jobs s) t := by
    unfold place jobs
    rw [b.run, List.countP_append]
    simp [runJob, holds]
  have hx := exec_exp h e hp
  have hrun : s'.run = s.run := by
    have hb := b.run
    cases a with
    | tick d => rw [exec] at e; cases e; rfl
    | after delay => rw [exec] at e; cases e; rfl
    | schedule e' => rw [exec] at e; cases e; rfl
    | again t' e' =>
      rw [exec] at e
      split at e
      · cases e; rfl
      · cases e
    | enough t' =>
      rw [exec] at e
      split at e
      · cases e; rfl
      · cases e
    | act i =>
      rw [exec] at e
      split at e
      · cases e
      · dsimp only at e
        split at e
        · cases e; rfl
        · split at e
          · cases e; rfl
          · cases e; rfl
      · split at e
        · cases e; rfl
        · cases e
    | stop t' =>
      rw [exec] at e
      split at e
      · cases e
      · split at e
        · cases e
        · cases e; rfl
    | take =>
      rw [exec] at e
      split at e
      · cases e
      · split at e
        · split at e
          · cases e; rfl
          · cases e
        · cases e
    | advance => rw [exec, hb] at e; cases e
    | lock => rw [exec, hb] at e; cases e
    | unlink => rw [exec, hb] at e; cases e
    | move =>
      rw [exec, hb] at e
      dsimp only at e
      rw [blocked_step h b] at e
      cases e
    | done => rw [exec, hb] at e; cases e
  exact ⟨by rw [hrun, b.run], by rw [hx]; exact b.lo, by rw [hx]; exact b.hi, by rw [hx]; exact b.same⟩

theorem blocked_from {o : Bool} {s s' : State} (h : Inv k0 W s) {r : Ref} {t l : Nat} {cur : Int} (b : Blocked k0 W s r t l cur)
    (f : From o s s') : Blocked k0 W s' r t l cur := by
  induction f with
  | refl => exact b
  | step a f' _ e ih => exact blocked_exec (from_inv h f') ih e

/-! ## Executions with atomic `add` are executions -/

/-- Several actions of one `add`. -/
inductive Steps (lk : Option Ref) (t : Nat) : Tw → Pc → Tw → Pc → Prop
  | refl (tw pc) : Steps lk t tw pc tw pc
  | step {tw pc tw1 pc1 tw2 pc2} : (∀ ok, pc ≠ .returned ok) → addStep lk tw t pc = .ok (tw1, pc1) → Steps lk t tw1 pc1 tw2 pc2 →
      Steps lk t tw pc tw2 pc2

theorem setBucket_twice {ws : List Wheel} {l : Nat} {w : Wheel} (h : ws[l]? = some w) {i : Nat} {b : Bucket} (hi : w.buckets[i]? = some b)
    (b1 : Bucket) (b2 : Int) : setBucket (setBucket ws ⟨l, i⟩ b1) ⟨l, i⟩ ⟨b2, (bucketAt (setBucket ws ⟨l, i⟩ b1) ⟨l, i⟩).timers⟩ =
      setBucket ws ⟨l, i⟩ ⟨b2, b1.timers⟩ ∧ (bucketAt (setBucket ws ⟨l, i⟩ b1) ⟨l, i⟩) = b1 := by
  have hl : l < ws.length := (List.getElem?_eq_some_iff.1 h).1
  have hil : i < w.buckets.length := (List.getElem?_eq_some_iff.1 hi).1
  have e1 : setBucket ws ⟨l, i⟩ b1 = ws.set l { w with buckets := w.buckets.set i b1 } := setBucket_of (r := ⟨l, i⟩) h
  have e2 : (ws.set l { w with buckets := w.buckets.set i b1 })[l]? = some { w with buckets := w.buckets.set i b1 } :=
    List.getElem?_set_self hl
  have e3 : bucketAt (setBucket ws ⟨l, i⟩ b1) ⟨l, i⟩ = b1 := by
    rw [e1, bucketAt_of (r := ⟨l, i⟩) e2]
    dsimp only
    rw [List.getElem?_set_self hil, Option.getD_some]
  refine ⟨?_, e3⟩
  rw [e3, e1, setBucket_of (r := ⟨l, i⟩) e2, setBucket_of (r := ⟨l, i⟩) h]
  simp

theorem add_steps {lk : Option Ref} {t : Nat} : ∀ {fuel : Nat} {tw tw' : Tw} {l : Nat} {ok : Bool},
    TimingWheel.add fuel tw l t lk = .ok (tw', ok) → Steps lk t tw (.enter l) tw' (.returned ok)
  | 0, _, _, _, _, h => by cases h
  | fuel + 1, tw, tw', l, ok, h => by
    rw [TimingWheel.add] at h
    cases hw : tw.wheels[l]? with
    | none => rw [hw] at h; cases h
    | some w =>
      rw [hw] at h
      dsimp only at h
      refine .step (by simp) (tw1 := tw) (pc1 := .loaded l w.cur) (by rw [addStep, hw]) ?_
      split at h
      · rename_i hlo
        cases h
        refine .step (by simp) (by rw [addStep, hw]; dsimp only; rw [if_pos hlo]) (.refl _ _)
      · rename_i hlo
        split at h
        · rename_i hhi
          unfold TimingWheel.place at h
          cases h1 : quo (tw.timer t).exp w.tick with
          | error x => rw [h1] at h; cases h
          | ok ticks =>
            rw [h1, Go.bind_ok] at h
            cases h2 : rem ticks w.wheelSize with
            | error x => rw [h2] at h; cases h
            | ok i =>
              rw [h2, Go.bind_ok] at h
              split at h
              · cases h
              · rename_i hi
                cases h3 : Go.idx w.buckets i.toNat with
                | error x => rw [h3] at h; cases h
                | ok b =>
                  rw [h3, Go.bind_ok] at h
                  split at h
                  · cases h
                  · rename_i hlk
                    have hib : w.buckets[i.toNat]? = some b := by
                      unfold Go.idx at h3
                      split at h3
                      · rename_i x hx; cases h3; exact hx
                      · cases h3
                    obtain ⟨e1, e2⟩ := setBucket_twice hw hib ⟨b.exp, b.timers ++ [t]⟩ (ticks * w.tick)
                    refine .step (by simp) (by rw [addStep, hw]; dsimp only; rw [if_neg hlo, if_pos hhi, h1, Go.bind_ok, h2, Go.bind_ok, if_neg hi, h3,
                      Go.bind_ok, if_neg hlk]) ?_
                    refine .step (by simp) (by rw [addStep]) ?_
                    dsimp only
                    rw [e1, e2]
                    dsimp only
                    by_cases he : b.exp = ticks * w.tick
                    · rw [if_pos he, Go.bind_ok] at h
                      cases h
                      rw [if_pos he]
                      exact .refl _ _
                    · rw [if_neg he] at h
                      rw [if_neg he]
                      cases h4 : Heap.push (less (setBucket tw.wheels ⟨l, i.toNat⟩ ⟨ticks * w.tick, b.timers ++ [t]⟩)) tw.queue ⟨l, i.toNat⟩ with
                      | error x => rw [h4] at h; cases h
                      | ok q =>
                        rw [h4] at h
                        cases h
                        refine .step (by simp) (by rw [addStep]; dsimp only; rw [h4, Go.bind_ok]) (.refl _ _)
        · rename_i hhi
          unfold TimingWheel.overflow at h
          split at h
          · rename_i hov
            rw [Go.bind_ok] at h
            refine .step (by simp) (by rw [addStep, hw]; dsimp only; rw [if_neg hlo, if_neg hhi, if_pos hov]) (add_steps h)
          · rename_i hov
            cases h1 : newWheel w.interval w.wheelSize w.cur with
            | error x => rw [h1] at h; cases h
            | ok o =>
              rw [h1] at h
              simp only [Go.bind_ok] at h
              refine .step (by simp) (by rw [addStep, hw]; dsimp only; rw [if_neg hlo, if_neg hhi, if_neg hov, h1, Go.bind_ok]) (add_steps h)

def embedRun : TimingWheel.Run → Run
  | .idle => .idle
  | .advanced r => .advanced r
  | .flushing r => .flushing r
  | .moving r t => .moving r t (.enter 0)

/-- A state of Model/TimingWheel, as a state in which no goroutine is in `add`. -/
def embed (s : TimingWheel.State) : State :=
  ⟨s.tw, s.clock, s.next, s.chan, embedRun s.run, [], s.tasks, s.scheduled, s.started, s.stopped, s.dropped⟩

theorem locked_embed (r : TimingWheel.Run) : locked (embedRun r) = TimingWheel.locked r := by cases r <;> rfl

theorem adder_from {o : Bool} {s0 : State} {lk : Option Ref} {t : Nat} {b : Bool} {tw tw' : Tw} {pc pc' : Pc} (st : Steps lk t tw pc tw' pc')
    {s : State} (hl : locked s.run = lk) (f : From o s0 { s with tw := tw, adders := [⟨t, b, pc⟩] }) :
    From o s0 { s with tw := tw', adders := [⟨t, b, pc'⟩] } := by
  induction st with
  | refl => exact f
  | @step tw pc tw1 pc1 tw2 pc2 hne e _ ih =>
    refine ih (.step (.act 0) f (fun _ h => by cases h) ?_)
    subst hl
    cases pc with
    | returned ok => exact absurd rfl (hne ok)
    | enter l => rw [exec]; simp only [List.getElem?_cons_zero]; rw [e]; rfl
    | loaded l c => rw [exec]; simp only [List.getElem?_cons_zero]; rw [e]; rfl
    | inBucket r x => rw [exec]; simp only [List.getElem?_cons_zero]; rw [e]; rfl
    | pushing r => rw [exec]; simp only [List.getElem?_cons_zero]; rw [e]; rfl

theorem run_from {o : Bool} {s0 : State} {r : Ref} {t : Nat} {tw tw' : Tw} {pc pc' : Pc} (st : Steps (some r) t tw pc tw' pc')
    {s : State} (f : From o s0 { s with tw := tw, run := .moving r t pc }) : From o s0 { s with tw := tw', run := .moving r t pc' } := by
  induction st with
  | refl => exact f
  | @step tw pc tw1 pc1 tw2 pc2 hne e _ ih =>
    refine ih (.step .move f (fun _ h => by cases h) ?_)
    cases pc with
    | returned ok => exact absurd rfl (hne ok)
    | enter l => rw [exec]; dsimp only; rw [e]
    | loaded l c => rw [exec]; dsimp only; rw [e]
    | inBucket r x => rw [exec]; dsimp only; rw [e]
    | pushing r => rw [exec]; dsimp only; rw [e]

theorem embed_step {o : Bool} {k : TimingWheel.State → Ref → Prop}
    (hk : o = true → ∀ s r rest, s.chan = r :: rest → k s r → inOrder (embed s) = true) {s0 : State} {s s' : TimingWheel.State}
    (f : From o s0 (embed s)) (st : TimingWheel.Step k s s') : From o s0 (embed s') := by
  have nadv : ∀ {a : Act}, a ≠ .advance → (o = true → a = .advance → inOrder (embed s) = true) := fun h _ h' => absurd h' h
  cases st with
  | tick d hd =>
    refine .step (.tick d.toNat) f (nadv (by simp)) ?_
    rw [exec]
    unfold embed
    dsimp only
    rw [Int.toNat_of_nonneg hd]
  | afterFunc delay fuel tw ok ha =>
    have f1 := From.step (.after delay) f (nadv (by simp)) rfl
    rw [← locked_embed] at ha
    have f2 := adder_from (b := false) (s := { embed s with next := s.next + 1, scheduled := s.scheduled ++ [s.next] }) (add_steps ha) rfl f1
    refine .step (.act 0) f2 (fun _ h => by cases h) ?_
    rw [exec]
    cases ok <;> rfl
  | schedule e fuel tw ha =>
    have f1 := From.step (.schedule e) f (nadv (by simp)) rfl
    rw [← locked_embed] at ha
    have f2 := adder_from (b := true) (s := { embed s with next := s.next + 1, scheduled := s.scheduled ++ [s.next] }) (add_steps ha) rfl f1
    exact .step (.act 0) f2 (fun _ h => by cases h) rfl
  | scheduleRun e fuel tw ha =>
    have f1 := From.step (.schedule e) f (nadv (by simp)) rfl
    rw [← locked_embed] at ha
    have f2 := adder_from (b := true) (s := { embed s with next := s.next + 1, scheduled := s.scheduled ++ [s.next] }) (add_steps ha) rfl f1
    exact .step (.act 0) f2 (fun _ h => by cases h) rfl
  | again t e fuel tw ht ha =>
    have f1 := From.step (.again t e) f (nadv (by simp)) (by rw [exec, if_pos (show t ∈ (embed s).tasks from ht)])
    rw [← locked_embed] at ha
    have f2 := adder_from (b := true) (s := { embed s with tasks := s.tasks.erase t, scheduled := s.scheduled ++ [t] }) (add_steps ha) rfl f1
    exact .step (.act 0) f2 (fun _ h => by cases h) rfl
  | againRun t e fuel tw ht ha =>
    have f1 := From.step (.again t e) f (nadv (by simp)) (by rw [exec, if_pos (show t ∈ (embed s).tasks from ht)])
    rw [← locked_embed] at ha
    have f2 := adder_from (b := true) (s := { embed s with tasks := s.tasks.erase t, scheduled := s.scheduled ++ [t] }) (add_steps ha) rfl f1
    exact .step (.act 0) f2 (fun _ h => by cases h) rfl
  | enough t ht =>
    exact .step (.enough t) f (nadv (by simp)) (by rw [exec, if_pos (show t ∈ (embed s).tasks from ht)]; rfl)
  | stop t r hb hl =>
    refine .step (.stop t) f (nadv (by simp)) ?_
    rw [exec]
    rw [show ((embed s).tw.timer t).bucket = some r from hb]
    dsimp only
    rw [if_neg (by rw [show (embed s).run = embedRun s.run from rfl, locked_embed]; exact hl)]
    rfl
  | take r q hq hc hp =>
    refine .step .take f (nadv (by simp)) ?_
    rw [exec]
    rw [show (embed s).tw.queue[0]? = some r from hq]
    dsimp only
    rw [if_pos (show (embed s).clock > (bucketAt (embed s).tw.wheels r).exp from hc),
      show Heap.pop (less (embed s).tw.wheels) (embed s).tw.queue = .ok (r, q) from hp]
    rfl
  | advance r rest ws hr hc hk' ha =>
    refine .step .advance f (fun ho _ => hk ho s r rest hc hk') ?_
    rw [exec]
    rw [show (embed s).run = .idle from by show embedRun s.run = _; rw [hr]; rfl, show (embed s).chan = r :: rest from hc]
    dsimp only
    rw [show TimingWheel.advance (bucketAt (embed s).tw.wheels r).exp (embed s).tw.wheels = .ok ws from ha]
    rfl
  | lock r hr =>
    refine .step .lock f (nadv (by simp)) ?_
    rw [exec]
    rw [show (embed s).run = .advanced r from by show embedRun s.run = _; rw [hr]; rfl]
    rfl
  | unlink r t ts hr hts =>
    refine .step .unlink f (nadv (by simp)) ?_
    rw [exec]
    rw [show (embed s).run = .flushing r from by show embedRun s.run = _; rw [hr]; rfl]
    dsimp only
    rw [show (bucketAt (embed s).tw.wheels r).timers = t :: ts from hts]
    rfl
  | readd r t fuel tw hr ha =>
    have f1 : From o s0 { embed s with tw := s.tw, run := .moving r t (.enter 0) } := by
      have : embed s = { embed s with tw := s.tw, run := .moving r t (.enter 0) } := by unfold embed; rw [hr]; rfl
      rw [← this]
      exact f
    exact .step .move (run_from (add_steps ha) f1) (fun _ h => by cases h) rfl
  | fire r t fuel tw hr ha =>
    have f1 : From o s0 { embed s with tw := s.tw, run := .moving r t (.enter 0) } := by
      have : embed s = { embed s with tw := s.tw, run := .moving r t (.enter 0) } := by unfold embed; rw [hr]; rfl
      rw [← this]
      exact f
    exact .step .move (run_from (add_steps ha) f1) (fun _ h => by cases h) rfl
  | done r hr hts =>
    refine .step .done f (nadv (by simp)) ?_
    rw [exec]
    rw [show (embed s).run = .flushing r from by show embedRun s.run = _; rw [hr]; rfl]
    dsimp only
    rw [if_pos (show (bucketAt (embed s).tw.wheels r).timers = [] from hts)]
    rfl

end Verif.TimingFine
