import Verif.Model.Timing64
import Verif.Proof.TimingPaced

/-!
# Proofs about Model/Timing64
-/

namespace Verif.TimingFine

open Mutex (put put_self put_ne)
open TimingWheel (Ref Bucket Wheel Timer Tw Start newBucket bucketAt setBucket less rem quo curTime truncate newWheel advance K K_zero K_succ K_pos fl fl_le fl_nonneg
  length_setBucket setBucket_of)

variable {k0 : Int} {W : Nat} {B : Int}

def PcFits (B : Int) : Pc → Prop
  | .loaded _ cur => cur ≤ B
  | .inBucket _ e => e ≤ B
  | _ => True

/-- No time is greater than `B`. -/
structure Fits (B : Int) (tw : Tw) : Prop where
  wheels : ∀ w ∈ tw.wheels, w.tick ≤ B ∧ w.cur ≤ B
  exps : ∀ r, (bucketAt tw.wheels r).exp ≤ B
  timers : ∀ t, (tw.timer t).exp ≤ B

structure FitsS (B : Int) (s : State) : Prop where
  tw : Fits B s.tw
  adders : ∀ a ∈ s.adders, PcFits B a.pc
  run : ∀ r t pc, s.run = .moving r t pc → PcFits B pc

theorem bucketAt_setBucket (ws : List Wheel) (r : Ref) (b : Bucket) (r' : Ref) :
    bucketAt (setBucket ws r b) r' = b ∨ bucketAt (setBucket ws r b) r' = bucketAt ws r' := by
  unfold setBucket
  cases e : ws[r.level]? with
  | none => exact .inr rfl
  | some w =>
    dsimp only
    unfold bucketAt
    by_cases hl : r'.level = r.level
    · rw [hl, List.getElem?_set_self (by rw [List.getElem?_eq_some_iff] at e; exact e.1), e]
      dsimp only
      by_cases hs : r'.slot = r.slot
      · rw [hs]
        by_cases hlt : r.slot < w.buckets.length
        · rw [List.getElem?_set_self hlt]; exact .inl rfl
        · rw [List.set_eq_of_length_le (by omega)]; exact .inr rfl
      · rw [List.getElem?_set_ne (by omega)]; exact .inr rfl
    · rw [List.getElem?_set_ne (by omega)]; exact .inr rfl

theorem mem_setBucket {ws : List Wheel} {r : Ref} {b : Bucket} {w : Wheel} (h : w ∈ setBucket ws r b) :
    ∃ w' ∈ ws, w.tick = w'.tick ∧ w.cur = w'.cur := by
  unfold setBucket at h
  cases e : ws[r.level]? with
  | none => rw [e] at h; exact ⟨w, h, rfl, rfl⟩
  | some w0 =>
    rw [e] at h
    dsimp only at h
    rcases List.mem_or_eq_of_mem_set h with h | rfl
    · exact ⟨w, h, rfl, rfl⟩
    · exact ⟨w0, List.mem_of_getElem? e, rfl, rfl⟩

theorem Fits.setBucket {tw : Tw} (h : Fits B tw) (r : Ref) {b : Bucket} (hb : b.exp ≤ B) (q : List Ref) {f : Nat → Timer}
    (hf : ∀ t, (f t).exp = (tw.timer t).exp) : Fits B ⟨setBucket tw.wheels r b, q, f⟩ := by
  refine ⟨?_, ?_, fun t => by dsimp only; rw [hf]; exact h.timers t⟩
  · intro w hw
    obtain ⟨w', h1, h2, h3⟩ := mem_setBucket hw
    rw [h2, h3]
    exact h.wheels w' h1
  · intro r'
    dsimp only
    rcases bucketAt_setBucket tw.wheels r b r' with e | e <;> rw [e]
    · exact hb
    · exact h.exps r'

theorem put_exp (f : Nat → Timer) (t : Nat) (m : Timer) (hm : m.exp = (f t).exp) (t' : Nat) : (put f t m t').exp = (f t').exp := by
  by_cases e : t' = t
  · subst e; rw [put_self, hm]
  · rw [put_ne _ _ e]

theorem wrap_id {x : Int} (h1 : 0 ≤ x) (h2 : x < 2 ^ 63) : wrap64 x = x := wrap64_of_in ⟨by omega, h2⟩

theorem truncate64_eq {c k : Int} (h0 : 0 ≤ c) (h1 : c < 2 ^ 63) (hk : 0 < k) : truncate64 c k = truncate c k := by
  unfold truncate64 truncate rem
  rw [if_neg (by omega)]
  simp only [Go.bind_ok]
  rw [wrap_id]
  · have := Int.tmod_eq_emod_of_nonneg h0 (b := k)
    have h3 : c % k ≤ c := by
      have := Int.mul_ediv_add_emod c k
      have h4 : 0 ≤ c / k := Int.ediv_nonneg h0 (by omega)
      have := Int.mul_nonneg (show 0 ≤ k by omega) h4
      omega
    omega
  · have := Int.tmod_eq_emod_of_nonneg h0 (b := k)
    have := Int.emod_nonneg c (show k ≠ 0 by omega)
    omega

theorem truncate_range {c k x : Int} (h0 : 0 ≤ c) (hk : 0 < k) (e : truncate c k = .ok x) : 0 ≤ x ∧ x ≤ c := by
  rw [TimingWheel.truncate_ok h0 hk] at e
  cases e
  exact ⟨fl_nonneg hk h0, fl_le hk⟩

theorem newWheel64_eq {k c : Int} (hB : B * W + B < 2 ^ 63) (hk : 0 < k) (hkB : k ≤ B) (h0 : 0 ≤ c) (hc : c ≤ B) : newWheel64 k W c = newWheel k W c := by
  have h1 : k * W ≤ B * W := Int.mul_le_mul_of_nonneg_right hkB (by omega)
  have h2 : 0 ≤ k * W := Int.mul_nonneg (by omega) (by omega)
  have h3 : 0 ≤ B * (W : Int) := by omega
  unfold newWheel64 newWheel
  rw [truncate64_eq h0 (by omega) hk, wrap_id h2 (by omega)]

/-- In range the arithmetic does not wrap around. -/
theorem addStep64_eq {lk : Option Ref} {tw : Tw} {t : Nat} {pc : Pc} (hB : B * W + B < 2 ^ 63) (hs : Shape k0 W tw.wheels) (hpc : PcOk W tw.wheels pc)
    (hf : Fits B tw) (hp : PcFits B pc) : addStep64 lk tw t pc = addStep lk tw t pc := by
  cases pc with
  | enter l => rfl
  | inBucket r e => rfl
  | pushing r => rfl
  | returned ok => rfl
  | loaded l cur =>
    obtain ⟨hl, hc0⟩ := hpc
    have hcB : cur ≤ B := hp
    have hW := hs.w
    have hw := List.getElem?_eq_getElem hl
    obtain ⟨a1, a2, a3, a4, a5⟩ := hs.each l _ hw
    have b1 := (hf.wheels _ (List.getElem_mem hl)).1
    rw [addStep64, addStep, hw]
    dsimp only
    generalize tw.wheels[l] = w at *
    have hk := hs.kp l
    have hB0 : 0 ≤ B := by omega
    have hBW : 0 ≤ B * (W : Int) := Int.mul_nonneg hB0 (by omega)
    have hB2 : B * 2 ≤ B * (W : Int) := Int.mul_le_mul_of_nonneg_left (by omega) hB0
    have hi : w.interval ≤ B * W := by
      rw [a3, K_succ, ← a1]
      exact Int.mul_le_mul_of_nonneg_right b1 (by omega)
    have hi0 : 0 < w.interval := by rw [a3]; exact hs.kp (l + 1)
    rw [wrap_id (x := cur + w.tick) (by omega) (by omega), wrap_id (x := cur + w.interval) (by omega) (by omega)]
    have hx := hf.timers t
    split
    · rfl
    · rename_i n1
      split
      · have hx0 : 0 ≤ (tw.timer t).exp := by omega
        unfold quo rem
        rw [if_neg (by omega)]
        simp only [Go.bind_ok]
        have hq0 : 0 ≤ (tw.timer t).exp / w.tick := Int.ediv_nonneg hx0 (by omega)
        have hqm : (tw.timer t).exp / w.tick * w.tick ≤ (tw.timer t).exp := Int.ediv_mul_le _ (by omega)
        have hqm0 : 0 ≤ (tw.timer t).exp / w.tick * w.tick := Int.mul_nonneg hq0 (by omega)
        have hq1 : (tw.timer t).exp / w.tick ≤ (tw.timer t).exp := Int.ediv_le_self _ hx0
        rw [Int.tdiv_eq_ediv_of_nonneg hx0, wrap_id hq0 (by omega), wrap_id hqm0 (by omega)]
      · rename_i n2
        split
        · rfl
        · rw [a2, newWheel64_eq hB hi0 (by omega) hc0 hcB]

theorem addStep_fits {lk : Option Ref} {tw tw' : Tw} {t : Nat} {pc pc' : Pc} (hs : Shape k0 W tw.wheels) (hpc : PcOk W tw.wheels pc)
    (hf : Fits B tw) (hp : PcFits B pc) (e : addStep lk tw t pc = .ok (tw', pc')) : Fits B tw' ∧ PcFits B pc' := by
  cases pc with
  | enter l =>
    rw [addStep] at e
    split at e
    · cases e
    · rename_i w hw
      cases e
      exact ⟨hf, (hf.wheels w (List.mem_of_getElem? hw)).2⟩
  | inBucket r x =>
    rw [addStep] at e
    cases e
    refine ⟨hf.setBucket r (b := ⟨x, _⟩) hp tw.queue (fun _ => rfl), ?_⟩
    split <;> trivial
  | pushing r =>
    rw [addStep] at e
    cases hq : Heap.push (less tw.wheels) tw.queue r with
    | error x => rw [hq] at e; cases e
    | ok q =>
      rw [hq] at e
      cases e
      exact ⟨⟨hf.wheels, hf.exps, hf.timers⟩, trivial⟩
  | returned ok => rw [addStep] at e; cases e; exact ⟨hf, trivial⟩
  | loaded l cur =>
    obtain ⟨hl, hc0⟩ := hpc
    have hcB : cur ≤ B := hp
    have hw := List.getElem?_eq_getElem hl
    obtain ⟨a1, a2, a3, a4, a5⟩ := hs.each l _ hw
    rw [addStep, hw] at e
    dsimp only at e
    generalize tw.wheels[l] = w at *
    have hk := hs.kp l
    have hx := hf.timers t
    split at e
    · cases e; exact ⟨hf, trivial⟩
    · rename_i n1
      split at e
      · have hx0 : 0 ≤ (tw.timer t).exp := by omega
        unfold quo rem at e
        rw [if_neg (by omega)] at e
        simp only [Go.bind_ok] at e
        have hq0 : 0 ≤ (tw.timer t).exp / w.tick := Int.ediv_nonneg hx0 (by omega)
        have hqm : (tw.timer t).exp / w.tick * w.tick ≤ (tw.timer t).exp := Int.ediv_mul_le _ (by omega)
        rw [if_neg (by have := hs.w; omega)] at e
        simp only [Go.bind_ok] at e
        split at e
        · cases e
        · cases hb : Go.idx w.buckets (((tw.timer t).exp.tdiv w.tick).tmod w.wheelSize).toNat with
          | error x => rw [hb] at e; cases e
          | ok b =>
            rw [hb] at e
            simp only [Go.bind_ok] at e
            split at e
            · cases e
            · simp only [Except.ok.injEq, Prod.mk.injEq] at e
              obtain ⟨rfl, rfl⟩ := e
              have hbe : b.exp ≤ B := by
                have := hf.exps ⟨l, (((tw.timer t).exp.tdiv w.tick).tmod w.wheelSize).toNat⟩
                unfold bucketAt at this
                rw [hw] at this
                dsimp only at this
                unfold Go.idx at hb
                split at hb
                · rename_i v hv; rw [hv] at this; cases hb; exact this
                · cases hb
              refine ⟨hf.setBucket _ (b := ⟨b.exp, b.timers ++ [t]⟩) hbe _ (put_exp tw.timer t ⟨_, _, _⟩ rfl), ?_⟩
              show (tw.timer t).exp.tdiv w.tick * w.tick ≤ B
              rw [Int.tdiv_eq_ediv_of_nonneg hx0]
              omega
      · rename_i n2
        split at e
        · cases e; exact ⟨hf, trivial⟩
        · cases hn : newWheel w.interval w.wheelSize cur with
          | error x => rw [hn] at e; cases e
          | ok o =>
            rw [hn] at e
            simp only [Go.bind_ok, Except.ok.injEq, Prod.mk.injEq] at e
            obtain ⟨rfl, rfl⟩ := e
            have hi0 : 0 < w.interval := by rw [a3]; exact hs.kp (l + 1)
            unfold newWheel at hn
            rw [TimingWheel.truncate_ok hc0 hi0] at hn
            simp only [Go.bind_ok] at hn
            split at hn
            · cases hn
            · cases hn
              refine ⟨⟨?_, ?_, hf.timers⟩, trivial⟩
              · intro w' hw'
                rcases List.mem_append.1 hw' with h1 | h1
                · exact hf.wheels w' h1
                · simp only [List.mem_singleton] at h1
                  subst h1
                  have := fl_le hi0 (x := cur)
                  dsimp only
                  omega
              · intro r
                dsimp only
                unfold bucketAt
                by_cases hr : r.level < tw.wheels.length
                · rw [List.getElem?_append_left hr]; exact hf.exps r
                · rw [List.getElem?_append_right (by omega)]
                  cases hd : r.level - tw.wheels.length with
                  | zero =>
                    simp only [List.getElem?_cons_zero]
                    rw [List.getElem?_replicate]
                    split
                    · show (-1 : Int) ≤ B; omega
                    · show (-1 : Int) ≤ B; omega
                  | succ n => simp only [List.getElem?_cons_succ, List.getElem?_nil]; show (-1 : Int) ≤ B; omega

theorem advance64_eq {ws : List Wheel} (hB : 2 * B < 2 ^ 63) (hw : ∀ w ∈ ws, 0 < w.tick ∧ 0 ≤ w.cur ∧ w.tick ≤ B ∧ w.cur ≤ B) {e : Int} (he : e ≤ B) :
    advance64 e ws = advance e ws := by
  induction ws generalizing e with
  | nil => rfl
  | cons w ws ih =>
    obtain ⟨h1, h2, h3, h4⟩ := hw w (List.mem_cons_self ..)
    rw [advance64, advance, wrap_id (by omega) (by omega)]
    split
    · rename_i hge
      rw [truncate64_eq (by omega) (by omega) h1]
      cases ht : truncate e w.tick with
      | error x => rfl
      | ok c =>
        simp only [Go.bind_ok]
        have := truncate_range (by omega) h1 ht
        rw [ih (fun w' hw' => hw w' (List.mem_cons_of_mem _ hw')) (by omega)]
    · rfl

theorem advance_fits {ws ws' : List Wheel} (hw : ∀ w ∈ ws, 0 < w.tick ∧ 0 ≤ w.cur ∧ w.tick ≤ B ∧ w.cur ≤ B) {e : Int} (he : e ≤ B)
    (ha : advance e ws = .ok ws') : ∀ w ∈ ws', w.tick ≤ B ∧ w.cur ≤ B := by
  induction ws generalizing e ws' with
  | nil => rw [advance] at ha; cases ha; intro w hw; cases hw
  | cons w ws ih =>
    obtain ⟨h1, h2, h3, h4⟩ := hw w (List.mem_cons_self ..)
    rw [advance] at ha
    split at ha
    · rename_i hge
      cases ht : truncate e w.tick with
      | error x => rw [ht] at ha; cases ha
      | ok c =>
        rw [ht] at ha
        simp only [Go.bind_ok] at ha
        have hr := truncate_range (by omega) h1 ht
        cases hr' : advance c ws with
        | error x => rw [hr'] at ha; cases ha
        | ok ws1 =>
          rw [hr'] at ha
          cases ha
          intro w' hw'
          rcases List.mem_cons.1 hw' with rfl | hw'
          · exact ⟨h3, by dsimp only; omega⟩
          · exact ih (fun w' hw' => hw w' (List.mem_cons_of_mem _ hw')) (by omega) hr' w' hw'
    · cases ha
      intro w' hw'
      exact ⟨(hw w' hw').2.2.1, (hw w' hw').2.2.2⟩

theorem fits_wheels {tw : Tw} (hs : Shape k0 W tw.wheels) (hf : Fits B tw) : ∀ w ∈ tw.wheels, 0 < w.tick ∧ 0 ≤ w.cur ∧ w.tick ≤ B ∧ w.cur ≤ B := by
  intro w hw
  obtain ⟨i, hi⟩ := List.getElem?_of_mem hw
  obtain ⟨h1, -, -, h4, -⟩ := hs.each i w hi
  exact ⟨by rw [h1]; exact hs.kp i, h4, hf.wheels w hw⟩

/-- The times that the action brings in are not greater than `B`, and fit into 64 bits. -/
def Small (B : Int) (s : State) : Act → Prop
  | .after delay => -2 ^ 63 ≤ s.clock + delay ∧ s.clock + delay ≤ B
  | .schedule e => -2 ^ 63 ≤ e ∧ e ≤ B
  | .again _ e => -2 ^ 63 ≤ e ∧ e ≤ B
  | _ => True

theorem exec64_eq {s : State} {a : Act} (hB : B * W + B < 2 ^ 63) (hB0 : 0 ≤ B) (h : Inv k0 W s) (hf : FitsS B s) (hg : Small B s a) :
    exec64 s a = exec s a := by
  have hW := h.tw.shape.w
  have hB2 : B * 2 ≤ B * (W : Int) := Int.mul_le_mul_of_nonneg_left (by omega) hB0
  cases a with
  | tick d => rfl
  | after delay =>
    obtain ⟨h1, h2⟩ := hg
    rw [exec64, wrap64_of_in ⟨h1, by omega⟩, show s.clock + delay - s.clock = delay by omega]
  | schedule e =>
    obtain ⟨h1, h2⟩ := hg
    rw [exec64, wrap64_of_in ⟨h1, by omega⟩]
  | again t e =>
    obtain ⟨h1, h2⟩ := hg
    rw [exec64, wrap64_of_in ⟨h1, by omega⟩]
  | enough t => rfl
  | act i =>
    rw [exec64, exec]
    cases ha : s.adders[i]? with
    | none => rfl
    | some a =>
      obtain ⟨t, runs, pc⟩ := a
      have hm := List.mem_of_getElem? ha
      have hpc : PcOk W s.tw.wheels pc := h.tw.pcs (t, pc) (by unfold jobs; exact List.mem_append_left _ (List.mem_map.2 ⟨_, hm, rfl⟩))
      have he := addStep64_eq (lk := locked s.run) (t := t) hB h.tw.shape hpc hf.tw (hf.adders _ hm)
      cases pc with
      | returned ok => rfl
      | enter l => dsimp only; rw [he]; rcases addStep _ _ _ _ with x | ⟨_, _⟩ <;> rfl
      | loaded l c => dsimp only; rw [he]; rcases addStep _ _ _ _ with x | ⟨_, _⟩ <;> rfl
      | inBucket r e' => dsimp only; rw [he]; rcases addStep _ _ _ _ with x | ⟨_, _⟩ <;> rfl
      | pushing r => dsimp only; rw [he]; rcases addStep _ _ _ _ with x | ⟨_, _⟩ <;> rfl
  | stop t => rfl
  | take => rfl
  | advance =>
    rw [exec64, exec]
    cases hr : s.run with
    | idle =>
      cases hc : s.chan with
      | nil => rfl
      | cons r rest =>
        dsimp only
        rw [advance64_eq (by omega) (fits_wheels h.tw.shape hf.tw) (hf.tw.exps r)]
        cases advance _ _ <;> rfl
    | advanced r => rfl
    | flushing r => rfl
    | moving r t pc => rfl
  | lock => rfl
  | unlink => rfl
  | move =>
    rw [exec64, exec]
    cases hr : s.run with
    | moving r t pc =>
      have hpc : PcOk W s.tw.wheels pc := h.tw.pcs (t, pc) (by unfold jobs; rw [hr]; simp [runJob])
      have he := addStep64_eq (lk := some r) (t := t) hB h.tw.shape hpc hf.tw (hf.run r t pc hr)
      cases pc with
      | returned ok => rfl
      | enter l => dsimp only; rw [he]; rcases addStep _ _ _ _ with x | ⟨_, _⟩ <;> rfl
      | loaded l c => dsimp only; rw [he]; rcases addStep _ _ _ _ with x | ⟨_, _⟩ <;> rfl
      | inBucket r e' => dsimp only; rw [he]; rcases addStep _ _ _ _ with x | ⟨_, _⟩ <;> rfl
      | pushing r => dsimp only; rw [he]; rcases addStep _ _ _ _ with x | ⟨_, _⟩ <;> rfl
    | idle => rfl
    | advanced r => rfl
    | flushing r => rfl
  | done => rfl

theorem fits_put {tw : Tw} (h : Fits B tw) (t : Nat) (m : Timer) (hm : m.exp ≤ B) : Fits B { tw with timer := put tw.timer t m } := by
  refine ⟨h.wheels, h.exps, fun t' => ?_⟩
  dsimp only
  by_cases e : t' = t
  · subst e; rw [put_self]; exact hm
  · rw [put_ne _ _ e]; exact h.timers t'

theorem adders_snoc {l : List Adder} {a : Adder} (h : ∀ a ∈ l, PcFits B a.pc) (ha : PcFits B a.pc) : ∀ x ∈ l ++ [a], PcFits B x.pc := by
  intro x hx
  rcases List.mem_append.1 hx with hx | hx
  · exact h x hx
  · simp only [List.mem_singleton] at hx
    subst hx
    exact ha

theorem exec_fits {s s' : State} {a : Act} (hB0 : 0 ≤ B) (h : Inv k0 W s) (hf : FitsS B s) (hg : Small B s a) (e : exec s a = some s') : FitsS B s' := by
  cases a with
  | tick d => rw [exec] at e; cases e; exact ⟨hf.tw, hf.adders, hf.run⟩
  | after delay => rw [exec] at e; cases e; exact ⟨fits_put hf.tw _ _ hg.2, adders_snoc hf.adders trivial, hf.run⟩
  | schedule x => rw [exec] at e; cases e; exact ⟨fits_put hf.tw _ _ hg.2, adders_snoc hf.adders trivial, hf.run⟩
  | again t x =>
    rw [exec] at e
    split at e
    · cases e; exact ⟨fits_put hf.tw _ _ hg.2, adders_snoc hf.adders trivial, hf.run⟩
    · cases e
  | enough t =>
    rw [exec] at e
    split at e
    · cases e; exact ⟨hf.tw, hf.adders, hf.run⟩
    · cases e
  | act i =>
    rw [exec] at e
    cases ha : s.adders[i]? with
    | none => rw [ha] at e; cases e
    | some a =>
      obtain ⟨t, runs, pc⟩ := a
      rw [ha] at e
      have hm := List.mem_of_getElem? ha
      have hpc : PcOk W s.tw.wheels pc := h.tw.pcs (t, pc) (by unfold jobs; exact List.mem_append_left _ (List.mem_map.2 ⟨_, hm, rfl⟩))
      have step : ∀ {pc0 : Pc}, pc = pc0 → (match addStep (locked s.run) s.tw t pc0 with
          | .ok (tw, pc) => some { s with tw := tw, adders := s.adders.set i ⟨t, runs, pc⟩ }
          | .error _ => none) = some s' → FitsS B s' := by
        intro pc0 hp e
        subst hp
        cases hs : addStep (locked s.run) s.tw t pc with
        | error x => rw [hs] at e; cases e
        | ok p =>
          obtain ⟨tw', pc'⟩ := p
          rw [hs] at e
          cases e
          obtain ⟨h1, h2⟩ := addStep_fits h.tw.shape hpc hf.tw (hf.adders _ hm) hs
          refine ⟨h1, fun x hx => ?_, hf.run⟩
          rcases List.mem_or_eq_of_mem_set hx with hx | rfl
          · exact hf.adders x hx
          · exact h2
      have erase : ∀ x ∈ s.adders.eraseIdx i, PcFits B x.pc := fun x hx => hf.adders x (List.mem_of_mem_eraseIdx hx)
      cases pc with
      | returned ok =>
        dsimp only at e
        split at e
        · cases e; exact ⟨hf.tw, erase, hf.run⟩
        · split at e
          · cases e; exact ⟨hf.tw, erase, hf.run⟩
          · cases e; exact ⟨hf.tw, erase, hf.run⟩
      | enter l => exact step rfl e
      | loaded l c => exact step rfl e
      | inBucket r e' => exact step rfl e
      | pushing r => exact step rfl e
  | stop t =>
    rw [exec] at e
    split at e
    · cases e
    · split at e
      · cases e
      · cases e
        refine ⟨Fits.setBucket hf.tw _ ?_ _ ?_, hf.adders, hf.run⟩
        · exact hf.tw.exps _
        · exact put_exp _ _ _ rfl
  | take =>
    rw [exec] at e
    split at e
    · cases e
    · split at e
      · split at e
        · cases e; exact ⟨⟨hf.tw.wheels, hf.tw.exps, hf.tw.timers⟩, hf.adders, hf.run⟩
        · cases e
      · cases e
  | advance =>
    rw [exec] at e
    cases hr : s.run with
    | idle =>
      cases hc : s.chan with
      | nil => rw [hr, hc] at e; cases e
      | cons r rest =>
        rw [hr, hc] at e
        dsimp only at e
        cases ha : advance (bucketAt s.tw.wheels r).exp s.tw.wheels with
        | error x => rw [ha] at e; cases e
        | ok ws =>
          rw [ha] at e
          cases e
          obtain ⟨-, h2, -⟩ := advance_shape h.tw.shape ha
          exact ⟨⟨advance_fits (fits_wheels h.tw.shape hf.tw) (hf.tw.exps r) ha, fun r => by dsimp only; rw [h2]; exact hf.tw.exps r, hf.tw.timers⟩,
            hf.adders, fun _ _ _ hx => by cases hx⟩
    | advanced r => rw [hr] at e; cases e
    | flushing r => rw [hr] at e; cases e
    | moving r t pc => rw [hr] at e; cases e
  | lock =>
    rw [exec] at e
    split at e
    · cases e; exact ⟨hf.tw, hf.adders, fun _ _ _ hx => by cases hx⟩
    · cases e
  | unlink =>
    rw [exec] at e
    split at e
    · split at e
      · cases e
      · cases e
        refine ⟨Fits.setBucket hf.tw _ ?_ _ ?_, hf.adders, fun _ _ _ hx => by cases hx; trivial⟩
        · exact hf.tw.exps _
        · exact put_exp _ _ _ rfl
    · cases e
  | move =>
    rw [exec] at e
    cases hr : s.run with
    | moving r t pc =>
      rw [hr] at e
      have hpc : PcOk W s.tw.wheels pc := h.tw.pcs (t, pc) (by unfold jobs; rw [hr]; simp [runJob])
      have step : ∀ {pc0 : Pc}, pc = pc0 → (match addStep (some r) s.tw t pc0 with
          | .ok (tw, pc) => some { s with tw := tw, run := .moving r t pc }
          | .error _ => none) = some s' → FitsS B s' := by
        intro pc0 hp e
        subst hp
        cases hs : addStep (some r) s.tw t pc with
        | error x => rw [hs] at e; cases e
        | ok p =>
          obtain ⟨tw', pc'⟩ := p
          rw [hs] at e
          cases e
          obtain ⟨h1, h2⟩ := addStep_fits h.tw.shape hpc hf.tw (hf.run r t pc hr) hs
          exact ⟨h1, hf.adders, fun _ _ _ hx => by cases hx; exact h2⟩
      cases pc with
      | returned ok =>
        dsimp only at e
        split at e
        · cases e; exact ⟨hf.tw, hf.adders, fun _ _ _ hx => by cases hx⟩
        · cases e; exact ⟨hf.tw, hf.adders, fun _ _ _ hx => by cases hx⟩
      | enter l => exact step rfl e
      | loaded l c => exact step rfl e
      | inBucket r e' => exact step rfl e
      | pushing r => exact step rfl e
    | idle => rw [hr] at e; cases e
    | advanced r => rw [hr] at e; cases e
    | flushing r => rw [hr] at e; cases e
  | done =>
    rw [exec] at e
    split at e
    · split at e
      · cases e
        exact ⟨hf.tw.setBucket _ (b := ⟨-1, []⟩) (by show (-1 : Int) ≤ B; omega) _ (fun _ => rfl), hf.adders, fun _ _ _ hx => by cases hx⟩
      · cases e
    · cases e

theorem init_fits {tick t0 : Int} (hk : 0 < tick) (ht : 0 ≤ t0) (h1 : tick ≤ B) (h2 : t0 ≤ B) {tw : Tw} (e : TimingWheel.new tick W t0 = .ok tw) :
    FitsS B (init tw t0) := by
  unfold TimingWheel.new newWheel at e
  rw [TimingWheel.truncate_ok ht hk] at e
  simp only [Go.bind_ok] at e
  rw [if_neg (by omega), Go.bind_ok] at e
  cases e
  refine ⟨⟨?_, ?_, ?_⟩, (fun a ha => by cases ha), fun _ _ _ hx => by cases hx⟩
  · intro w hw
    simp only [init, List.mem_singleton] at hw
    subst hw
    have := fl_le hk (x := t0)
    exact ⟨h1, by dsimp only; omega⟩
  · intro r
    dsimp only [init]
    unfold bucketAt
    cases r.level with
    | zero =>
      simp only [List.getElem?_cons_zero]
      rw [List.getElem?_replicate]
      split
      · show (-1 : Int) ≤ B; omega
      · show (-1 : Int) ≤ B; omega
    | succ l => simp only [List.getElem?_cons_succ, List.getElem?_nil]; show (-1 : Int) ≤ B; omega
  · intro t
    show (0 : Int) ≤ B
    omega

/-- With times in range the two machines have the same executions. -/
theorem from64_iff {g : State → Act → Prop} (hB : B * W + B < 2 ^ 63) (hB0 : 0 ≤ B) (hg : ∀ s a, g s a → Small B s a) {s0 : State} (h : Inv k0 W s0)
    (hf : FitsS B s0) {s : State} : FromG exec64 g s0 s ↔ FromG exec g s0 s := by
  have key : ∀ {s}, FromG exec g s0 s → Inv k0 W s ∧ FitsS B s := by
    intro s hx
    induction hx with
    | refl => exact ⟨h, hf⟩
    | step a _ ga e ih => exact ⟨exec_inv ih.1 e, exec_fits hB0 ih.1 ih.2 (hg _ _ ga) e⟩
  constructor
  · intro hx
    induction hx with
    | refl => exact .refl
    | step a _ ga e ih =>
      obtain ⟨h1, h2⟩ := key ih
      rw [exec64_eq hB hB0 h1 h2 (hg _ _ ga)] at e
      exact .step a ih ga e
  · intro hx
    induction hx with
    | refl => exact .refl
    | step a hp ga e ih =>
      obtain ⟨h1, h2⟩ := key hp
      rw [← exec64_eq hB hB0 h1 h2 (hg _ _ ga)] at e
      exact .step a ih ga e

/-! ## A wheel that is stuck -/

/-- The wheel at a level, but for its time and the contents of its buckets. -/
def IsWheel (tick wheelSize interval : Int) (n : Nat) (w : Wheel) : Prop :=
  w.tick = tick ∧ w.wheelSize = wheelSize ∧ w.interval = interval ∧ w.buckets.length = n

theorem setBucket_isWheel {ws : List Wheel} {l : Nat} {w : Wheel} {a b c : Int} {n : Nat} (h : ws[l]? = some w) (hw : IsWheel a b c n w) (r : Ref) (x : Bucket) :
    ∃ w', (setBucket ws r x)[l]? = some w' ∧ IsWheel a b c n w' := by
  unfold setBucket
  cases e : ws[r.level]? with
  | none => exact ⟨w, h, hw⟩
  | some w0 =>
    dsimp only
    by_cases hl : r.level = l
    · subst hl
      rw [e] at h
      cases h
      rw [List.getElem?_set_self (by rw [List.getElem?_eq_some_iff] at e; exact e.1)]
      exact ⟨_, rfl, hw.1, hw.2.1, hw.2.2.1, by dsimp only; rw [List.length_set]; exact hw.2.2.2⟩
    · rw [List.getElem?_set_ne hl]
      exact ⟨w, h, hw⟩

theorem addStep64_keeps {lk : Option Ref} {tw tw' : Tw} {t : Nat} {pc pc' : Pc} (e : addStep64 lk tw t pc = .ok (tw', pc')) :
    (∀ t', (tw'.timer t').exp = (tw.timer t').exp) ∧
    ∀ {l : Nat} {w : Wheel} {a b c : Int} {n : Nat}, tw.wheels[l]? = some w → IsWheel a b c n w → ∃ w', tw'.wheels[l]? = some w' ∧ IsWheel a b c n w' := by
  cases pc with
  | enter l =>
    rw [addStep64, addStep] at e
    · split at e
      · cases e
      · cases e; exact ⟨fun _ => rfl, fun h1 h2 => ⟨_, h1, h2⟩⟩
    · intro _ _ hx; cases hx
  | inBucket r x =>
    rw [addStep64, addStep] at e
    · cases e
      exact ⟨fun _ => rfl, fun h1 h2 => setBucket_isWheel h1 h2 _ _⟩
    · intro _ _ hx; cases hx
  | pushing r =>
    rw [addStep64, addStep] at e
    · cases hq : Heap.push (less tw.wheels) tw.queue r with
      | error x => rw [hq] at e; cases e
      | ok q =>
        rw [hq] at e
        cases e
        exact ⟨fun _ => rfl, fun h1 h2 => ⟨_, h1, h2⟩⟩
    · intro _ _ hx; cases hx
  | returned ok =>
    rw [addStep64, addStep] at e
    · cases e; exact ⟨fun _ => rfl, fun h1 h2 => ⟨_, h1, h2⟩⟩
    · intro _ _ hx; cases hx
  | loaded l cur =>
    rw [addStep64] at e
    split at e
    · cases e
    · rename_i w hw
      split at e
      · cases e; exact ⟨fun _ => rfl, fun h1 h2 => ⟨_, h1, h2⟩⟩
      · split at e
        · cases hq : quo (tw.timer t).exp w.tick with
          | error x => rw [hq] at e; cases e
          | ok ticks =>
            rw [hq] at e
            simp only [Go.bind_ok] at e
            cases hi : rem (wrap64 ticks) w.wheelSize with
            | error x => rw [hi] at e; cases e
            | ok i =>
              rw [hi] at e
              simp only [Go.bind_ok] at e
              split at e
              · cases e
              · cases hb : Go.idx w.buckets i.toNat with
                | error x => rw [hb] at e; cases e
                | ok b =>
                  rw [hb] at e
                  simp only [Go.bind_ok] at e
                  split at e
                  · cases e
                  · cases e
                    exact ⟨put_exp _ _ _ rfl, fun h1 h2 => setBucket_isWheel h1 h2 _ _⟩
        · split at e
          · cases e; exact ⟨fun _ => rfl, fun h1 h2 => ⟨_, h1, h2⟩⟩
          · cases hn : newWheel64 w.interval w.wheelSize cur with
            | error x => rw [hn] at e; cases e
            | ok o =>
              rw [hn] at e
              simp only [Go.bind_ok, Except.ok.injEq, Prod.mk.injEq] at e
              obtain ⟨rfl, rfl⟩ := e
              refine ⟨fun _ => rfl, fun h1 h2 => ⟨_, ?_, h2⟩⟩
              dsimp only
              rw [List.getElem?_append_left (by rw [List.getElem?_eq_some_iff] at h1; exact h1.1)]
              exact h1

/-- `Run` is to put the timer into the bucket whose mutex it holds. -/
structure Stuck (r : Ref) (t l : Nat) (cur E a b c : Int) (n : Nat) (s : State) : Prop where
  run : s.run = .moving r t (.loaded l cur)
  old : t < s.next
  noTask : t ∉ s.tasks
  noAdder : ∀ x ∈ s.adders, x.t ≠ t
  exp : (s.tw.timer t).exp = E
  wheel : ∃ w, s.tw.wheels[l]? = some w ∧ IsWheel a b c n w

theorem stuck_step {r : Ref} {t l : Nat} {cur E a b c : Int} {n : Nat} {s : State} (h : Stuck r t l cur E a b c n s)
    (h1 : ¬ E < wrap64 (cur + a)) (h2 : E < wrap64 (cur + c)) (ha : a ≠ 0) (hb : b ≠ 0)
    (hr : 0 ≤ (wrap64 (E.tdiv a)).tmod b) (hn : ((wrap64 (E.tdiv a)).tmod b).toNat < n) (he : r = ⟨l, ((wrap64 (E.tdiv a)).tmod b).toNat⟩) :
    addStep64 (some r) s.tw t (.loaded l cur) = .error .diverge := by
  obtain ⟨w, hw, w1, w2, w3, w4⟩ := h.wheel
  rw [addStep64, hw]
  dsimp only
  rw [w1, w2, w3, h.exp, if_neg h1, if_pos h2]
  unfold quo rem
  simp only [if_neg ha, if_neg hb, Go.bind_ok, if_neg (show ¬ (wrap64 (E.tdiv a)).tmod b < 0 by omega),
    Go.idx_of_lt _ _ (show ((wrap64 (E.tdiv a)).tmod b).toNat < w.buckets.length by omega)]
  rw [if_pos (by rw [he])]

theorem stuck_exec {r : Ref} {t l : Nat} {cur E a b c : Int} {n : Nat} {s s' : State} {x : Act} (h : Stuck r t l cur E a b c n s)
    (hd : ∀ s, Stuck r t l cur E a b c n s → addStep64 (some r) s.tw t (.loaded l cur) = .error .diverge) (e : exec64 s x = some s') :
    Stuck r t l cur E a b c n s' := by
  have snoc : ∀ {t' : Nat} {b : Bool} {pc : Pc}, t' ≠ t → ∀ x ∈ s.adders ++ [⟨t', b, pc⟩], x.t ≠ t := by
    intro t' b pc ht x hx
    rcases List.mem_append.1 hx with hx | hx
    · exact h.noAdder x hx
    · simp only [List.mem_singleton] at hx
      subst hx
      exact ht
  have hold := h.old
  have putNext : ∀ m, (put s.tw.timer s.next m t).exp = E := by
    intro m
    rw [put_ne _ _ (by omega)]
    exact h.exp
  have hrun := h.run
  cases x with
  | tick d =>
    rw [exec64, exec] at e
    · cases e; exact ⟨h.run, h.old, h.noTask, h.noAdder, h.exp, h.wheel⟩
    all_goals (intros; contradiction)
  | after delay =>
    rw [exec64, exec] at e
    cases e
    exact ⟨h.run, by dsimp only; omega, h.noTask, snoc (by omega), putNext _, h.wheel⟩
  | schedule y =>
    rw [exec64, exec] at e
    cases e
    exact ⟨h.run, by dsimp only; omega, h.noTask, snoc (by omega), putNext _, h.wheel⟩
  | again t' y =>
    rw [exec64, exec] at e
    split at e
    · rename_i ht
      cases e
      have hne : t' ≠ t := by rintro rfl; exact h.noTask ht
      exact ⟨h.run, h.old, fun hx => h.noTask (List.mem_of_mem_erase hx), snoc hne, by dsimp only; rw [put_ne _ _ (Ne.symm hne)]; exact h.exp, h.wheel⟩
    · cases e
  | enough t' =>
    rw [exec64, exec] at e
    · split at e
      · cases e
        exact ⟨h.run, h.old, fun hx => h.noTask (List.mem_of_mem_erase hx), h.noAdder, h.exp, h.wheel⟩
      · cases e
    all_goals (intros; contradiction)
  | act i =>
    rw [exec64] at e
    cases ha : s.adders[i]? with
    | none => rw [ha] at e; cases e
    | some y =>
      obtain ⟨t', runs, pc⟩ := y
      rw [ha] at e
      have hm := h.noAdder _ (List.mem_of_getElem? ha)
      have erase : ∀ x ∈ s.adders.eraseIdx i, x.t ≠ t := fun x hx => h.noAdder x (List.mem_of_mem_eraseIdx hx)
      have step : ∀ {pc0 : Pc}, pc = pc0 → (match addStep64 (locked s.run) s.tw t' pc0 with
          | .ok (tw, pc) => some { s with tw := tw, adders := s.adders.set i ⟨t', runs, pc⟩ }
          | .error _ => none) = some s' → Stuck r t l cur E a b c n s' := by
        intro pc0 hp e
        subst hp
        cases hs : addStep64 (locked s.run) s.tw t' pc with
        | error x => rw [hs] at e; cases e
        | ok p =>
          obtain ⟨tw', pc'⟩ := p
          rw [hs] at e
          cases e
          obtain ⟨k1, k2⟩ := addStep64_keeps hs
          obtain ⟨w, w1, w2⟩ := h.wheel
          refine ⟨h.run, h.old, h.noTask, fun x hx => ?_, by dsimp only; rw [k1]; exact h.exp, k2 w1 w2⟩
          rcases List.mem_or_eq_of_mem_set hx with hx | rfl
          · exact h.noAdder x hx
          · exact hm
      cases pc with
      | returned ok =>
        dsimp only at e
        split at e
        · cases e; exact ⟨h.run, h.old, h.noTask, erase, h.exp, h.wheel⟩
        · split at e
          · cases e
            refine ⟨h.run, h.old, ?_, erase, h.exp, h.wheel⟩
            unfold start
            dsimp only
            split
            · simp only [List.mem_append, List.mem_singleton, not_or]
              exact ⟨h.noTask, Ne.symm hm⟩
            · exact h.noTask
          · cases e; exact ⟨h.run, h.old, h.noTask, erase, h.exp, h.wheel⟩
      | enter l => exact step rfl e
      | loaded l c => exact step rfl e
      | inBucket r e' => exact step rfl e
      | pushing r => exact step rfl e
  | stop t' =>
    rw [exec64, exec] at e
    · split at e
      · cases e
      · split at e
        · cases e
        · cases e
          obtain ⟨w, w1, w2⟩ := h.wheel
          refine ⟨h.run, h.old, h.noTask, h.noAdder, ?_, setBucket_isWheel w1 w2 _ _⟩
          exact (put_exp s.tw.timer t' ⟨(s.tw.timer t').exp, none, (s.tw.timer t').repeats⟩ rfl t).trans h.exp
    all_goals (intros; contradiction)
  | take =>
    rw [exec64, exec] at e
    · split at e
      · cases e
      · split at e
        · split at e
          · cases e; exact ⟨h.run, h.old, h.noTask, h.noAdder, h.exp, h.wheel⟩
          · cases e
        · cases e
    all_goals (intros; contradiction)
  | advance => rw [exec64, hrun] at e; cases e
  | lock =>
    rw [exec64, exec, hrun] at e
    · cases e
    all_goals (intros; contradiction)
  | unlink =>
    rw [exec64, exec, hrun] at e
    · cases e
    all_goals (intros; contradiction)
  | move =>
    rw [exec64, hrun] at e
    dsimp only at e
    rw [hd s h] at e
    cases e
  | done =>
    rw [exec64, exec, hrun] at e
    · cases e
    all_goals (intros; contradiction)

theorem stuck_from {g : State → Act → Prop} {r : Ref} {t l : Nat} {cur E a b c : Int} {n : Nat} {s s' : State} (h : Stuck r t l cur E a b c n s)
    (hd : ∀ s, Stuck r t l cur E a b c n s → addStep64 (some r) s.tw t (.loaded l cur) = .error .diverge) (f : FromG exec64 g s s') :
    Stuck r t l cur E a b c n s' := by
  induction f with
  | refl => exact h
  | step x _ _ e ih => exact stuck_exec ih hd e

end Verif.TimingFine
