import Mathlib.Tactic.Linarith
import Verif.Model.TimingWheel
import Verif.Proof.Heap
import Verif.Props.Heap
import Verif.Proof.Mutex

/-! # The timing wheel: arithmetic, buckets, `add`, `advance` -/

namespace Verif.TimingWheel

open Mutex (put put_self put_ne)

/-! ## Rounding down -/

/-- `x` rounded down to a multiple of `k`. -/
def fl (x k : Int) : Int := x / k * k

theorem fl_dvd (x k : Int) : k ∣ fl x k := ⟨x / k, by unfold fl; exact Int.mul_comm ..⟩

theorem fl_le {x k : Int} (hk : 0 < k) : fl x k ≤ x := Int.ediv_mul_le _ (by omega)

theorem lt_fl {x k : Int} (hk : 0 < k) : x < fl x k + k := by
  have := Int.lt_ediv_add_one_mul_self x hk
  unfold fl
  rw [Int.add_mul, Int.one_mul] at this
  exact this

theorem fl_of_dvd {x k : Int} (h : k ∣ x) : fl x k = x := Int.ediv_mul_cancel h

theorem dvd_lt {a b k : Int} (ha : k ∣ a) (hb : k ∣ b) (hlt : a < b + k) (hk : 0 < k) : a ≤ b := by
  obtain ⟨u, rfl⟩ := ha
  obtain ⟨v, rfl⟩ := hb
  have : u < v + 1 := by
    by_contra hn
    have : k * (v + 1) ≤ k * u := Int.mul_le_mul_of_nonneg_left (by omega) (by omega)
    rw [Int.mul_add, Int.mul_one] at this
    omega
  exact Int.mul_le_mul_of_nonneg_left (by omega) (by omega)

theorem le_fl {m x k : Int} (hk : 0 < k) (hd : k ∣ m) (h : m ≤ x) : m ≤ fl x k :=
  dvd_lt hd (fl_dvd x k) (Int.lt_of_le_of_lt h (lt_fl hk)) hk

theorem fl_unique {m x k : Int} (hk : 0 < k) (hd : k ∣ m) (h1 : m ≤ x) (h2 : x < m + k) : fl x k = m :=
  Int.le_antisymm (dvd_lt (fl_dvd x k) hd (Int.lt_of_le_of_lt (fl_le hk) h2) hk) (le_fl hk hd h1)

theorem fl_mono {x y k : Int} (hk : 0 < k) (h : x ≤ y) : fl x k ≤ fl y k :=
  le_fl hk (fl_dvd x k) (Int.le_trans (fl_le hk) h)

theorem fl_fl {x k k' : Int} (hk : 0 < k) (hk' : 0 < k') (hd : k ∣ k') : fl (fl x k) k' = fl x k' := by
  refine fl_unique hk' (fl_dvd _ _) ?_ ?_
  · exact le_fl hk (Int.dvd_trans hd (fl_dvd _ _)) (fl_le hk')
  · exact Int.lt_of_le_of_lt (fl_le hk) (lt_fl hk')

theorem fl_nonneg {x k : Int} (hk : 0 < k) (h : 0 ≤ x) : 0 ≤ fl x k := le_fl hk (Int.dvd_zero k) h

theorem truncate_ok {x k : Int} (hx : 0 ≤ x) (hk : 0 < k) : truncate x k = .ok (fl x k) := by
  unfold truncate rem fl
  rw [if_neg (by omega), Go.bind_ok, Int.tmod_eq_emod_of_nonneg hx]
  congr 1
  have := Int.ediv_mul_add_emod x k
  omega

/-! ## The levels -/

/-- The tick of level `l`. -/
def K (k0 : Int) (W : Nat) (l : Nat) : Int := k0 * (W : Int) ^ l

section
variable {k0 : Int} {W : Nat}

theorem K_zero : K k0 W 0 = k0 := by simp [K]

theorem K_succ (l : Nat) : K k0 W (l + 1) = K k0 W l * W := by
  unfold K
  rw [Int.pow_succ, Int.mul_assoc]

theorem K_pos (h0 : 0 < k0) (hW : 0 < W) (l : Nat) : 0 < K k0 W l :=
  Int.mul_pos h0 (Int.pow_pos (by omega))

theorem K_dvd {l m : Nat} (h : l ≤ m) : K k0 W l ∣ K k0 W m := by
  obtain ⟨d, rfl⟩ := Nat.le.dest h
  exact ⟨(W : Int) ^ d, by unfold K; rw [Int.pow_add, Int.mul_assoc]⟩

theorem K_le (h0 : 0 < k0) (hW : 0 < W) {l m : Nat} (h : l ≤ m) : K k0 W l ≤ K k0 W m :=
  Int.le_of_dvd (K_pos h0 hW m) (K_dvd h)

/-- The slot of a bucket with expiration `E` at level `l`. -/
def slotOf (k0 : Int) (W : Nat) (l : Nat) (E : Int) : Nat := (E / K k0 W l % W).toNat

/-- Two multiples of the tick within one turn of the wheel that share a slot are equal. -/
theorem slot_inj (h0 : 0 < k0) (hW : 0 < W) {l : Nat} {c E1 E2 : Int} (d1 : K k0 W l ∣ E1) (d2 : K k0 W l ∣ E2)
    (a1 : c ≤ E1) (b1 : E1 < c + K k0 W (l + 1)) (a2 : c ≤ E2) (b2 : E2 < c + K k0 W (l + 1))
    (hs : slotOf k0 W l E1 = slotOf k0 W l E2) : E1 = E2 := by
  have hk := K_pos h0 hW l
  have hW' : (W : Int) ≠ 0 := by omega
  obtain ⟨u, rfl⟩ := d1
  obtain ⟨v, rfl⟩ := d2
  unfold slotOf at hs
  rw [Int.mul_ediv_cancel_left _ (by omega), Int.mul_ediv_cancel_left _ (by omega)] at hs
  rw [K_succ] at b1 b2
  have h1 := Int.emod_nonneg u hW'
  have h2 := Int.emod_nonneg v hW'
  have hmod : u % W = v % W := by omega
  have huv : u - v < W := by
    by_contra hn
    have : K k0 W l * W ≤ K k0 W l * (u - v) := Int.mul_le_mul_of_nonneg_left (by omega) (by omega)
    rw [Int.mul_sub] at this
    omega
  have hvu : v - u < W := by
    by_contra hn
    have : K k0 W l * W ≤ K k0 W l * (v - u) := Int.mul_le_mul_of_nonneg_left (by omega) (by omega)
    rw [Int.mul_sub] at this
    omega
  have : (W : Int) ∣ u - v := Int.dvd_of_emod_eq_zero (Int.emod_eq_emod_iff_emod_sub_eq_zero.1 hmod)
  obtain ⟨q, hq⟩ := this
  have : q = 0 := by
    rcases Int.lt_trichotomy q 0 with h | h | h
    · have : (W : Int) * q ≤ W * (-1) := Int.mul_le_mul_of_nonneg_left (by omega) (by omega)
      omega
    · exact h
    · have : (W : Int) * 1 ≤ W * q := Int.mul_le_mul_of_nonneg_left (by omega) (by omega)
      omega
  subst this
  have : u = v := by omega
  rw [this]

/-- The wheels have the shape the constructor and `add` give them; `c0` is the current time. -/
structure Wf (k0 : Int) (W : Nat) (c0 : Int) (ws : List Wheel) : Prop where
  k : 0 < k0
  w : 1 < W
  c : 0 ≤ c0
  d : k0 ∣ c0
  ne : 0 < ws.length
  each : ∀ (l : Nat) (w : Wheel), ws[l]? = some w → w.tick = K k0 W l ∧ w.wheelSize = W ∧ w.interval = K k0 W (l + 1) ∧
    w.cur = fl c0 (K k0 W l) ∧ w.buckets.length = W

theorem Wf.kp {c0 : Int} {ws : List Wheel} (h : Wf k0 W c0 ws) (l : Nat) : 0 < K k0 W l := K_pos h.k (by have := h.w; omega) l

theorem Wf.at {c0 : Int} {ws : List Wheel} (h : Wf k0 W c0 ws) {l : Nat} (hl : l < ws.length) :
    ∃ bs, ws[l]? = some ⟨K k0 W l, W, K k0 W (l + 1), fl c0 (K k0 W l), bs⟩ ∧ bs.length = W := by
  have e := List.getElem?_eq_getElem hl
  obtain ⟨h1, h2, h3, h4, h5⟩ := h.each l _ e
  refine ⟨ws[l].buckets, ?_, h5⟩
  rw [e]
  congr 1
  cases hw : ws[l]
  rw [hw] at h1 h2 h3 h4
  simp_all

/-! ## Buckets -/

theorem bucketAt_of {ws : List Wheel} {r : Ref} {w : Wheel} (h : ws[r.level]? = some w) :
    bucketAt ws r = (w.buckets[r.slot]?).getD newBucket := by
  unfold bucketAt
  rw [h]

/-- `r` is the address of a bucket. -/
def Valid (W : Nat) (ws : List Wheel) (r : Ref) : Prop := r.level < ws.length ∧ r.slot < W

theorem bucketAt_invalid {c0 : Int} {ws : List Wheel} (h : Wf k0 W c0 ws) {r : Ref} (hr : ¬ Valid W ws r) :
    bucketAt ws r = newBucket := by
  by_cases hl : r.level < ws.length
  · obtain ⟨bs, e, hb⟩ := h.at hl
    rw [bucketAt_of e]
    have : ¬ r.slot < W := fun hs => hr ⟨hl, hs⟩
    simp only [List.getElem?_eq_none (show bs.length ≤ r.slot by omega), Option.getD_none]
  · unfold bucketAt
    rw [List.getElem?_eq_none (by omega)]

theorem setBucket_of {ws : List Wheel} {r : Ref} {w : Wheel} {b : Bucket} (h : ws[r.level]? = some w) :
    setBucket ws r b = ws.set r.level { w with buckets := w.buckets.set r.slot b } := by
  unfold setBucket
  rw [h]

theorem length_setBucket (ws : List Wheel) (r : Ref) (b : Bucket) : (setBucket ws r b).length = ws.length := by
  unfold setBucket
  cases ws[r.level]? <;> simp

theorem setBucket_wf {c0 : Int} {ws : List Wheel} (h : Wf k0 W c0 ws) (r : Ref) (b : Bucket) :
    Wf k0 W c0 (setBucket ws r b) := by
  refine ⟨h.k, h.w, h.c, h.d, by rw [length_setBucket]; exact h.ne, ?_⟩
  intro l w hw
  unfold setBucket at hw
  cases e : ws[r.level]? with
  | none => rw [e] at hw; exact h.each l w hw
  | some w' =>
    rw [e] at hw
    dsimp only at hw
    by_cases hl : r.level = l
    · subst hl
      have hlt : r.level < ws.length := by
        by_contra hn
        rw [List.getElem?_eq_none (by omega)] at e
        simp at e
      rw [List.getElem?_set_self hlt] at hw
      cases hw
      obtain ⟨h1, h2, h3, h4, h5⟩ := h.each _ _ e
      exact ⟨h1, h2, h3, h4, by simpa using h5⟩
    · rw [List.getElem?_set_ne hl] at hw
      exact h.each l w hw

theorem bucketAt_set {c0 : Int} {ws : List Wheel} (h : Wf k0 W c0 ws) {r : Ref} (hr : Valid W ws r) (b : Bucket) (r' : Ref) :
    bucketAt (setBucket ws r b) r' = if r' = r then b else bucketAt ws r' := by
  obtain ⟨bs, e, hb⟩ := h.at hr.1
  rw [setBucket_of e]
  by_cases hl : r'.level = r.level
  · have e' : (ws.set r.level { (⟨K k0 W r.level, W, K k0 W (r.level + 1), fl c0 (K k0 W r.level), bs⟩ : Wheel) with
        buckets := bs.set r.slot b })[r'.level]? = some ⟨K k0 W r.level, W, K k0 W (r.level + 1), fl c0 (K k0 W r.level),
        bs.set r.slot b⟩ := by
      rw [hl, List.getElem?_set_self hr.1]
    rw [bucketAt_of e']
    dsimp only
    by_cases hs : r'.slot = r.slot
    · have : r' = r := by cases r; cases r'; simp_all
      rw [if_pos this, hs, List.getElem?_set_self (by rw [hb]; exact hr.2), Option.getD_some]
    · rw [if_neg (fun e => hs (by rw [e])), List.getElem?_set_ne (fun e => hs e.symm)]
      rw [← hl] at e
      rw [bucketAt_of e]
  · rw [if_neg (fun e => hl (by rw [e]))]
    unfold bucketAt
    rw [List.getElem?_set_ne (fun e => hl e.symm)]

theorem curTime_eq {c0 : Int} {ws : List Wheel} (h : Wf k0 W c0 ws) : curTime ws = c0 := by
  obtain ⟨bs, e, _⟩ := h.at h.ne
  unfold curTime
  rw [List.head?_eq_getElem?, e]
  simp only [Option.map_some, Option.getD_some, K_zero]
  exact fl_of_dvd h.d

theorem Wf.congr {c0 c1 : Int} {ws : List Wheel} (h : Wf k0 W c0 ws) (h' : Wf k0 W c1 ws) : c0 = c1 := by
  rw [← curTime_eq h, ← curTime_eq h']

/-! ## The heap of buckets -/

theorem less_swo (ws : List Wheel) : StrictWeakOrder (less ws) where
  irrefl a := by simp [less]
  trans a b c h1 h2 := by simp only [less, decide_eq_true_eq] at *; omega
  incomp_trans a b c h1 h2 := by simp only [less, decide_eq_false_iff_not] at *; omega

/-! ## `add` -/

/-- The effect of `place`: where the timer went and what was done. -/
structure Added (k0 : Int) (W : Nat) (c0 : Int) (tw : Tw) (t : Nat) (r : Ref) (tw' : Tw) : Prop where
  wf : Wf k0 W c0 tw'.wheels
  valid : Valid W tw'.wheels r
  slot : r.slot = slotOf k0 W r.level (fl (tw.timer t).exp (K k0 W r.level))
  lo : fl c0 (K k0 W r.level) + K k0 W r.level ≤ (tw.timer t).exp
  hi : (tw.timer t).exp < fl c0 (K k0 W r.level) + K k0 W (r.level + 1)
  /-- not in a lower level -/
  first : ∀ j, j < r.level → fl c0 (K k0 W j) + K k0 W (j + 1) ≤ (tw.timer t).exp
  bk : ∀ r', bucketAt tw'.wheels r' =
    if r' = r then ⟨fl (tw.timer t).exp (K k0 W r.level), (bucketAt tw.wheels r).timers ++ [t]⟩ else bucketAt tw.wheels r'
  timer : tw'.timer = put tw.timer t { tw.timer t with bucket := some r }
  same : (bucketAt tw.wheels r).exp = fl (tw.timer t).exp (K k0 W r.level) → tw'.queue = tw.queue
  push : (bucketAt tw.wheels r).exp ≠ fl (tw.timer t).exp (K k0 W r.level) →
    Heap.push (less tw'.wheels) tw.queue r = .ok tw'.queue
  /-- the wheels there before are there still -/
  len : tw.wheels.length ≤ tw'.wheels.length

theorem push_total (ws : List Wheel) (q : List Ref) (r : Ref) : ∃ q', Heap.push (less ws) q r = .ok q' ∧ q'.Perm (r :: q) := by
  rw [Heap.push_eq]
  exact Heap.pushN_total (less ws) 2 (by omega) q r

theorem push_heap (ws : List Wheel) {q q' : List Ref} {r : Ref} (hh : Heap.HeapN (less ws) 2 q.length q)
    (e : Heap.push (less ws) q r = .ok q') : Heap.HeapN (less ws) 2 q'.length q' := by
  rw [Heap.push_eq] at e
  exact Heap.pushN_heap (less_swo ws) 2 (by omega) hh e

theorem pop_total (ws : List Wheel) {q : List Ref} {r : Ref} (h0 : q[0]? = some r) :
    ∃ q', Heap.pop (less ws) q = .ok (r, q') ∧ (r :: q').Perm q := by
  have hne : 0 < q.length := by
    cases q with
    | nil => simp at h0
    | cons => simp
  obtain ⟨h', e1, e2⟩ := Heap.popG_total (less ws) 2 2 (by omega) q hne
  have : q[0] = r := by
    rw [List.getElem?_eq_getElem hne] at h0
    exact Option.some.inj h0
  rw [this] at e1 e2
  exact ⟨h', by rw [Heap.pop_eq]; exact e1, e2⟩

theorem pop_heap (ws : List Wheel) {q q' : List Ref} {r : Ref} (hh : Heap.HeapN (less ws) 2 q.length q)
    (e : Heap.pop (less ws) q = .ok (r, q')) : Heap.HeapN (less ws) 2 q'.length q' := by
  rw [Heap.pop_eq] at e
  exact Heap.popG_heap (less_swo ws) 2 2 ⟨by omega, .inl (by omega)⟩ hh e

theorem root_least (ws : List Wheel) {q : List Ref} {r : Ref} (hh : Heap.HeapN (less ws) 2 q.length q) (h0 : q[0]? = some r) :
    ∀ x ∈ q, (bucketAt ws r).exp ≤ (bucketAt ws x).exp := by
  have hne : 0 < q.length := by
    cases q with
    | nil => simp at h0
    | cons => simp
  have he : q[0] = r := by
    rw [List.getElem?_eq_getElem hne] at h0
    exact Option.some.inj h0
  have := Heap.isMin_of_heap (less_swo ws) hh hne
  rw [he] at this
  intro x hx
  have := this.2 x (by simpa using hx)
  simp only [less, decide_eq_false_iff_not] at this
  omega

/-- `place` once the bucket is known. -/
def settle (tw : Tw) (t : Nat) (r : Ref) (E : Int) : Go Tw :=
  if (bucketAt tw.wheels r).exp = E then
    .ok ⟨setBucket tw.wheels r ⟨E, (bucketAt tw.wheels r).timers ++ [t]⟩, tw.queue,
      put tw.timer t { tw.timer t with bucket := some r }⟩
  else do
    let q ← Heap.push (less (setBucket tw.wheels r ⟨E, (bucketAt tw.wheels r).timers ++ [t]⟩)) tw.queue r
    .ok ⟨setBucket tw.wheels r ⟨E, (bucketAt tw.wheels r).timers ++ [t]⟩, q,
      put tw.timer t { tw.timer t with bucket := some r }⟩

theorem place_spec {c0 : Int} {tw : Tw} {l t : Nat} {w : Wheel} (h : Wf k0 W c0 tw.wheels) (hw : tw.wheels[l]? = some w)
    (lo : fl c0 (K k0 W l) + K k0 W l ≤ (tw.timer t).exp) (hi : (tw.timer t).exp < fl c0 (K k0 W l) + K k0 W (l + 1))
    (first : ∀ j, j < l → fl c0 (K k0 W j) + K k0 W (j + 1) ≤ (tw.timer t).exp) (locked : Option Ref) :
    ∃ (r : Ref) (tw' : Tw), Added k0 W c0 tw t r tw' ∧ (locked ≠ some r → place tw l w t locked = .ok tw') ∧
      (locked = some r → place tw l w t locked = .error .diverge) := by
  have hl : l < tw.wheels.length := by
    by_contra hn
    rw [List.getElem?_eq_none (by omega)] at hw
    simp at hw
  obtain ⟨bs, e, hb⟩ := h.at hl
  rw [hw] at e
  cases e
  have hk := h.kp l
  have hW := h.w
  have hc : 0 ≤ fl c0 (K k0 W l) := fl_nonneg hk h.c
  have he : 0 ≤ (tw.timer t).exp := by omega
  have ht : 0 ≤ (tw.timer t).exp / K k0 W l := Int.ediv_nonneg he (by omega)
  have hi0 : 0 ≤ (tw.timer t).exp / K k0 W l % (W : Int) := Int.emod_nonneg _ (by omega)
  have hi1 : (tw.timer t).exp / K k0 W l % (W : Int) < W := Int.emod_lt_of_pos _ (by omega)
  have hs : slotOf k0 W l (fl (tw.timer t).exp (K k0 W l)) = ((tw.timer t).exp / K k0 W l % (W : Int)).toNat := by
    unfold slotOf fl
    rw [Int.mul_ediv_cancel _ (by omega)]
  have hlt : ((tw.timer t).exp / K k0 W l % (W : Int)).toNat < bs.length := by omega
  have hv : Valid W tw.wheels ⟨l, slotOf k0 W l (fl (tw.timer t).exp (K k0 W l))⟩ := by
    refine ⟨hl, ?_⟩
    show slotOf k0 W l (fl (tw.timer t).exp (K k0 W l)) < W
    rw [hs]; omega
  have hbk : bucketAt tw.wheels ⟨l, slotOf k0 W l (fl (tw.timer t).exp (K k0 W l))⟩ =
      bs[((tw.timer t).exp / K k0 W l % (W : Int)).toNat] := by
    rw [bucketAt_of (r := ⟨l, _⟩) hw]
    dsimp only
    rw [hs, List.getElem?_eq_getElem hlt, Option.getD_some]
  have hpl : place tw l ⟨K k0 W l, W, K k0 W (l + 1), fl c0 (K k0 W l), bs⟩ t locked =
      if locked = some ⟨l, slotOf k0 W l (fl (tw.timer t).exp (K k0 W l))⟩ then .error .diverge
      else settle tw t ⟨l, slotOf k0 W l (fl (tw.timer t).exp (K k0 W l))⟩ (fl (tw.timer t).exp (K k0 W l)) := by
    unfold settle
    unfold place quo rem
    rw [hbk, hs]
    simp only [if_neg (show ¬ K k0 W l = 0 by omega), if_neg (show ¬ (W : Int) = 0 by omega), Go.bind_ok,
      Int.tdiv_eq_ediv_of_nonneg he, Int.tmod_eq_emod_of_nonneg ht, if_neg (show ¬ (tw.timer t).exp / K k0 W l % (W : Int) < 0 by omega),
      Go.idx_of_lt _ _ hlt]
    rfl
  rw [hpl]
  generalize hr : (⟨l, slotOf k0 W l (fl (tw.timer t).exp (K k0 W l))⟩ : Ref) = r at *
  have hrl : r.level = l := by rw [← hr]
  have hrs : r.slot = slotOf k0 W r.level (fl (tw.timer t).exp (K k0 W r.level)) := by rw [← hr]
  by_cases hsame : (bucketAt tw.wheels r).exp = fl (tw.timer t).exp (K k0 W l)
  · refine ⟨r, ⟨setBucket tw.wheels r ⟨fl (tw.timer t).exp (K k0 W l), (bucketAt tw.wheels r).timers ++ [t]⟩,
      tw.queue, put tw.timer t { tw.timer t with bucket := some r }⟩, ⟨setBucket_wf h r _, ?_, hrs, by rw [hrl]; exact lo, by rw [hrl]; exact hi, by rw [hrl]; exact first,
      fun r' => ?_, rfl, fun _ => rfl, fun hne => absurd hsame (by rw [hrl] at hne; exact hne), ?_⟩, ?_, ?_⟩
    · exact ⟨by rw [length_setBucket]; exact hv.1, hv.2⟩
    · rw [bucketAt_set h hv, hrl]
    · rw [length_setBucket]
    · intro hlk
      rw [if_neg hlk, settle, if_pos hsame]
    · intro hlk
      rw [if_pos hlk]
  · obtain ⟨q, e1, e2⟩ := push_total (setBucket tw.wheels r ⟨fl (tw.timer t).exp (K k0 W l),
      (bucketAt tw.wheels r).timers ++ [t]⟩) tw.queue r
    refine ⟨r, ⟨setBucket tw.wheels r ⟨fl (tw.timer t).exp (K k0 W l), (bucketAt tw.wheels r).timers ++ [t]⟩,
      q, put tw.timer t { tw.timer t with bucket := some r }⟩, ⟨setBucket_wf h r _, ?_, hrs, by rw [hrl]; exact lo, by rw [hrl]; exact hi, by rw [hrl]; exact first,
      fun r' => ?_, rfl, fun hs => absurd (by rw [hrl] at hs; exact hs) hsame, fun _ => e1, ?_⟩, ?_, ?_⟩
    · exact ⟨by rw [length_setBucket]; exact hv.1, hv.2⟩
    · rw [bucketAt_set h hv, hrl]
    · rw [length_setBucket]
    · intro hlk
      rw [if_neg hlk, settle, if_neg hsame, e1, Go.bind_ok]
    · intro hlk
      rw [if_pos hlk]

theorem overflow_spec {c0 : Int} {tw : Tw} {l : Nat} {w : Wheel} (h : Wf k0 W c0 tw.wheels) (hw : tw.wheels[l]? = some w) :
    ∃ ws, overflow tw l w = .ok { tw with wheels := ws } ∧ Wf k0 W c0 ws ∧ (∀ r, bucketAt ws r = bucketAt tw.wheels r) ∧
      l + 1 < ws.length ∧ tw.wheels.length ≤ ws.length := by
  have hl : l < tw.wheels.length := by
    by_contra hn
    rw [List.getElem?_eq_none (by omega)] at hw
    simp at hw
  obtain ⟨bs, e, hb⟩ := h.at hl
  rw [hw] at e
  cases e
  unfold overflow
  by_cases hlt : l + 1 < tw.wheels.length
  · rw [if_pos hlt]
    exact ⟨tw.wheels, rfl, h, fun _ => rfl, hlt, Nat.le_refl _⟩
  · rw [if_neg hlt]
    have hlen : tw.wheels.length = l + 1 := by omega
    have hk := h.kp l
    have hk' := h.kp (l + 1)
    have hn : newWheel (K k0 W (l + 1)) W (fl c0 (K k0 W l)) = .ok ⟨K k0 W (l + 1), W, K k0 W (l + 1 + 1), fl c0 (K k0 W (l + 1)),
        List.replicate W newBucket⟩ := by
      unfold newWheel
      rw [truncate_ok (fl_nonneg hk h.c) hk', Go.bind_ok, if_neg (by omega), fl_fl hk hk' (K_dvd (by omega)), ← K_succ]
      simp
    dsimp only
    rw [hn, Go.bind_ok]
    refine ⟨_, rfl, ?_, ?_, by rw [List.length_append]; simp; omega, by rw [List.length_append]; simp⟩
    · refine ⟨h.k, h.w, h.c, h.d, by rw [List.length_append]; simp, ?_⟩
      intro j w hj
      by_cases hjl : j < tw.wheels.length
      · rw [List.getElem?_append_left hjl] at hj
        exact h.each j w hj
      · rw [List.getElem?_append_right (by omega)] at hj
        have hj0 : j - tw.wheels.length = 0 := by
          by_contra hne
          rw [List.getElem?_eq_none (by simp; omega)] at hj
          simp at hj
        rw [hj0] at hj
        have : j = l + 1 := by omega
        subst this
        simp only [List.getElem?_cons_zero, Option.some.injEq] at hj
        subst hj
        exact ⟨rfl, rfl, rfl, rfl, List.length_replicate ..⟩
    · intro r
      by_cases hr : r.level < tw.wheels.length
      · unfold bucketAt
        rw [List.getElem?_append_left hr]
      · have e1 : bucketAt tw.wheels r = newBucket := by
          unfold bucketAt
          rw [List.getElem?_eq_none (by omega)]
        rw [e1]
        unfold bucketAt
        rw [List.getElem?_append_right (by omega)]
        by_cases hr0 : r.level - tw.wheels.length = 0
        · rw [hr0]
          simp only [List.getElem?_cons_zero]
          by_cases hs : r.slot < W
          · rw [List.getElem?_replicate, if_pos hs]
            rfl
          · rw [List.getElem?_eq_none (by simp; omega)]
            rfl
        · rw [List.getElem?_eq_none (by simp; omega)]

theorem Added.of_overflow {c0 : Int} {tw tw' : Tw} {ws : List Wheel} {t : Nat} {r : Ref}
    (hb : ∀ r, bucketAt ws r = bucketAt tw.wheels r) (hl : tw.wheels.length ≤ ws.length)
    (h : Added k0 W c0 { tw with wheels := ws } t r tw') : Added k0 W c0 tw t r tw' := by
  refine ⟨h.wf, h.valid, h.slot, h.lo, h.hi, h.first, fun r' => ?_, h.timer, ?_, ?_, Nat.le_trans hl h.len⟩
  · have := h.bk r'
    dsimp only at this
    rw [this, hb, hb]
  · have := h.same
    dsimp only at this
    rw [hb] at this
    exact this
  · have := h.push
    dsimp only at this
    rw [hb] at this
    exact this

/-- What `add` did, if it returned. -/
theorem add_inv {c0 : Int} {locked : Option Ref} {t : Nat} {tw' : Tw} {ok : Bool} (fuel : Nat) :
    ∀ {tw : Tw} {l : Nat}, Wf k0 W c0 tw.wheels → l < tw.wheels.length →
      (∀ j, j < l → fl c0 (K k0 W j) + K k0 W (j + 1) ≤ (tw.timer t).exp) → add fuel tw l t locked = .ok (tw', ok) →
      (ok = false ∧ tw' = tw ∧ (tw.timer t).exp < c0 + k0) ∨ (ok = true ∧ ∃ r, Added k0 W c0 tw t r tw' ∧ locked ≠ some r) := by
  induction fuel with
  | zero => intro tw l _ _ _ h; simp [add] at h
  | succ fuel ih =>
    intro tw l h hl first e
    obtain ⟨bs, hw, hb⟩ := h.at hl
    unfold add at e
    rw [hw] at e
    dsimp only at e
    by_cases h1 : (tw.timer t).exp < fl c0 (K k0 W l) + K k0 W l
    · rw [if_pos h1] at e
      cases e
      refine .inl ⟨rfl, rfl, ?_⟩
      cases l with
      | zero => rw [K_zero, fl_of_dvd h.d] at h1; exact h1
      | succ l =>
        have := first l (by omega)
        have : fl c0 (K k0 W (l + 1)) ≤ fl c0 (K k0 W l) := by
          rw [← fl_fl (h.kp l) (h.kp (l + 1)) (K_dvd (by omega))]
          exact fl_le (h.kp (l + 1))
        omega
    rw [if_neg h1] at e
    by_cases h2 : (tw.timer t).exp < fl c0 (K k0 W l) + K k0 W (l + 1)
    · rw [if_pos h2] at e
      obtain ⟨r, tw1, ha, p1, p2⟩ := place_spec h hw (by omega) h2 first locked
      by_cases hlk : locked = some r
      · rw [p2 hlk, Go.bind_error] at e
        simp at e
      · rw [p1 hlk, Go.bind_ok] at e
        cases e
        exact .inr ⟨rfl, r, ha, hlk⟩
    · rw [if_neg h2] at e
      obtain ⟨ws, o1, o2, o3, o4, o5⟩ := overflow_spec h hw
      rw [o1, Go.bind_ok] at e
      rcases ih (tw := { tw with wheels := ws }) o2 o4 (by
        intro j hj
        rcases Nat.lt_succ_iff_lt_or_eq.1 hj with hj | rfl
        · exact first j hj
        · show _ ≤ (tw.timer t).exp
          omega) e with ⟨a1, a2, a3⟩ | ⟨a1, r, a2, a3⟩
      · exfalso
        have a3 : (tw.timer t).exp < c0 + k0 := a3
        have : c0 ≤ fl c0 (K k0 W l) + K k0 W l := by have := lt_fl (x := c0) (h.kp l); omega
        have hf : fl c0 (K k0 W l) + K k0 W l < c0 + k0 := by omega
        cases l with
        | zero =>
          rw [K_zero, fl_of_dvd h.d] at hf
          omega
        | succ l =>
          have := first 0 (by omega)
          rw [K_zero, fl_of_dvd h.d] at this
          have : k0 ≤ K k0 W (0 + 1) := by
            have := K_le h.k (show 0 < W by have := h.w; omega) (show 0 ≤ 0 + 1 by omega)
            rwa [K_zero] at this
          omega
      · exact .inr ⟨a1, r, a2.of_overflow o3 o5, a3⟩

theorem K_ge (h0 : 0 < k0) (hW : 1 < W) (m : Nat) : (m : Int) < K k0 W m := by
  induction m with
  | zero => rw [K_zero]; exact_mod_cast h0
  | succ m ih =>
    rw [K_succ]
    have : K k0 W m * 2 ≤ K k0 W m * W := Int.mul_le_mul_of_nonneg_left (by omega) (by omega)
    push_cast
    omega

/-- `add` always returns (for wheels of at least two buckets), with enough fuel, unless it meets a locked bucket. -/
theorem add_total {c0 : Int} (t : Nat) (locked : Option Ref) {tw : Tw} (h : Wf k0 W c0 tw.wheels) :
    ∃ n, ∀ fuel, n ≤ fuel → ((tw.timer t).exp < c0 + k0 ∧ add fuel tw 0 t locked = .ok (tw, false)) ∨
      (c0 + k0 ≤ (tw.timer t).exp ∧ ∃ r tw', Added k0 W c0 tw t r tw' ∧
        (locked ≠ some r → add fuel tw 0 t locked = .ok (tw', true)) ∧ (locked = some r → add fuel tw 0 t locked = .error .diverge)) := by
  have hW := h.w
  obtain ⟨m, hm⟩ : ∃ m, (tw.timer t).exp < fl c0 (K k0 W m) + K k0 W (m + 1) := by
    refine ⟨((tw.timer t).exp - c0).toNat, ?_⟩
    have h1 := K_ge h.k h.w ((tw.timer t).exp - c0).toNat
    have h2 := lt_fl (x := c0) (h.kp ((tw.timer t).exp - c0).toNat)
    rw [K_succ]
    have := h.kp ((tw.timer t).exp - c0).toNat
    have : K k0 W ((tw.timer t).exp - c0).toNat * 2 ≤ K k0 W ((tw.timer t).exp - c0).toNat * W :=
      Int.mul_le_mul_of_nonneg_left (by omega) (by omega)
    omega
  have key : ∀ d l (tw : Tw), l + d = m → Wf k0 W c0 tw.wheels → l < tw.wheels.length →
      (∀ j, j < l → fl c0 (K k0 W j) + K k0 W (j + 1) ≤ (tw.timer t).exp) →
      (tw.timer t).exp < fl c0 (K k0 W m) + K k0 W (m + 1) →
      fl c0 (K k0 W l) + K k0 W l ≤ (tw.timer t).exp → ∀ fuel, d + 1 ≤ fuel →
      ∃ r tw', Added k0 W c0 tw t r tw' ∧ (locked ≠ some r → add fuel tw l t locked = .ok (tw', true)) ∧
        (locked = some r → add fuel tw l t locked = .error .diverge) := by
    intro d
    induction d with
    | zero =>
      intro l tw hlm h hl first hm lo fuel hf
      obtain ⟨bs, hw, hb⟩ := h.at hl
      obtain ⟨fuel, rfl⟩ : ∃ f, fuel = f + 1 := ⟨fuel - 1, by omega⟩
      have hlm : l = m := by omega
      subst hlm
      obtain ⟨r, tw1, ha, p1, p2⟩ := place_spec h hw lo hm first locked
      refine ⟨r, tw1, ha, ?_, ?_⟩
      · intro hlk
        unfold add
        rw [hw]
        dsimp only
        rw [if_neg (by omega), if_pos hm, p1 hlk, Go.bind_ok]
      · intro hlk
        unfold add
        rw [hw]
        dsimp only
        rw [if_neg (by omega), if_pos hm, p2 hlk, Go.bind_error]
    | succ d ih =>
      intro l tw hlm h hl first hm lo fuel hf
      obtain ⟨bs, hw, hb⟩ := h.at hl
      obtain ⟨fuel, rfl⟩ : ∃ f, fuel = f + 1 := ⟨fuel - 1, by omega⟩
      by_cases h2 : (tw.timer t).exp < fl c0 (K k0 W l) + K k0 W (l + 1)
      · obtain ⟨r, tw1, ha, p1, p2⟩ := place_spec h hw lo h2 first locked
        refine ⟨r, tw1, ha, ?_, ?_⟩
        · intro hlk
          unfold add
          rw [hw]
          dsimp only
          rw [if_neg (by omega), if_pos h2, p1 hlk, Go.bind_ok]
        · intro hlk
          unfold add
          rw [hw]
          dsimp only
          rw [if_neg (by omega), if_pos h2, p2 hlk, Go.bind_error]
      · obtain ⟨ws, o1, o2, o3, o4, o5⟩ := overflow_spec h hw
        have hfl : fl c0 (K k0 W (l + 1)) ≤ fl c0 (K k0 W l) := by
          rw [← fl_fl (h.kp l) (h.kp (l + 1)) (K_dvd (by omega))]
          exact fl_le (h.kp (l + 1))
        obtain ⟨r, tw1, ha, p1, p2⟩ := ih (l + 1) { tw with wheels := ws } (by omega) o2 o4 (by
          intro j hj
          rcases Nat.lt_succ_iff_lt_or_eq.1 hj with hj | rfl
          · exact first j hj
          · show _ ≤ (tw.timer t).exp
            omega) hm (show _ ≤ (tw.timer t).exp by omega) fuel (by omega)
        refine ⟨r, tw1, ha.of_overflow o3 o5, ?_, ?_⟩
        · intro hlk
          unfold add
          rw [hw]
          dsimp only
          rw [if_neg (by omega), if_neg h2, o1, Go.bind_ok, p1 hlk]
        · intro hlk
          unfold add
          rw [hw]
          dsimp only
          rw [if_neg (by omega), if_neg h2, o1, Go.bind_ok, p2 hlk]
  refine ⟨m + 1, fun fuel hf => ?_⟩
  by_cases h1 : (tw.timer t).exp < c0 + k0
  · refine .inl ⟨h1, ?_⟩
    obtain ⟨bs, hw, hb⟩ := h.at h.ne
    obtain ⟨fuel, rfl⟩ : ∃ f, fuel = f + 1 := ⟨fuel - 1, by omega⟩
    unfold add
    rw [hw]
    dsimp only
    rw [if_pos (by rw [K_zero, fl_of_dvd h.d]; exact h1)]
  · refine .inr ⟨by omega, ?_⟩
    exact key m 0 tw (by omega) h h.ne (by omega) hm (by rw [K_zero, fl_of_dvd h.d]; omega) fuel hf

/-! ## `advance` -/

theorem advance_from {c1 : Int} {ws : List Wheel} :
    ∀ {l : Nat} {x c0 : Int}, (∀ (j : Nat) (w : Wheel), ws[j]? = some w → w.tick = K k0 W (l + j) ∧ w.wheelSize = W ∧
      w.interval = K k0 W (l + j + 1) ∧ w.cur = fl c0 (K k0 W (l + j)) ∧ w.buckets.length = W) → 0 < k0 → 1 < W → 0 ≤ x → 0 ≤ c0 →
      c0 ≤ c1 → fl x (K k0 W l) = fl c1 (K k0 W l) → (∀ j, l ≤ j → fl x (K k0 W j) = fl c1 (K k0 W j)) → x ≤ c1 →
      ∃ ws', advance x ws = .ok ws' ∧ ws'.length = ws.length ∧ (∀ (j : Nat) (w : Wheel), ws'[j]? = some w →
        w.tick = K k0 W (l + j) ∧ w.wheelSize = W ∧ w.interval = K k0 W (l + j + 1) ∧ w.cur = fl c1 (K k0 W (l + j)) ∧
        w.buckets.length = W ∧ ∃ w0, ws[j]? = some w0 ∧ w0.buckets = w.buckets) := by
  induction ws with
  | nil => intro l x c0 _ _ _ _ _ _ _ _ _; exact ⟨[], rfl, rfl, by simp⟩
  | cons w ws ih =>
    intro l x c0 H h0 hW hx hc hcc hfl hall hxc
    have hk := K_pos h0 (show 0 < W by omega) l
    obtain ⟨e1, e2, e3, e4, e5⟩ := H 0 w rfl
    simp only [Nat.add_zero] at e1 e2 e3 e4
    unfold advance
    by_cases hge : x ≥ w.cur + w.tick
    · rw [if_pos hge, e1, truncate_ok hx hk, Go.bind_ok]
      obtain ⟨ws', a1, a2, a3⟩ := ih (l := l + 1) (x := fl x (K k0 W l)) (c0 := c0) (by
        intro j w' hj
        have := H (j + 1) w' (by simpa using hj)
        rw [show l + (j + 1) = l + 1 + j by omega] at this
        exact this) h0 hW (fl_nonneg hk hx) hc hcc (by
          rw [fl_fl hk (K_pos h0 (by omega) _) (K_dvd (by omega))]; exact hall _ (by omega)) (by
          intro j hj
          rw [fl_fl hk (K_pos h0 (by omega) _) (K_dvd (by omega))]
          exact hall j (by omega)) (Int.le_trans (fl_le hk) hxc)
      rw [a1, Go.bind_ok]
      refine ⟨_, rfl, by simp [a2], ?_⟩
      intro j w' hj
      cases j with
      | zero =>
        simp only [List.getElem?_cons_zero, Option.some.injEq] at hj
        subst hj
        exact ⟨rfl, e2, e3, hfl, e5, w, rfl, rfl⟩
      | succ j =>
        have := a3 j w' (by simpa using hj)
        rw [show l + 1 + j = l + (j + 1) by omega] at this
        obtain ⟨b1, b2, b3, b4, b5, w0, b6, b7⟩ := this
        exact ⟨b1, b2, b3, b4, b5, w0, by simpa using b6, b7⟩
    · rw [if_neg hge]
      refine ⟨_, rfl, rfl, ?_⟩
      rw [e4, e1] at hge
      have hlt : fl c1 (K k0 W l) = fl c0 (K k0 W l) := by
        refine Int.le_antisymm ?_ (fl_mono hk hcc)
        have : fl c1 (K k0 W l) ≤ x := by rw [← hfl]; exact fl_le hk
        exact dvd_lt (fl_dvd _ _) (fl_dvd _ _) (by omega) hk
      intro j w' hj
      obtain ⟨b1, b2, b3, b4, b5⟩ := H j w' hj
      refine ⟨b1, b2, b3, ?_, b5, w', hj, rfl⟩
      rw [b4]
      have hk' := K_pos h0 (show 0 < W by omega) (l + j)
      rw [← fl_fl hk hk' (K_dvd (by omega)), ← fl_fl (x := c1) hk hk' (K_dvd (by omega)), hlt]

/-- `advance` to an expiration sets the current time to it, rounded down, unless that is in the past; the buckets stay. -/
theorem advance_spec {c0 : Int} {ws : List Wheel} (h : Wf k0 W c0 ws) (x : Int) :
    ∃ ws', advance x ws = .ok ws' ∧ Wf k0 W (max c0 (fl x k0)) ws' ∧ (∀ r, bucketAt ws' r = bucketAt ws r) ∧
      ws'.length = ws.length := by
  have hne := h.ne
  have hk0 := h.k
  have key : ∀ {ws' : List Wheel}, ws'.length = ws.length → (∀ (j : Nat) (w : Wheel), ws'[j]? = some w →
      ∃ w0, ws[j]? = some w0 ∧ w0.buckets = w.buckets) → ∀ r, bucketAt ws' r = bucketAt ws r := by
    intro ws' hl H r
    by_cases hr : r.level < ws'.length
    · have e := List.getElem?_eq_getElem hr
      obtain ⟨w0, f1, f2⟩ := H _ _ e
      rw [bucketAt_of e, bucketAt_of f1, f2]
    · unfold bucketAt
      rw [List.getElem?_eq_none (by omega), List.getElem?_eq_none (by omega)]
  by_cases hx : c0 + k0 ≤ x
  · have hx0 : 0 ≤ x := by have := h.c; omega
    have hlt := lt_fl (x := x) hk0
    have hmax : max c0 (fl x k0) = fl x k0 := by
      have := le_fl hk0 h.d (show c0 ≤ x by omega)
      omega
    rw [hmax]
    -- the first wheel moves, the others follow
    obtain ⟨bs, hw, hb⟩ := h.at hne
    obtain ⟨w, rest, rfl⟩ : ∃ w rest, ws = w :: rest := by
      cases ws with
      | nil => simp at hne
      | cons w rest => exact ⟨w, rest, rfl⟩
    simp only [List.getElem?_cons_zero, Option.some.injEq] at hw
    have hw1 : w.cur = c0 := by rw [hw]; simp only [K_zero]; exact fl_of_dvd h.d
    have hw2 : w.tick = k0 := by rw [hw]; exact K_zero
    obtain ⟨ws', a1, a2, a3⟩ := advance_from (k0 := k0) (W := W) (c1 := fl x k0) (ws := rest) (l := 1) (x := fl x k0) (c0 := c0) (by
      intro j w' hj
      have := h.each (j + 1) w' (by simpa using hj)
      rw [show j + 1 = 1 + j by omega] at this
      exact this) h.k h.w (fl_nonneg hk0 hx0) h.c (by omega) rfl (fun _ _ => rfl) (Int.le_refl _)
    refine ⟨{ w with cur := fl x k0 } :: ws', ?_, ?_, ?_, by simp [a2]⟩
    · unfold advance
      rw [if_pos (by rw [hw1, hw2]; omega), hw2, truncate_ok hx0 hk0, Go.bind_ok, a1, Go.bind_ok]
    · refine ⟨h.k, h.w, fl_nonneg hk0 hx0, fl_dvd _ _, by simp, ?_⟩
      intro j w' hj
      cases j with
      | zero =>
        simp only [List.getElem?_cons_zero, Option.some.injEq] at hj
        obtain ⟨e1, e2, e3, e4, e5⟩ := h.each 0 w rfl
        subst hj
        refine ⟨e1, e2, e3, ?_, e5⟩
        show fl x k0 = _
        rw [K_zero, fl_of_dvd (fl_dvd x k0)]
      | succ j =>
        have := a3 j w' (by simpa using hj)
        rw [show 1 + j = j + 1 by omega] at this
        exact ⟨this.1, this.2.1, this.2.2.1, this.2.2.2.1, this.2.2.2.2.1⟩
    · refine key (by simp [a2]) ?_
      intro j w' hj
      cases j with
      | zero =>
        simp only [List.getElem?_cons_zero, Option.some.injEq] at hj
        subst hj
        exact ⟨w, rfl, rfl⟩
      | succ j =>
        obtain ⟨_, _, _, _, _, w0, f1, f2⟩ := a3 j w' (by simpa using hj)
        exact ⟨w0, by simpa using f1, f2⟩
  · have hmax : max c0 (fl x k0) = c0 := by
      have : fl x k0 ≤ c0 := dvd_lt (fl_dvd _ _) h.d (by have := fl_le (x := x) hk0; omega) hk0
      omega
    rw [hmax]
    refine ⟨ws, ?_, h, fun _ => rfl, rfl⟩
    obtain ⟨bs, hw, hb⟩ := h.at hne
    cases ws with
    | nil => simp at hne
    | cons w rest =>
      simp only [List.getElem?_cons_zero, Option.some.injEq] at hw
      unfold advance
      rw [if_neg]
      rw [hw]
      simp only [K_zero, fl_of_dvd h.d]
      omega

end
end Verif.TimingWheel
