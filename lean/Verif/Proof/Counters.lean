import Verif.Model.Sliding
import Mathlib.Data.List.Basic
import Mathlib.Data.List.Nodup
import Mathlib.Data.List.Count
import Mathlib.Algebra.BigOperators.Group.List.Basic

/-! # What the counter map of the sliding limiters stands for -/

namespace Verif.Limiter.Counters

/-- The map `m` counts the accepted small windows `acc` that are not before `D`. -/
structure Rep (m : Counters) (acc : List Int) (D : Int) : Prop where
  nodup : (m.map Prod.fst).Nodup
  ent : ∀ e ∈ m, D ≤ e.1 ∧ e.2 = (acc.count e.1 : Nat) ∧ 0 < e.2
  key : ∀ w ∈ acc, D ≤ w → w ∈ m.map Prod.fst

theorem rep_nil (D : Int) : Rep [] [] D := ⟨by simp, by simp, by simp⟩

theorem Rep.perm {m order : Counters} {acc : List Int} {D : Int} (h : Rep m acc D) (hp : order.Perm m) : Rep order acc D :=
  ⟨(hp.map _).nodup_iff.2 h.nodup, fun e he => h.ent e (hp.mem_iff.1 he),
    fun w hw hD => (hp.map Prod.fst).mem_iff.2 (h.key w hw hD)⟩

/-- The sum of the counters from `s` on. -/
def sumFrom (s : Int) (m : Counters) : Int := ((m.filter fun e => decide (s ≤ e.1)).map Prod.snd).sum

theorem sumFrom_cons (s : Int) (e : Int × Int) (m : Counters) :
    sumFrom s (e :: m) = (if s ≤ e.1 then e.2 else 0) + sumFrom s m := by
  unfold sumFrom
  by_cases h : s ≤ e.1 <;> simp [h]

theorem sum_aux (s : Int) : ∀ (m : Counters) (acc : List Int), (m.map Prod.fst).Nodup →
    (∀ e ∈ m, e.2 = (acc.count e.1 : Nat)) → (∀ w ∈ acc, s ≤ w → w ∈ m.map Prod.fst) →
    sumFrom s m = (acc.countP fun w => decide (s ≤ w) : Nat)
  | [], acc, _, _, hk => by
    have : acc.countP (fun w => decide (s ≤ w)) = 0 := by
      rw [List.countP_eq_zero]
      intro w hw h
      simp only [decide_eq_true_eq] at h
      simpa using hk w hw h
    rw [this]; rfl
  | (w, c) :: m, acc, hn, he, hk => by
    simp only [List.map_cons, List.nodup_cons] at hn
    have ih := sum_aux s m (acc.filter fun x => decide (x ≠ w)) hn.2 (by
      intro e hem
      have hne : e.1 ≠ w := fun h => hn.1 (h ▸ List.mem_map_of_mem hem)
      rw [he e (by simp [hem]), List.count_filter (by simpa using hne)]) (by
      intro x hx hsx
      simp only [List.mem_filter, decide_eq_true_eq] at hx
      have := hk x hx.1 hsx
      simp only [List.map_cons, List.mem_cons] at this
      rcases this with h | h
      · exact absurd h hx.2
      · exact h)
    rw [sumFrom_cons, ih, List.countP_eq_countP_filter_add acc _ (fun x => decide (x ≠ w))]
    have hc : c = (acc.count w : Nat) := he (w, c) (by simp)
    have hq' : (List.filter (fun a => !decide (a ≠ w)) acc) = List.replicate (acc.count w) w := by
      rw [← List.filter_eq w]
      apply List.filter_congr
      intro x _
      simp
    simp only [hq', List.countP_replicate, decide_eq_true_eq]
    by_cases h : s ≤ w
    · simp only [h, if_true]; omega
    · simp only [h, if_false]; omega

theorem Rep.sum {m : Counters} {acc : List Int} {D s : Int} (h : Rep m acc D) (hs : D ≤ s) :
    sumFrom s m = (acc.countP fun w => decide (s ≤ w) : Nat) :=
  sum_aux s m acc h.nodup (fun e he => (h.ent e he).2.1) (fun w hw hsw => h.key w hw (by omega))

theorem Rep.drop {m : Counters} {acc : List Int} {D s : Int} (h : Rep m acc D) (hs : D ≤ s) :
    Rep (m.filter fun e => decide (s ≤ e.1)) acc s := by
  refine ⟨?_, ?_, ?_⟩
  · exact h.nodup.sublist ((List.filter_sublist).map _)
  · intro e he
    simp only [List.mem_filter, decide_eq_true_eq] at he
    exact ⟨he.2, (h.ent e he.1).2⟩
  · intro w hw hsw
    have := h.key w hw (by omega)
    rw [List.mem_map] at this ⊢
    obtain ⟨e, he, rfl⟩ := this
    exact ⟨e, by simp [he, hsw], rfl⟩

theorem Rep.get {m : Counters} {acc : List Int} {D w : Int} (h : Rep m acc D) (hw : D ≤ w) :
    m.get w = (acc.count w : Nat) := by
  unfold Counters.get
  cases hl : m.lookup w with
  | some c =>
    have : (w, c) ∈ m := by
      rw [List.lookup_eq_some_iff] at hl
      obtain ⟨l1, l2, e, _⟩ := hl
      rw [e]; simp
    simpa using (h.ent (w, c) this).2.1
  | none =>
    have hno : w ∉ m.map Prod.fst := by
      rw [List.lookup_eq_none_iff] at hl
      intro hm
      rw [List.mem_map] at hm
      obtain ⟨e, he, rfl⟩ := hm
      simpa using hl e he
    have : acc.count w = 0 := List.count_eq_zero.2 fun hm => hno (h.key w hm hw)
    simp [this]

theorem Rep.incr {m : Counters} {acc : List Int} {D w : Int} (h : Rep m acc D) (hw : D ≤ w)
    (hb : (acc.count w : Int) + 1 < 2 ^ 63) : Rep (m.incr w) (w :: acc) D := by
  have hg := h.get hw
  have hdel : ∀ e, e ∈ m.del w ↔ e ∈ m ∧ e.1 ≠ w := by intro e; simp [Counters.del]
  unfold Counters.incr
  rw [hg, wrap64_of_in (by unfold InI64; omega)]
  unfold Counters.put
  refine ⟨?_, ?_, ?_⟩
  · simp only [List.map_cons, List.nodup_cons]
    constructor
    · intro hm
      rw [List.mem_map] at hm
      obtain ⟨e, he, hew⟩ := hm
      exact ((hdel e).1 he).2 hew
    · exact h.nodup.sublist ((List.filter_sublist).map _)
  · intro e he
    rcases List.mem_cons.1 he with he | he
    · subst he
      refine ⟨hw, ?_, ?_⟩ <;> simp <;> omega
    · obtain ⟨h1, h2⟩ := (hdel e).1 he
      obtain ⟨h3, h4, h5⟩ := h.ent e h1
      refine ⟨h3, ?_, h5⟩
      rw [h4, List.count_cons_of_ne (Ne.symm h2)]
  · intro x hx hD
    simp only [List.map_cons, List.mem_cons]
    by_cases hxw : x = w
    · exact .inl hxw
    · right
      have hx' : x ∈ acc := by
        rcases List.mem_cons.1 hx with h | h
        · exact absurd h hxw
        · exact h
      have := h.key x hx' hD
      rw [List.mem_map] at this ⊢
      obtain ⟨e, he, rfl⟩ := this
      exact ⟨e, (hdel e).2 ⟨he, hxw⟩, rfl⟩

/-- A map whose keys are multiples of `small` between `lo` and `lo + small * (n - 1)` has at most `n` entries. -/
theorem length_le {m : Counters} {small lo : Int} {n : Nat} (hs : 0 < small) (hn : (m.map Prod.fst).Nodup)
    (hk : ∀ e ∈ m, ∃ i : Nat, i < n ∧ e.1 = lo + small * i) : m.length ≤ n := by
  have hsub : ∀ k ∈ m.map Prod.fst, k ∈ (List.range n).map fun (i : Nat) => lo + small * (i : Int) := by
    intro k hk'
    rw [List.mem_map] at hk'
    obtain ⟨e, he, rfl⟩ := hk'
    obtain ⟨i, hi, e'⟩ := hk e he
    rw [List.mem_map]
    exact ⟨i, List.mem_range.2 hi, e'.symm⟩
  have := (List.subperm_of_subset hn hsub).length_le
  simpa using this

end Verif.Limiter.Counters
