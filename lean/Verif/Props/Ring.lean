import Verif.Proof.Ring
import Verif.Props.Math

/-!
# C18 – C22, C24: ring buffers
-/

namespace Verif.Ring

variable {T : Type}

theorem inv_new (zero : T) (s m : BitVec 64) (h : s.toNat < 2 ^ 63) :
    Inv (⟨0, 0, s, m, List.replicate s.toNat zero⟩ : Buf T) [] := by
  constructor <;> first | exact h | simp

theorem fix_new_ok (zero : T) {s : BitVec 64} (h1 : 1 ≤ s.toNat) (h2 : s.toNat ≤ 2 ^ 63 - 1) :
    Fix.new zero s = .ok ⟨0, 0, s, 0, List.replicate s.toNat zero⟩ := by
  have hne : s ≠ 0 := by rintro rfl; simp at h1
  have hmax : maxInt64.toNat = 2 ^ 63 - 1 := by decide
  have : ¬ s > maxInt64 := by rw [gt_iff_lt, BitVec.lt_def, hmax]; omega
  simp only [Fix.new, if_neg hne, if_neg this]

/-- **C18 (partial: see the bound).** A fix ring of any legal size answers every history of calls exactly like a FIFO queue of that capacity
(values, lengths, flags and panics), as long as fewer than 2^64 elements are accepted between two `Reset`s — or for
ever, when the size divides 2^64. -/
theorem C18_fix_fifo_partial (zero : T) (s : BitVec 64) (h1 : 1 ≤ s.toNat) (h2 : s.toNat ≤ 2 ^ 63 - 1) :
    ∃ r, Fix.new zero s = .ok r ∧ ∀ ops : List (Op T), (∀ op ∈ ops, Spec.ArgOk op) →
      (s.toNat ∣ 2 ^ 64 ∨ Spec.accepted s.toNat 0 [] ops < 2 ^ 64) →
      (runWith (Fix.step zero) r ops).2 = (Spec.runBounded s.toNat [] ops).2 := by
  refine ⟨_, fix_new_ok zero h1 h2, ?_⟩
  intro ops ha hk
  rw [fix_step_eq]
  have hne : s ≠ 0 := by rintro rfl; simp at h1
  refine (run_bounded zero ops (q := []) (r := ⟨0, 0, s, 0, List.replicate s.toNat zero⟩) (modIx_ok hne) h1 (inv_new zero s 0 (by omega)) ha 0 ?_).1
  rcases hk with hk | hk
  · exact .inl hk
  · exact .inr ⟨by simp, hk⟩

/-- A history through wrap-around of a size-3 ring, including a refused push. -/
example : ∃ r, Fix.new 0 3 = .ok r ∧
    (runWith (Fix.step 0) r [.push 1, .push 2, .pop, .mpush [3, 4, 5], .push 6, .mpop 9, .pop]).2 =
      [.unit, .unit, .val 1, .unit, .panic (.explicit "ring full"), .vals [2, 3, 4],
        .panic (.explicit "ring emtpy")] := by
  exact ⟨_, rfl, by decide⟩

/-- What the round constructor makes of a legal size. -/
theorem round_new_ok (zero : T) {s : BitVec 64} (h1 : 1 ≤ s.toNat) (h2 : s.toNat ≤ 2 ^ 62) :
    Round.new zero s = .ok ⟨0, 0, Math.roundUpPowOf2 s, Math.roundUpPowOf2 s - 1,
      List.replicate (Math.roundUpPowOf2 s).toNat zero⟩ ∧ (Math.roundUpPowOf2 s).toNat ≤ 2 ^ 62 ∧
      s.toNat ≤ (Math.roundUpPowOf2 s).toNat ∧
      (∃ k, (Math.roundUpPowOf2 s).toNat = 2 ^ k) ∧
      ∀ k, s.toNat ≤ 2 ^ k → (Math.roundUpPowOf2 s).toNat ≤ 2 ^ k := by
  obtain ⟨hp, hle, hleast⟩ := Math.C02_roundUp_least (Nat.le_refl _) s h1 (by omega)
  have hb := hleast 62 h2
  have hne : s ≠ 0 := by rintro rfl; simp at h1
  have hmax : maxRound.toNat = 2 ^ 62 := by decide
  have : ¬ Math.roundUpPowOf2 s > maxRound := by rw [gt_iff_lt, BitVec.lt_def, hmax]; omega
  refine ⟨?_, hb, hle, hp, hleast⟩
  simp only [Round.new, if_neg hne, if_neg this]

/-- **C19.** A round ring answers every history of calls, however long, exactly like a FIFO queue whose capacity is the
least power of two that is at least the requested size.  No bound on the number of pushes: the counters may wrap. -/
theorem C19_round_fifo_forever (zero : T) (s : BitVec 64) (h1 : 1 ≤ s.toNat) (h2 : s.toNat ≤ 2 ^ 62) :
    ∃ r c, Round.new zero s = .ok r ∧ s.toNat ≤ c ∧ (∃ k, c = 2 ^ k) ∧ (∀ k, s.toNat ≤ 2 ^ k → c ≤ 2 ^ k) ∧
      ∀ ops : List (Op T), (∀ op ∈ ops, Spec.ArgOk op) →
        (runWith (Round.step zero) r ops).2 = (Spec.runBounded c [] ops).2 := by
  obtain ⟨he, hb, hle, ⟨k, hk⟩, hleast⟩ := round_new_ok zero h1 h2
  refine ⟨_, _, he, hle, ⟨k, hk⟩, hleast, ?_⟩
  intro ops ha
  rw [round_step_eq]
  refine (run_bounded zero ops (q := []) (maskIx_ok k hk) (by show 0 < (Math.roundUpPowOf2 s).toNat; omega)
    (inv_new zero _ _ (by omega)) ha 0 ?_).1
  left
  show (Math.roundUpPowOf2 s).toNat ∣ 2 ^ 64
  have hk62 : k ≤ 62 := by
    by_contra hc
    have : 2 ^ 63 ≤ 2 ^ k := Nat.pow_le_pow_right (by omega) (by omega)
    omega
  rw [hk]
  exact pow_dvd_pow 2 (by omega)

/-- Size 3 is rounded to 4: four pushes fit, the fifth does not. -/
example : ∃ r, Round.new 0 3 = .ok r ∧
    (runWith (Round.step 0) r [.mpush [1, 2, 3], .push 4, .push 5, .pop, .push 6, .mpopCopy [0, 0, 0, 0, 7], .cap]).2 =
      [.unit, .unit, .panic (.explicit "ring full"), .val 1, .unit, .vals [2, 3, 4, 6, 7], .num 4] :=
  ⟨⟨0, 0, 4, 3, List.replicate 4 0⟩, by
    have : Math.roundUpPowOf2 (3 : BitVec 64) = 4 := by
      simp [Math.roundUpPowOf2, Math.findLastBitSet, Math.bitLen]
    simp only [Round.new, this]
    decide, by decide⟩

theorem unbounded_new_ok (zero : T) {s : BitVec 64} (h2 : s.toNat ≤ 2 ^ 63 - 1) :
    Unbounded.new zero s = .ok ⟨0, 0, s, 0, List.replicate s.toNat zero⟩ := by
  have hmax : maxInt64.toNat = 2 ^ 63 - 1 := by decide
  have : ¬ s > maxInt64 := by rw [gt_iff_lt, BitVec.lt_def, hmax]; omega
  simp only [Unbounded.new, if_neg this]

/-- The part of the state that does not hang on the capacity: what C20 claims. -/
theorem unbounded_run (zero : T) (s : BitVec 64) (h2 : s.toNat ≤ 2 ^ 63 - 1) (ops : List (Op T))
    (ha : ∀ op ∈ ops, Spec.ArgOk op) (hz : 1 ≤ s.toNat ∨ ∀ op ∈ ops, ∀ dst, op ≠ .mpopCopy dst)
    (hk : Spec.offered ops < 2 ^ 64) :
    ∃ r q, Unbounded.new zero s = .ok r ∧ Spec.RunUnbounded [] ops (runWith (Unbounded.step zero) r ops).2 q ∧
      Inv (runWith (Unbounded.step zero) r ops).1 q ∧
      s.toNat ≤ (runWith (Unbounded.step zero) r ops).1.size.toNat := by
  have h0 := inv_new zero s 0 (by omega : s.toNat < 2 ^ 63)
  obtain ⟨q, h3, h4, h5⟩ := run_unbounded zero ops (k := 0) ⟨h0, by simp, by simp⟩ ha (by
    rcases hz with hz | hz
    · exact .inl hz
    · right
      intro op hop hc
      cases op <;> simp [isCopy] at hc
      exact hz _ hop _ rfl) (by omega)
  exact ⟨_, q, unbounded_new_ok zero h2, h3, h4, h5⟩

/-- **C20** (with the two exceptions below).  An unbounded ring answers every history of calls like an unbounded FIFO
queue: nothing is lost or reordered, `Grow` is invisible, and `Push`/`MPush` report the size limit only when the queue
would hold 2^62 elements or more.

Exceptions, which make the original claim false as stated: fewer than 2^64 elements are pushed in all (see C22), and
`MPopCopy` is not used on a ring created with size 0 (see `C20_size_zero_refuted`). -/
theorem C20_unbounded_fifo_partial (zero : T) (s : BitVec 64) (h2 : s.toNat ≤ 2 ^ 63 - 1) :
    ∃ r, Unbounded.new zero s = .ok r ∧ ∀ ops : List (Op T), (∀ op ∈ ops, Spec.ArgOk op) →
      (1 ≤ s.toNat ∨ ∀ op ∈ ops, ∀ dst, op ≠ .mpopCopy dst) → Spec.offered ops < 2 ^ 64 →
      ∃ q, Spec.RunUnbounded [] ops (runWith (Unbounded.step zero) r ops).2 q := by
  refine ⟨_, unbounded_new_ok zero h2, ?_⟩
  intro ops ha hz hk
  obtain ⟨r, q, h3, h4, _, _⟩ := unbounded_run zero s h2 ops ha hz hk
  rw [unbounded_new_ok zero h2] at h3
  obtain rfl := Except.ok.inj h3
  exact ⟨q, h4⟩

/-- Growth from size 0, through 2 and 4, with a wrapped queue in between. -/
example : ∃ r, Unbounded.new 0 0 = .ok r ∧
    (runWith (Unbounded.step 0) r [.push 1, .push 2, .pop, .push 3, .push 4, .mpush [5, 6], .len, .grow 20, .mpop 10]).2 =
      [.unit, .unit, .val 1, .unit, .unit, .unit, .num 5, .unit, .vals [2, 3, 4, 5, 6]] :=
  ⟨_, rfl, by decide⟩

theorem runUnbounded_limit {q q' : List T} {ops : List (Op T)} {os : List (Obs T)}
    (h : Spec.RunUnbounded q ops os q') (hg : ∀ op ∈ ops, ∀ n, op ≠ .grow n)
    (hl : q.length + Spec.offered ops < 2 ^ 62) : ∀ o ∈ os, o ≠ .panic (.explicit "size is too large") := by
  induction h with
  | nil => simp
  | cons h1 h2 ih =>
    rename_i q op q1 o ops os q2
    rw [offered_cons] at hl
    have key : o ≠ .panic (.explicit "size is too large") ∧ q1.length ≤ q.length + Spec.offered [op] := by
      cases h1 <;> simp only [Spec.offered, ne_eq, reduceCtorEq, not_false_eq_true, true_and, List.length_append,
        List.length_drop, List.length_cons, List.length_nil, Nat.add_zero] at * <;> first | omega | skip
      · simp
      · simp
      · exact absurd rfl (hg _ (List.mem_cons_self) _)
    intro o' ho
    rw [List.mem_cons] at ho
    rcases ho with rfl | ho
    · exact key.1
    · exact ih (fun op hop => hg op (by simp [hop])) (by omega) o' ho

/-- **C20, no false alarms.** Without explicit `Grow` calls and with fewer than 2^62 elements pushed, the size limit is
never reported. -/
theorem C20_never_too_large (zero : T) (s : BitVec 64) (h2 : s.toNat ≤ 2 ^ 63 - 1) (ops : List (Op T))
    (ha : ∀ op ∈ ops, Spec.ArgOk op) (hz : 1 ≤ s.toNat ∨ ∀ op ∈ ops, ∀ dst, op ≠ .mpopCopy dst)
    (hg : ∀ op ∈ ops, ∀ n, op ≠ .grow n) (hk : Spec.offered ops < 2 ^ 62) :
    ∃ r, Unbounded.new zero s = .ok r ∧
      ∀ o ∈ (runWith (Unbounded.step zero) r ops).2, o ≠ .panic (.explicit "size is too large") := by
  obtain ⟨r, q, h3, h4, _, _⟩ := unbounded_run zero s h2 ops ha hz (by omega)
  exact ⟨r, h3, runUnbounded_limit h4 hg (by simpa using hk)⟩

/-- **C20, capacity.** After any history `Cap` is at least the initial size and at least `Len`; `Avail` is their
difference; `Full` says that they agree; and `Grow n` panics exactly when the doubled capacity or `n` exceeds
`MaxInt64`, otherwise it reaches at least `n` and at least twice the old capacity and leaves `Len` alone. -/
theorem C20_capacity (zero : T) (s : BitVec 64) (h2 : s.toNat ≤ 2 ^ 63 - 1) (ops : List (Op T))
    (ha : ∀ op ∈ ops, Spec.ArgOk op) (hz : 1 ≤ s.toNat ∨ ∀ op ∈ ops, ∀ dst, op ≠ .mpopCopy dst)
    (hk : Spec.offered ops < 2 ^ 64) :
    ∃ r0 r, Unbounded.new zero s = .ok r0 ∧ r = (runWith (Unbounded.step zero) r0 ops).1 ∧
      s.toNat ≤ (cap r).toNat ∧ (len r).toNat ≤ (cap r).toNat ∧
      (avail r).toNat = (cap r).toNat - (len r).toNat ∧ (full r = true ↔ (len r).toNat = (cap r).toNat) ∧
      ∀ n, if 2 ^ 63 ≤ 2 * (cap r).toNat ∨ 2 ^ 63 ≤ n.toNat
        then Unbounded.grow zero r n = .error (.explicit "size is too large")
        else ∃ r', Unbounded.grow zero r n = .ok r' ∧ n.toNat ≤ (cap r').toNat ∧
          2 * (cap r).toNat ≤ (cap r').toNat ∧ len r' = len r := by
  obtain ⟨r, q, h3, h4, h5, h6⟩ := unbounded_run zero s h2 ops ha hz hk
  have hl : (len (runWith (Unbounded.step zero) r ops).1).toNat = q.length := h5.len
  refine ⟨r, _, h3, rfl, h6, ?_, ?_, ?_, ?_⟩
  · rw [hl]; exact h5.le
  · rw [hl]; exact h5.avail_toNat
  · rw [h5.full_iff, hl]; simp [cap]
  · intro n
    rcases grow_spec zero h5 n with ⟨hb, he⟩ | ⟨hb, r', he, hi, _, hs, _⟩
    · rw [if_pos (by unfold cap; omega)]; exact he
    · rw [if_neg (by unfold cap; omega)]
      refine ⟨r', he, by unfold cap; omega, by unfold cap; omega, ?_⟩
      apply BitVec.eq_of_toNat_eq
      rw [hl]; exact hi.len

/-- **C20 refuted at size 0.** `New(0)` followed by `MPopCopy` panics with a division by zero; a FIFO queue would leave
the destination alone. -/
theorem C20_size_zero_refuted : ∃ r, Unbounded.new 0 0 = .ok r ∧
    (runWith (Unbounded.step 0) r [.mpopCopy [1, 2]]).2 = [.panic .divZero] ∧
    ¬ ∃ q, Spec.RunUnbounded [] [.mpopCopy [1, 2]] (runWith (Unbounded.step 0) r [.mpopCopy [1, 2]]).2 q := by
  refine ⟨_, rfl, by decide, ?_⟩
  rintro ⟨q, h⟩
  have e : (runWith (Unbounded.step 0) (⟨0, 0, 0, 0, List.replicate (0 : BitVec 64).toNat 0⟩ : Buf Nat)
    [.mpopCopy [1, 2]]).2 = [.panic .divZero] := by decide
  rw [e] at h
  cases h with
  | cons h1 h2 => cases h1

/-! ## C21 -/

/-- The state after a history, with the queue it stands for. -/
theorem fix_reach (zero : T) (s : BitVec 64) (h1 : 1 ≤ s.toNat) (h2 : s.toNat ≤ 2 ^ 63 - 1) (ops : List (Op T))
    (ha : ∀ op ∈ ops, Spec.ArgOk op) (hk : s.toNat ∣ 2 ^ 64 ∨ Spec.accepted s.toNat 0 [] ops < 2 ^ 64) :
    ∃ r, Fix.new zero s = .ok r ∧
      Inv (runWith (Fix.step zero) r ops).1 (Spec.runBounded s.toNat [] ops).1 ∧
      (runWith (Fix.step zero) r ops).1.size = s := by
  refine ⟨_, fix_new_ok zero h1 h2, ?_⟩
  rw [fix_step_eq]
  have hne : s ≠ 0 := by rintro rfl; simp at h1
  have := run_bounded zero ops (q := []) (r := ⟨0, 0, s, 0, List.replicate s.toNat zero⟩) (modIx_ok hne) h1 (inv_new zero s 0 (by omega)) ha 0 (by
    rcases hk with hk | hk
    · exact .inl hk
    · exact .inr ⟨by simp, hk⟩)
  exact ⟨this.2.1, this.2.2.1⟩

/-- The bulk-operation facts of C21 for one ring state `r` standing for the queue `q`. -/
def BulkFacts (zero : T) (ix : Buf T → BitVec 64 → Go (BitVec 64)) (r : Buf T) (q : List T) : Prop :=
  (∀ es : List T, es.length < 2 ^ 63 → (r.size.toNat ∣ 2 ^ 64 ∨ r.inn.toNat + es.length < 2 ^ 64) →
    ∃ r' r'', mpushG ix r es = .ok r' ∧ mpopG zero ix r' (len r') = .ok (r'', q ++ es.take (avail r).toNat) ∧
      (len r').toNat = (len r).toNat + min es.length (avail r).toNat) ∧
  (∀ n : BitVec 64, ∃ r', mpopG zero ix r n = .ok (r', q.take n.toNat) ∧
      (len r').toNat = (len r).toNat - n.toNat) ∧
  (∀ dst : List T, dst.length < 2 ^ 63 →
    ∃ r' dst', mpopCopyG ix r dst = .ok (r', dst') ∧ dst'.length = dst.length ∧
      (∀ i, i < min dst.length (len r).toNat → dst'[i]? = q[i]?) ∧
      (∀ i, min dst.length (len r).toNat ≤ i → dst'[i]? = dst[i]?) ∧
      (len r').toNat = (len r).toNat - dst.length)

theorem bulk_facts (zero : T) {ix : Buf T → BitVec 64 → Go (BitVec 64)} {r : Buf T} {q : List T}
    (hix : IxOk ix r.size r.mask) (hN : 0 < r.size.toNat) (h : Inv r q) : BulkFacts zero ix r q := by
  have hl : (len r).toNat = q.length := h.len
  have hle := h.le
  refine ⟨?_, ?_, ?_⟩
  · intro es he hk
    obtain ⟨r', a1, a2, a3, a4, a5⟩ := mpushG_spec hix h es he (by
      rcases hk with hk | hk
      · exact .inl hk
      · right; simp only [List.length_take]; omega)
    obtain ⟨r'', b1, b2, _⟩ := mpopG_spec zero (fun _ => by rw [a3, a4]; exact hix) a2 (len r')
    have hl' : (len r').toNat = (q ++ es.take (r.size.toNat - q.length)).length := a2.len
    refine ⟨r', r'', a1, ?_, ?_⟩
    · rw [b1, hl', List.take_length, h.avail_toNat]
    · rw [hl', hl, h.avail_toNat]; simp only [List.length_append, List.length_take]; omega
  · intro n
    obtain ⟨r', a1, a2, _⟩ := mpopG_spec zero (fun _ => hix) h n
    refine ⟨r', a1, ?_⟩
    have : (len r').toNat = (q.drop n.toNat).length := a2.len
    rw [this, hl]; simp
  · intro dst hd
    obtain ⟨r', a1, a2, _⟩ := mpopCopyG_spec hix h hN dst hd
    have : (len r').toNat = (q.drop dst.length).length := a2.len
    refine ⟨r', _, a1, ?_, ?_, ?_, ?_⟩
    · simp only [List.length_append, List.length_take, List.length_drop]; omega
    · intro i hi
      rw [hl] at hi
      rw [List.getElem?_append_left (by simp only [List.length_take]; omega), List.getElem?_take_of_lt (by omega)]
    · intro i hi
      rw [hl] at hi
      rw [List.getElem?_append_right (by simp only [List.length_take]; omega), List.getElem?_drop]
      by_cases hlt : dst.length ≤ i
      · rw [List.getElem?_eq_none hlt, List.getElem?_eq_none (by simp only [List.length_take]; omega)]
      · congr 1
        simp only [List.length_take]; omega
    · rw [this, hl]; simp

/-- **C21 (fix).** In every reachable state: `MPush` stores exactly the longest prefix that fits, `MPop n` returns the
`min n Len` oldest elements in order, `MPopCopy` overwrites exactly the first `min (len dst) Len` cells of `dst`. -/
theorem C21_fix_bulk (zero : T) (s : BitVec 64) (h1 : 1 ≤ s.toNat) (h2 : s.toNat ≤ 2 ^ 63 - 1) (ops : List (Op T))
    (ha : ∀ op ∈ ops, Spec.ArgOk op) (hk : s.toNat ∣ 2 ^ 64 ∨ Spec.accepted s.toNat 0 [] ops < 2 ^ 64) :
    ∃ r, Fix.new zero s = .ok r ∧
      BulkFacts zero modIx (runWith (Fix.step zero) r ops).1 (Spec.runBounded s.toNat [] ops).1 := by
  obtain ⟨r, e, hi, hs⟩ := fix_reach zero s h1 h2 ops ha hk
  have hne : s ≠ 0 := by rintro rfl; simp at h1
  exact ⟨r, e, bulk_facts zero (by rw [hs]; exact modIx_ok hne) (by rw [hs]; exact h1) hi⟩

/-- **C21 (round).** The same for the round ring, after any history. -/
theorem C21_round_bulk (zero : T) (s : BitVec 64) (h1 : 1 ≤ s.toNat) (h2 : s.toNat ≤ 2 ^ 62) (ops : List (Op T))
    (ha : ∀ op ∈ ops, Spec.ArgOk op) :
    ∃ r, Round.new zero s = .ok r ∧
      BulkFacts zero maskIx (runWith (Round.step zero) r ops).1
        (Spec.runBounded (Math.roundUpPowOf2 s).toNat [] ops).1 := by
  obtain ⟨he, hb, hle, ⟨k, hk⟩, hleast⟩ := round_new_ok zero h1 h2
  refine ⟨_, he, ?_⟩
  rw [round_step_eq]
  have hk62 : k ≤ 62 := by
    by_contra hc
    have : 2 ^ 63 ≤ 2 ^ k := Nat.pow_le_pow_right (by omega) (by omega)
    omega
  have := run_bounded zero ops (q := []) (r := ⟨0, 0, Math.roundUpPowOf2 s, Math.roundUpPowOf2 s - 1,
      List.replicate (Math.roundUpPowOf2 s).toNat zero⟩) (maskIx_ok k hk)
    (by show 0 < (Math.roundUpPowOf2 s).toNat; omega)
    (inv_new zero _ _ (by omega)) ha 0 (by
      left
      show (Math.roundUpPowOf2 s).toNat ∣ 2 ^ 64
      rw [hk]
      exact pow_dvd_pow 2 (by omega))
  refine bulk_facts zero ?_ ?_ this.2.1
  · rw [this.2.2.1, this.2.2.2]; exact maskIx_ok k hk
  · rw [this.2.2.1]; show 0 < (Math.roundUpPowOf2 s).toNat; omega

/-! ## C22: wrap-around of the counters -/

theorem runWith_append (step : Buf T → Op T → Go (Buf T × Obs T)) (a b : List (Op T)) :
    ∀ r, runWith step r (a ++ b) = ((runWith step (runWith step r a).1 b).1,
      (runWith step r a).2 ++ (runWith step (runWith step r a).1 b).2) := by
  induction a with
  | nil => intro r; rfl
  | cons op a ih =>
    intro r
    simp only [List.cons_append, runWith, ih]

theorem runBounded_append (c : Nat) (a b : List (Op T)) :
    ∀ q, Spec.runBounded c q (a ++ b) = ((Spec.runBounded c (Spec.runBounded c q a).1 b).1,
      (Spec.runBounded c q a).2 ++ (Spec.runBounded c (Spec.runBounded c q a).1 b).2) := by
  induction a with
  | nil => intro r; rfl
  | cons op a ih =>
    intro r
    simp only [List.cons_append, Spec.runBounded, ih]

/-- A ring with the given counters and some storage of the right length. -/
structure Raw (r : Buf T) (s inn out : BitVec 64) : Prop where
  size : r.size = s
  inn : r.inn = inn
  out : r.out = out
  dlen : r.data.length = s.toNat

/-- `Push` on a ring whose counters differ by less than the size stores at `inn % size`. -/
theorem push_raw {r : Buf T} {s a b : BitVec 64} (h : Raw r s a b) (hl : (a - b).toNat < s.toNat) (e : T) :
    ∃ r', pushG modIx r e = .ok r' ∧ Unbounded.push e r e = .ok r' ∧ Raw r' s (a + 1) b ∧
      r'.data = r.data.set (a.toNat % s.toNat) e := by
  have hN : 0 < s.toNat := by omega
  have hne : s ≠ 0 := by rintro rfl; simp at hN
  have hf : full r = false := by
    unfold full avail cap len
    rw [h.size, h.inn, h.out]
    simp only [beq_eq_false_iff_ne, ne_eq]
    intro e0
    have := congrArg BitVec.toNat e0
    rw [BitVec.toNat_sub] at this
    have hs := s.isLt
    have h0 : (0 : BitVec 64).toNat = 0 := rfl
    rw [h0] at this
    omega
  have hlt : a.toNat % s.toNat < s.toNat := Nat.mod_lt _ hN
  have hst : store1 modIx r e = .ok { r with inn := a + 1, data := r.data.set (a.toNat % s.toNat) e } := by
    simp only [store1, modIx, h.size, if_neg hne, Go.bind_ok, h.inn, Go.set, h.dlen, BitVec.toNat_umod, if_pos hlt]
    rfl
  refine ⟨{ r with inn := a + 1, data := r.data.set (a.toNat % s.toNat) e }, ?_, ?_, ?_, ?_⟩
  · simp [pushG, hf, hst]
  · simp [Unbounded.push, hf, hst]
  · exact ⟨h.size, rfl, h.out, by simp [h.dlen]⟩
  · rfl

/-- `Pop` reads at `out % size` whatever the counters. -/
theorem pop_raw {r : Buf T} {s a b : BitVec 64} (h : Raw r s a b) (hs : 0 < s.toNat) (hab : a ≠ b) :
    ∃ r' v, popG modIx r = .ok (r', v) ∧ Raw r' s a (b + 1) ∧ r.data[b.toNat % s.toNat]? = some v := by
  have hne : s ≠ 0 := by rintro rfl; simp at hs
  have he : empty r = false := by simp [empty, h.inn, h.out, hab]
  have hlt : b.toNat % s.toNat < r.data.length := by rw [h.dlen]; exact Nat.mod_lt _ hs
  refine ⟨{ r with out := b + 1 }, r.data[b.toNat % s.toNat], ?_, ⟨h.size, h.inn, rfl, h.dlen⟩, by simp [hlt]⟩
  simp only [popG, he, modIx, h.size, if_neg hne, h.out, Go.bind_ok, BitVec.toNat_umod, Bool.false_eq_true, if_false,
    Go.idx_of_lt _ _ hlt]
  rfl

/-- `n` times push-then-pop. -/
def cycles (n : Nat) (e : T) : List (Op T) := (List.replicate n [Op.push e, Op.pop]).flatten

theorem cycles_succ (n : Nat) (e : T) : cycles (n + 1) e = Op.push e :: Op.pop :: cycles n e := by
  simp [cycles, List.replicate_succ]

theorem argOk_cycles (n : Nat) (e : T) : ∀ op ∈ cycles n e, Spec.ArgOk op := by
  intro op hop
  simp only [cycles, List.mem_flatten, List.mem_replicate] at hop
  obtain ⟨l, ⟨_, rfl⟩, h⟩ := hop
  simp only [List.mem_cons, List.not_mem_nil, or_false] at h
  rcases h with rfl | rfl <;> trivial

/-- The steps of fix and unbounded that the wrap-around scenario uses. -/
structure WrapStep (zero : T) (step : Buf T → Op T → Go (Buf T × Obs T)) : Prop where
  push : ∀ r s a b, Raw r s a b → (a - b).toNat < s.toNat → ∀ e : T, ∃ r',
    step r (.push e) = .ok (r', .unit) ∧ Raw r' s (a + 1) b ∧ r'.data = r.data.set (a.toNat % s.toNat) e
  pop : ∀ r s a b, Raw r s a b → 0 < s.toNat → a ≠ b → ∃ r' v,
    step r .pop = .ok (r', .val v) ∧ Raw r' s a (b + 1) ∧ r.data[b.toNat % s.toNat]? = some v

theorem fix_wrapStep (zero : T) : WrapStep zero (Fix.step zero) where
  push := by
    intro r s a b h hl e
    obtain ⟨r', h1, _, h2, h3⟩ := push_raw h hl e
    exact ⟨r', by simp [Fix.step, h1], h2, h3⟩
  pop := by
    intro r s a b h hs hab
    obtain ⟨r', v, h1, h2, h3⟩ := pop_raw h hs hab
    exact ⟨r', v, by simp [Fix.step, stepCommon, h1], h2, h3⟩

theorem unbounded_push_zero {r : Buf T} (z z' e : T) {r' : Buf T} (hf : full r = false)
    (h : Unbounded.push z r e = .ok r') : Unbounded.push z' r e = .ok r' := by
  simpa [Unbounded.push, hf] using h

theorem raw_not_full {r : Buf T} {s a b : BitVec 64} (h : Raw r s a b) (hl : (a - b).toNat < s.toNat) :
    full r = false := by
  unfold full avail cap len
  rw [h.size, h.inn, h.out]
  simp only [beq_eq_false_iff_ne, ne_eq]
  intro e0
  have := congrArg BitVec.toNat e0
  rw [BitVec.toNat_sub] at this
  have hs := s.isLt
  have h0 : (0 : BitVec 64).toNat = 0 := rfl
  rw [h0] at this
  omega

theorem unbounded_wrapStep (zero : T) : WrapStep zero (Unbounded.step zero) where
  push := by
    intro r s a b h hl e
    obtain ⟨r', _, h1, h2, h3⟩ := push_raw h hl e
    exact ⟨r', by simp [Unbounded.step, unbounded_push_zero e zero e (raw_not_full h hl) h1], h2, h3⟩
  pop := by
    intro r s a b h hs hab
    obtain ⟨r', v, h1, h2, h3⟩ := pop_raw h hs hab
    exact ⟨r', v, by simp [Unbounded.step, stepCommon, h1], h2, h3⟩

section wrap
variable {zero : T} {step : Buf T → Op T → Go (Buf T × Obs T)}

theorem one_add_sub (a : BitVec 64) : a + 1 - a = 1 := by
  rw [BitVec.add_comm, BitVec.add_sub_cancel]

theorem run_cycles (w : WrapStep zero step) {s : BitVec 64} (hs : 2 ≤ s.toNat) (e : T) (n : Nat) :
    ∀ {r : Buf T} {a : BitVec 64}, Raw r s a a →
      Raw (runWith step r (cycles n e)).1 s (a + BitVec.ofNat 64 n) (a + BitVec.ofNat 64 n) := by
  induction n with
  | zero => intro r a h; simpa [cycles, runWith] using h
  | succ n ih =>
    intro r a h
    obtain ⟨r1, a1, a2, _⟩ := w.push r s a a h (by simp; omega) e
    obtain ⟨r2, v, b1, b2, _⟩ := w.pop r1 s (a + 1) a a2 (by omega) (by
      intro e0
      have := one_add_sub a
      rw [e0] at this
      simp at this)
    have := ih b2
    rw [cycles_succ]
    simp only [runWith, a1, b1, observe]
    have e0 : a + BitVec.ofNat 64 (n + 1) = a + 1 + BitVec.ofNat 64 n := by
      rw [BitVec.add_assoc]
      congr 1
      apply BitVec.eq_of_toNat_eq
      simp [BitVec.toNat_add, Nat.add_comm]
    rw [e0]
    exact this

theorem run_pushes (w : WrapStep zero step) {s : BitVec 64} (e : T) (n : Nat) :
    ∀ {r : Buf T} {a b : BitVec 64}, Raw r s a b → (a - b).toNat + n ≤ s.toNat →
      Raw (runWith step r (List.replicate n (.push e))).1 s (a + BitVec.ofNat 64 n) b := by
  induction n with
  | zero => intro r a b h _; simpa [runWith] using h
  | succ n ih =>
    intro r a b h hl
    obtain ⟨r1, a1, a2, _⟩ := w.push r s a b h (by omega) e
    have hs := s.isLt
    have h1 : (a + 1 - b).toNat = (a - b).toNat + 1 := by
      have : a + 1 - b = (a - b) + 1 := by
        simp only [BitVec.sub_eq_add_neg, BitVec.add_assoc]
        rw [BitVec.add_comm 1 (-b)]
      rw [this, BitVec.toNat_add]
      have h1' : (1 : BitVec 64).toNat = 1 := rfl
      rw [h1', Nat.mod_eq_of_lt (by omega)]
    have := ih a2 (by omega)
    simp only [List.replicate_succ, runWith, a1, observe]
    have e0 : a + BitVec.ofNat 64 (n + 1) = a + 1 + BitVec.ofNat 64 n := by
      rw [BitVec.add_assoc]
      congr 1
      apply BitVec.eq_of_toNat_eq
      simp [BitVec.toNat_add, Nat.add_comm]
    rw [e0]
    exact this

/-- The history that goes through the wrap-around: the ring is used until both counters are the last multiple of the
size before 2^64; then one `x` and `2^64 % size` times `y` are pushed. -/
def wrapPrefix (s : Nat) (x y : T) : List (Op T) :=
  cycles (2 ^ 64 - 2 ^ 64 % s) x ++ (.push x :: List.replicate (2 ^ 64 % s) (.push y))

theorem run_wrap (w : WrapStep zero step) {s : BitVec 64} (h1 : ¬ s.toNat ∣ 2 ^ 64) (hs : 2 ≤ s.toNat) (x y : T)
    {r : Buf T} (h : Raw r s 0 0) :
    ∃ r', observe (runWith step r (wrapPrefix s.toNat x y)).1
      (step (runWith step r (wrapPrefix s.toNat x y)).1 .pop) = (r', .val y) := by
  have hlt : 2 ^ 64 % s.toNat < s.toNat := Nat.mod_lt _ (by omega)
  have hpos : 2 ^ 64 % s.toNat ≠ 0 := fun e => h1 (Nat.dvd_of_mod_eq_zero e)
  have hle : 2 ^ 64 % s.toNat ≤ 2 ^ 64 := Nat.mod_le _ _
  obtain ⟨m, hm⟩ : ∃ m, 2 ^ 64 % s.toNat = m + 1 := ⟨2 ^ 64 % s.toNat - 1, by omega⟩
  have hc := run_cycles w hs x (2 ^ 64 - 2 ^ 64 % s.toNat) h
  simp only [wrapPrefix]
  rw [runWith_append]
  rw [show (0 : BitVec 64) + BitVec.ofNat 64 (2 ^ 64 - 2 ^ 64 % s.toNat) = BitVec.ofNat 64 (2 ^ 64 - 2 ^ 64 % s.toNat)
    from BitVec.zero_add _] at hc
  set c := BitVec.ofNat 64 (2 ^ 64 - 2 ^ 64 % s.toNat) with hcd
  have hcn : c.toNat = 2 ^ 64 - 2 ^ 64 % s.toNat := by
    rw [hcd, BitVec.toNat_ofNat, Nat.mod_eq_of_lt (by omega)]
  set r1 := (runWith step r (cycles (2 ^ 64 - 2 ^ 64 % s.toNat) x)).1 with hr1
  obtain ⟨r2, a1, a2, _⟩ := w.push r1 s c c hc (by simp; omega) x
  simp only [runWith, a1, observe]
  rw [hm, List.replicate_succ', runWith_append]
  have hp := run_pushes w y m a2 (by rw [one_add_sub]; have : (1 : BitVec 64).toNat = 1 := rfl; omega)
  set r3 := (runWith step r2 (List.replicate m (.push y))).1 with hr3
  have hz : c + 1 + BitVec.ofNat 64 m = 0 := by
    apply BitVec.eq_of_toNat_eq
    have h1' : (1 : BitVec 64).toNat = 1 := rfl
    have hm' : (BitVec.ofNat 64 m).toNat = m := by
      rw [BitVec.toNat_ofNat, Nat.mod_eq_of_lt]
      have := s.isLt
      omega
    rw [BitVec.toNat_add, BitVec.toNat_add, hcn, h1', hm']
    have : (0 : BitVec 64).toNat = 0 := rfl
    rw [this]
    omega
  rw [hz] at hp
  have hcm : c.toNat % s.toNat = 0 := by
    rw [hcn]
    exact Nat.mod_eq_zero_of_dvd (Nat.dvd_sub_mod _)
  obtain ⟨r4, b1, b2, b3⟩ := w.push r3 s 0 c hp (by
    rw [BitVec.toNat_sub, hcn]
    have : (0 : BitVec 64).toNat = 0 := rfl
    rw [this]
    omega) y
  simp only [runWith, b1, observe]
  obtain ⟨r5, v, d1, d2, d3⟩ := w.pop r4 s (0 + 1) c b2 (by omega) (by
    intro e
    have := congrArg BitVec.toNat e
    rw [hcn] at this
    have h1' : (0 + 1 : BitVec 64).toNat = 1 := rfl
    rw [h1'] at this
    have := s.isLt
    omega)
  refine ⟨r5, ?_⟩
  have h0' : (0 : BitVec 64).toNat = 0 := rfl
  rw [hcm, b3, h0', Nat.zero_mod, List.getElem?_set_self (by rw [hp.dlen]; omega)] at d3
  obtain rfl := Option.some.inj d3
  rw [d1]

end wrap

theorem bounded_cycles (c : Nat) (hc : 1 ≤ c) (x : T) (n : Nat) :
    (Spec.runBounded c [] (cycles n x)).1 = [] := by
  induction n with
  | zero => rfl
  | succ n ih =>
    rw [cycles_succ]
    simp only [Spec.runBounded, Spec.bounded, List.length_nil, show 0 < c by omega, if_true, List.nil_append]
    exact ih

theorem bounded_pushes (c : Nat) (y : T) (n : Nat) : ∀ q : List T, q.length + n ≤ c →
    (Spec.runBounded c q (List.replicate n (.push y))).1 = q ++ List.replicate n y := by
  induction n with
  | zero => intro q _; simp [Spec.runBounded]
  | succ n ih =>
    intro q hq
    simp only [List.replicate_succ, Spec.runBounded, Spec.bounded, show q.length < c by omega, if_true]
    rw [ih _ (by simp; omega)]
    simp

/-- **C22 for fix: exactly the sizes that divide 2^64 survive wrap-around.** A fix ring of legal size `s` agrees with
the FIFO queue on all histories, without any bound on their length, if and only if `s` divides 2^64.  So the claim is
true for power-of-two sizes and false for every other size. -/
theorem C22_fix_wrap_iff (s : BitVec 64) (h1 : 1 ≤ s.toNat) (h2 : s.toNat ≤ 2 ^ 63 - 1) :
    ∃ r, Fix.new false s = .ok r ∧
      ((∀ ops : List (Op Bool), (∀ op ∈ ops, Spec.ArgOk op) →
        (runWith (Fix.step false) r ops).2 = (Spec.runBounded s.toNat [] ops).2) ↔ s.toNat ∣ 2 ^ 64) := by
  refine ⟨_, fix_new_ok false h1 h2, ?_, ?_⟩
  · intro hall
    by_contra hnd
    have hs : 2 ≤ s.toNat := by
      by_contra hc
      have : s.toNat = 1 := by omega
      rw [this] at hnd
      exact hnd (one_dvd _)
    have hlt : 2 ^ 64 % s.toNat < s.toNat := Nat.mod_lt _ (by omega)
    have hr : Raw (⟨0, 0, s, 0, List.replicate s.toNat false⟩ : Buf Bool) s 0 0 := ⟨rfl, rfl, rfl, by simp⟩
    obtain ⟨r', hw⟩ := run_wrap (fix_wrapStep false) hnd hs true false hr
    have hq : (Spec.runBounded s.toNat [] (wrapPrefix s.toNat true false)).1 =
        true :: List.replicate (2 ^ 64 % s.toNat) false := by
      simp only [wrapPrefix]
      rw [runBounded_append, bounded_cycles _ h1]
      simp only [Spec.runBounded, Spec.bounded, List.length_nil, show 0 < s.toNat by omega, if_true, List.nil_append]
      rw [bounded_pushes _ _ _ _ (by simp only [List.length_cons, List.length_nil]; omega)]
      rfl
    have := hall (wrapPrefix s.toNat true false ++ [.pop]) (by
      intro op hop
      simp only [wrapPrefix, List.mem_append, List.mem_cons, List.mem_replicate, List.not_mem_nil, or_false] at hop
      rcases hop with (hop | rfl | ⟨_, rfl⟩) | rfl
      · exact argOk_cycles _ _ _ hop
      · trivial
      · trivial
      · trivial)
    rw [runWith_append, runBounded_append, hq] at this
    simp only [runWith, hw, Spec.runBounded, Spec.bounded] at this
    have hlast := congrArg List.getLast? this
    simp at hlast
  · intro hd ops ha
    obtain ⟨r, e, h⟩ := C18_fix_fifo_partial false s h1 h2
    rw [fix_new_ok false h1 h2] at e
    obtain rfl := Except.ok.inj e
    exact h ops ha (.inl hd)

/-- **C22 refuted for unbounded.** An unbounded ring created with a size (at least 2) that does not divide 2^64 and
used until its counters wrap hands out a younger element first: after `wrapPrefix` the oldest element is `true`, yet
`Pop` returns `false`. -/
theorem C22_unbounded_wrap_refuted (s : BitVec 64) (hs : 2 ≤ s.toNat) (h2 : s.toNat ≤ 2 ^ 63 - 1)
    (hnd : ¬ s.toNat ∣ 2 ^ 64) :
    ∃ r r', Unbounded.new false s = .ok r ∧
      (Spec.runBounded s.toNat [] (wrapPrefix s.toNat true false)).1.head? = some true ∧
      observe (runWith (Unbounded.step false) r (wrapPrefix s.toNat true false)).1
        (Unbounded.step false (runWith (Unbounded.step false) r (wrapPrefix s.toNat true false)).1 .pop) =
          (r', .val false) := by
  have hlt : 2 ^ 64 % s.toNat < s.toNat := Nat.mod_lt _ (by omega)
  have hr : Raw (⟨0, 0, s, 0, List.replicate s.toNat false⟩ : Buf Bool) s 0 0 := ⟨rfl, rfl, rfl, by simp⟩
  obtain ⟨r', hw⟩ := run_wrap (unbounded_wrapStep false) hnd hs true false hr
  refine ⟨_, r', unbounded_new_ok false h2, ?_, hw⟩
  simp only [wrapPrefix]
  rw [runBounded_append, bounded_cycles _ (by omega)]
  simp only [Spec.runBounded, Spec.bounded, List.length_nil, show 0 < s.toNat by omega, if_true, List.nil_append]
  rw [bounded_pushes _ _ _ _ (by simp only [List.length_cons, List.length_nil]; omega)]
  rfl

/-- Size 3 does not divide 2^64. -/
example : ¬ (3 : BitVec 64).toNat ∣ 2 ^ 64 := by decide

/-! ## C24 -/

/-- **C24 (fix).** `New` panics exactly for 0 and for sizes above `MaxInt64`; otherwise `Cap` is the requested size. -/
theorem C24_fix_new (zero : T) (s : BitVec 64) :
    (s.toNat = 0 ∨ 2 ^ 63 ≤ s.toNat → ∃ msg, Fix.new zero s = .error (.explicit msg)) ∧
    (1 ≤ s.toNat → s.toNat < 2 ^ 63 → ∃ r, Fix.new zero s = .ok r ∧ cap r = s ∧ len r = 0) := by
  have hmax : maxInt64.toNat = 2 ^ 63 - 1 := by decide
  constructor
  · rintro (h | h)
    · have : s = 0 := BitVec.eq_of_toNat_eq (by simpa using h)
      exact ⟨_, by simp [Fix.new, this]; rfl⟩
    · have hne : s ≠ 0 := by rintro rfl; simp at h
      have : s > maxInt64 := by rw [gt_iff_lt, BitVec.lt_def, hmax]; omega
      exact ⟨_, by simp only [Fix.new, if_neg hne, if_pos this]; rfl⟩
  · intro h1 h2
    exact ⟨_, fix_new_ok zero h1 (by omega), rfl, by simp [len]⟩

/-- **C24 (unbounded).** `New` panics exactly above `MaxInt64`; otherwise `Cap` is the requested size. -/
theorem C24_unbounded_new (zero : T) (s : BitVec 64) :
    (2 ^ 63 ≤ s.toNat → ∃ msg, Unbounded.new zero s = .error (.explicit msg)) ∧
    (s.toNat < 2 ^ 63 → ∃ r, Unbounded.new zero s = .ok r ∧ cap r = s ∧ len r = 0) := by
  have hmax : maxInt64.toNat = 2 ^ 63 - 1 := by decide
  constructor
  · intro h
    have : s > maxInt64 := by rw [gt_iff_lt, BitVec.lt_def, hmax]; omega
    exact ⟨_, by simp only [Unbounded.new, if_pos this]; rfl⟩
  · intro h2
    exact ⟨_, unbounded_new_ok zero (by omega), rfl, by simp [len]⟩

/-- **C24 (round), where it holds.** Up to 2^62 the capacity is the least power of two at least the size; 0 and the
sizes in (2^62, 2^63] panic.  Missing: sizes above 2^63, for which the claim is false (`C24_round_huge_refuted`). -/
theorem C24_round_new_partial (zero : T) (s : BitVec 64) :
    (s.toNat = 0 ∨ (2 ^ 62 < s.toNat ∧ s.toNat ≤ 2 ^ 63) → ∃ msg, Round.new zero s = .error (.explicit msg)) ∧
    (1 ≤ s.toNat → s.toNat ≤ 2 ^ 62 → ∃ r, Round.new zero s = .ok r ∧ s.toNat ≤ (cap r).toNat ∧
      (∃ k, (cap r).toNat = 2 ^ k) ∧ (∀ k, s.toNat ≤ 2 ^ k → (cap r).toNat ≤ 2 ^ k) ∧ len r = 0) := by
  constructor
  · rintro (h | ⟨h, h'⟩)
    · have : s = 0 := BitVec.eq_of_toNat_eq (by simpa using h)
      exact ⟨_, by simp [Round.new, this]; rfl⟩
    · have hne : s ≠ 0 := by rintro rfl; simp at h
      obtain ⟨hp, hle, hleast⟩ := Math.C02_roundUp_least (Nat.le_refl _) s (by omega) (by omega)
      have hmax : maxRound.toNat = 2 ^ 62 := by decide
      have : Math.roundUpPowOf2 s > maxRound := by rw [gt_iff_lt, BitVec.lt_def, hmax]; omega
      exact ⟨_, by simp only [Round.new, if_neg hne, if_pos this]; rfl⟩
  · intro h1 h2
    obtain ⟨he, hb, hle, hp, hleast⟩ := round_new_ok zero h1 h2
    exact ⟨_, he, hle, hp, hleast, by simp [len]⟩

/-- **C24 refuted (round).** Every size above 2^63 is rounded up to 0: the constructor neither panics nor honours the
size, it returns a ring of capacity 0. -/
theorem C24_round_huge_refuted (zero : T) (s : BitVec 64) (h : 2 ^ 63 < s.toNat) :
    ∃ r, Round.new zero s = .ok r ∧ cap r = 0 ∧ r.data = [] := by
  have hne : s ≠ 0 := by rintro rfl; simp at h
  have h0 := Math.C02_roundUp_unrepresentable (Nat.le_refl _) s (.inr h)
  refine ⟨⟨0, 0, 0, 0 - 1, []⟩, ?_, ?_, ?_⟩
  · simp only [Round.new, if_neg hne, h0]
    rw [if_neg (by decide)]
    rfl
  · rfl
  · rfl

end Verif.Ring
