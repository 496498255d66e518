import Verif.Model.RingCost
import Verif.Props.Ring

/-!
# C164: what growing costs an unbounded ring, in moved elements and in memory
-/

namespace Verif.Ring

variable {T : Type}

open Unbounded

/-- Forget the counter. -/
def forget {α : Type} (x : Go (α × Nat)) : Go α := x.map (·.1)

theorem growC_forget (zero : T) (r : Buf T) (m : BitVec 64) : forget (growC zero r m) = grow zero r m := by
  unfold growC grow
  dsimp only
  generalize (if r.size * 2 > m then r.size * 2 else m) = z
  by_cases h1 : z > maxInt64
  · rw [if_pos h1, if_pos h1]; rfl
  · rw [if_neg h1, if_neg h1]
    generalize (if z < 2 then 2 else z) = z
    by_cases h2 : r.size = 0
    · rw [if_pos h2, if_pos h2]; rfl
    rw [if_neg h2, if_neg h2]
    clear h1 h2
    · cases modIx r r.out with
      | error e => rfl
      | ok o =>
        simp only [Go.bind_ok]
        cases sliceTo (List.replicate _ zero) (len r).toNat with
        | error e => rfl
        | ok dst =>
          simp only [Go.bind_ok]
          cases sliceFrom r.data o.toNat with
          | error e => rfl
          | ok src =>
            simp only [Go.bind_ok]
            cases copyAt dst 0 src with
            | error e => rfl
            | ok p =>
              simp only [Go.bind_ok]
              cases copyAt p.1 p.2 r.data with
              | error e => rfl
              | ok p => rfl

theorem pushC_forget (zero : T) (r : Buf T) (e : T) : forget (pushC zero r e) = push zero r e := by
  unfold pushC push
  split
  · rw [← growC_forget]
    cases growC zero r (cap r + 1) with
    | error e => rfl
    | ok p =>
      simp only [forget, Except.map, Go.bind_ok]
      cases store1 modIx p.1 e with
      | error e => rfl
      | ok p => rfl
  · simp only [forget, Go.bind_ok]
    cases store1 modIx r e with
    | error e => rfl
    | ok p => rfl

theorem mpushC_forget (zero : T) (r : Buf T) (es : List T) : forget (mpushC zero r es) = mpush zero r es := by
  unfold mpushC mpush
  dsimp only
  split
  · rfl
  · split
    · rw [← growC_forget]
      cases growC zero r (cap r + BitVec.ofNat 64 es.length) with
      | error e => rfl
      | ok p =>
        simp only [forget, Except.map, Go.bind_ok]
        cases storeN modIx p.1 es with
        | error e => rfl
        | ok p => rfl
    · simp only [forget, Go.bind_ok]
      cases storeN modIx r es with
      | error e => rfl
      | ok p => rfl

theorem stepC_forget (zero : T) (r : Buf T) (op : Op T) : forget (stepC zero r op) = step zero r op := by
  have common : ∀ x : Go (Buf T × Obs T), forget (do let p ← x; pure (p, 0)) = x := by
    intro x; cases x <;> rfl
  cases op with
  | push e =>
    simp only [stepC, step]
    rw [← pushC_forget]
    cases pushC zero r e <;> rfl
  | mpush es =>
    simp only [stepC, step]
    rw [← mpushC_forget]
    cases mpushC zero r es <;> rfl
  | grow n =>
    simp only [stepC, step]
    rw [← growC_forget]
    cases growC zero r n <;> rfl
  | _ => exact common _

/-- **C164.** The functions with the counter are those of Model/Ring. -/
theorem C164_same (zero : T) (r : Buf T) (ops : List (Op T)) :
    (∀ op, forget (stepC zero r op) = step zero r op) ∧ (runC zero r ops).1 = (runWith (step zero) r ops).1 := by
  refine ⟨stepC_forget zero r, ?_⟩
  induction ops generalizing r with
  | nil => rfl
  | cons op ops ih =>
    rw [runC, runWith, ← stepC_forget]
    cases hc : stepC zero r op with
    | error e => exact ih r
    | ok p => exact ih p.1.1

/-! ## Bounds -/

theorem growC_spec {r r' : Buf T} {q : List T} (zero : T) (h : Inv r q) {m : BitVec 64} {c : Nat} (e : growC zero r m = .ok (r', c)) :
    Inv r' q ∧ r'.size.toNat = max 2 (max (2 * r.size.toNat) m.toNat) ∧ c = q.length := by
  have hf := growC_forget zero r m
  rw [e] at hf
  change Except.ok r' = _ at hf
  rcases grow_spec zero h m with ⟨-, h2⟩ | ⟨hb, r1, h1, h2, -, h3, -⟩
  · rw [h2] at hf; cases hf
  · rw [h1] at hf
    cases hf
    refine ⟨h2, h3, ?_⟩
    unfold growC at e
    dsimp only at e
    generalize (if r.size * 2 > m then r.size * 2 else m) = z at e
    by_cases hz : z > maxInt64
    · rw [if_pos hz] at e; cases e
    · rw [if_neg hz] at e
      generalize (if z < 2 then 2 else z) = z at e
      by_cases h0 : r.size = 0
      · rw [if_pos h0] at e
        cases e
        have h4 := h.le
        rw [h0] at h4
        exact (Nat.le_zero.1 h4).symm
      · rw [if_neg h0] at e
        · have hN : 0 < r.size.toNat := by
            rcases Nat.eq_zero_or_pos r.size.toNat with e' | e'
            · exact absurd (BitVec.eq_of_toNat_eq (by simpa using e')) h0
            · exact e'
          obtain ⟨y, hy, hy2⟩ := modIx_ok (T := T) (m := r.mask) h0 r r.out rfl rfl
          rw [hy] at e
          simp only [Go.bind_ok] at e
          have hlen : (len r).toNat = q.length := h.len
          cases hs : sliceTo (List.replicate z.toNat zero) (len r).toNat with
          | error x => rw [hs] at e; cases e
          | ok dst =>
            rw [hs] at e
            simp only [Go.bind_ok] at e
            have hd : dst.length = q.length := by
              unfold sliceTo at hs
              split at hs
              · cases hs
                rename_i hle
                rw [List.length_take]
                omega
              · cases hs
            have hlt : r.out.toNat % r.size.toNat < r.size.toNat := Nat.mod_lt _ hN
            have hsf : sliceFrom r.data y.toNat = .ok (r.data.drop (r.out.toNat % r.size.toNat)) := by
              unfold sliceFrom
              rw [hy2, if_pos (by rw [h.dlen]; omega)]
            obtain ⟨c1, c2, e1, a1, a2, a3⟩ := h.seg hN q.length (Nat.le_refl _) dst hd
            rw [hsf] at e
            simp only [Go.bind_ok] at e
            rw [a1] at e
            simp only [Go.bind_ok] at e
            rw [a2] at e
            cases e
            omega

/-- **C164.** Growing copies every element exactly once. -/
theorem C164_grow {r r' : Buf T} {q : List T} (zero : T) (h : Inv r q) {m : BitVec 64} {c : Nat} (e : growC zero r m = .ok (r', c)) :
    Inv r' q ∧ c = q.length :=
  ⟨(growC_spec zero h e).1, (growC_spec zero h e).2.2⟩

theorem store1_size {r r' : Buf T} {e : T} (h : store1 modIx r e = .ok r') : r'.size = r.size := by
  unfold store1 at h
  cases hm : modIx r r.inn with
  | error x => rw [hm] at h; cases h
  | ok i =>
    rw [hm] at h
    simp only [Go.bind_ok] at h
    cases hs : Go.set r.data i.toNat e with
    | error x => rw [hs] at h; cases h
    | ok d => rw [hs] at h; cases h; rfl

theorem storeN_size {r r' : Buf T} {es : List T} (h : storeN modIx r es = .ok r') : r'.size = r.size := by
  unfold storeN at h
  cases hm : modIx r r.inn with
  | error x => rw [hm] at h; cases h
  | ok i =>
    rw [hm] at h
    simp only [Go.bind_ok] at h
    cases hc : copyAt r.data i.toNat es with
    | error x => rw [hc] at h; cases h
    | ok p =>
      rw [hc] at h
      simp only [Go.bind_ok] at h
      cases hs : sliceFrom es p.2 with
      | error x => rw [hs] at h; cases h
      | ok rest =>
        rw [hs] at h
        simp only [Go.bind_ok] at h
        cases hc2 : copyAt p.1 0 rest with
        | error x => rw [hc2] at h; cases h
        | ok p2 => rw [hc2] at h; cases h; rfl

theorem common_size {zero : T} {r : Buf T} {op : Op T} {p : Buf T × Obs T} (h : stepCommon zero modIx r op = .ok p) : p.1.size = r.size := by
  cases op with
  | pop =>
    simp only [stepCommon, popG] at h
    split at h
    · cases h
    · cases hm : modIx r r.out with
      | error x => rw [hm] at h; cases h
      | ok i =>
        rw [hm] at h
        simp only [Go.bind_ok] at h
        cases hs : Go.idx r.data i.toNat with
        | error x => rw [hs] at h; cases h
        | ok d => rw [hs] at h; cases h; rfl
  | peek =>
    simp only [stepCommon] at h
    cases hs : peekG modIx r with
    | error x => rw [hs] at h; cases h
    | ok d => rw [hs] at h; cases h; rfl
  | mpop n =>
    simp only [stepCommon, mpopG] at h
    generalize (if n > len r then len r else n) = k at h
    split at h
    · cases h; rfl
    · cases hm : modIx r r.out with
      | error x => rw [hm] at h; cases h
      | ok i =>
        rw [hm] at h
        simp only [Go.bind_ok] at h
        cases hs : sliceFrom r.data i.toNat with
        | error x => rw [hs] at h; cases h
        | ok src =>
          rw [hs] at h
          simp only [Go.bind_ok] at h
          cases hc : copyAt (List.replicate k.toNat zero) 0 src with
          | error x => rw [hc] at h; cases h
          | ok p1 =>
            rw [hc] at h
            simp only [Go.bind_ok] at h
            cases hc2 : copyAt p1.1 p1.2 r.data with
            | error x => rw [hc2] at h; cases h
            | ok p2 => rw [hc2] at h; cases h; rfl
  | mpopCopy dst =>
    simp only [stepCommon, mpopCopyG] at h
    cases hm : modIx r r.out with
    | error x => rw [hm] at h; cases h
    | ok i =>
      rw [hm] at h
      simp only [Go.bind_ok] at h
      cases ht : sliceTo dst (Math.min (BitVec.ofNat 64 dst.length).toNat (len r).toNat) with
      | error x => rw [ht] at h; cases h
      | ok short =>
        rw [ht] at h
        simp only [Go.bind_ok] at h
        cases hs : sliceFrom r.data i.toNat with
        | error x => rw [hs] at h; cases h
        | ok src =>
          rw [hs] at h
          simp only [Go.bind_ok] at h
          cases hc : copyAt short 0 src with
          | error x => rw [hc] at h; cases h
          | ok p1 =>
            rw [hc] at h
            simp only [Go.bind_ok] at h
            cases hc2 : copyAt p1.1 p1.2 r.data with
            | error x => rw [hc2] at h; cases h
            | ok p2 => rw [hc2] at h; cases h; rfl
  | _ => cases h; rfl

/-- What one call moves, and how large it leaves the ring. -/
theorem stepC_bound {r r' : Buf T} {q : List T} {k : Nat} {zero : T} (h : UInv r q k) {op : Op T} {o : Obs T} {c : Nat}
    (ha : Spec.ArgOk op) (hk : k + Spec.offered [op] < 2 ^ 64) (e : stepC zero r op = .ok ((r', o), c)) :
    (r'.size = r.size ∧ c = 0) ∨
    (c = q.length ∧ 2 * r.size.toNat ≤ r'.size.toNat ∧ ((∀ n, op ≠ .grow n) → r'.size.toNat ≤ 2 * (len r').toNat)) := by
  have hle := h.inv.le
  have hsm := h.inv.small
  cases op with
  | push x =>
    have hf := pushC_forget zero r x
    have h1' : (1 : BitVec 64).toNat = 1 := rfl
    cases hp : pushC zero r x with
    | error y => simp only [stepC] at e; rw [hp] at e; cases e
    | ok p =>
      simp only [stepC] at e
      rw [hp] at e
      cases e
      rw [hp] at hf
      change Except.ok p.1 = _ at hf
      rcases upush_spec zero h x hk with ⟨-, h2⟩ | ⟨r1, h1, h2, h3⟩
      · rw [h2] at hf; cases hf
      · rw [h1] at hf
        have hr1 := Except.ok.inj hf
        have hlen : (len p.1).toNat = q.length + 1 := by
          rw [hr1]
          have := h2.inv.len
          unfold len
          rw [this]; simp
        unfold pushC at hp
        split at hp
        · rename_i hfull
          have hq : q.length = r.size.toNat := by
            have := h.inv.full_iff
            rw [hfull] at this
            simpa using this.symm
          cases hg : growC zero r (cap r + 1) with
          | error y => rw [hg] at hp; cases hp
          | ok g =>
            rw [hg] at hp
            simp only [Go.bind_ok] at hp
            cases hs : store1 modIx g.1 x with
            | error y => rw [hs] at hp; cases hp
            | ok g2 =>
              rw [hs] at hp
              cases hp
              obtain ⟨-, b2, b4⟩ := growC_spec zero h.inv hg
              have hc1 : (cap r + 1).toNat = r.size.toNat + 1 := by
                unfold cap; rw [BitVec.toNat_add, h1', Nat.mod_eq_of_lt (by omega)]
              have := store1_size hs
              right
              refine ⟨b4, by dsimp only; rw [this, b2]; omega, fun _ => ?_⟩
              dsimp only at hlen ⊢
              rw [hlen, this, b2, hc1]
              omega
        · cases hs : store1 modIx r x with
          | error y => rw [hs] at hp; cases hp
          | ok g2 =>
            rw [hs] at hp
            cases hp
            exact .inl ⟨store1_size hs, rfl⟩
  | mpush es =>
    have hf := mpushC_forget zero r es
    have hm64 : (BitVec.ofNat 64 es.length).toNat = es.length := by
      have : es.length < 2 ^ 63 := ha
      rw [BitVec.toNat_ofNat, Nat.mod_eq_of_lt]; omega
    cases hp : mpushC zero r es with
    | error y => simp only [stepC] at e; rw [hp] at e; cases e
    | ok p =>
      simp only [stepC] at e
      rw [hp] at e
      cases e
      rw [hp] at hf
      change Except.ok p.1 = _ at hf
      rcases umpush_spec zero h es ha hk with ⟨-, h2⟩ | ⟨r1, h1, h2, h3⟩
      · rw [h2] at hf; cases hf
      · rw [h1] at hf
        have hr1 := Except.ok.inj hf
        have hlen : (len p.1).toNat = q.length + es.length := by
          rw [hr1]
          have := h2.inv.len
          unfold len
          rw [this]; simp
        unfold mpushC at hp
        split at hp
        · cases hp; exact .inl ⟨rfl, rfl⟩
        · split at hp
          · rename_i hbig
            rw [gt_iff_lt, BitVec.lt_def, hm64, h.inv.avail_toNat] at hbig
            cases hg : growC zero r (cap r + BitVec.ofNat 64 es.length) with
            | error y => rw [hg] at hp; cases hp
            | ok g =>
              rw [hg] at hp
              simp only [Go.bind_ok] at hp
              cases hs : storeN modIx g.1 es with
              | error y => rw [hs] at hp; cases hp
              | ok g2 =>
                rw [hs] at hp
                cases hp
                obtain ⟨-, b2, b4⟩ := growC_spec zero h.inv hg
                have hes : es.length < 2 ^ 63 := ha
                have hc1 : (cap r + BitVec.ofNat 64 es.length).toNat = r.size.toNat + es.length := by
                  unfold cap; rw [BitVec.toNat_add, hm64, Nat.mod_eq_of_lt (by omega)]
                have := storeN_size hs
                right
                refine ⟨b4, by dsimp only; rw [this, b2]; omega, fun _ => ?_⟩
                dsimp only at hlen ⊢
                rw [hlen, this, b2, hc1]
                omega
          · cases hs : storeN modIx r es with
            | error y => rw [hs] at hp; cases hp
            | ok g2 =>
              rw [hs] at hp
              cases hp
              exact .inl ⟨storeN_size hs, rfl⟩
  | grow m =>
    cases hg : growC zero r m with
    | error y => simp only [stepC] at e; rw [hg] at e; cases e
    | ok g =>
      simp only [stepC] at e
      rw [hg] at e
      cases e
      obtain ⟨-, b2, b4⟩ := growC_spec zero h.inv hg
      exact .inr ⟨b4, by omega, fun hn => absurd rfl (hn m)⟩
  | pop => left; simp only [stepC] at e; cases hc : stepCommon zero modIx r .pop with
    | error y => rw [hc] at e; cases e
    | ok p => rw [hc] at e; cases e; exact ⟨common_size hc, rfl⟩
  | peek => left; simp only [stepC] at e; cases hc : stepCommon zero modIx r .peek with
    | error y => rw [hc] at e; cases e
    | ok p => rw [hc] at e; cases e; exact ⟨common_size hc, rfl⟩
  | mpop n => left; simp only [stepC] at e; cases hc : stepCommon zero modIx r (.mpop n) with
    | error y => rw [hc] at e; cases e
    | ok p => rw [hc] at e; cases e; exact ⟨common_size hc, rfl⟩
  | mpopCopy d => left; simp only [stepC] at e; cases hc : stepCommon zero modIx r (.mpopCopy d) with
    | error y => rw [hc] at e; cases e
    | ok p => rw [hc] at e; cases e; exact ⟨common_size hc, rfl⟩
  | _ => left; cases e; exact ⟨rfl, rfl⟩

theorem runC_bound (zero : T) (ops : List (Op T)) : ∀ {r : Buf T} {q : List T} {k b : Nat} (_ : UInv r q k) (_ : ∀ op ∈ ops, Spec.ArgOk op)
    (_ : 0 < r.size.toNat ∨ ∀ op ∈ ops, ¬ isCopy op) (_ : k + Spec.offered ops < 2 ^ 64) (_ : b ≤ r.size.toNat),
    b + (runC zero r ops).2.1 ≤ (runC zero r ops).1.size.toNat ∧ (runC zero r ops).2.2 ≤ k + Spec.offered ops ∧
    ((∀ op ∈ ops, ∀ n, op ≠ .grow n) →
      (runC zero r ops).1.size = r.size ∧ (runC zero r ops).2.1 = 0 ∨ (runC zero r ops).1.size.toNat ≤ 2 * (runC zero r ops).2.2) := by
  induction ops with
  | nil =>
    intro r q k b h _ _ _ hb
    have h1 : (len r).toNat = q.length := h.inv.len
    have h2 := h.len
    refine ⟨by simpa [runC] using hb, ?_, fun _ => .inl ⟨rfl, rfl⟩⟩
    simp only [runC, Spec.offered]
    omega
  | cons op ops ih =>
    intro r q k b h ha hz hk hb
    rw [offered_cons] at hk ⊢
    have h1 : (len r).toNat = q.length := h.inv.len
    have h2 := h.len
    have hle := h.inv.le
    obtain ⟨r', q', o, e1, -, e3, e4⟩ := step_unbounded zero h op (ha op (by simp)) (by
      rcases hz with hz | hz
      · exact .inl hz
      · exact .inr (hz op (by simp))) (by omega)
    have hz' : 0 < r'.size.toNat ∨ ∀ op ∈ ops, ¬ isCopy op := by
      rcases hz with hz | hz
      · left; omega
      · exact .inr (fun o ho => hz o (by simp [ho]))
    have ha' : ∀ op ∈ ops, Spec.ArgOk op := fun o ho => ha o (by simp [ho])
    rw [← stepC_forget] at e1
    rw [runC]
    cases hs : stepC zero r op with
    | error x =>
      rw [hs] at e1
      simp only [forget, Except.map, observe, Prod.mk.injEq] at e1
      obtain ⟨rfl, -⟩ := e1
      obtain ⟨i1, i2, i3⟩ := ih e3 ha' hz' (by omega) hb
      dsimp only
      refine ⟨i1, by omega, fun hn => ?_⟩
      rcases i3 (fun o ho => hn o (by simp [ho])) with i | i
      · exact .inl i
      · right; omega
    | ok p =>
      obtain ⟨⟨r1, o1⟩, c⟩ := p
      rw [hs] at e1
      simp only [forget, Except.map, observe, Prod.mk.injEq] at e1
      obtain ⟨rfl, -⟩ := e1
      dsimp only
      have hl1 : (len r1).toNat = q'.length := e3.inv.len
      have hpk : (len r1).toNat ≤ (runC zero r1 ops).2.2 := by
        cases ops with
        | nil => exact Nat.le_refl _
        | cons op2 ops2 =>
          rw [runC]
          split <;> exact Nat.le_max_left _ _
      rcases stepC_bound h (ha op (by simp)) (by omega) hs with ⟨g1, g2⟩ | ⟨g1, g2, g3⟩
      · subst g2
        obtain ⟨i1, i2, i3⟩ := ih e3 ha' hz' (by omega) (b := b) (by rw [g1]; exact hb)
        refine ⟨by omega, by omega, fun hn => ?_⟩
        rcases i3 (fun o ho => hn o (by simp [ho])) with i | i
        · left; rw [i.1, g1]; exact ⟨rfl, by omega⟩
        · right; omega
      · obtain ⟨i1, i2, i3⟩ := ih e3 ha' hz' (by omega) (b := b + c) (by omega)
        refine ⟨by omega, by omega, fun hn => .inr ?_⟩
        have g4 := g3 (hn op (by simp))
        rcases i3 (fun o ho => hn o (by simp [ho])) with i | i
        · rw [i.1]; omega
        · omega

/-- **C164.** Over any history from `New(s)` the elements moved by growing are in all no more than the final capacity, also with explicit calls of
`Grow`. Without such calls they are at most twice the elements pushed (a constant number per `Push`), and the capacity is at most `s` or at most
twice the greatest length that the queue ever had. (The hypotheses are those of C20.) -/
theorem C164_bounds (zero : T) (s : BitVec 64) (h2 : s.toNat ≤ 2 ^ 63 - 1) (ops : List (Op T)) (ha : ∀ op ∈ ops, Spec.ArgOk op)
    (hz : 1 ≤ s.toNat ∨ ∀ op ∈ ops, ∀ dst, op ≠ .mpopCopy dst) (hk : Spec.offered ops < 2 ^ 64) :
    ∃ r, Unbounded.new zero s = .ok r ∧
      (runC zero r ops).2.1 ≤ (cap (runC zero r ops).1).toNat ∧
      ((∀ op ∈ ops, ∀ n, op ≠ .grow n) →
        (runC zero r ops).2.1 ≤ 2 * Spec.offered ops ∧
        (cap (runC zero r ops).1).toNat ≤ max s.toNat (2 * (runC zero r ops).2.2) ∧ (runC zero r ops).2.2 ≤ Spec.offered ops) := by
  refine ⟨_, unbounded_new_ok zero h2, ?_⟩
  have h0 := inv_new zero s 0 (by omega : s.toNat < 2 ^ 63)
  have hb := runC_bound zero ops (k := 0) (b := 0) ⟨h0, by simp, by simp⟩ ha (by
    rcases hz with hz | hz
    · exact .inl hz
    · right
      intro op hop hc
      cases op <;> simp [isCopy] at hc
      exact hz _ hop _ rfl) (by omega) (Nat.zero_le _)
  obtain ⟨b1, b2, b3⟩ := hb
  refine ⟨by unfold cap; omega, fun hn => ?_⟩
  rcases b3 hn with ⟨h5, h6⟩ | h5
  · refine ⟨by omega, ?_, by omega⟩
    unfold cap
    rw [h5]
    exact Nat.le_max_left _ _
  · refine ⟨by omega, ?_, by omega⟩
    unfold cap
    omega

/-- What a history moves, from the rings of Model/Ring alone: a call that changes the capacity moves the whole queue, another one nothing. -/
def Spec.moved (zero : T) : Buf T → List (Op T) → Nat
  | _, [] => 0
  | r, op :: ops =>
    (if cap (runWith (step zero) r [op]).1 = cap r then 0 else (len r).toNat) + Spec.moved zero (runWith (step zero) r [op]).1 ops

/-- The greatest length of the queue in a history. -/
def Spec.peak (zero : T) : Buf T → List (Op T) → Nat
  | r, [] => (len r).toNat
  | r, op :: ops => max (len r).toNat (Spec.peak zero (runWith (step zero) r [op]).1 ops)

theorem runC_exact (zero : T) (ops : List (Op T)) : ∀ {r : Buf T} {q : List T} {k : Nat} (_ : UInv r q k) (_ : ∀ op ∈ ops, Spec.ArgOk op)
    (_ : 0 < r.size.toNat ∨ ∀ op ∈ ops, ¬ isCopy op) (_ : k + Spec.offered ops < 2 ^ 64),
    (runC zero r ops).2.1 = Spec.moved zero r ops ∧ (runC zero r ops).2.2 = Spec.peak zero r ops := by
  induction ops with
  | nil => intro r q k _ _ _ _; exact ⟨rfl, rfl⟩
  | cons op ops ih =>
    intro r q k h ha hz hk
    rw [offered_cons] at hk
    have h1 : (len r).toNat = q.length := h.inv.len
    have hle := h.inv.le
    obtain ⟨r', q', o, e1, -, e3, e4⟩ := step_unbounded zero h op (ha op (by simp)) (by
      rcases hz with hz | hz
      · exact .inl hz
      · exact .inr (hz op (by simp))) (by omega)
    have hz' : 0 < r'.size.toNat ∨ ∀ op ∈ ops, ¬ isCopy op := by
      rcases hz with hz | hz
      · left; omega
      · exact .inr (fun o ho => hz o (by simp [ho]))
    have ha' : ∀ op ∈ ops, Spec.ArgOk op := fun o ho => ha o (by simp [ho])
    have hone : (runWith (step zero) r [op]).1 = r' := by
      simp only [runWith]
      rw [e1]
    obtain ⟨i1, i2⟩ := ih e3 ha' hz' (by omega)
    rw [Spec.moved, Spec.peak, hone, ← i1, ← i2]
    rw [← stepC_forget] at e1
    rw [runC]
    cases hs : stepC zero r op with
    | error x =>
      rw [hs] at e1
      simp only [forget, Except.map, observe, Prod.mk.injEq] at e1
      obtain ⟨rfl, -⟩ := e1
      dsimp only
      rw [if_pos rfl]
      exact ⟨by omega, rfl⟩
    | ok p =>
      obtain ⟨⟨r1, o1⟩, c⟩ := p
      rw [hs] at e1
      simp only [forget, Except.map, observe, Prod.mk.injEq] at e1
      obtain ⟨rfl, -⟩ := e1
      dsimp only
      refine ⟨?_, rfl⟩
      congr 1
      rcases stepC_bound h (ha op (by simp)) (by omega) hs with ⟨g1, g2⟩ | ⟨g1, g2, -⟩
      · unfold cap
        rw [if_pos g1, g2]
      · split
        · rename_i hc
          unfold cap at hc
          rw [hc] at g2
          omega
        · omega

/-- **C164 (the counters are right).** What is counted is exactly what the rings of Model/Ring show: over any history from `New(s)` the whole queue for every call that changes the capacity, nothing for any other call; and
the greatest length is that of the queue. -/
theorem C164_exact (zero : T) (s : BitVec 64) (h2 : s.toNat ≤ 2 ^ 63 - 1) (ops : List (Op T)) (ha : ∀ op ∈ ops, Spec.ArgOk op)
    (hz : 1 ≤ s.toNat ∨ ∀ op ∈ ops, ∀ dst, op ≠ .mpopCopy dst) (hk : Spec.offered ops < 2 ^ 64) :
    ∃ r, Unbounded.new zero s = .ok r ∧ (runC zero r ops).2.1 = Spec.moved zero r ops ∧ (runC zero r ops).2.2 = Spec.peak zero r ops := by
  refine ⟨_, unbounded_new_ok zero h2, ?_⟩
  have h0 := inv_new zero s 0 (by omega : s.toNat < 2 ^ 63)
  exact runC_exact zero ops (k := 0) ⟨h0, by simp, by simp⟩ ha (by
    rcases hz with hz | hz
    · exact .inl hz
    · right
      intro op hop hc
      cases op <;> simp [isCopy] at hc
      exact hz _ hop _ rfl) (by omega)

/-! Five pushes on `New(1)`: capacity 1, 2, 4, 8, and 1 + 2 + 4 elements moved. -/

example : Unbounded.new (0 : Nat) 1 = .ok ⟨0, 0, 1, 0, [0]⟩ ∧
    runC 0 ⟨0, 0, 1, 0, [0]⟩ [.push 1, .push 2, .push 3, .push 4, .push 5, .pop, .len] =
      (⟨5, 1, 8, 0, [1, 2, 3, 4, 5, 0, 0, 0]⟩, 7, 5) := by
  decide +kernel

/-! Explicit `Grow` calls can move one element ever again, each time into a ring of twice the size. -/

example : (runC 0 ⟨0, 0, 1, 0, [0]⟩ [.push 1, .grow 0, .grow 0, .grow 0]).2.1 = 3 ∧
    (cap (runC 0 ⟨0, 0, 1, 0, [0]⟩ [.push 1, .grow 0, .grow 0, .grow 0]).1).toNat = 8 := by
  decide +kernel

end Verif.Ring
