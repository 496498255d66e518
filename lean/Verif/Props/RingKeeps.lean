import Verif.Props.Ring
import Mathlib.Data.List.Rotate

/-!
# Property C166: what the memory of a ring holds

A ring does not clear the cells of the elements that are popped, so whatever they refer to stays alive.
-/

namespace Verif.Ring

namespace Spec

variable {T : Type}

/-- The elements that a FIFO queue of capacity `c` accepted since the last `Reset`; `p` before this history. -/
def sinceReset (c : Nat) (p q : List T) : List (Op T) → List T
  | [] => p
  | op :: ops =>
    let p' := match op with
      | .reset => []
      | .push e => if q.length < c then p ++ [e] else p
      | .mpush es => p ++ es.take (c - q.length)
      | _ => p
    sinceReset c p' (bounded c q op).1 ops

/-- The last `n` elements of `p`, oldest first, with zero values before them if there are fewer. -/
def lastN (n : Nat) (zero : T) (p : List T) : List T := (List.replicate n zero ++ p).drop p.length

end Spec

variable {T : Type}

/-- Read from the next cell to be written, the cells hold the last elements of `p`. -/
structure Keeps (zero : T) (r : Buf T) (p : List T) : Prop where
  dlen : r.data.length = r.size.toNat
  get : ∀ j, j < r.size.toNat → r.data[(r.inn.toNat + j) % r.size.toNat]? = (Spec.lastN r.size.toNat zero p)[j]?

theorem Keeps.init (zero : T) {s m i o : BitVec 64} : Keeps zero (⟨i, o, s, m, List.replicate s.toNat zero⟩ : Buf T) [] := by
  refine ⟨by simp, ?_⟩
  intro j hj
  have : (i.toNat + j) % s.toNat < s.toNat := Nat.mod_lt _ (by dsimp only at hj; omega)
  dsimp only at hj ⊢
  simp only [Spec.lastN, List.append_nil, List.length_nil, List.drop_zero]
  rw [List.getElem?_replicate, List.getElem?_replicate, if_pos this, if_pos hj]

/-- Storing elements behind the others. -/
theorem Keeps.store {zero : T} {r : Buf T} {p : List T} (h : Keeps zero r p) (es d2 : List T) (hes : es.length ≤ r.size.toNat)
    (hs : r.size.toNat ∣ 2 ^ 64 ∨ r.inn.toNat + es.length < 2 ^ 64) (hsm : r.size.toNat < 2 ^ 63) (hd2 : d2.length = r.size.toNat)
    (hnew : ∀ t, t < es.length → d2[(r.inn.toNat % r.size.toNat + t) % r.size.toNat]? = es[t]?)
    (hold : ∀ j, j < r.size.toNat → (∀ t, t < es.length → j ≠ (r.inn.toNat % r.size.toNat + t) % r.size.toNat) →
      d2[j]? = r.data[j]?) :
    Keeps zero { r with data := d2, inn := r.inn + BitVec.ofNat 64 es.length } (p ++ es) := by
  have hm64 : (BitVec.ofNat 64 es.length).toNat = es.length := by rw [BitVec.toNat_ofNat, Nat.mod_eq_of_lt]; omega
  have hadv : r.size.toNat ∣ 2 ^ 64 ∨ r.inn.toNat + (BitVec.ofNat 64 es.length).toNat < 2 ^ 64 := by rw [hm64]; exact hs
  refine ⟨hd2, ?_⟩
  intro j hj
  dsimp only at hj ⊢
  have hN : 0 < r.size.toNat := by omega
  have e : ((r.inn + BitVec.ofNat 64 es.length).toNat + j) % r.size.toNat = (r.inn.toNat + (es.length + j)) % r.size.toNat := by
    rw [Nat.add_mod, adv_mod hadv, hm64, ← Nat.add_mod, Nat.add_assoc]
  rw [e]
  unfold Spec.lastN at *
  rw [List.getElem?_drop, List.length_append]
  by_cases hc : es.length + j < r.size.toNat
  · have h1 := h.get (es.length + j) hc
    unfold Spec.lastN at h1
    rw [List.getElem?_drop] at h1
    rw [← List.append_assoc, List.getElem?_append_left (by simp only [List.length_append, List.length_replicate]; omega), Nat.add_assoc, ← h1]
    apply hold _ (Nat.mod_lt _ hN)
    intro t ht e1
    rw [Nat.mod_add_mod] at e1
    have : (es.length + j) % r.size.toNat = t % r.size.toNat := Nat.ModEq.add_left_cancel' (n := r.size.toNat) r.inn.toNat e1
    rw [Nat.mod_eq_of_lt hc, Nat.mod_eq_of_lt (by omega)] at this
    omega
  · have h1 := hnew (es.length + j - r.size.toNat) (by omega)
    have e2 : (r.inn.toNat + (es.length + j)) % r.size.toNat = (r.inn.toNat % r.size.toNat + (es.length + j - r.size.toNat)) % r.size.toNat := by
      rw [Nat.mod_add_mod]
      conv_lhs => rw [show r.inn.toNat + (es.length + j) = r.inn.toNat + (es.length + j - r.size.toNat) + r.size.toNat by omega, Nat.add_mod_right]
    rw [e2, h1, ← List.append_assoc, List.getElem?_append_right (by simp only [List.length_append, List.length_replicate]; omega)]
    congr 1
    simp only [List.length_append, List.length_replicate]; omega

/-- Only `in`, `size` and `data` matter. -/
theorem Keeps.congr {zero : T} {r r' : Buf T} {p : List T} (h : Keeps zero r p) (h1 : r'.inn = r.inn) (h2 : r'.size = r.size)
    (h3 : r'.data = r.data) : Keeps zero r' p := by
  refine ⟨by rw [h2, h3]; exact h.dlen, ?_⟩
  rw [h1, h2, h3]; exact h.get

section steps

variable {ix : Buf T → BitVec 64 → Go (BitVec 64)} {r : Buf T} {q p : List T} {zero : T}

theorem store1_keeps (hix : IxOk ix r.size r.mask) (h : Keeps zero r p) (hN : 0 < r.size.toNat) (hsm : r.size.toNat < 2 ^ 63) (e : T)
    (hs : r.size.toNat ∣ 2 ^ 64 ∨ r.inn.toNat + 1 < 2 ^ 64) {r' : Buf T} (hr : store1 ix r e = .ok r') : Keeps zero r' (p ++ [e]) := by
  obtain ⟨y, hy, hy2⟩ := hix r r.inn rfl rfl
  have hyl : y.toNat < r.data.length := by rw [hy2, h.dlen]; exact Nat.mod_lt _ hN
  have hmm : (r.inn.toNat % r.size.toNat + 0) % r.size.toNat = r.inn.toNat % r.size.toNat := by simp
  have h1 := h.store [e] (r.data.set y.toNat e) (by simp; omega) (by simpa using hs) hsm (by simp [h.dlen])
    (by
      intro t ht
      simp only [List.length_cons, List.length_nil, Nat.zero_add, Nat.lt_one_iff] at ht
      subst ht
      rw [hmm, hy2, List.getElem?_set_self (by rw [← hy2]; exact hyl)]
      rfl)
    (by
      intro j hj hne
      have := hne 0 (by simp)
      rw [hmm, ← hy2] at this
      rw [List.getElem?_set_ne (Ne.symm this)])
  have e1 : store1 ix r e = .ok { r with data := r.data.set y.toNat e, inn := r.inn + BitVec.ofNat 64 [e].length } := by
    simp [store1, hy, Go.set, hyl]
  rw [e1] at hr
  cases hr
  exact h1

theorem storeN_keeps (hix : IxOk ix r.size r.mask) (h : Keeps zero r p) (hN : 0 < r.size.toNat) (hsm : r.size.toNat < 2 ^ 63) (es : List T)
    (hl : es.length ≤ r.size.toNat) (hs : r.size.toNat ∣ 2 ^ 64 ∨ r.inn.toNat + es.length < 2 ^ 64) {r' : Buf T}
    (hr : storeN ix r es = .ok r') : Keeps zero r' (p ++ es) := by
  obtain ⟨y, hy, hy2⟩ := hix r r.inn rfl rfl
  obtain ⟨d1, c1, d2, c2, e1, e2, e3, hd2, hnew, hold⟩ :=
    storeSeg (d := r.data) (i := y.toNat) es h.dlen (by rw [hy2]; exact Nat.mod_lt _ hN) hl
  have h1 := h.store es d2 hl hs hsm hd2 (by rw [← hy2]; exact hnew) (by rw [← hy2]; exact hold)
  have : storeN ix r es = .ok { r with data := d2, inn := r.inn + BitVec.ofNat 64 es.length } := by simp [storeN, hy, e1, e2, e3]
  rw [this] at hr
  cases hr
  exact h1

/-- Taking elements out leaves the cells alone. -/
theorem popG_data {r' : Buf T} {v : T} (h : popG ix r = .ok (r', v)) : r'.data = r.data ∧ r'.inn = r.inn ∧ r'.size = r.size := by
  unfold popG at h
  split at h
  · cases h
  · cases hi : ix r r.out with
    | error e => rw [hi] at h; cases h
    | ok o =>
      rw [hi] at h
      simp only [Go.bind_ok] at h
      cases hv : Go.idx r.data o.toNat with
      | error e => rw [hv] at h; cases h
      | ok w => rw [hv] at h; cases h; exact ⟨rfl, rfl, rfl⟩

theorem mpopG_data {r' : Buf T} {n : BitVec 64} {vs : List T} (h : mpopG zero ix r n = .ok (r', vs)) :
    r'.data = r.data ∧ r'.inn = r.inn ∧ r'.size = r.size := by
  unfold mpopG at h
  dsimp only at h
  generalize (if n > len r then len r else n) = k at h
  split at h
  · cases h; exact ⟨rfl, rfl, rfl⟩
  · cases hi : ix r r.out with
    | error e => rw [hi] at h; cases h
    | ok o =>
      rw [hi] at h
      simp only [Go.bind_ok] at h
      cases h1 : sliceFrom r.data o.toNat with
      | error e => rw [h1] at h; cases h
      | ok src =>
        rw [h1] at h
        simp only [Go.bind_ok] at h
        cases h2 : copyAt (List.replicate k.toNat zero) 0 src with
        | error e => rw [h2] at h; cases h
        | ok a =>
          rw [h2] at h
          simp only [Go.bind_ok] at h
          cases h3 : copyAt a.1 a.2 r.data with
          | error e => rw [h3] at h; cases h
          | ok b => rw [h3] at h; cases h; exact ⟨rfl, rfl, rfl⟩

theorem mpopCopyG_data {r' : Buf T} {dst vs : List T} (h : mpopCopyG ix r dst = .ok (r', vs)) :
    r'.data = r.data ∧ r'.inn = r.inn ∧ r'.size = r.size := by
  unfold mpopCopyG at h
  dsimp only at h
  cases hi : ix r r.out with
  | error e => rw [hi] at h; cases h
  | ok o =>
    rw [hi] at h
    simp only [Go.bind_ok] at h
    cases h0 : sliceTo dst (Math.min (BitVec.ofNat 64 dst.length).toNat (len r).toNat) with
    | error e => rw [h0] at h; cases h
    | ok short =>
      rw [h0] at h
      simp only [Go.bind_ok] at h
      cases h1 : sliceFrom r.data o.toNat with
      | error e => rw [h1] at h; cases h
      | ok src =>
        rw [h1] at h
        simp only [Go.bind_ok] at h
        cases h2 : copyAt short 0 src with
        | error e => rw [h2] at h; cases h
        | ok a =>
          rw [h2] at h
          simp only [Go.bind_ok] at h
          cases h3 : copyAt a.1 a.2 r.data with
          | error e => rw [h3] at h; cases h
          | ok b => rw [h3] at h; cases h; exact ⟨rfl, rfl, rfl⟩

end steps

/-- The calls that put nothing into a ring and do not reset it. -/
def takes : Op T → Bool
  | .push _ => false
  | .mpush _ => false
  | .reset => false
  | .grow _ => false
  | _ => true

theorem common_data {ix : Buf T → BitVec 64 → Go (BitVec 64)} {zero : T} {r r' : Buf T} {op : Op T} {o : Obs T} (ht : takes op = true)
    (h : stepCommon zero ix r op = .ok (r', o)) : r'.data = r.data ∧ r'.inn = r.inn ∧ r'.size = r.size := by
  cases op with
  | push e => cases ht
  | mpush es => cases ht
  | reset => cases ht
  | grow n => cases ht
  | pop =>
    unfold stepCommon at h
    dsimp only at h
    cases h1 : popG ix r with
    | error e => rw [h1] at h; cases h
    | ok a => rw [h1] at h; cases h; exact popG_data h1
  | peek =>
    unfold stepCommon at h
    dsimp only at h
    cases h1 : peekG modIx r with
    | error e => rw [h1] at h; cases h
    | ok a => rw [h1] at h; cases h; exact ⟨rfl, rfl, rfl⟩
  | mpop n =>
    unfold stepCommon at h
    dsimp only at h
    cases h1 : mpopG zero ix r n with
    | error e => rw [h1] at h; cases h
    | ok a => rw [h1] at h; cases h; exact mpopG_data h1
  | mpopCopy dst =>
    unfold stepCommon at h
    dsimp only at h
    cases h1 : mpopCopyG ix r dst with
    | error e => rw [h1] at h; cases h
    | ok a => rw [h1] at h; cases h; exact mpopCopyG_data h1
  | len => cases h; exact ⟨rfl, rfl, rfl⟩
  | avail => cases h; exact ⟨rfl, rfl, rfl⟩
  | empty => cases h; exact ⟨rfl, rfl, rfl⟩
  | full => cases h; exact ⟨rfl, rfl, rfl⟩
  | cap => cases h; exact ⟨rfl, rfl, rfl⟩

/-- **C166.** No call of `Pop`, `MPop`, `MPopCopy` or `Peek` changes a cell, whatever the state of the ring: all three packages. -/
theorem C166_taking_clears_nothing (zero : T) (r : Buf T) (op : Op T) (ht : takes op = true) :
    (observe r (Fix.step zero r op)).1.data = r.data ∧ (observe r (Round.step zero r op)).1.data = r.data ∧
      (observe r (Unbounded.step zero r op)).1.data = r.data := by
  have key : ∀ ix : Buf T → BitVec 64 → Go (BitVec 64), (observe r (stepCommon zero ix r op)).1.data = r.data := by
    intro ix
    cases h : stepCommon zero ix r op with
    | error e => rfl
    | ok a => exact (common_data ht (r' := a.1) (o := a.2) h).1
  cases op <;> first | (cases ht; done) | exact ⟨key modIx, key maskIx, key modIx⟩

/-- What one call does to a bounded ring's cells. -/
theorem step_keeps {ix : Buf T → BitVec 64 → Go (BitVec 64)} {r : Buf T} {q p : List T} {zero : T}
    (hix : IxOk ix r.size r.mask) (hN : 0 < r.size.toNat) (h : Inv r q) (hp : Keeps zero r p) (op : Op T) (ha : Spec.ArgOk op) (k : Nat)
    (hk : r.size.toNat ∣ 2 ^ 64 ∨ (r.inn.toNat ≤ k ∧ accStep r.size.toNat k q op < 2 ^ 64)) :
    Keeps zero (observe r (stepG zero ix r op)).1 (match op with
      | .reset => []
      | .push e => if q.length < r.size.toNat then p ++ [e] else p
      | .mpush es => p ++ es.take (r.size.toNat - q.length)
      | _ => p) := by
  have key : takes op = true → Keeps zero (observe r (stepCommon zero ix r op)).1 p := by
    intro ht
    cases e : stepCommon zero ix r op with
    | error x => exact hp
    | ok a =>
      obtain ⟨h1, h2, h3⟩ := common_data ht (r' := a.1) (o := a.2) e
      exact hp.congr h2 h3 h1
  have hle := h.le
  cases op with
  | push e =>
    dsimp only
    by_cases hl : q.length < r.size.toNat
    · rw [if_pos hl]
      have hs : r.size.toNat ∣ 2 ^ 64 ∨ r.inn.toNat + 1 < 2 ^ 64 := by
        simp only [Spec.bounded, accStep, hl, if_true, List.length_append, List.length_cons, List.length_nil] at hk
        rcases hk with hk | hk
        · exact .inl hk
        · right; omega
      obtain ⟨r', h1, -⟩ := pushG_spec hix h e hl hs
      have hf : full r = false := by rw [h.full_iff]; simp; omega
      have h2 : store1 ix r e = .ok r' := by
        unfold pushG at h1
        rw [hf] at h1
        exact h1
      have : (observe r (stepG zero ix r (.push e))).1 = r' := by simp [stepG, h1, observe]
      rw [this]
      exact store1_keeps hix hp hN h.small e hs h2
    · rw [if_neg hl]
      have : (observe r (stepG zero ix r (.push e))).1 = r := by simp [stepG, pushG_full h (by omega), observe]
      rw [this]; exact hp
  | mpush es =>
    dsimp only
    simp only [Spec.ArgOk] at ha
    have hs : r.size.toNat ∣ 2 ^ 64 ∨ r.inn.toNat + (es.take (r.size.toNat - q.length)).length < 2 ^ 64 := by
      simp only [Spec.bounded, accStep, List.length_append] at hk
      rcases hk with hk | hk
      · exact .inl hk
      · right; omega
    obtain ⟨r', h1, -⟩ := mpushG_spec hix h es ha hs
    have : (observe r (stepG zero ix r (.mpush es))).1 = r' := by simp [stepG, h1, observe]
    rw [this]
    have hav := h.avail_toNat
    have hm64 : (BitVec.ofNat 64 es.length).toNat = es.length := by rw [BitVec.toNat_ofNat, Nat.mod_eq_of_lt]; omega
    have hgt : (BitVec.ofNat 64 es.length > avail r) ↔ es.length > r.size.toNat - q.length := by
      rw [gt_iff_lt, BitVec.lt_def, hm64, hav]
    unfold mpushG at h1
    dsimp only at h1
    have hE : (do
        let xs ← (if BitVec.ofNat 64 es.length > avail r then sliceTo es (avail r).toNat else .ok es)
        if (if BitVec.ofNat 64 es.length > avail r then avail r else BitVec.ofNat 64 es.length) = 0 then pure r else storeN ix r xs) =
        (Except.ok r' : Go (Buf T)) := by
      by_cases hc : BitVec.ofNat 64 es.length > avail r
      · rw [if_pos hc] at h1 ⊢; exact h1
      · rw [if_neg hc] at h1 ⊢; exact h1
    replace h1 := hE
    have hE : (if BitVec.ofNat 64 es.length > avail r then sliceTo es (avail r).toNat else .ok es) =
        (.ok (es.take (r.size.toNat - q.length)) : Go (List T)) := by
      by_cases hc : es.length > r.size.toNat - q.length
      · rw [if_pos (hgt.2 hc), hav]
        unfold sliceTo
        rw [if_pos (by omega)]
      · rw [if_neg (by rw [hgt]; exact hc), List.take_of_length_le (by omega)]
    rw [hE] at h1
    simp only [Go.bind_ok] at h1
    generalize hsz : (if BitVec.ofNat 64 es.length > avail r then avail r else BitVec.ofNat 64 es.length) = z at h1
    have hz : z.toNat = (es.take (r.size.toNat - q.length)).length := by
      rw [← hsz, List.length_take]
      by_cases hc : es.length > r.size.toNat - q.length
      · rw [if_pos (hgt.2 hc), hav]; omega
      · rw [if_neg (by rw [hgt]; exact hc), hm64]; omega
    by_cases h0 : z = 0
    · rw [if_pos h0] at h1
      cases h1
      have : es.take (r.size.toNat - q.length) = [] := List.length_eq_zero_iff.1 (by rw [← hz, h0]; rfl)
      rw [this, List.append_nil]; exact hp
    · rw [if_neg h0] at h1
      exact storeN_keeps hix hp hN h.small _ (by rw [List.length_take]; omega) hs h1
  | reset => exact Keeps.init zero
  | grow n => exact hp
  | pop => exact key rfl
  | peek => exact key rfl
  | mpop n => exact key rfl
  | mpopCopy dst => exact key rfl
  | len => exact key rfl
  | avail => exact key rfl
  | empty => exact key rfl
  | full => exact key rfl
  | cap => exact key rfl

theorem run_keeps {ix : Buf T → BitVec 64 → Go (BitVec 64)} (zero : T) (ops : List (Op T)) :
    ∀ {r : Buf T} {q p : List T} (_ : IxOk ix r.size r.mask) (_ : 0 < r.size.toNat) (_ : Inv r q) (_ : Keeps zero r p)
    (_ : ∀ op ∈ ops, Spec.ArgOk op) (k : Nat)
    (_ : r.size.toNat ∣ 2 ^ 64 ∨ (r.inn.toNat ≤ k ∧ Spec.accepted r.size.toNat k q ops < 2 ^ 64)),
    Keeps zero (runWith (stepG zero ix) r ops).1 (Spec.sinceReset r.size.toNat p q ops) ∧ (runWith (stepG zero ix) r ops).1.size = r.size := by
  induction ops with
  | nil => intro r q p _ _ _ hp _ _ _; exact ⟨hp, rfl⟩
  | cons op ops ih =>
    intro r q p hix hN h hp ha k hk
    have hk1 : r.size.toNat ∣ 2 ^ 64 ∨ (r.inn.toNat ≤ k ∧ accStep r.size.toNat k q op < 2 ^ 64) := by
      rcases hk with hk | hk
      · exact .inl hk
      · right
        refine ⟨hk.1, ?_⟩
        have := accepted_cons r.size.toNat k q op ops
        have := le_accepted r.size.toNat ops (accStep r.size.toNat k q op) (Spec.bounded r.size.toNat q op).1
        omega
    obtain ⟨r', h1, h2, h3, h4, h5⟩ := step_bounded zero hix hN h op (ha op (by simp)) k hk1
    have hkp := step_keeps hix hN h hp op (ha op (by simp)) k hk1
    rw [h1] at hkp
    have := ih (r := r') (by rw [h3, h4]; exact hix) (by rw [h3]; exact hN) h2 hkp
      (fun o ho => ha o (by simp [ho])) (accStep r.size.toNat k q op) (by
        rw [h3]
        rcases hk with hk | hk
        · exact .inl hk
        · rcases h5 with h5 | h5
          · exact .inl h5
          · right
            refine ⟨h5, ?_⟩
            have := accepted_cons r.size.toNat k q op ops
            omega)
    rw [h3] at this
    simp only [runWith, Spec.sinceReset, h1]
    exact this

/-- The cells, read from the next one to be written. -/
theorem Keeps.rotate {zero : T} {r : Buf T} {p : List T} (h : Keeps zero r p) (hN : 0 < r.size.toNat) :
    r.data.rotate (r.inn.toNat % r.size.toNat) = Spec.lastN r.size.toNat zero p := by
  have hl : (Spec.lastN r.size.toNat zero p).length = r.size.toNat := by simp [Spec.lastN]
  apply List.ext_getElem?
  intro j
  by_cases hj : j < r.size.toNat
  · rw [← h.get j hj, List.getElem?_rotate (by rw [h.dlen]; exact hj), h.dlen]
    congr 1
    rw [Nat.add_mod_mod, Nat.add_comm]
  · rw [List.getElem?_eq_none (by rw [List.length_rotate, h.dlen]; omega), List.getElem?_eq_none (by omega)]

/-- **C166 (partial: see the bound).** After every history of calls, the cells of a fixed ring are those of the last `size` elements it accepted since `New`
or `Reset`, popped or not (and zero values, if there were fewer). -/
theorem C166_fix_partial (zero : T) (s : BitVec 64) (h1 : 1 ≤ s.toNat) (h2 : s.toNat ≤ 2 ^ 63 - 1) :
    ∃ r, Fix.new zero s = .ok r ∧ ∀ ops : List (Op T), (∀ op ∈ ops, Spec.ArgOk op) →
      (s.toNat ∣ 2 ^ 64 ∨ Spec.accepted s.toNat 0 [] ops < 2 ^ 64) →
      ∃ k, (runWith (Fix.step zero) r ops).1.data.rotate k = Spec.lastN s.toNat zero (Spec.sinceReset s.toNat [] [] ops) := by
  refine ⟨_, fix_new_ok zero h1 h2, ?_⟩
  intro ops ha hk
  rw [fix_step_eq]
  have hne : s ≠ 0 := by rintro rfl; simp at h1
  obtain ⟨h3, h4⟩ := run_keeps zero ops (q := []) (p := []) (r := ⟨0, 0, s, 0, List.replicate s.toNat zero⟩) (modIx_ok hne) h1
    (inv_new zero s 0 (by omega)) (Keeps.init zero) ha 0 (by
      rcases hk with hk | hk
      · exact .inl hk
      · exact .inr ⟨by simp, hk⟩)
  have h5 := h3.rotate (by rw [h4]; exact h1)
  rw [h4] at h5
  exact ⟨_, h5⟩

/-- **C166.** The same of a round ring, without a bound. -/
theorem C166_round (zero : T) (s : BitVec 64) (h1 : 1 ≤ s.toNat) (h2 : s.toNat ≤ 2 ^ 62) :
    ∃ r, Round.new zero s = .ok r ∧ ∀ ops : List (Op T), (∀ op ∈ ops, Spec.ArgOk op) →
      ∃ k, (runWith (Round.step zero) r ops).1.data.rotate k = Spec.lastN r.size.toNat zero (Spec.sinceReset r.size.toNat [] [] ops) := by
  obtain ⟨he, hb, hle, ⟨k, hk⟩, -⟩ := round_new_ok zero h1 h2
  refine ⟨_, he, ?_⟩
  intro ops ha
  rw [round_step_eq]
  have hdvd : (Math.roundUpPowOf2 s).toNat ∣ 2 ^ 64 := by
    have hk62 : k ≤ 62 := by
      by_contra hc
      have : 2 ^ 63 ≤ 2 ^ k := Nat.pow_le_pow_right (by omega) (by omega)
      omega
    rw [hk]
    exact pow_dvd_pow 2 (by omega)
  obtain ⟨h3, h4⟩ := run_keeps zero ops (q := []) (p := []) (maskIx_ok k hk) (by show 0 < (Math.roundUpPowOf2 s).toNat; omega)
    (inv_new zero _ _ (by show (Math.roundUpPowOf2 s).toNat < _; omega)) (Keeps.init zero) ha 0 (.inl hdvd)
  have h5 := h3.rotate (by rw [h4]; show 0 < (Math.roundUpPowOf2 s).toNat; omega)
  rw [h4] at h5
  exact ⟨_, h5⟩

/-- **C166.** `Grow` takes only the elements of the queue along: afterwards an unbounded ring holds them and zero values. -/
theorem C166_grow {r r' : Buf T} {q : List T} (zero : T) (h : Inv r q) (hn : r.size ≠ 0) (m : BitVec 64) (e : Unbounded.grow zero r m = .ok r') :
    r'.data = q ++ List.replicate (r'.size.toNat - q.length) zero := by
  have hN : 0 < r.size.toNat := by
    rcases Nat.eq_zero_or_pos r.size.toNat with e | e
    · exact absurd (BitVec.eq_of_toNat_eq (by simpa using e)) hn
    · exact e
  have hle := h.le
  have hq : (len r).toNat = q.length := h.len
  obtain ⟨y, hy, hy2⟩ := modIx_ok (T := T) (m := r.mask) hn r r.out rfl rfl
  have hlt : r.out.toNat % r.size.toNat < r.size.toNat := Nat.mod_lt _ hN
  unfold Unbounded.grow at e
  dsimp only at e
  generalize (if r.size * 2 > m then r.size * 2 else m) = s at e
  split at e
  · cases e
  · generalize (if s < 2 then 2 else s) = s2 at e
    rw [hy] at e
    simp only [Go.bind_ok] at e
    rw [hq, hy2] at e
    cases h1 : sliceTo (List.replicate s2.toNat zero) q.length with
    | error x => rw [h1] at e; cases e
    | ok dst =>
      rw [h1] at e
      simp only [Go.bind_ok] at e
      have hd : q.length ≤ s2.toNat ∧ dst = (List.replicate s2.toNat zero).take q.length := by
        unfold sliceTo at h1
        split at h1
        · rename_i hc
          cases h1
          rw [List.length_replicate] at hc
          exact ⟨hc, rfl⟩
        · cases h1
      obtain ⟨c1, c2, e1, a1, a2, a3⟩ := h.seg hN q.length (Nat.le_refl _) dst (by rw [hd.2]; simp; omega)
      have hsf : sliceFrom r.data (r.out.toNat % r.size.toNat) = .ok (r.data.drop (r.out.toNat % r.size.toNat)) := by
        unfold sliceFrom; rw [if_pos (by rw [h.dlen]; omega)]
      rw [hsf] at e
      simp only [Go.bind_ok, a1, a2, Go.pure_eq, Except.ok.injEq, List.take_length] at e
      rw [← e]
      simp only [List.drop_replicate]

/-- **C166: finding.** "An element that was popped is no longer referred to by the ring" is false for every size and element: `Push(e)` and
`Pop()` leave `e` in the first cell. -/
theorem C166_popped_refuted (zero e : T) (s : BitVec 64) (h1 : 1 ≤ s.toNat) (h2 : s.toNat ≤ 2 ^ 62) :
    (∃ r r1 r2 o, Fix.new zero s = .ok r ∧ Fix.step zero r (.push e) = .ok (r1, .unit) ∧ Fix.step zero r1 .pop = .ok (r2, o) ∧ o = .val e ∧
      empty r2 = true ∧ e ∈ r2.data) ∧
    (∃ r r1 r2 o, Unbounded.new zero s = .ok r ∧ Unbounded.step zero r (.push e) = .ok (r1, .unit) ∧ Unbounded.step zero r1 .pop = .ok (r2, o) ∧
      o = .val e ∧ empty r2 = true ∧ e ∈ r2.data) := by
  have hne : s ≠ 0 := by rintro rfl; simp at h1
  have hi := inv_new zero s 0 (by omega)
  have hix := modIx_ok (T := T) (m := 0) hne
  obtain ⟨r1, a1, a2, a3, a4, a5⟩ := pushG_spec (ix := modIx) (q := []) hix hi e (by show 0 < s.toNat; omega) (.inr (by simp))
  have hst : store1 modIx ⟨0, 0, s, 0, List.replicate s.toNat zero⟩ e = .ok r1 := by
    have hf : full (⟨0, 0, s, 0, List.replicate s.toNat zero⟩ : Buf T) = false := by rw [hi.full_iff]; simp; omega
    unfold pushG at a1
    rw [hf] at a1
    exact a1
  have hf : full (⟨0, 0, s, 0, List.replicate s.toNat zero⟩ : Buf T) = false := by rw [hi.full_iff]; simp; omega
  have hix1 : IxOk (T := T) modIx r1.size r1.mask := by rw [a3, a4]; exact hix
  obtain ⟨r2, b1, b2, b3, b4, b5⟩ := popG_cons (q := []) hix1 a2
  have hmem : e ∈ r2.data := by
    rw [(popG_data b1).1]
    have := a2.get 0 (by simp)
    exact List.mem_of_getElem? (this.trans rfl)
  have hem : empty r2 = true := by rw [b2.empty_iff]; rfl
  refine ⟨⟨_, r1, r2, _, fix_new_ok zero h1 (by omega), ?_, ?_, rfl, hem, hmem⟩,
    ⟨_, r1, r2, _, unbounded_new_ok zero (by omega), ?_, ?_, rfl, hem, hmem⟩⟩
  · unfold Fix.step; dsimp only; rw [a1]; rfl
  · simp [Fix.step, stepCommon, b1]
  · unfold Unbounded.step Unbounded.push; dsimp only; rw [hf]
    simp only [Bool.false_eq_true, if_false, Go.bind_ok]
    rw [hst]; rfl
  · simp [Unbounded.step, stepCommon, b1]

/-- **C166.** `Reset` releases everything. -/
theorem C166_reset (zero : T) (r : Buf T) : (reset zero r).data = List.replicate r.size.toNat zero := rfl

/-- Popped elements stay until `size` others have come. -/
example : ∃ r, Fix.new 0 3 = .ok r ∧
    (runWith (Fix.step 0) r [.push 1, .push 2, .pop, .pop, .push 3]).1.data = [1, 2, 3] ∧
    (runWith (Fix.step 0) r [.push 1, .push 2, .pop, .pop, .push 3, .push 4]).1.data = [4, 2, 3] ∧
    Spec.lastN 3 0 (Spec.sinceReset 3 [] [] [.push 1, .push 2, .pop, .pop, .push 3, .push 4]) = [2, 3, 4] ∧
    (runWith (Fix.step 0) r [.push 1, .push 2, .pop, .pop, .push 3, .reset]).1.data = [0, 0, 0] := by
  exact ⟨_, rfl, by decide, by decide, by decide, by decide⟩

example : ∃ r, Unbounded.new 0 2 = .ok r ∧ (runWith (Unbounded.step 0) r [.push 1, .push 2, .pop, .push 3]).1.data = [3, 2] ∧
    (runWith (Unbounded.step 0) r [.push 1, .push 2, .pop, .push 3, .grow 5]).1.data = [2, 3, 0, 0, 0] := by
  exact ⟨_, rfl, by decide, by decide⟩

end Verif.Ring
