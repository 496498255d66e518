import Verif.Spec.Queue
import Verif.Proof.Math
import Mathlib.Tactic.Linarith
import Mathlib.Tactic.Ring
import Mathlib.Data.Nat.ModEq

/-!
# Ring buffers: representation invariant and its preservation
-/

namespace Verif.Ring

variable {T : Type}

/-- `ix` computes the remainder modulo the size. -/
def IxOk (ix : Buf T → BitVec 64 → Go (BitVec 64)) (s m : BitVec 64) : Prop :=
  ∀ (r : Buf T) (x : BitVec 64), r.size = s → r.mask = m →
    ∃ y, ix r x = .ok y ∧ y.toNat = x.toNat % s.toNat

/-- The ring `r` holds the queue `q`. -/
structure Inv (r : Buf T) (q : List T) : Prop where
  len : (r.inn - r.out).toNat = q.length
  le : q.length ≤ r.size.toNat
  small : r.size.toNat < 2 ^ 63
  dlen : r.data.length = r.size.toNat
  get : ∀ k, k < q.length → r.data[(r.out.toNat + k) % r.size.toNat]? = q[k]?
  safe : r.size.toNat ∣ 2 ^ 64 ∨ r.inn.toNat = r.out.toNat + q.length

theorem modIx_ok {s m : BitVec 64} (h : s ≠ 0) : IxOk (T := T) modIx s m := by
  intro r x hs _
  refine ⟨x % s, ?_, ?_⟩
  · simp only [modIx, hs, if_neg h]
  · simp [BitVec.toNat_umod]

theorem maskIx_ok {s : BitVec 64} (k : Nat) (hk : s.toNat = 2 ^ k) : IxOk (T := T) maskIx s (s - 1) := by
  intro r x hs hm
  refine ⟨x &&& (s - 1), ?_, ?_⟩
  · simp [maskIx, hm]
  · have h1 : (s - 1).toNat = 2 ^ k - 1 := by
      have := s.isLt
      have : 0 < 2 ^ k := by positivity
      have h1' : (1 : BitVec 64).toNat = 1 := rfl
      rw [BitVec.toNat_sub, h1', hk]
      omega
    rw [BitVec.toNat_and, h1, Nat.and_two_pow_sub_one_eq_mod, hk]

namespace Inv

variable {r : Buf T} {q : List T}

theorem empty_iff (h : Inv r q) : empty r = q.isEmpty := by
  have := h.len
  unfold empty
  cases q with
  | nil =>
    simp only [List.isEmpty_nil, beq_iff_eq]
    have h0 : r.inn - r.out = 0 := by
      apply BitVec.eq_of_toNat_eq; simpa using this
    have := congrArg (· + r.out) h0
    simpa [BitVec.sub_add_cancel] using this
  | cons a q =>
    simp only [List.isEmpty_cons, beq_eq_false_iff_ne, ne_eq]
    intro e
    rw [e] at this
    simp at this

theorem len_ofNat (h : Inv r q) : r.inn - r.out = BitVec.ofNat 64 q.length := by
  rw [← h.len, BitVec.ofNat_toNat, BitVec.setWidth_eq]

theorem avail_toNat (h : Inv r q) : (avail r).toNat = r.size.toNat - q.length := by
  have h1 := h.len; have h2 := h.le
  unfold avail cap Ring.len
  rw [BitVec.toNat_sub, h1]
  have := r.size.isLt
  omega

theorem full_iff (h : Inv r q) : full r = (q.length == r.size.toNat) := by
  have h1 := h.avail_toNat; have h2 := h.le
  unfold full
  rw [Bool.eq_iff_iff]
  simp only [beq_iff_eq]
  constructor
  · intro e; rw [e] at h1; simp at h1; omega
  · intro e; apply BitVec.eq_of_toNat_eq; rw [h1]; simp; omega

end Inv

theorem adv_mod {x y : BitVec 64} {N : Nat} (h : N ∣ 2 ^ 64 ∨ x.toNat + y.toNat < 2 ^ 64) :
    (x + y).toNat % N = (x.toNat + y.toNat) % N := by
  rw [BitVec.toNat_add]
  rcases h with h | h
  · rw [Nat.mod_mod_of_dvd _ h]
  · rw [Nat.mod_eq_of_lt h]

theorem Inv.inn_mod {r : Buf T} {q : List T} (h : Inv r q) :
    r.inn.toNat % r.size.toNat = (r.out.toNat + q.length) % r.size.toNat := by
  rcases h.safe with h1 | h1
  · have e : r.inn = r.out + (r.inn - r.out) := by
      rw [BitVec.add_comm, BitVec.sub_add_cancel]
    conv_lhs => rw [e]
    rw [adv_mod (.inl h1), h.len]
  · rw [h1]

/-- Reads a ring segment: the two copies of `MPop`/`MPopCopy`/`Grow`. -/
theorem segment {d : List T} {N p : Nat} {q : List T} (hd : d.length = N) (hp : p < N) (hq : q.length ≤ N)
    (hg : ∀ k, k < q.length → d[(p + k) % N]? = q[k]?) (m : Nat) (hm : m ≤ q.length) (dst : List T)
    (hdst : dst.length = m) :
    ∃ c1 c2 e1, copyAt dst 0 (d.drop p) = .ok (e1, c1) ∧ copyAt e1 c1 d = .ok (q.take m, c2) ∧ c1 + c2 = m := by
  have hl : (d.drop p).length = N - p := by simp [hd]
  refine ⟨min m (N - p), min (m - min m (N - p)) N,
    List.take (min m (N - p)) (List.drop p d) ++ List.drop (min m (N - p)) dst, ?_, ?_, ?_⟩
  · simp only [copyAt, Nat.zero_le, if_true, Nat.sub_zero, hdst, hl, Nat.zero_add, List.take_zero, List.nil_append]
  · simp only [copyAt]
    have e1 : (List.take (min m (N - p)) (List.drop p d) ++ List.drop (min m (N - p)) dst).length = m := by
      simp only [List.length_append, List.length_take, List.length_drop, hd, hdst]; omega
    rw [e1, if_pos (by omega), hd]
    congr 1
    congr 1
    apply List.ext_getElem?
    intro i
    by_cases hi : i < m
    · rw [List.getElem?_take_of_lt hi, ← hg i (by omega)]
      by_cases hw : p + i < N
      · rw [Nat.mod_eq_of_lt hw]
        rw [List.append_assoc, List.getElem?_append_left (by
          simp only [List.length_take, List.length_append, List.length_drop, hd, hdst]; omega)]
        rw [List.getElem?_take_of_lt (by omega)]
        rw [List.getElem?_append_left (by
          simp only [List.length_take, List.length_drop, hd]; omega)]
        rw [List.getElem?_take_of_lt (by omega)]
        rw [List.getElem?_drop]
      · have : min m (N - p) = N - p := by omega
        rw [this]
        have hmod : (p + i) % N = p + i - N := by
          rw [Nat.mod_eq_sub_mod (by omega), Nat.mod_eq_of_lt (by omega)]
        rw [hmod, List.append_assoc, List.getElem?_append_right (by
          simp only [List.length_take, List.length_append, List.length_drop, hd, hdst]; omega)]
        rw [List.getElem?_append_left (by
          simp only [List.length_take, List.length_append, List.length_drop, hd, hdst]; omega)]
        rw [List.getElem?_take_of_lt (by
          simp only [List.length_take, List.length_append, List.length_drop, hd, hdst]; omega)]
        congr 1
        simp only [List.length_take, List.length_append, List.length_drop, hd, hdst]; omega
    · rw [List.getElem?_eq_none, List.getElem?_eq_none]
      · simp; omega
      · simp only [List.length_take, List.length_append, List.length_drop, hd, hdst]; omega
  · omega

/-- The two copies of `MPush`. -/
theorem storeSeg {d : List T} {N i : Nat} (es : List T) (hd : d.length = N) (hi : i < N) (hes : es.length ≤ N) :
    ∃ d1 c1 d2 c2, copyAt d i es = .ok (d1, c1) ∧ sliceFrom es c1 = .ok (es.drop c1) ∧
      copyAt d1 0 (es.drop c1) = .ok (d2, c2) ∧ d2.length = N ∧
      (∀ t, t < es.length → d2[(i + t) % N]? = es[t]?) ∧
      (∀ j, j < N → (∀ t, t < es.length → j ≠ (i + t) % N) → d2[j]? = d[j]?) := by
  have hc : min (N - i) es.length ≤ es.length := by omega
  set c := min (N - i) es.length with hcdef
  have hc' : c = if N - i ≤ es.length then N - i else es.length := by rw [hcdef]; omega
  set d1 := d.take i ++ es.take c ++ d.drop (i + c) with hd1
  have hl1 : d1.length = N := by
    simp only [hd1, List.length_append, List.length_take, List.length_drop, hd]
    split at hc' <;> omega
  set rest := es.drop c with hrest
  have hlr : rest.length = es.length - c := by simp [hrest]
  set c2 := min N (es.length - c) with hc2def
  have hc2 : c2 = es.length - c := by omega
  refine ⟨d1, c, rest.take c2 ++ d1.drop c2, c2, ?_, ?_, ?_, ?_, ?_, ?_⟩
  · simp only [copyAt, hd]; rw [if_pos (by omega)]
  · simp only [sliceFrom]; rw [if_pos hc]
  · simp only [copyAt, Nat.zero_le, if_true, Nat.sub_zero, hl1, hlr, ← hc2def, Nat.zero_add, List.take_zero, List.nil_append,
      ← hrest]
  · simp only [List.length_append, List.length_take, List.length_drop, hl1, hlr]; split at hc' <;> omega
  · intro t ht
    by_cases hw : i + t < N
    · rw [Nat.mod_eq_of_lt hw]
      rw [List.getElem?_append_right (by simp only [List.length_take, hlr]; split at hc' <;> omega)]
      rw [List.getElem?_drop, hd1]
      rw [List.append_assoc, List.getElem?_append_right (by
        simp only [List.length_take, hlr, hd]; split at hc' <;> omega)]
      rw [List.getElem?_append_left (by
        simp only [List.length_take, hlr, hd]; split at hc' <;> omega)]
      rw [List.getElem?_take_of_lt (by
        simp only [List.length_take, hlr, hd]; split at hc' <;> omega)]
      congr 1
      simp only [List.length_take, hlr, hd]; split at hc' <;> omega
    · have hmod : (i + t) % N = i + t - N := by
        rw [Nat.mod_eq_sub_mod (by omega), Nat.mod_eq_of_lt (by omega)]
      rw [hmod, List.getElem?_append_left (by simp only [List.length_take, hlr]; split at hc' <;> omega)]
      rw [List.getElem?_take_of_lt (by split at hc' <;> omega), hrest, List.getElem?_drop]
      congr 1
      split at hc' <;> omega
  · intro j hj hne
    have h2 : c2 ≤ j := by
      by_contra hlt
      have := hne (j + N - i) (by split at hc' <;> omega)
      apply this
      rw [show i + (j + N - i) = j + N by omega, Nat.add_mod_right, Nat.mod_eq_of_lt hj]
    rw [List.getElem?_append_right (by simp only [List.length_take, hlr]; omega)]
    rw [List.getElem?_drop]
    have : c2 + (j - (List.take c2 rest).length) = j := by
      simp only [List.length_take, hlr]; omega
    rw [this, hd1]
    by_cases hji : j < i
    · rw [List.append_assoc, List.getElem?_append_left (by simp only [List.length_take, hd]; omega)]
      rw [List.getElem?_take_of_lt hji]
    · have h3 : i + c ≤ j := by
        by_contra hlt
        have := hne (j - i) (by omega)
        apply this
        rw [show i + (j - i) = j by omega, Nat.mod_eq_of_lt hj]
      rw [List.getElem?_append_right (by
        simp only [List.length_append, List.length_take, hd]; omega)]
      rw [List.getElem?_drop]
      congr 1
      simp only [List.length_append, List.length_take, hd]; omega

section steps
variable {ix : Buf T → BitVec 64 → Go (BitVec 64)} {r : Buf T} {q : List T}

theorem Inv.size_pos_of_cons (h : Inv r q) (hq : q ≠ []) : 0 < r.size.toNat := by
  have := h.le
  have : 0 < q.length := List.length_pos_iff.mpr hq
  omega

/-- Advancing the read counter by `m` drops `m` elements. -/
theorem Inv.advance (h : Inv r q) (m : Nat) (hm : m ≤ q.length) :
    Inv { r with out := r.out + BitVec.ofNat 64 m } (q.drop m) := by
  have h1 := h.le; have h2 := h.small
  have hm64 : (BitVec.ofNat 64 m).toNat = m := by
    rw [BitVec.toNat_ofNat, Nat.mod_eq_of_lt]; omega
  have hlt := r.inn.isLt
  have hadv : r.size.toNat ∣ 2 ^ 64 ∨ r.out.toNat + (BitVec.ofNat 64 m).toNat < 2 ^ 64 := by
    rcases h.safe with hs | hs
    · exact .inl hs
    · right; rw [hm64]; omega
  constructor
  · have : r.inn - (r.out + BitVec.ofNat 64 m) = (r.inn - r.out) - BitVec.ofNat 64 m := by
      simp only [BitVec.sub_eq_add_neg, BitVec.neg_add, BitVec.add_assoc]
    show (r.inn - (r.out + BitVec.ofNat 64 m)).toNat = _
    rw [this, BitVec.toNat_sub, h.len, hm64]
    simp only [List.length_drop]
    omega
  · simp only [List.length_drop]; omega
  · exact h2
  · exact h.dlen
  · intro k hk
    simp only [List.length_drop] at hk
    show r.data[((r.out + BitVec.ofNat 64 m).toNat + k) % r.size.toNat]? = _
    have e : ((r.out + BitVec.ofNat 64 m).toNat + k) % r.size.toNat = (r.out.toNat + (m + k)) % r.size.toNat := by
      rw [Nat.add_mod, adv_mod hadv, hm64, ← Nat.add_mod, Nat.add_assoc]
    rw [e, h.get (m + k) (by omega), List.getElem?_drop]
  · rcases h.safe with hs | hs
    · exact .inl hs
    · right
      show r.inn.toNat = (r.out + BitVec.ofNat 64 m).toNat + _
      rw [BitVec.toNat_add, hm64, Nat.mod_eq_of_lt (by omega)]
      simp only [List.length_drop]; omega

theorem popG_empty (h : Inv r ([] : List T)) : popG ix r = .error (.explicit "ring emtpy") := by
  have := h.empty_iff
  simp [popG, this]

theorem popG_cons (hix : IxOk ix r.size r.mask) {x : T} (h : Inv r (x :: q)) :
    ∃ r', popG ix r = .ok (r', x) ∧ Inv r' q ∧ r'.size = r.size ∧ r'.mask = r.mask ∧ r'.inn = r.inn := by
  have he := h.empty_iff
  obtain ⟨y, hy, hy2⟩ := hix r r.out rfl rfl
  have hg := h.get 0 (by simp)
  simp only [Nat.add_zero, List.getElem?_cons_zero] at hg
  refine ⟨{ r with out := r.out + 1 }, ?_, ?_, rfl, rfl, rfl⟩
  · simp only [popG, he, List.isEmpty_cons, Bool.false_eq_true, if_false, hy, Go.bind_ok]
    rw [hy2]
    simp [Go.idx, hg]
  · have := h.advance 1 (by simp)
    simpa using this

theorem peekG_empty (h : Inv r ([] : List T)) : peekG ix r = .error (.explicit "ring emtpy") := by
  have := h.empty_iff
  simp [peekG, this]

theorem peekG_cons (hix : IxOk ix r.size r.mask) {x : T} (h : Inv r (x :: q)) : peekG ix r = .ok x := by
  have he := h.empty_iff
  obtain ⟨y, hy, hy2⟩ := hix r r.out rfl rfl
  have hg := h.get 0 (by simp)
  simp only [Nat.add_zero, List.getElem?_cons_zero] at hg
  simp only [peekG, he, List.isEmpty_cons, Bool.false_eq_true, if_false, hy, Go.bind_ok]
  rw [hy2]
  simp [Go.idx, hg]

/-- Writing `es` behind the queue. -/
theorem Inv.extend (h : Inv r q) (es d2 : List T) (hes : q.length + es.length ≤ r.size.toNat)
    (hs : r.size.toNat ∣ 2 ^ 64 ∨ r.inn.toNat + es.length < 2 ^ 64)
    (hd2 : d2.length = r.size.toNat)
    (hnew : ∀ t, t < es.length → d2[(r.inn.toNat % r.size.toNat + t) % r.size.toNat]? = es[t]?)
    (hold : ∀ j, j < r.size.toNat → (∀ t, t < es.length → j ≠ (r.inn.toNat % r.size.toNat + t) % r.size.toNat) →
      d2[j]? = r.data[j]?) :
    Inv { r with data := d2, inn := r.inn + BitVec.ofNat 64 es.length } (q ++ es) := by
  have h2 := h.small
  have hm64 : (BitVec.ofNat 64 es.length).toNat = es.length := by
    rw [BitVec.toNat_ofNat, Nat.mod_eq_of_lt]; omega
  constructor
  · show (r.inn + BitVec.ofNat 64 es.length - r.out).toNat = _
    have : r.inn + BitVec.ofNat 64 es.length - r.out = (r.inn - r.out) + BitVec.ofNat 64 es.length := by
      rw [BitVec.sub_eq_add_neg, BitVec.sub_eq_add_neg, BitVec.add_assoc, BitVec.add_assoc,
        BitVec.add_comm (BitVec.ofNat 64 es.length)]
    rw [this, BitVec.toNat_add, h.len, hm64]
    simp only [List.length_append]
    omega
  · simp only [List.length_append]; omega
  · exact h2
  · exact hd2
  · intro k hk
    simp only [List.length_append] at hk
    show d2[(r.out.toNat + k) % r.size.toNat]? = _
    have hN : 0 < r.size.toNat := by omega
    by_cases hkq : k < q.length
    · rw [List.getElem?_append_left hkq, ← h.get k hkq]
      apply hold _ (Nat.mod_lt _ hN)
      intro t ht e
      rw [h.inn_mod, Nat.mod_add_mod, Nat.add_assoc] at e
      have : k % r.size.toNat = (q.length + t) % r.size.toNat := Nat.ModEq.add_left_cancel' (n := r.size.toNat) r.out.toNat e
      rw [Nat.mod_eq_of_lt (by omega), Nat.mod_eq_of_lt (by omega)] at this
      omega
    · rw [List.getElem?_append_right (by omega), ← hnew _ (by omega), h.inn_mod, Nat.mod_add_mod]
      congr 2
      omega
  · rcases h.safe with h3 | h3
    · exact .inl h3
    · rcases hs with h4 | h4
      · exact .inl h4
      · right
        show (r.inn + BitVec.ofNat 64 es.length).toNat = _
        rw [BitVec.toNat_add, hm64, Nat.mod_eq_of_lt h4]
        simp only [List.length_append]; omega

theorem store1_spec (hix : IxOk ix r.size r.mask) (h : Inv r q) (e : T) (hl : q.length < r.size.toNat)
    (hs : r.size.toNat ∣ 2 ^ 64 ∨ r.inn.toNat + 1 < 2 ^ 64) :
    ∃ r', store1 ix r e = .ok r' ∧ Inv r' (q ++ [e]) ∧ r'.size = r.size ∧ r'.mask = r.mask ∧ r'.inn = r.inn + 1 := by
  obtain ⟨y, hy, hy2⟩ := hix r r.inn rfl rfl
  have hN : 0 < r.size.toNat := by omega
  have hyl : y.toNat < r.data.length := by rw [hy2, h.dlen]; exact Nat.mod_lt _ hN
  have hmm : (r.inn.toNat % r.size.toNat + 0) % r.size.toNat = r.inn.toNat % r.size.toNat := by simp
  have h1 := h.extend [e] (r.data.set y.toNat e) (by simp; omega) (by simpa using hs) (by simp [h.dlen])
    (by
      intro t ht
      simp only [List.length_cons, List.length_nil, Nat.zero_add, Nat.lt_one_iff] at ht
      subst ht
      rw [hmm, hy2, List.getElem?_set_self (by rw [← hy2]; exact hyl)]
      rfl)
    (by
      intro j hj hne
      have := hne 0 (by simp)
      rw [hmm, ← hy2] at this
      rw [List.getElem?_set_ne (Ne.symm this)])
  refine ⟨_, ?_, h1, rfl, rfl, ?_⟩
  · simp [store1, hy, Go.set, hyl]
  · simp

theorem storeN_spec (hix : IxOk ix r.size r.mask) (h : Inv r q) (es : List T) (hne : es ≠ [])
    (hl : q.length + es.length ≤ r.size.toNat)
    (hs : r.size.toNat ∣ 2 ^ 64 ∨ r.inn.toNat + es.length < 2 ^ 64) :
    ∃ r', storeN ix r es = .ok r' ∧ Inv r' (q ++ es) ∧ r'.size = r.size ∧ r'.mask = r.mask ∧
      r'.inn = r.inn + BitVec.ofNat 64 es.length := by
  obtain ⟨y, hy, hy2⟩ := hix r r.inn rfl rfl
  have : 0 < es.length := List.length_pos_iff.mpr hne
  have hN : 0 < r.size.toNat := by omega
  obtain ⟨d1, c1, d2, c2, e1, e2, e3, hd2, hnew, hold⟩ :=
    storeSeg (d := r.data) (i := y.toNat) es h.dlen (by rw [hy2]; exact Nat.mod_lt _ hN) (by omega)
  have h1 := h.extend es d2 hl hs hd2 (by rw [← hy2]; exact hnew) (by rw [← hy2]; exact hold)
  refine ⟨_, ?_, h1, rfl, rfl, rfl⟩
  simp [storeN, hy, e1, e2, e3]

theorem pushG_full (h : Inv r q) (hl : q.length = r.size.toNat) (e : T) :
    pushG ix r e = .error (.explicit "ring full") := by
  simp [pushG, h.full_iff, hl]

theorem pushG_spec (hix : IxOk ix r.size r.mask) (h : Inv r q) (e : T) (hl : q.length < r.size.toNat)
    (hs : r.size.toNat ∣ 2 ^ 64 ∨ r.inn.toNat + 1 < 2 ^ 64) :
    ∃ r', pushG ix r e = .ok r' ∧ Inv r' (q ++ [e]) ∧ r'.size = r.size ∧ r'.mask = r.mask ∧ r'.inn = r.inn + 1 := by
  obtain ⟨r', h1, h2⟩ := store1_spec hix h e hl hs
  refine ⟨r', ?_, h2⟩
  have : (q.length == r.size.toNat) = false := by simp; omega
  simp [pushG, h.full_iff, this, h1]

theorem mpushG_spec (hix : IxOk ix r.size r.mask) (h : Inv r q) (es : List T) (hlen : es.length < 2 ^ 63)
    (hs : r.size.toNat ∣ 2 ^ 64 ∨ r.inn.toNat + (es.take (r.size.toNat - q.length)).length < 2 ^ 64) :
    ∃ r', mpushG ix r es = .ok r' ∧ Inv r' (q ++ es.take (r.size.toNat - q.length)) ∧ r'.size = r.size ∧
      r'.mask = r.mask ∧ r'.inn = r.inn + BitVec.ofNat 64 (es.take (r.size.toNat - q.length)).length := by
  have hav := h.avail_toNat
  have hle := h.le
  have hm64 : (BitVec.ofNat 64 es.length).toNat = es.length := by
    rw [BitVec.toNat_ofNat, Nat.mod_eq_of_lt]; omega
  have hgt : (BitVec.ofNat 64 es.length > avail r) ↔ es.length > r.size.toNat - q.length := by
    rw [gt_iff_lt, BitVec.lt_def, hm64, hav]
  have hz : ∀ x : BitVec 64, x = 0 ↔ x.toNat = 0 := by
    intro x
    constructor
    · rintro rfl; rfl
    · intro h; apply BitVec.eq_of_toNat_eq; simpa using h
  have key : mpushG ix r es = (if es.take (r.size.toNat - q.length) = [] then .ok r
      else storeN ix r (es.take (r.size.toNat - q.length))) := by
    unfold mpushG
    by_cases hc : es.length > r.size.toNat - q.length
    · simp only [hgt.mpr hc, if_true, sliceTo, hav]
      rw [if_pos (by omega)]
      simp only [Go.bind_ok]
      by_cases h0 : r.size.toNat - q.length = 0
      · rw [if_pos ((hz _).mpr (by rw [hav]; exact h0)), if_pos (by simp [h0])]; rfl
      · rw [if_neg (by rw [hz, hav]; exact h0), if_neg (by
          intro e
          have := congrArg List.length e
          simp only [List.length_take, List.length_nil] at this
          omega)]
    · have hg' : ¬ (BitVec.ofNat 64 es.length > avail r) := by rw [hgt]; exact hc
      simp only [hg', if_false, Go.bind_ok]
      rw [List.take_of_length_le (by omega)]
      by_cases h0 : es = []
      · subst h0; simp
      · have : es.length ≠ 0 := by simpa using h0
        rw [if_neg (by rw [hz, hm64]; exact this), if_neg h0]
  rw [key]
  by_cases h0 : es.take (r.size.toNat - q.length) = []
  · rw [if_pos h0, h0]
    exact ⟨r, rfl, by simpa using h, rfl, rfl, by simp⟩
  · rw [if_neg h0]
    exact storeN_spec hix h _ h0 (by simp only [List.length_take]; omega) hs

theorem Inv.seg (h : Inv r q) (hN : 0 < r.size.toNat) (m : Nat) (hm : m ≤ q.length) (dst : List T)
    (hdst : dst.length = m) :
    ∃ c1 c2 e1, copyAt dst 0 (r.data.drop (r.out.toNat % r.size.toNat)) = .ok (e1, c1) ∧
      copyAt e1 c1 r.data = .ok (q.take m, c2) ∧ c1 + c2 = m :=
  segment (N := r.size.toNat) h.dlen (Nat.mod_lt _ hN) h.le
    (by intro k hk; rw [Nat.mod_add_mod]; exact h.get k hk) m hm dst hdst

theorem mpopG_spec (zero : T) (hix : r.size ≠ 0 → IxOk ix r.size r.mask) (h : Inv r q) (n : BitVec 64) :
    ∃ r', mpopG zero ix r n = .ok (r', q.take n.toNat) ∧ Inv r' (q.drop n.toNat) ∧ r'.size = r.size ∧
      r'.mask = r.mask ∧ r'.inn = r.inn := by
  have hlen := h.len
  have hgt : (n > len r) ↔ n.toNat > q.length := by
    rw [gt_iff_lt, BitVec.lt_def]; unfold len; rw [hlen]
  have hsz : (if n > len r then len r else n).toNat = min n.toNat q.length := by
    split
    · rename_i hc; rw [hgt] at hc; unfold len; rw [hlen]; omega
    · rename_i hc; rw [hgt] at hc; omega
  set s := (if n > len r then len r else n) with hs
  have htake : q.take n.toNat = q.take s.toNat := by
    rw [hsz]
    by_cases hc : n.toNat ≤ q.length
    · rw [show min n.toNat q.length = n.toNat by omega]
    · rw [show min n.toNat q.length = q.length by omega]
      rw [List.take_of_length_le (by omega), List.take_length]
  have hdrop : q.drop n.toNat = q.drop s.toNat := by
    rw [hsz]
    by_cases hc : n.toNat ≤ q.length
    · rw [show min n.toNat q.length = n.toNat by omega]
    · rw [show min n.toNat q.length = q.length by omega]
      rw [List.drop_of_length_le (by omega), List.drop_length]
  rw [htake, hdrop]
  have hsq : s.toNat ≤ q.length := by rw [hsz]; exact Nat.min_le_right _ _
  unfold mpopG
  simp only [← hs]
  by_cases h0 : s = 0
  · rw [if_pos h0, h0]
    exact ⟨r, by simp, by simpa using h, rfl, rfl, rfl⟩
  · rw [if_neg h0]
    have hs0 : s.toNat ≠ 0 := by
      intro e; apply h0; apply BitVec.eq_of_toNat_eq; simpa using e
    have hN : 0 < r.size.toNat := by have := h.le; omega
    obtain ⟨y, hy, hy2⟩ := hix (by intro e; rw [e] at hN; simp at hN) r r.out rfl rfl
    obtain ⟨c1, c2, e1, a1, a2, a3⟩ := h.seg hN s.toNat hsq (List.replicate s.toNat zero) (by simp)
    refine ⟨{ r with out := r.out + s }, ?_, ?_, rfl, rfl, rfl⟩
    · have : r.out.toNat % r.size.toNat < r.size.toNat := Nat.mod_lt _ hN
      simp only [hy, Go.bind_ok, hy2, sliceFrom, h.dlen]
      rw [if_pos (by omega)]
      simp [a1, a2]
    · have := h.advance s.toNat hsq
      simpa using this

theorem mpopCopyG_spec (hix : IxOk ix r.size r.mask) (h : Inv r q) (hN : 0 < r.size.toNat) (dst : List T)
    (hd : dst.length < 2 ^ 63) :
    ∃ r', mpopCopyG ix r dst = .ok (r', q.take dst.length ++ dst.drop q.length) ∧ Inv r' (q.drop dst.length) ∧
      r'.size = r.size ∧ r'.mask = r.mask ∧ r'.inn = r.inn := by
  have hm64 : (BitVec.ofNat 64 dst.length).toNat = dst.length := by
    rw [BitVec.toNat_ofNat, Nat.mod_eq_of_lt]; omega
  obtain ⟨y, hy, hy2⟩ := hix r r.out rfl rfl
  set m := Math.min (BitVec.ofNat 64 dst.length).toNat (len r).toNat with hm
  have hm' : m = if dst.length < q.length then dst.length else q.length := by
    rw [hm, hm64]; unfold len Math.min; rw [h.len]
  have hmd : m ≤ dst.length := by split at hm' <;> omega
  have hmq : m ≤ q.length := by split at hm' <;> omega
  obtain ⟨c1, c2, e1, a1, a2, a3⟩ := h.seg hN m hmq (dst.take m) (by simp; omega)
  refine ⟨{ r with out := r.out + BitVec.ofNat 64 m }, ?_, ?_, rfl, rfl, rfl⟩
  · have : r.out.toNat % r.size.toNat < r.size.toNat := Nat.mod_lt _ hN
    unfold mpopCopyG
    simp only [hy, Go.bind_ok, ← hm, sliceTo, hmd, if_true, sliceFrom, hy2, h.dlen]
    rw [if_pos (by omega)]
    simp only [Go.bind_ok, a1, a2, a3, Go.pure_eq]
    congr 2
    split at hm'
    · rw [hm', List.drop_of_length_le (by omega), List.drop_of_length_le (l := dst) (i := q.length) (by omega)]
    · rw [hm', List.take_length, List.take_of_length_le (l := q) (i := dst.length) (by omega)]
  · have := h.advance m hmq
    have e : q.drop m = q.drop dst.length := by
      split at hm'
      · rw [hm']
      · rw [hm', List.drop_length, List.drop_of_length_le (by omega)]
    rwa [e] at this

theorem reset_inv (zero : T) (h : r.size.toNat < 2 ^ 63) : Inv (reset zero r) [] := by
  constructor <;> first | exact h | simp [reset]

end steps

/-! ## Histories of a bounded ring -/

/-- `Fix.step` and `Round.step` with the index computation as a parameter. -/
def stepG (zero : T) (ix : Buf T → BitVec 64 → Go (BitVec 64)) (r : Buf T) : Op T → Go (Buf T × Obs T)
  | .push e => do let r ← pushG ix r e; pure (r, .unit)
  | .mpush es => do let r ← mpushG ix r es; pure (r, .unit)
  | op => stepCommon zero ix r op

theorem fix_step_eq (zero : T) : Fix.step zero = stepG zero modIx := by
  funext r op; cases op <;> rfl

theorem round_step_eq (zero : T) : Round.step zero = stepG zero maskIx := by
  funext r op; cases op <;> rfl

/-- The elements a call adds since the last `Reset`, given `k` before it. -/
def accStep (c k : Nat) (q : List T) (op : Op T) : Nat :=
  match op with
  | .reset => 0
  | .push _ => k + ((Spec.bounded c q op).1.length - q.length)
  | .mpush _ => k + ((Spec.bounded c q op).1.length - q.length)
  | _ => k

theorem le_accepted (c : Nat) (ops : List (Op T)) : ∀ (k : Nat) (q : List T), k ≤ Spec.accepted c k q ops := by
  induction ops with
  | nil => intro k q; exact Nat.le_refl _
  | cons op ops ih =>
    intro k q
    cases op <;> simp only [Spec.accepted] <;> first | exact ih _ _ | exact Nat.le_max_left _ _ | skip
    · exact Nat.le_trans (Nat.le_add_right _ _) (ih _ _)
    · exact Nat.le_trans (Nat.le_add_right _ _) (ih _ _)

theorem accepted_cons (c k : Nat) (q : List T) (op : Op T) (ops : List (Op T)) :
    Spec.accepted c (accStep c k q op) (Spec.bounded c q op).1 ops ≤ Spec.accepted c k q (op :: ops) := by
  cases op <;> simp only [Spec.accepted, accStep] <;> first | exact Nat.le_refl _ | exact Nat.le_max_right _ _

theorem step_bounded {ix : Buf T → BitVec 64 → Go (BitVec 64)} {r : Buf T} {q : List T} (zero : T)
    (hix : IxOk ix r.size r.mask) (hN : 0 < r.size.toNat) (h : Inv r q) (op : Op T) (ha : Spec.ArgOk op) (k : Nat)
    (hk : r.size.toNat ∣ 2 ^ 64 ∨ (r.inn.toNat ≤ k ∧ accStep r.size.toNat k q op < 2 ^ 64)) :
    ∃ r', observe r (stepG zero ix r op) = (r', (Spec.bounded r.size.toNat q op).2) ∧
      Inv r' (Spec.bounded r.size.toNat q op).1 ∧ r'.size = r.size ∧ r'.mask = r.mask ∧
      (r.size.toNat ∣ 2 ^ 64 ∨ r'.inn.toNat ≤ accStep r.size.toNat k q op) := by
  have hne : r.size ≠ 0 := by rintro e; rw [e] at hN; simp at hN
  have hk' : r.size.toNat ∣ 2 ^ 64 ∨ r.inn.toNat ≤ k := by
    rcases hk with hk | hk
    · exact .inl hk
    · exact .inr hk.1
  cases op with
  | push e =>
    simp only [Spec.bounded, accStep] at hk ⊢
    by_cases hl : q.length < r.size.toNat
    · simp only [hl, if_true, List.length_append, List.length_cons, List.length_nil] at hk ⊢
      obtain ⟨r', h1, h2, h3, h4, h5⟩ := pushG_spec hix h e hl (by
        rcases hk with hk | hk
        · exact .inl hk
        · right; omega)
      refine ⟨r', by simp [stepG, h1, observe], h2, h3, h4, ?_⟩
      rcases hk with hk | hk
      · exact .inl hk
      · right
        rw [h5, BitVec.toNat_add]
        have : (1 : BitVec 64).toNat = 1 := rfl
        rw [this, Nat.mod_eq_of_lt (by omega)]
        omega
    · simp only [hl, if_false] at hk ⊢
      refine ⟨r, ?_, h, rfl, rfl, ?_⟩
      · simp [stepG, pushG_full h (by have := h.le; omega), observe]
      · rcases hk' with hk | hk
        · exact .inl hk
        · right; omega
  | mpush es =>
    simp only [Spec.bounded, accStep, List.length_append] at hk ⊢
    simp only [Spec.ArgOk] at ha
    obtain ⟨r', h1, h2, h3, h4, h5⟩ := mpushG_spec hix h es ha (by
      rcases hk with hk | hk
      · exact .inl hk
      · right; omega)
    refine ⟨r', by simp [stepG, h1, observe], h2, h3, h4, ?_⟩
    rcases hk with hk | hk
    · exact .inl hk
    · right
      have hlt : (es.take (r.size.toNat - q.length)).length < 2 ^ 64 := by
        simp only [List.length_take]; omega
      rw [h5, BitVec.toNat_add, BitVec.toNat_ofNat, Nat.mod_eq_of_lt hlt, Nat.mod_eq_of_lt (by omega)]
      omega
  | pop =>
    cases q with
    | nil => exact ⟨r, by simp [stepG, stepCommon, popG_empty h, observe, Spec.bounded], h, rfl, rfl, hk'⟩
    | cons x q =>
      obtain ⟨r', h1, h2, h3, h4, h5⟩ := popG_cons hix h
      exact ⟨r', by simp [stepG, stepCommon, h1, observe, Spec.bounded], h2, h3, h4, by rw [h5]; exact hk'⟩
  | peek =>
    cases q with
    | nil => exact ⟨r, by simp [stepG, stepCommon, peekG_empty h, observe, Spec.bounded], h, rfl, rfl, hk'⟩
    | cons x q =>
      exact ⟨r, by simp [stepG, stepCommon, peekG_cons (modIx_ok hne) h, observe, Spec.bounded], h, rfl, rfl, hk'⟩
  | mpop n =>
    obtain ⟨r', h1, h2, h3, h4, h5⟩ := mpopG_spec zero (fun _ => hix) h n
    exact ⟨r', by simp [stepG, stepCommon, h1, observe, Spec.bounded], h2, h3, h4, by rw [h5]; exact hk'⟩
  | mpopCopy dst =>
    obtain ⟨r', h1, h2, h3, h4, h5⟩ := mpopCopyG_spec hix h hN dst ha
    exact ⟨r', by simp [stepG, stepCommon, h1, observe, Spec.bounded], h2, h3, h4, by rw [h5]; exact hk'⟩
  | reset =>
    refine ⟨reset zero r, by simp [stepG, stepCommon, observe, Spec.bounded], reset_inv zero h.small, rfl, rfl, ?_⟩
    rcases hk' with hk | hk
    · exact .inl hk
    · right; simp [reset]
  | len => exact ⟨r, by simp only [stepG, stepCommon, observe, Spec.bounded, Ring.len, h.len], h, rfl, rfl, hk'⟩
  | avail => exact ⟨r, by simp only [stepG, stepCommon, observe, Spec.bounded, h.avail_toNat], h, rfl, rfl, hk'⟩
  | empty => exact ⟨r, by simp only [stepG, stepCommon, observe, Spec.bounded, h.empty_iff], h, rfl, rfl, hk'⟩
  | full => exact ⟨r, by simp only [stepG, stepCommon, observe, Spec.bounded, h.full_iff], h, rfl, rfl, hk'⟩
  | cap => exact ⟨r, by simp only [stepG, stepCommon, observe, Spec.bounded, cap], h, rfl, rfl, hk'⟩
  | grow n => exact ⟨r, by simp only [stepG, stepCommon, observe, Spec.bounded], h, rfl, rfl, hk'⟩

theorem run_bounded {ix : Buf T → BitVec 64 → Go (BitVec 64)} (zero : T) (ops : List (Op T)) :
    ∀ {r : Buf T} {q : List T} (_ : IxOk ix r.size r.mask) (_ : 0 < r.size.toNat) (_ : Inv r q)
    (_ : ∀ op ∈ ops, Spec.ArgOk op) (k : Nat)
    (_ : r.size.toNat ∣ 2 ^ 64 ∨ (r.inn.toNat ≤ k ∧ Spec.accepted r.size.toNat k q ops < 2 ^ 64)),
    (runWith (stepG zero ix) r ops).2 = (Spec.runBounded r.size.toNat q ops).2 ∧
    Inv (runWith (stepG zero ix) r ops).1 (Spec.runBounded r.size.toNat q ops).1 ∧
    (runWith (stepG zero ix) r ops).1.size = r.size ∧ (runWith (stepG zero ix) r ops).1.mask = r.mask := by
  induction ops with
  | nil => intro r q _ _ h _ _ _; exact ⟨rfl, h, rfl, rfl⟩
  | cons op ops ih =>
    intro r q hix hN h ha k hk
    have hk1 : r.size.toNat ∣ 2 ^ 64 ∨ (r.inn.toNat ≤ k ∧ accStep r.size.toNat k q op < 2 ^ 64) := by
      rcases hk with hk | hk
      · exact .inl hk
      · right
        refine ⟨hk.1, ?_⟩
        have := accepted_cons r.size.toNat k q op ops
        have := le_accepted r.size.toNat ops (accStep r.size.toNat k q op) (Spec.bounded r.size.toNat q op).1
        omega
    obtain ⟨r', h1, h2, h3, h4, h5⟩ := step_bounded zero hix hN h op (ha op (by simp)) k hk1
    have := ih (r := r') (by rw [h3, h4]; exact hix) (by rw [h3]; exact hN) h2
      (fun o ho => ha o (by simp [ho])) (accStep r.size.toNat k q op) (by
        rw [h3]
        rcases hk with hk | hk
        · exact .inl hk
        · rcases h5 with h5 | h5
          · exact .inl h5
          · right
            refine ⟨h5, ?_⟩
            have := accepted_cons r.size.toNat k q op ops
            omega)
    rw [h3] at this
    simp only [runWith, Spec.runBounded, h1]
    exact ⟨by rw [this.1], this.2.1, by rw [this.2.2.1], by rw [this.2.2.2, h4]⟩

/-! ## The unbounded ring -/

theorem toNat_two_mul {x : BitVec 64} (h : x.toNat < 2 ^ 63) : (x * 2).toNat = 2 * x.toNat := by
  have : (2 : BitVec 64).toNat = 2 := rfl
  rw [BitVec.toNat_mul, this, Nat.mod_eq_of_lt (by omega)]; omega

theorem grow_spec {r : Buf T} {q : List T} (zero : T) (h : Inv r q) (m : BitVec 64) :
    (2 ^ 63 ≤ max (2 * r.size.toNat) m.toNat ∧
      Unbounded.grow zero r m = .error (.explicit "size is too large")) ∨
    (max (2 * r.size.toNat) m.toNat < 2 ^ 63 ∧
      ∃ r', Unbounded.grow zero r m = .ok r' ∧ Inv r' q ∧ r'.mask = r.mask ∧
        r'.size.toNat = max 2 (max (2 * r.size.toNat) m.toNat) ∧ r'.inn.toNat ≤ max r.inn.toNat q.length) := by
  have h2 := toNat_two_mul h.small
  have hs : (if r.size * 2 > m then r.size * 2 else m).toNat = max (2 * r.size.toNat) m.toNat := by
    split
    · rename_i hc; rw [gt_iff_lt, BitVec.lt_def, h2] at hc; rw [h2]; omega
    · rename_i hc; rw [gt_iff_lt, BitVec.lt_def, h2] at hc; omega
  unfold Unbounded.grow
  set s := (if r.size * 2 > m then r.size * 2 else m) with hsdef
  have hmax : maxInt64.toNat = 2 ^ 63 - 1 := by decide
  have hgt : s > maxInt64 ↔ 2 ^ 63 ≤ max (2 * r.size.toNat) m.toNat := by
    rw [gt_iff_lt, BitVec.lt_def, hs, hmax]; omega
  by_cases hbig : 2 ^ 63 ≤ max (2 * r.size.toNat) m.toNat
  · left
    refine ⟨hbig, ?_⟩
    simp only [hgt.mpr hbig, if_true]
  · right
    refine ⟨by omega, ?_⟩
    have hgt' : ¬ s > maxInt64 := by rw [hgt]; exact hbig
    simp only [hgt', if_false]
    have hs2 : (if s < 2 then 2 else s).toNat = max 2 (max (2 * r.size.toNat) m.toNat) := by
      have h2' : (2 : BitVec 64).toNat = 2 := rfl
      split
      · rename_i hc; rw [BitVec.lt_def, hs, h2'] at hc; rw [h2']; omega
      · rename_i hc; rw [BitVec.lt_def, hs, h2'] at hc; rw [hs]; omega
    set s2 := (if s < 2 then 2 else s) with hs2def
    have hle := h.le
    by_cases h0 : r.size = 0
    · have hq : q = [] := by
        have : r.size.toNat = 0 := by rw [h0]; rfl
        apply List.eq_nil_of_length_eq_zero; omega
      subst hq
      rw [if_pos h0]
      refine ⟨_, rfl, ?_, rfl, hs2, by simp⟩
      constructor
      · exact h.len
      · simp
      · show s2.toNat < _; omega
      · simp
      · intro k hk; simp at hk
      · right
        show r.inn.toNat = r.out.toNat + 0
        have := h.empty_iff
        simp only [empty, List.isEmpty_nil, beq_iff_eq] at this
        rw [this]; simp
    · have hN : 0 < r.size.toNat := by
        rcases Nat.eq_zero_or_pos r.size.toNat with e | e
        · exact absurd (BitVec.eq_of_toNat_eq (by simpa using e)) h0
        · exact e
      have hlen : (len r).toNat = q.length := h.len
      have hlq : (len r) = BitVec.ofNat 64 q.length := h.len_ofNat
      obtain ⟨y, hy, hy2⟩ := modIx_ok (T := T) (m := r.mask) h0 r r.out rfl rfl
      obtain ⟨c1, c2, e1, a1, a2, a3⟩ := h.seg hN q.length (Nat.le_refl _)
        ((List.replicate s2.toNat zero).take q.length) (by simp; omega)
      have hlt : r.out.toNat % r.size.toNat < r.size.toNat := Nat.mod_lt _ hN
      refine ⟨{ r with out := 0, inn := len r, size := s2,
                       data := q ++ (List.replicate s2.toNat zero).drop q.length }, ?_, ?_, rfl, hs2, ?_⟩
      · simp only [h0, if_false, hy, Go.bind_ok, hlen, hy2, sliceFrom, h.dlen, sliceTo, List.length_replicate]
        rw [if_pos (by omega), if_pos (by omega)]
        simp only [Go.bind_ok, a1, a2, Go.pure_eq, List.take_length]
      · constructor
        · show (len r - 0).toNat = _
          simpa using hlen
        · show q.length ≤ s2.toNat; omega
        · show s2.toNat < _; omega
        · simp only [List.length_append, List.length_drop, List.length_replicate]; omega
        · intro k hk
          show (q ++ _)[((0 : BitVec 64).toNat + k) % s2.toNat]? = _
          have : (0 : BitVec 64).toNat = 0 := rfl
          rw [this, Nat.zero_add, Nat.mod_eq_of_lt (by omega), List.getElem?_append_left hk]
        · right
          show (len r).toNat = (0 : BitVec 64).toNat + _
          rw [hlen]; simp
      · show (len r).toNat ≤ _
        rw [hlen]; omega

/-- The unbounded ring holds `q` and at most `k` elements have been accepted. -/
structure UInv (r : Buf T) (q : List T) (k : Nat) : Prop where
  inv : Inv r q
  inn : r.inn.toNat ≤ k
  len : q.length ≤ k

theorem upush_spec {r : Buf T} {q : List T} {k : Nat} (zero : T) (h : UInv r q k) (e : T) (hk : k + 1 < 2 ^ 64) :
    (2 ^ 62 ≤ q.length + 1 ∧ Unbounded.push zero r e = .error (.explicit "size is too large")) ∨
    ∃ r', Unbounded.push zero r e = .ok r' ∧ UInv r' (q ++ [e]) (k + 1) ∧ r.size.toNat ≤ r'.size.toNat := by
  have hle := h.inv.le
  have hsm := h.inv.small
  have h2 := h.inn
  have h3 := h.len
  have h1' : (1 : BitVec 64).toNat = 1 := rfl
  by_cases hf : q.length = r.size.toNat
  · have hfull : full r = true := by rw [h.inv.full_iff]; simpa using hf
    have hc1 : (cap r + 1).toNat = r.size.toNat + 1 := by
      unfold cap; rw [BitVec.toNat_add, h1', Nat.mod_eq_of_lt (by omega)]
    rcases grow_spec zero h.inv (cap r + 1) with ⟨hb, he⟩ | ⟨hb, r', he, hi, _, hs, hn⟩
    · left
      rw [hc1] at hb
      refine ⟨by omega, ?_⟩
      simp only [Unbounded.push, hfull, he, if_true, Go.bind_error]
    · right
      rw [hc1] at hs hb
      have hne : r'.size ≠ 0 := by
        intro e0
        have : r'.size.toNat = 0 := by rw [e0]; rfl
        omega
      obtain ⟨r'', b1, b2, b3, b4, b5⟩ := store1_spec (modIx_ok hne) hi e (by omega) (by right; omega)
      refine ⟨r'', ?_, ⟨b2, ?_, ?_⟩, ?_⟩
      · simp only [Unbounded.push, hfull, he, b1, if_true, Go.bind_ok]
      · rw [b5, BitVec.toNat_add, h1', Nat.mod_eq_of_lt (by omega)]; omega
      · simp; omega
      · rw [b3]; omega
  · right
    have hfull : full r = false := by rw [h.inv.full_iff]; simpa using hf
    have hne : r.size ≠ 0 := by
      intro e0
      have : r.size.toNat = 0 := by rw [e0]; rfl
      omega
    obtain ⟨r'', b1, b2, b3, b4, b5⟩ := store1_spec (modIx_ok hne) h.inv e (by omega) (by right; omega)
    refine ⟨r'', ?_, ⟨b2, ?_, ?_⟩, ?_⟩
    · simp [Unbounded.push, hfull, b1]
    · rw [b5, BitVec.toNat_add, h1', Nat.mod_eq_of_lt (by omega)]; omega
    · simp; omega
    · rw [b3]

theorem umpush_spec {r : Buf T} {q : List T} {k : Nat} (zero : T) (h : UInv r q k) (es : List T)
    (hes : es.length < 2 ^ 63) (hk : k + es.length < 2 ^ 64) :
    (2 ^ 62 ≤ q.length + es.length ∧ Unbounded.mpush zero r es = .error (.explicit "size is too large")) ∨
    ∃ r', Unbounded.mpush zero r es = .ok r' ∧ UInv r' (q ++ es) (k + es.length) ∧ r.size.toNat ≤ r'.size.toNat := by
  have hle := h.inv.le
  have hsm := h.inv.small
  have h2 := h.inn
  have h3 := h.len
  have hav := h.inv.avail_toNat
  have hm64 : (BitVec.ofNat 64 es.length).toNat = es.length := by
    rw [BitVec.toNat_ofNat, Nat.mod_eq_of_lt]; omega
  have hgt : (BitVec.ofNat 64 es.length > avail r) ↔ es.length > r.size.toNat - q.length := by
    rw [gt_iff_lt, BitVec.lt_def, hm64, hav]
  by_cases h0 : es = []
  · subst h0
    right
    exact ⟨r, by simp [Unbounded.mpush], by simpa using h, Nat.le_refl _⟩
  · have hl0 : es.length ≠ 0 := by simpa using h0
    have hz : ¬ BitVec.ofNat 64 es.length = 0 := by
      intro e
      have := congrArg BitVec.toNat e
      rw [hm64] at this
      exact hl0 (by simpa using this)
    by_cases hc : es.length > r.size.toNat - q.length
    · have hcn : (cap r + BitVec.ofNat 64 es.length).toNat = r.size.toNat + es.length := by
        unfold cap; rw [BitVec.toNat_add, hm64, Nat.mod_eq_of_lt (by omega)]
      have hg := hgt.mpr hc
      rcases grow_spec zero h.inv (cap r + BitVec.ofNat 64 es.length) with ⟨hb, he⟩ | ⟨hb, r', he, hi, _, hs, hn⟩
      · left
        rw [hcn] at hb
        refine ⟨by omega, ?_⟩
        simp only [Unbounded.mpush, if_neg hz, if_pos hg, he, Go.bind_error]
      · right
        rw [hcn] at hs hb
        have hne : r'.size ≠ 0 := by
          intro e0
          have : r'.size.toNat = 0 := by rw [e0]; rfl
          omega
        obtain ⟨r'', b1, b2, b3, b4, b5⟩ := storeN_spec (modIx_ok hne) hi es h0 (by omega) (by right; omega)
        refine ⟨r'', ?_, ⟨b2, ?_, ?_⟩, ?_⟩
        · simp only [Unbounded.mpush, if_neg hz, if_pos hg, he, Go.bind_ok, b1]
        · rw [b5, BitVec.toNat_add, hm64, Nat.mod_eq_of_lt (by omega)]; omega
        · simp; omega
        · rw [b3]; omega
    · right
      have hg : ¬ (BitVec.ofNat 64 es.length > avail r) := by rw [hgt]; exact hc
      have hne : r.size ≠ 0 := by
        intro e0
        have : r.size.toNat = 0 := by rw [e0]; rfl
        omega
      obtain ⟨r'', b1, b2, b3, b4, b5⟩ := storeN_spec (modIx_ok hne) h.inv es h0 (by omega) (by right; omega)
      refine ⟨r'', ?_, ⟨b2, ?_, ?_⟩, ?_⟩
      · simp only [Unbounded.mpush, if_neg hz, if_neg hg, Go.bind_ok, b1]
      · rw [b5, BitVec.toNat_add, hm64, Nat.mod_eq_of_lt (by omega)]; omega
      · simp; omega
      · rw [b3]

theorem UInv.mono {r : Buf T} {q : List T} {k k' : Nat} (h : UInv r q k) (hk : k ≤ k') : UInv r q k' :=
  ⟨h.inv, Nat.le_trans h.inn hk, Nat.le_trans h.len hk⟩

/-- `MPopCopy` on a ring without any storage panics; every other call is fine. -/
def isCopy : Op T → Prop
  | .mpopCopy _ => True
  | _ => False

theorem step_unbounded {r : Buf T} {q : List T} {k : Nat} (zero : T) (h : UInv r q k) (op : Op T)
    (ha : Spec.ArgOk op) (hz : 0 < r.size.toNat ∨ ¬ isCopy op) (hk : k + Spec.offered [op] < 2 ^ 64) :
    ∃ r' q' o, observe r (Unbounded.step zero r op) = (r', o) ∧ Spec.Unbounded q op q' o ∧
      UInv r' q' (k + Spec.offered [op]) ∧ r.size.toNat ≤ r'.size.toNat := by
  have hle := h.inv.le
  cases op with
  | push e =>
    rcases upush_spec zero h e hk with ⟨h1, h2⟩ | ⟨r', h1, h2, h3⟩
    · exact ⟨r, q, _, by simp [Unbounded.step, h2, observe], .pushLimit q e h1,
        h.mono (Nat.le_add_right _ _), Nat.le_refl _⟩
    · exact ⟨r', _, .unit, by simp [Unbounded.step, h1, observe], .push q e, h2, h3⟩
  | mpush es =>
    rcases umpush_spec zero h es ha hk with ⟨h1, h2⟩ | ⟨r', h1, h2, h3⟩
    · exact ⟨r, q, _, by simp [Unbounded.step, h2, observe], .mpushLimit q es h1,
        h.mono (Nat.le_add_right _ _), Nat.le_refl _⟩
    · exact ⟨r', _, .unit, by simp [Unbounded.step, h1, observe], .mpush q es, h2, h3⟩
  | grow m =>
    rcases grow_spec zero h.inv m with ⟨h1, h2⟩ | ⟨hb, r', h1, h2, _, h3, h4⟩
    · exact ⟨r, q, _, by simp [Unbounded.step, h2, observe], .growLimit q m, h, Nat.le_refl _⟩
    · have := h.inn; have := h.len
      exact ⟨r', _, .unit, by simp [Unbounded.step, h1, observe], .grow q m,
        ⟨h2, by simp only [Spec.offered]; omega, by simp only [Spec.offered]; omega⟩, by omega⟩
  | pop =>
    cases q with
    | nil =>
      exact ⟨r, [], _, by simp [Unbounded.step, stepCommon, popG_empty h.inv, observe], .popEmpty, h, Nat.le_refl _⟩
    | cons x q =>
      have hne : r.size ≠ 0 := by
        intro e0
        have : r.size.toNat = 0 := by rw [e0]; rfl
        simp at hle; omega
      obtain ⟨r', h1, h2, h3, h4, h5⟩ := popG_cons (modIx_ok hne) h.inv
      have := h.len
      exact ⟨r', q, .val x, by simp [Unbounded.step, stepCommon, h1, observe], .pop x q,
        ⟨h2, by rw [h5]; exact h.inn, by simp only [Spec.offered, List.length_cons] at *; omega⟩, by rw [h3]⟩
  | peek =>
    cases q with
    | nil =>
      exact ⟨r, [], _, by simp [Unbounded.step, stepCommon, peekG_empty h.inv, observe], .peekEmpty, h,
        Nat.le_refl _⟩
    | cons x q =>
      have hne : r.size ≠ 0 := by
        intro e0
        have : r.size.toNat = 0 := by rw [e0]; rfl
        simp at hle; omega
      exact ⟨r, _, .val x, by simp [Unbounded.step, stepCommon, peekG_cons (modIx_ok hne) h.inv, observe],
        .peek x q, h, Nat.le_refl _⟩
  | mpop n =>
    obtain ⟨r', h1, h2, h3, h4, h5⟩ := mpopG_spec zero (fun hne => modIx_ok hne) h.inv n
    have := h.len
    exact ⟨r', _, _, by simp [Unbounded.step, stepCommon, h1, observe], .mpop q n,
      ⟨h2, by rw [h5]; exact h.inn, by simp only [Spec.offered, List.length_drop]; omega⟩, by rw [h3]⟩
  | mpopCopy dst =>
    have hN : 0 < r.size.toNat := by
      rcases hz with hz | hz
      · exact hz
      · exact absurd trivial hz
    have hne : r.size ≠ 0 := by
      intro e0
      have : r.size.toNat = 0 := by rw [e0]; rfl
      omega
    obtain ⟨r', h1, h2, h3, h4, h5⟩ := mpopCopyG_spec (modIx_ok hne) h.inv hN dst ha
    have := h.len
    exact ⟨r', _, _, by simp [Unbounded.step, stepCommon, h1, observe], .mpopCopy q dst,
      ⟨h2, by rw [h5]; exact h.inn, by simp only [Spec.offered, List.length_drop]; omega⟩, by rw [h3]⟩
  | reset =>
    exact ⟨reset zero r, [], .unit, rfl, .reset q, ⟨reset_inv zero h.inv.small, by simp [reset], by simp⟩, Nat.le_refl _⟩
  | len =>
    exact ⟨r, q, _, by simp only [Unbounded.step, stepCommon, observe, Ring.len, h.inv.len], .len q, h, Nat.le_refl _⟩
  | avail => exact ⟨r, q, _, rfl, .avail q _, h, Nat.le_refl _⟩
  | empty =>
    exact ⟨r, q, _, by simp only [Unbounded.step, stepCommon, observe, h.inv.empty_iff], .empty q, h, Nat.le_refl _⟩
  | full => exact ⟨r, q, _, rfl, .full q _, h, Nat.le_refl _⟩
  | cap => exact ⟨r, q, _, rfl, .cap q _ hle, h, Nat.le_refl _⟩

theorem offered_cons (op : Op T) (ops : List (Op T)) :
    Spec.offered (op :: ops) = Spec.offered [op] + Spec.offered ops := by
  cases op <;> simp [Spec.offered]

theorem run_unbounded (zero : T) (ops : List (Op T)) :
    ∀ {r : Buf T} {q : List T} {k : Nat} (_ : UInv r q k) (_ : ∀ op ∈ ops, Spec.ArgOk op)
    (_ : 0 < r.size.toNat ∨ ∀ op ∈ ops, ¬ isCopy op) (_ : k + Spec.offered ops < 2 ^ 64),
    ∃ q', Spec.RunUnbounded q ops (runWith (Unbounded.step zero) r ops).2 q' ∧
      Inv (runWith (Unbounded.step zero) r ops).1 q' ∧
      r.size.toNat ≤ (runWith (Unbounded.step zero) r ops).1.size.toNat := by
  induction ops with
  | nil => intro r q k h _ _ _; exact ⟨q, .nil q, h.inv, Nat.le_refl _⟩
  | cons op ops ih =>
    intro r q k h ha hz hk
    rw [offered_cons] at hk
    obtain ⟨r', q', o, h1, h2, h3, h4⟩ := step_unbounded zero h op (ha op (by simp)) (by
      rcases hz with hz | hz
      · exact .inl hz
      · exact .inr (hz op (by simp))) (by omega)
    obtain ⟨q'', h5, h6, h7⟩ := ih h3 (fun o ho => ha o (by simp [ho])) (by
      rcases hz with hz | hz
      · left; omega
      · exact .inr (fun o ho => hz o (by simp [ho]))) (by omega)
    simp only [runWith, h1]
    exact ⟨q'', .cons h2 h5, h6, by omega⟩

end Verif.Ring
