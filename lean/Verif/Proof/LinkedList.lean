import Verif.Spec.Seqs
import Mathlib.Tactic.ByContra
import Mathlib.Tactic.Tauto
import Mathlib.Data.List.Nodup

/-! # Pointer rings represent sequences -/

namespace Verif.LinkedList

open Addr

variable {T : Type}

theorem put_same {K V : Type} [DecidableEq K] (f : K → V) (k : K) (v : V) : put f k v k = v := by simp [put]

theorem put_ne {K V : Type} [DecidableEq K] (f : K → V) (k x : K) (v : V) (h : x ≠ k) : put f k v x = f x := by
  simp [put, h]

/-- Last node of `a` followed by the elements `xs`. -/
def lastA : Addr → List Nat → Addr
  | a, [] => a
  | _, x :: xs => lastA (elem x) xs

/-- First node of the elements `xs` followed by `b`. -/
def headA : List Nat → Addr → Addr
  | [], b => b
  | x :: _, _ => elem x

/-- The nodes `a`, `xs`, `b` are linked one after the other in both directions. -/
def Seg (nx pv : Addr → Option Addr) : Addr → List Nat → Addr → Prop
  | a, [], b => nx a = some b ∧ pv b = some a
  | a, x :: xs, b => nx a = some (elem x) ∧ pv (elem x) = some a ∧ Seg nx pv (elem x) xs b

theorem Seg.frame {nx pv nx' pv' : Addr → Option Addr} {b : Addr} : ∀ {xs : List Nat} {a : Addr},
    Seg nx pv a xs b → nx' a = nx a → (∀ x ∈ xs, nx' (elem x) = nx (elem x)) →
    (∀ x ∈ xs, pv' (elem x) = pv (elem x)) → pv' b = pv b → Seg nx' pv' a xs b
  | [], a, h, h1, _, _, h4 => by
    simp only [Seg] at h ⊢
    rw [h1, h4]; exact h
  | x :: xs, a, h, h1, h2, h3, h4 => by
    simp only [Seg] at h ⊢
    refine ⟨by rw [h1]; exact h.1, by rw [h3 x (by simp)]; exact h.2.1, ?_⟩
    exact h.2.2.frame (h2 x (by simp)) (fun y hy => h2 y (by simp [hy])) (fun y hy => h3 y (by simp [hy])) h4

theorem Seg.next_eq {nx pv : Addr → Option Addr} {a b : Addr} {xs : List Nat} (h : Seg nx pv a xs b) :
    nx a = some (headA xs b) := by
  cases xs <;> exact h.1

theorem Seg.prev_eq {nx pv : Addr → Option Addr} {b : Addr} : ∀ {xs : List Nat} {a : Addr}, Seg nx pv a xs b →
    pv b = some (lastA a xs)
  | [], _, h => h.2
  | _ :: _, _, h => h.2.2.prev_eq

theorem seg_append {nx pv : Addr → Option Addr} {b : Addr} {y : Nat} {zs : List Nat} : ∀ {ys : List Nat} {a : Addr},
    Seg nx pv a (ys ++ y :: zs) b ↔ Seg nx pv a ys (elem y) ∧ Seg nx pv (elem y) zs b
  | [], a => by simp [Seg, and_assoc]
  | x :: ys, a => by simp [Seg, seg_append (ys := ys), and_assoc]

theorem lastA_mem (a : Addr) : ∀ xs : List Nat, lastA a xs = a ∨ ∃ x ∈ xs, lastA a xs = elem x
  | [] => .inl rfl
  | x :: xs => by
    right
    rcases lastA_mem (elem x) xs with h | ⟨y, hy, h⟩
    · exact ⟨x, by simp, h⟩
    · exact ⟨y, by simp [hy], h⟩

theorem headA_mem (b : Addr) : ∀ xs : List Nat, headA xs b = b ∨ ∃ x ∈ xs, headA xs b = elem x
  | [] => .inl rfl
  | x :: _ => .inr ⟨x, by simp, rfl⟩

theorem lastA_ne {a c : Addr} {xs : List Nat} (h : a ≠ c) (h2 : ∀ x ∈ xs, elem x ≠ c) : lastA a xs ≠ c := by
  rcases lastA_mem a xs with h' | ⟨y, hy, h'⟩ <;> rw [h']
  · exact h
  · exact h2 y hy

theorem headA_ne {b c : Addr} {xs : List Nat} (h : b ≠ c) (h2 : ∀ x ∈ xs, elem x ≠ c) : headA xs b ≠ c := by
  rcases headA_mem b xs with h' | ⟨y, hy, h'⟩ <;> rw [h']
  · exact h
  · exact h2 y hy

theorem lastA_append (a : Addr) (y : Nat) (zs : List Nat) : ∀ ys, lastA a (ys ++ y :: zs) = lastA (elem y) zs
  | [] => rfl
  | x :: ys => by simp [lastA, lastA_append (elem x) y zs ys]

/-- Inserting `e` between `ys` and `zs`. -/
theorem Seg.link {nx pv : Addr → Option Addr} {b0 : Addr} {e : Nat} {zs : List Nat} : ∀ {ys : List Nat} {a0 : Addr},
    Seg nx pv a0 (ys ++ zs) b0 → e ∉ ys ++ zs → elem e ≠ a0 → elem e ≠ b0 → (ys ++ zs).Nodup →
    (∀ x ∈ ys ++ zs, elem x ≠ a0 ∧ elem x ≠ b0) →
    Seg (put (put nx (elem e) (some (headA zs b0))) (lastA a0 ys) (some (elem e)))
      (put (put pv (elem e) (some (lastA a0 ys))) (headA zs b0) (some (elem e))) a0 (ys ++ e :: zs) b0
  | [], a0, h, he, ha, hb, hn, hx => by
    cases zs with
    | nil =>
      simp only [List.nil_append, Seg, lastA, headA] at h ⊢
      refine ⟨put_same .., ?_, ?_, put_same ..⟩
      · rw [put_ne _ _ _ _ hb, put_same]
      · rw [put_ne _ _ _ _ ha, put_same]
    | cons z zs =>
      simp only [List.nil_append, Seg, lastA, headA, List.mem_cons, not_or, List.nodup_cons] at h he hn hx ⊢
      have hez : elem e ≠ elem z := by simpa using he.1
      refine ⟨put_same .., ?_, ?_, put_same .., ?_⟩
      · rw [put_ne _ _ _ _ hez, put_same]
      · rw [put_ne _ _ _ _ ha, put_same]
      · refine h.2.2.frame ?_ ?_ ?_ ?_
        · rw [put_ne _ _ _ _ (hx z (.inl rfl)).1, put_ne _ _ _ _ (by simpa using Ne.symm he.1)]
        · intro x hxm
          rw [put_ne _ _ _ _ (hx x (.inr hxm)).1, put_ne]
          rintro ⟨⟩; exact he.2 hxm
        · intro x hxm
          rw [put_ne, put_ne]
          · rintro ⟨⟩; exact he.2 hxm
          · rintro ⟨⟩; exact hn.1 hxm
        · rw [put_ne _ _ _ _ (Ne.symm (hx z (.inl rfl)).2), put_ne _ _ _ _ (Ne.symm hb)]
  | y :: ys, a0, h, he, ha, hb, hn, hx => by
    simp only [List.cons_append, Seg, lastA, List.mem_cons, not_or, List.nodup_cons] at h he hn hx ⊢
    have hy := hx y (.inl rfl)
    have ih := Seg.link (ys := ys) (zs := zs) h.2.2 he.2 (by simpa using he.1) hb hn.2 (by
      intro x hxm
      refine ⟨?_, (hx x (.inr hxm)).2⟩
      rintro ⟨⟩; exact hn.1 hxm)
    refine ⟨?_, ?_, ih⟩
    · rw [put_ne, put_ne _ _ _ _ (Ne.symm ha)]
      · exact h.1
      · refine Ne.symm (lastA_ne hy.1 ?_)
        intro x hxm
        exact (hx x (.inr (by simp [hxm]))).1
    · rw [put_ne, put_ne _ _ _ _ (by simpa using Ne.symm he.1)]
      · exact h.2.1
      · refine Ne.symm (headA_ne (Ne.symm hy.2) ?_)
        intro x hxm
        rintro ⟨⟩; exact hn.1 (by simp [hxm])

/-- Taking `e` out. -/
theorem Seg.unlink {nx pv : Addr → Option Addr} {b0 : Addr} {e : Nat} {zs : List Nat} : ∀ {ys : List Nat} {a0 : Addr},
    Seg nx pv a0 (ys ++ e :: zs) b0 → (ys ++ e :: zs).Nodup →
    (∀ x ∈ ys ++ e :: zs, elem x ≠ a0 ∧ elem x ≠ b0) →
    Seg (put nx (lastA a0 ys) (some (headA zs b0))) (put pv (headA zs b0) (some (lastA a0 ys))) a0 (ys ++ zs) b0
  | [], a0, h, hn, hx => by
    cases zs with
    | nil =>
      simp only [List.nil_append, Seg, lastA, headA] at h ⊢
      exact ⟨put_same .., put_same ..⟩
    | cons z zs =>
      simp only [List.nil_append, Seg, lastA, headA, List.mem_cons, not_or, List.nodup_cons] at h hn hx ⊢
      refine ⟨put_same .., put_same .., ?_⟩
      refine h.2.2.2.2.frame ?_ ?_ ?_ ?_
      · rw [put_ne _ _ _ _ (hx z (.inr (.inl rfl))).1]
      · intro x hxm
        rw [put_ne _ _ _ _ (hx x (.inr (.inr hxm))).1]
      · intro x hxm
        rw [put_ne]
        rintro ⟨⟩; exact hn.2.1 hxm
      · rw [put_ne _ _ _ _ (Ne.symm (hx z (.inr (.inl rfl))).2)]
  | y :: ys, a0, h, hn, hx => by
    simp only [List.cons_append, Seg, lastA, List.nodup_cons] at h hn hx ⊢
    have hy := hx y (by simp)
    have ih := Seg.unlink (ys := ys) (zs := zs) h.2.2 hn.2 (by
      intro x hxm
      refine ⟨?_, (hx x (by simp only [List.mem_cons]; exact .inr hxm)).2⟩
      rintro ⟨⟩; exact hn.1 hxm)
    refine ⟨?_, ?_, ih⟩
    · rw [put_ne]
      · exact h.1
      · refine Ne.symm (lastA_ne hy.1 ?_)
        intro x hxm
        exact (hx x (by simp [hxm])).1
    · rw [put_ne]
      · exact h.2.1
      · refine Ne.symm (headA_ne (Ne.symm hy.2) ?_)
        intro x hxm
        rintro ⟨⟩; exact hn.1 (by simp [hxm])

/-! ## Effects of the pointer assignments -/

theorem insert_eq (m : Mem T) (l : Nat) (e a b : Addr) (hea : e ≠ a) (hb : m.next a = some b) :
    insert m l e (some a) = .ok { m with
      next := put (put m.next e (some b)) a (some e), prev := put (put m.prev e (some a)) b (some e),
      list := put m.list e (some l), len := put m.len l (m.len l + 1) } := by
  simp [insert, setPrev, setNext, deref, hb, put_same, put_ne _ _ _ _ hea]

theorem removeRaw_eq (m : Mem T) (l : Nat) (e p n : Addr) (hp : m.prev e = some p) (hn : m.next e = some n)
    (hep : e ≠ p) (hen : e ≠ n) :
    removeRaw m l e = .ok { m with
      next := put (put m.next p (some n)) e none, prev := put (put m.prev n (some p)) e none,
      list := put m.list e none, len := put m.len l (m.len l - 1) } := by
  simp [removeRaw, setPrev, setNext, deref, hp, hn, put_ne _ _ _ _ hep]

theorem move_eq (m : Mem T) (e p n a b : Addr) (hp : m.prev e = some p) (hn : m.next e = some n)
    (hep : e ≠ p) (hea : e ≠ a) (hb : put m.next p (some n) a = some b) :
    move m e (some a) = .ok { m with
      next := put (put (put m.next p (some n)) e (some b)) a (some e),
      prev := put (put (put m.prev n (some p)) e (some a)) b (some e) } := by
  simp [move, setPrev, setNext, deref, hp, hn, put_ne _ _ _ _ hep, hea, hb, put_same, put_ne _ _ _ _ hea]

/-! ## The abstraction -/

/-- Memory `m` represents the sequences `s`. -/
structure Rel (m : Mem T) (s : Spec.Seqs T) : Prop where
  nElems : m.nElems = s.nElems
  nLists : m.nLists = s.nLists
  val : ∀ e, m.val (elem e) = s.val e
  fresh : ∀ l, s.nLists ≤ l → s.seq l = []
  seg : ∀ l, l < s.nLists → Seg m.next m.prev (root l) (s.seq l) (root l)
  len : ∀ l, l < s.nLists → m.len l = (s.seq l).length
  nodup : ∀ l, (s.seq l).Nodup
  lt : ∀ l e, e ∈ s.seq l → e < s.nElems
  list : ∀ l e, e ∈ s.seq l → m.list (elem e) = some l
  list' : ∀ l e, e ∉ s.old → m.list (elem e) = some l → e ∈ s.seq l
  old : ∀ l e, e ∈ s.seq l → e ∉ s.old
  oldLt : ∀ e ∈ s.old, e < s.nElems

theorem Rel.mem_iff {m : Mem T} {s : Spec.Seqs T} (h : Rel m s) {l e : Nat} (he : e ∉ s.old) :
    m.list (elem e) = some l ↔ e ∈ s.seq l := ⟨h.list' l e he, h.list l e⟩

theorem Rel.lt_lists {m : Mem T} {s : Spec.Seqs T} (h : Rel m s) {l e : Nat} (he : e ∈ s.seq l) : l < s.nLists := by
  by_contra hc
  rw [h.fresh l (by omega)] at he; simp at he

theorem Rel.disj {m : Mem T} {s : Spec.Seqs T} (h : Rel m s) {l k e : Nat} (he : e ∈ s.seq l) (hk : e ∈ s.seq k) :
    l = k := by
  have := h.list l e he
  rw [h.list k e hk] at this
  exact (Option.some.inj this).symm

theorem rel_init (zero : T) : Rel (empty zero) (Spec.init zero) := by
  constructor <;> simp [empty, Spec.init]

theorem setSeq_same (s : Spec.Seqs T) (l : Nat) (xs : List Nat) : (s.setSeq l xs).seq l = xs := by
  simp [Spec.Seqs.setSeq]

theorem setSeq_ne (s : Spec.Seqs T) (l k : Nat) (xs : List Nat) (h : k ≠ l) : (s.setSeq l xs).seq k = s.seq k := by
  simp [Spec.Seqs.setSeq, h]

/-- The node before position `ys` in list `l`, and the one after it, belong to list `l`. -/
theorem node_frame {m : Mem T} {s : Spec.Seqs T} (h : Rel m s) {l k : Nat} {ys zs : List Nat}
    (hl : ∀ x ∈ ys ++ zs, x ∈ s.seq l) (hk : k ≠ l) :
    root k ≠ lastA (root l) ys ∧ root k ≠ headA zs (root l) ∧
    (∀ x ∈ s.seq k, elem x ≠ lastA (root l) ys ∧ elem x ≠ headA zs (root l)) := by
  refine ⟨Ne.symm (lastA_ne (by simpa using Ne.symm hk) (by simp)),
    Ne.symm (headA_ne (by simpa using Ne.symm hk) (by simp)), fun x hx => ⟨Ne.symm (lastA_ne (by simp) ?_),
    Ne.symm (headA_ne (by simp) ?_)⟩⟩
  · rintro y hy ⟨⟩
    exact hk (h.disj hx (hl _ (by simp [hy])))
  · rintro y hy ⟨⟩
    exact hk (h.disj hx (hl _ (by simp [hy])))

/-- `insertValue` after the part `ys` of list `l`. -/
theorem insertValue_spec {m : Mem T} {s : Spec.Seqs T} (h : Rel m s) {l : Nat} (hl : l < s.nLists) (v : T)
    {ys zs : List Nat} (hs : s.seq l = ys ++ zs) :
    ∃ m', insertValue m l v (some (lastA (root l) ys)) = .ok (m', some (elem s.nElems)) ∧
      Rel m' ((s.alloc v).setSeq l (ys ++ s.nElems :: zs)) := by
  have hseg := h.seg l hl
  have hnd := h.nodup l
  rw [hs] at hseg hnd
  have hfresh : ∀ k, s.nElems ∉ s.seq k := fun k hk => by have := h.lt k _ hk; omega
  have hf := hfresh l
  rw [hs] at hf
  have hne : elem s.nElems ≠ lastA (root l) ys := by
    refine Ne.symm (lastA_ne (by simp) ?_)
    rintro x hx ⟨⟩
    exact hf (by simp [hx])
  have hlk := hseg.link (ys := ys) (zs := zs) hf (by simp) (by simp) hnd (by simp)
  have hnext : put m.next (elem s.nElems) none (lastA (root l) ys) = some (headA zs (root l)) := by
    rw [put_ne _ _ _ _ (Ne.symm hne)]
    cases ys with
    | nil => exact hseg.next_eq
    | cons y ys =>
      rcases List.eq_nil_or_concat (y :: ys) with h0 | ⟨ys', y', h0⟩
      · simp at h0
      · rw [List.concat_eq_append] at h0
        rw [h0, lastA_append, lastA]
        rw [h0, List.append_assoc, List.singleton_append, seg_append] at hseg
        exact hseg.2.next_eq
  refine ⟨_, by
    simp only [insertValue, h.nElems]
    rw [insert_eq _ _ _ _ (headA zs (root l)) hne hnext]
    rfl, ?_⟩
  refine ⟨?_, ?_, ?_, ?_, ?_, ?_, ?_, ?_, ?_, ?_, ?_, ?_⟩
  · simp [Spec.Seqs.setSeq, Spec.Seqs.alloc]
  · simpa [Spec.Seqs.setSeq, Spec.Seqs.alloc] using h.nLists
  · intro e
    simp only [Spec.Seqs.setSeq, Spec.Seqs.alloc, put, elem.injEq, h.val]
  · intro k hk
    have hk' : s.nLists ≤ k := hk
    rw [setSeq_ne _ _ _ _ (by omega)]
    exact h.fresh k hk'
  · intro k hk
    have hk' : k < s.nLists := hk
    by_cases hkl : k = l
    · subst hkl
      rw [setSeq_same]
      refine hlk.frame ?_ ?_ ?_ ?_ <;> intros <;> simp only [put] <;> split <;> (try rfl) <;> split <;> rfl
    · rw [setSeq_ne _ _ _ _ hkl]
      have hnf := node_frame h (l := l) (k := k) (ys := ys) (zs := zs) (by rw [hs]; simp) hkl
      refine (h.seg k hk').frame ?_ ?_ ?_ ?_
      · dsimp only
        rw [put_ne _ _ _ _ hnf.1, put_ne _ _ _ _ (by simp), put_ne _ _ _ _ (by simp)]
      · intro x hx
        have hxn : elem x ≠ elem s.nElems := by rintro ⟨⟩; exact hfresh k hx
        dsimp only
        rw [put_ne _ _ _ _ (hnf.2.2 x hx).1, put_ne _ _ _ _ hxn, put_ne _ _ _ _ hxn]
      · intro x hx
        have hxn : elem x ≠ elem s.nElems := by rintro ⟨⟩; exact hfresh k hx
        dsimp only
        rw [put_ne _ _ _ _ (hnf.2.2 x hx).2, put_ne _ _ _ _ hxn, put_ne _ _ _ _ hxn]
      · dsimp only
        rw [put_ne _ _ _ _ hnf.2.1, put_ne _ _ _ _ (by simp), put_ne _ _ _ _ (by simp)]
  · intro k hk
    have hk' : k < s.nLists := hk
    by_cases hkl : k = l
    · subst hkl
      dsimp only
      rw [setSeq_same, put_same]
      simp only [h.len k hk', hs, List.length_append, List.length_cons]
      omega
    · dsimp only
      rw [setSeq_ne _ _ _ _ hkl, put_ne _ _ _ _ hkl]
      exact h.len k hk'
  · intro k
    by_cases hkl : k = l
    · subst hkl
      rw [setSeq_same]
      have := List.nodup_middle (l₁ := ys) (l₂ := zs) (a := s.nElems)
      rw [this, List.nodup_cons]
      exact ⟨hf, hnd⟩
    · rw [setSeq_ne _ _ _ _ hkl]; exact h.nodup k
  · intro k e he
    show e < s.nElems + 1
    by_cases hkl : k = l
    · subst hkl
      rw [setSeq_same] at he
      have : e = s.nElems ∨ e ∈ s.seq k := by
        rw [hs]; simp at he ⊢; tauto
      rcases this with h' | h'
      · omega
      · have := h.lt _ _ h'; omega
    · rw [setSeq_ne _ _ _ _ hkl] at he
      have := h.lt k e he; omega
  · intro k e he
    by_cases hkl : k = l
    · subst hkl
      rw [setSeq_same] at he
      by_cases hen : e = s.nElems
      · subst hen; exact put_same ..
      · dsimp only
        rw [put_ne _ _ _ _ (by simpa using hen), put_ne _ _ _ _ (by simpa using hen)]
        apply h.list
        rw [hs]; simp at he ⊢; tauto
    · rw [setSeq_ne _ _ _ _ hkl] at he
      have he' : e ∈ s.seq k := he
      have hen : e ≠ s.nElems := by rintro rfl; exact hfresh k he'
      dsimp only
      rw [put_ne _ _ _ _ (by simpa using hen), put_ne _ _ _ _ (by simpa using hen)]
      exact h.list k e he'
  · intro k e ho he
    have ho' : e ∉ s.old := ho
    dsimp only at he
    by_cases hen : e = s.nElems
    · subst hen
      rw [put_same] at he
      obtain rfl := Option.some.inj he
      rw [setSeq_same]; simp
    · rw [put_ne _ _ _ _ (by simpa using hen), put_ne _ _ _ _ (by simpa using hen)] at he
      have := h.list' k e ho' he
      by_cases hkl : k = l
      · subst hkl
        rw [setSeq_same]
        rw [hs] at this
        simp at this ⊢; tauto
      · rw [setSeq_ne _ _ _ _ hkl]; exact this
  · intro k e he
    show e ∉ s.old
    by_cases hen : e = s.nElems
    · subst hen
      intro ho
      have := h.oldLt _ ho; omega
    · apply h.old k
      by_cases hkl : k = l
      · subst hkl
        rw [setSeq_same] at he
        rw [hs]; simp at he ⊢; tauto
      · rw [setSeq_ne _ _ _ _ hkl] at he; exact he
  · intro e he
    have := h.oldLt e he
    show e < s.nElems + 1
    omega

/-- Neighbours of an element of a list. -/
theorem neighbours {m : Mem T} {s : Spec.Seqs T} (h : Rel m s) {l e : Nat} {ys zs : List Nat}
    (hs : s.seq l = ys ++ e :: zs) :
    m.prev (elem e) = some (lastA (root l) ys) ∧ m.next (elem e) = some (headA zs (root l)) ∧
    elem e ≠ lastA (root l) ys ∧ elem e ≠ headA zs (root l) := by
  have hl : l < s.nLists := h.lt_lists (e := e) (by rw [hs]; simp)
  have hseg := h.seg l hl
  have hnd := h.nodup l
  rw [hs] at hseg hnd
  rw [seg_append] at hseg
  rw [List.nodup_middle, List.nodup_cons] at hnd
  refine ⟨hseg.1.prev_eq, hseg.2.next_eq, Ne.symm (lastA_ne (by simp) ?_), Ne.symm (headA_ne (by simp) ?_)⟩
  · rintro y hy ⟨⟩
    exact hnd.1 (by simp [hy])
  · rintro y hy ⟨⟩
    exact hnd.1 (by simp [hy])

theorem removeRaw_spec {m : Mem T} {s : Spec.Seqs T} (h : Rel m s) {l e : Nat} {ys zs : List Nat}
    (hs : s.seq l = ys ++ e :: zs) :
    ∃ m', removeRaw m l (elem e) = .ok m' ∧ Rel m' (s.setSeq l (ys ++ zs)) ∧ m'.val = m.val := by
  obtain ⟨hp, hn, hep, hen⟩ := neighbours h hs
  have hl : l < s.nLists := h.lt_lists (e := e) (by rw [hs]; simp)
  have hseg := h.seg l hl
  have hnd := h.nodup l
  rw [hs] at hseg hnd
  have hul := hseg.unlink hnd (by simp)
  rw [List.nodup_middle, List.nodup_cons] at hnd
  have hsub : ∀ x ∈ ys ++ zs, x ∈ s.seq l := by
    intro x hx; rw [hs]; simp at hx ⊢; tauto
  refine ⟨_, removeRaw_eq m l _ _ _ hp hn hep hen, ?_, rfl⟩
  refine ⟨h.nElems, h.nLists, h.val, ?_, ?_, ?_, ?_, ?_, ?_, ?_, ?_, h.oldLt⟩
  · intro k hk
    have hk' : s.nLists ≤ k := hk
    rw [setSeq_ne _ _ _ _ (by omega)]
    exact h.fresh k hk'
  · intro k hk
    have hk' : k < s.nLists := hk
    by_cases hkl : k = l
    · subst hkl
      rw [setSeq_same]
      have hxe : ∀ x ∈ ys ++ zs, elem x ≠ elem e := by
        rintro x hx ⟨⟩; exact hnd.1 hx
      refine hul.frame ?_ ?_ ?_ ?_
      · dsimp only
        rw [put_ne _ _ _ _ (by simp)]
      · intro x hx; dsimp only
        rw [put_ne _ _ _ _ (hxe x hx)]
      · intro x hx; dsimp only
        rw [put_ne _ _ _ _ (hxe x hx)]
      · dsimp only
        rw [put_ne _ _ _ _ (by simp)]
    · rw [setSeq_ne _ _ _ _ hkl]
      have hnf := node_frame h (l := l) (k := k) (ys := ys) (zs := zs) hsub hkl
      have hxe : ∀ x ∈ s.seq k, elem x ≠ elem e := by
        rintro x hx ⟨⟩
        exact hkl (h.disj hx (by rw [hs]; simp))
      refine (h.seg k hk').frame ?_ ?_ ?_ ?_
      · dsimp only
        rw [put_ne _ _ _ _ (by simp), put_ne _ _ _ _ hnf.1]
      · intro x hx
        dsimp only
        rw [put_ne _ _ _ _ (hxe x hx), put_ne _ _ _ _ (hnf.2.2 x hx).1]
      · intro x hx
        dsimp only
        rw [put_ne _ _ _ _ (hxe x hx), put_ne _ _ _ _ (hnf.2.2 x hx).2]
      · dsimp only
        rw [put_ne _ _ _ _ (by simp), put_ne _ _ _ _ hnf.2.1]
  · intro k hk
    have hk' : k < s.nLists := hk
    by_cases hkl : k = l
    · subst hkl
      dsimp only
      rw [setSeq_same, put_same]
      simp only [h.len k hk', hs, List.length_append, List.length_cons]
      omega
    · dsimp only
      rw [setSeq_ne _ _ _ _ hkl, put_ne _ _ _ _ hkl]
      exact h.len k hk'
  · intro k
    by_cases hkl : k = l
    · subst hkl
      rw [setSeq_same]; exact hnd.2
    · rw [setSeq_ne _ _ _ _ hkl]; exact h.nodup k
  · intro k x hx
    show x < s.nElems
    by_cases hkl : k = l
    · subst hkl
      rw [setSeq_same] at hx
      exact h.lt k x (hsub x hx)
    · rw [setSeq_ne _ _ _ _ hkl] at hx
      exact h.lt k x hx
  · intro k x hx
    by_cases hkl : k = l
    · subst hkl
      rw [setSeq_same] at hx
      dsimp only
      rw [put_ne]
      · exact h.list k x (hsub x hx)
      · rintro ⟨⟩; exact hnd.1 hx
    · rw [setSeq_ne _ _ _ _ hkl] at hx
      dsimp only
      rw [put_ne]
      · exact h.list k x hx
      · rintro ⟨⟩; exact hkl (h.disj hx (by rw [hs]; simp))
  · intro k x ho hx
    by_cases hxe : x = e
    · subst hxe
      dsimp only at hx
      rw [put_same] at hx; simp at hx
    · dsimp only at hx
      rw [put_ne _ _ _ _ (by simpa using hxe)] at hx
      have := h.list' k x ho hx
      by_cases hkl : k = l
      · subst hkl
        rw [setSeq_same]
        rw [hs] at this; simp [hxe] at this; simpa using this
      · rw [setSeq_ne _ _ _ _ hkl]; exact this
  · intro k x hx
    show x ∉ s.old
    by_cases hkl : k = l
    · subst hkl
      rw [setSeq_same] at hx
      exact h.old k x (hsub x hx)
    · rw [setSeq_ne _ _ _ _ hkl] at hx
      exact h.old k x hx

/-- `move` takes `e` out and puts it back after the part `ys'` of what remains. -/
theorem move_spec {m : Mem T} {s : Spec.Seqs T} (h : Rel m s) {l e : Nat} {ys zs ys' zs' : List Nat}
    (hs : s.seq l = ys ++ e :: zs) (hr : ys ++ zs = ys' ++ zs') :
    ∃ m', move m (elem e) (some (lastA (root l) ys')) = .ok m' ∧ Rel m' (s.setSeq l (ys' ++ e :: zs')) := by
  obtain ⟨hp, hn, hep, hen⟩ := neighbours h hs
  have hl : l < s.nLists := h.lt_lists (e := e) (by rw [hs]; simp)
  have hseg := h.seg l hl
  have hnd := h.nodup l
  rw [hs] at hseg hnd
  have hul := hseg.unlink hnd (by simp)
  rw [List.nodup_middle, List.nodup_cons] at hnd
  rw [hr] at hul hnd
  have hsub : ∀ x ∈ ys ++ zs, x ∈ s.seq l := by
    intro x hx; rw [hs]; simp at hx ⊢; tauto
  have hsub' : ∀ x ∈ ys' ++ zs', x ∈ s.seq l := by rw [← hr]; exact hsub
  have hel : e ∈ s.seq l := by rw [hs]; simp
  have hea : elem e ≠ lastA (root l) ys' := by
    refine Ne.symm (lastA_ne (by simp) ?_)
    rintro x hx ⟨⟩
    exact hnd.1 (by simp [hx])
  have hnext : put m.next (lastA (root l) ys) (some (headA zs (root l))) (lastA (root l) ys') =
      some (headA zs' (root l)) := by
    rcases List.eq_nil_or_concat ys' with h0 | ⟨ys0, y', h0⟩
    · subst h0
      exact hul.next_eq
    · rw [List.concat_eq_append] at h0
      subst h0
      rw [lastA_append, lastA]
      rw [List.append_assoc, List.singleton_append, seg_append] at hul
      exact hul.2.next_eq
  have hlk := hul.link (ys := ys') (zs := zs') hnd.1 (by simp) (by simp) hnd.2 (by simp)
  refine ⟨_, move_eq m _ _ _ _ _ hp hn hep hea hnext, ?_⟩
  have hmem : ∀ x, x ∈ ys' ++ e :: zs' ↔ x ∈ s.seq l := by
    intro x
    have := congrArg (fun w => x ∈ w) hr
    simp only [List.mem_append, eq_iff_iff] at this
    rw [hs]
    simp only [List.mem_append, List.mem_cons]
    tauto
  refine ⟨h.nElems, h.nLists, h.val, ?_, ?_, ?_, ?_, ?_, ?_, ?_, ?_, h.oldLt⟩
  · intro k hk
    have hk' : s.nLists ≤ k := hk
    rw [setSeq_ne _ _ _ _ (by omega)]
    exact h.fresh k hk'
  · intro k hk
    have hk' : k < s.nLists := hk
    by_cases hkl : k = l
    · subst hkl
      rw [setSeq_same]
      exact hlk
    · rw [setSeq_ne _ _ _ _ hkl]
      have hnf := node_frame h (l := l) (k := k) (ys := ys) (zs := zs) hsub hkl
      have hnf' := node_frame h (l := l) (k := k) (ys := ys') (zs := zs') hsub' hkl
      have hxe : ∀ x ∈ s.seq k, elem x ≠ elem e := by
        rintro x hx ⟨⟩
        exact hkl (h.disj hx hel)
      refine (h.seg k hk').frame ?_ ?_ ?_ ?_
      · dsimp only
        rw [put_ne _ _ _ _ hnf'.1, put_ne _ _ _ _ (by simp), put_ne _ _ _ _ hnf.1]
      · intro x hx
        dsimp only
        rw [put_ne _ _ _ _ (hnf'.2.2 x hx).1, put_ne _ _ _ _ (hxe x hx), put_ne _ _ _ _ (hnf.2.2 x hx).1]
      · intro x hx
        dsimp only
        rw [put_ne _ _ _ _ (hnf'.2.2 x hx).2, put_ne _ _ _ _ (hxe x hx), put_ne _ _ _ _ (hnf.2.2 x hx).2]
      · dsimp only
        rw [put_ne _ _ _ _ hnf'.2.1, put_ne _ _ _ _ (by simp), put_ne _ _ _ _ hnf.2.1]
  · intro k hk
    have hk' : k < s.nLists := hk
    by_cases hkl : k = l
    · subst hkl
      have hlen := congrArg List.length hr
      rw [setSeq_same]
      show m.len k = _
      rw [h.len k hk', hs]
      simp only [List.length_append, List.length_cons] at hlen ⊢
      omega
    · rw [setSeq_ne _ _ _ _ hkl]
      exact h.len k hk'
  · intro k
    by_cases hkl : k = l
    · subst hkl
      rw [setSeq_same, List.nodup_middle, List.nodup_cons]
      exact hnd
    · rw [setSeq_ne _ _ _ _ hkl]; exact h.nodup k
  · intro k x hx
    show x < s.nElems
    by_cases hkl : k = l
    · subst hkl
      rw [setSeq_same, hmem] at hx
      exact h.lt k x hx
    · rw [setSeq_ne _ _ _ _ hkl] at hx
      exact h.lt k x hx
  · intro k x hx
    by_cases hkl : k = l
    · subst hkl
      rw [setSeq_same, hmem] at hx
      exact h.list k x hx
    · rw [setSeq_ne _ _ _ _ hkl] at hx
      exact h.list k x hx
  · intro k x ho hx
    have := h.list' k x ho hx
    by_cases hkl : k = l
    · subst hkl
      rw [setSeq_same, hmem]; exact this
    · rw [setSeq_ne _ _ _ _ hkl]; exact this
  · intro k x hx
    show x ∉ s.old
    by_cases hkl : k = l
    · subst hkl
      rw [setSeq_same, hmem] at hx
      exact h.old k x hx
    · rw [setSeq_ne _ _ _ _ hkl] at hx
      exact h.old k x hx

end Verif.LinkedList
