import Verif.Model.Bloom
import Verif.Model.Hash

/-! # C46–C50: the Bloom filter and the hash wrapper -/

namespace Verif.Bloom

/-! ## Specification -/

namespace BloomSpec

/-- The position of a hash for one seed: an xor and a remainder, nothing else. -/
def probe (m : Nat) (h seed : BitVec 64) : Nat := (h.toNat ^^^ seed.toNat) % m

/-- A hash may be in the filter iff each of its positions is a position of an added hash. -/
def mayContain (m : Nat) (seeds added : List (BitVec 64)) (h : BitVec 64) : Prop :=
  ∀ s ∈ seeds, ∃ a ∈ added, ∃ s' ∈ seeds, probe m h s = probe m a s'

/-- The hash an operation adds. -/
def hashOf : Op → Option (BitVec 64)
  | .add h => some h
  | .addBytes b => some (hash b)
  | .addString s => some (hash s)
  | .clear => none

/-- The hashes added since the last `Clear`. -/
def addedFrom (acc : List (BitVec 64)) : List Op → List (BitVec 64)
  | [] => acc
  | op :: ops =>
    match hashOf op with
    | some h => addedFrom (acc ++ [h]) ops
    | none => addedFrom [] ops

def added (ops : List Op) : List (BitVec 64) := addedFrom [] ops

end BloomSpec

open BloomSpec

/-! ## Representation -/

/-- A filter as `New` makes it: a positive number of bits, 64 to a word. -/
structure Wf (f : Filter) : Prop where
  pos : 0 < f.bitCnt.toNat
  len : f.bits.length * 64 = f.bitCnt.toNat

/-- Bit `i` of the filter. -/
def bit (f : Filter) (i : Nat) : Bool := (f.bits.getD (i / 64) 0#64).getLsbD (i % 64)

theorem pos_eq {f : Filter} (w : Wf f) (h seed : BitVec 64) :
    ∃ i o : BitVec 64, pos f h seed = .ok (i, o) ∧ i.toNat = probe f.bitCnt.toNat h seed / 64 ∧
      o.toNat = probe f.bitCnt.toNat h seed % 64 := by
  have : f.bitCnt ≠ 0#64 := by
    intro h
    have := w.pos
    rw [h] at this
    simp at this
  refine ⟨(h ^^^ seed) % f.bitCnt / uint64Bits, (h ^^^ seed) % f.bitCnt % uint64Bits, by simp only [pos, if_neg this], ?_, ?_⟩
  · simp [probe, uint64Bits, BitVec.toNat_udiv, BitVec.toNat_umod, BitVec.toNat_xor]
  · simp [probe, uint64Bits, BitVec.toNat_umod, BitVec.toNat_xor]

theorem getD_of_lt {α : Type} {l : List α} {i : Nat} (h : i < l.length) (d : α) : l.getD i d = l[i] := by
  simp [List.getD_eq_getElem?_getD, h]

theorem probe_lt {m : Nat} (hm : 0 < m) (h seed : BitVec 64) : probe m h seed < m := Nat.mod_lt _ hm

theorem word_lt {f : Filter} (w : Wf f) (h seed : BitVec 64) : probe f.bitCnt.toNat h seed / 64 < f.bits.length := by
  have h1 := probe_lt w.pos h seed
  have h2 := w.len
  omega

/-- A mask has exactly its own bit. -/
theorem mask_bit (o : BitVec 64) (ho : o.toNat < 64) (j : Nat) (hj : j < 64) :
    (1#64 <<< o).getLsbD j = decide (j = o.toNat) := by
  rw [BitVec.shiftLeft_eq', BitVec.getLsbD_shiftLeft, BitVec.getLsbD_one]
  by_cases h : j = o.toNat
  · subst h; simp [hj]
  · by_cases h2 : j < o.toNat
    · simp [h2, h]
    · have : j - o.toNat ≠ 0 := by omega
      simp [h, this]

/-- `(b & mask) != mask` tests the bit. -/
theorem test_mask (b o : BitVec 64) (ho : o.toNat < 64) :
    ((b &&& (1#64 <<< o)) ≠ (1#64 <<< o)) ↔ b.getLsbD o.toNat = false := by
  constructor
  · intro h
    cases hb : b.getLsbD o.toNat with
    | false => rfl
    | true =>
    exfalso
    apply h
    apply BitVec.eq_of_getLsbD_eq
    intro i hi
    rw [BitVec.getLsbD_and, mask_bit o ho i hi]
    by_cases e : i = o.toNat
    · subst e; simp [hb]
    · simp [e]
  · intro hb h
    have := congrArg (fun x => x.getLsbD o.toNat) h
    simp only [BitVec.getLsbD_and, mask_bit o ho _ ho, hb] at this
    simp at this

/-- One round of `Add`. -/
theorem addStep {f : Filter} (w : Wf f) (h seed : BitVec 64) (rest : List (BitVec 64)) :
    ∃ f', addLoop h (seed :: rest) f = addLoop h rest f' ∧ Wf f' ∧ f'.bitCnt = f.bitCnt ∧ f'.seeds = f.seeds ∧
      ∀ i, i < f.bitCnt.toNat → bit f' i = (bit f i || decide (i = probe f.bitCnt.toNat h seed)) := by
  have hw := word_lt w h seed
  obtain ⟨x, o, e, hx, ho⟩ := pos_eq w h seed
  rw [← hx] at hw
  have ho' : o.toNat < 64 := by omega
  refine ⟨{ f with bits := f.bits.set x.toNat (f.bits[x.toNat] ||| 1#64 <<< o) }, ?_,
    ⟨w.pos, by simpa using w.len⟩, rfl, rfl, ?_⟩
  · rw [addLoop, e]
    simp only [Go.bind_ok]
    rw [Go.idx_of_lt _ _ hw]
    simp only [Go.bind_ok]
    rw [Go.set_of_lt _ _ _ hw]
    simp only [Go.bind_ok]
  · intro i hi
    have hil : i / 64 < f.bits.length := by have := w.len; omega
    unfold bit
    simp only
    rw [getD_of_lt (by simpa using hil), getD_of_lt hil, List.getElem_set]
    split
    · rename_i e
      rw [BitVec.getLsbD_or, mask_bit _ ho' _ (by omega)]
      have : f.bits[x.toNat] = f.bits[i / 64] := by simp only [e]
      rw [this]
      congr 1
      apply decide_eq_decide.2
      omega
    · rename_i e
      have : ¬ i = probe f.bitCnt.toNat h seed := by intro h; exact e (by rw [hx, h])
      simp [this]

theorem addLoop_spec (h : BitVec 64) : ∀ (seeds : List (BitVec 64)) (f : Filter), Wf f →
    ∃ f', addLoop h seeds f = .ok f' ∧ Wf f' ∧ f'.bitCnt = f.bitCnt ∧ f'.seeds = f.seeds ∧
      ∀ i, i < f.bitCnt.toNat → (bit f' i = true ↔ bit f i = true ∨ ∃ s ∈ seeds, i = probe f.bitCnt.toNat h s)
  | [], f, w => ⟨f, rfl, w, rfl, rfl, by simp⟩
  | s :: seeds, f, w => by
    obtain ⟨f1, e1, w1, c1, s1, b1⟩ := addStep w h s seeds
    obtain ⟨f2, e2, w2, c2, s2, b2⟩ := addLoop_spec h seeds f1 w1
    refine ⟨f2, by rw [e1, e2], w2, by rw [c2, c1], by rw [s2, s1], ?_⟩
    intro i hi
    rw [c1] at b2
    rw [b2 i hi, b1 i hi]
    simp only [Bool.or_eq_true, decide_eq_true_eq, List.mem_cons, exists_eq_or_imp, or_assoc]

theorem containsLoop_spec {f : Filter} (w : Wf f) (h : BitVec 64) : ∀ seeds : List (BitVec 64),
    ∃ b, containsLoop f h seeds = .ok b ∧ (b = true ↔ ∀ s ∈ seeds, bit f (probe f.bitCnt.toNat h s) = true)
  | [] => ⟨true, rfl, by simp⟩
  | s :: seeds => by
    obtain ⟨b, hb, hb2⟩ := containsLoop_spec w h seeds
    have hw := word_lt w h s
    obtain ⟨x, o, e, hx, ho⟩ := pos_eq w h s
    have ho' : o.toNat < 64 := by omega
    have hbit : (f.bits[probe f.bitCnt.toNat h s / 64]).getLsbD o.toNat = bit f (probe f.bitCnt.toNat h s) := by
      unfold bit
      rw [getD_of_lt hw, ho]
    rw [containsLoop, e]
    simp only [Go.bind_ok, hx]
    rw [Go.idx_of_lt _ _ hw]
    simp only [Go.bind_ok]
    by_cases ht : bit f (probe f.bitCnt.toNat h s) = true
    · rw [if_neg (by rw [test_mask _ _ ho', hbit, ht]; simp)]
      exact ⟨b, hb, by simp [hb2, ht]⟩
    · rw [if_pos (by rw [test_mask _ _ ho', hbit]; simpa using ht)]
      refine ⟨false, rfl, ?_⟩
      simp only [List.mem_cons, forall_eq_or_imp]
      simp [ht]

/-- The set bits of a filter are the positions of the hashes `added`. -/
structure Rep (f : Filter) (added : List (BitVec 64)) : Prop where
  wf : Wf f
  bits : ∀ i, i < f.bitCnt.toNat → (bit f i = true ↔ ∃ a ∈ added, ∃ s ∈ f.seeds, i = probe f.bitCnt.toNat a s)

theorem Rep.add {f : Filter} {A : List (BitVec 64)} (r : Rep f A) (h : BitVec 64) :
    ∃ f', add f h = .ok f' ∧ f'.bitCnt = f.bitCnt ∧ f'.seeds = f.seeds ∧ Rep f' (A ++ [h]) := by
  obtain ⟨f', e, w, c, s, b⟩ := addLoop_spec h f.seeds f r.wf
  refine ⟨f', e, c, s, w, ?_⟩
  intro i hi
  rw [c] at hi ⊢
  rw [b i hi, r.bits i hi, s]
  simp only [List.mem_append, List.mem_singleton]
  constructor
  · rintro (⟨a, ha, s', hs', e⟩ | ⟨s', hs', e⟩)
    · exact ⟨a, .inl ha, s', hs', e⟩
    · exact ⟨h, .inr rfl, s', hs', e⟩
  · rintro ⟨a, (ha | rfl), s', hs', e⟩
    · exact .inl ⟨a, ha, s', hs', e⟩
    · exact .inr ⟨s', hs', e⟩

theorem Rep.clear {f : Filter} {A : List (BitVec 64)} (r : Rep f A) : Rep (clear f) [] := by
  refine ⟨⟨r.wf.pos, by simpa [Bloom.clear] using r.wf.len⟩, ?_⟩
  intro i hi
  have hl : i / 64 < f.bits.length := by have := r.wf.len; simp only [Bloom.clear] at hi; omega
  have : bit (Bloom.clear f) i = false := by
    unfold bit Bloom.clear
    simp only
    rw [getD_of_lt (by simpa using hl)]
    simp
  simp [this]

theorem Rep.contains {f : Filter} {A : List (BitVec 64)} (r : Rep f A) (h : BitVec 64) :
    ∃ b, contains f h = .ok b ∧ (b = true ↔ mayContain f.bitCnt.toNat f.seeds A h) := by
  obtain ⟨b, e, hb⟩ := containsLoop_spec r.wf h f.seeds
  refine ⟨b, e, hb.trans ?_⟩
  unfold mayContain
  constructor
  · intro H s hs
    exact (r.bits _ (probe_lt r.wf.pos h s)).1 (H s hs)
  · intro H s hs
    exact (r.bits _ (probe_lt r.wf.pos h s)).2 (H s hs)

theorem Rep.run {f : Filter} {A : List (BitVec 64)} (r : Rep f A) (ops : List Op) :
    ∃ f', run f ops = .ok f' ∧ f'.bitCnt = f.bitCnt ∧ f'.seeds = f.seeds ∧ Rep f' (addedFrom A ops) := by
  induction ops generalizing f A with
  | nil => exact ⟨f, rfl, rfl, rfl, r⟩
  | cons op ops ih =>
    have aux : ∀ h, hashOf op = some h → step f op = Bloom.add f h →
        ∃ f', Bloom.run f (op :: ops) = .ok f' ∧ f'.bitCnt = f.bitCnt ∧ f'.seeds = f.seeds ∧
          Rep f' (addedFrom A (op :: ops)) := by
      intro h hh hs
      obtain ⟨f1, e1, c1, s1, r1⟩ := r.add h
      obtain ⟨f2, e2, c2, s2, r2⟩ := ih r1
      refine ⟨f2, ?_, by rw [c2, c1], by rw [s2, s1], ?_⟩
      · rw [Bloom.run, hs, e1]; exact e2
      · simpa [addedFrom, hh] using r2
    cases op with
    | add h => exact aux h rfl rfl
    | addBytes b => exact aux (hash b) rfl rfl
    | addString s => exact aux (hash s) rfl rfl
    | clear =>
      obtain ⟨f2, e2, c2, s2, r2⟩ := ih r.clear
      exact ⟨f2, e2, c2, s2, r2⟩

/-! ## Construction -/

theorem roundUp_eq (b : BitVec 64) : (roundUp b).toNat = (b.toNat + 63) % 2 ^ 64 / 64 * 64 := by
  have e : (b + uint64Bits - 1#64).toNat = (b.toNat + 63) % 2 ^ 64 := by
    unfold uint64Bits
    rw [BitVec.toNat_sub, BitVec.toNat_add]
    simp only [BitVec.toNat_ofNat]
    omega
  have hu : uint64Bits.toNat = 64 := rfl
  unfold roundUp
  rw [BitVec.toNat_mul, BitVec.toNat_udiv, e, hu]
  omega

theorem roundUp_toNat {b : BitVec 64} (h : b.toNat ≤ 2 ^ 64 - 64) : (roundUp b).toNat = (b.toNat + 63) / 64 * 64 := by
  rw [roundUp_eq]
  omega

theorem new_rep {b : BitVec 64} (h1 : 0 < b.toNat) (h2 : b.toNat ≤ 2 ^ 64 - 64) {k : Int} (hk : 0 ≤ k)
    (random : Nat → BitVec 64) : ∃ f, new b k random = .ok f ∧ f.bitCnt = roundUp b ∧
      f.seeds = (List.range k.toNat).map random ∧ Rep f [] := by
  have hr := roundUp_toNat h2
  refine ⟨_, by rw [new, if_neg (by omega)], rfl, rfl, ⟨by rw [hr]; omega, ?_⟩, ?_⟩
  · have hu : uint64Bits.toNat = 64 := rfl
    simp only [List.length_replicate, BitVec.toNat_udiv, hu, hr]
    omega
  · intro i hi
    have : bit ⟨List.replicate (roundUp b / uint64Bits).toNat 0#64, roundUp b, (List.range k.toNat).map random⟩ i = false := by
      unfold bit
      simp only [List.getD_eq_getElem?_getD, List.getElem?_replicate]
      split <;> simp
    rw [this]
    simp

/-! ## Properties -/

/-- **C49.** For every bit count and every number of seeds, building a filter and any history of operations succeed, the
length is the requested bit count rounded up to a multiple of 64, and afterwards `Contains` succeeds for every hash. -/
theorem C49_total {b : BitVec 64} (h1 : 0 < b.toNat) (h2 : b.toNat ≤ 2 ^ 64 - 64) {k : Int} (hk : 0 ≤ k)
    (random : Nat → BitVec 64) (ops : List Op) :
    ∃ f f', new b k random = .ok f ∧ run f ops = .ok f' ∧ (len f').toNat = (b.toNat + 63) / 64 * 64 ∧
      f'.seeds.length = k.toNat ∧ ∀ h, ∃ r, contains f' h = .ok r := by
  obtain ⟨f, e, c, s, r⟩ := new_rep h1 h2 hk random
  obtain ⟨f', e', c', s', r'⟩ := r.run ops
  refine ⟨f, f', e, e', ?_, ?_, ?_⟩
  · rw [len, c', c, roundUp_toNat h2]
  · rw [s', s]; simp
  · intro h
    obtain ⟨r, hr, _⟩ := r'.contains h
    exact ⟨r, hr⟩

/-- Bits that are no position of an added hash are never set. -/
theorem C49_untouched {b : BitVec 64} (h1 : 0 < b.toNat) (h2 : b.toNat ≤ 2 ^ 64 - 64) {k : Int} (hk : 0 ≤ k)
    (random : Nat → BitVec 64) (ops : List Op) {f f' : Filter} (e : new b k random = .ok f) (e' : run f ops = .ok f')
    (i : Nat) (hi : i < (len f').toNat) : bit f' i = true ↔ ∃ a ∈ added ops, ∃ s ∈ f'.seeds, i = probe (len f').toNat a s := by
  obtain ⟨f1, e1, c, s, r⟩ := new_rep h1 h2 hk random
  cases e.symm.trans e1
  obtain ⟨f2, e2, c', s', r'⟩ := r.run ops
  cases e'.symm.trans e2
  exact r'.bits i hi

/-- **C48.** After any history, `Contains` answers exactly by the set of hashes added since the last `Clear`. -/
theorem C48_exact {b : BitVec 64} (h1 : 0 < b.toNat) (h2 : b.toNat ≤ 2 ^ 64 - 64) {k : Int} (hk : 0 ≤ k)
    (random : Nat → BitVec 64) (ops : List Op) {f f' : Filter} (e : new b k random = .ok f) (e' : run f ops = .ok f')
    (h : BitVec 64) : contains f' h = .ok true ↔
      mayContain ((b.toNat + 63) / 64 * 64) ((List.range k.toNat).map random) (added ops) h := by
  obtain ⟨f1, e1, c, s, r⟩ := new_rep h1 h2 hk random
  cases e.symm.trans e1
  obtain ⟨f2, e2, c', s', r'⟩ := r.run ops
  cases e'.symm.trans e2
  obtain ⟨x, hx, hx2⟩ := r'.contains h
  rw [c', c, s', s, roundUp_toNat h2] at hx2
  rw [hx]
  unfold added
  rw [← hx2]
  simp

/-- Order and multiplicity do not matter: two histories adding the same set of hashes answer alike. -/
theorem C48_set {b : BitVec 64} (h1 : 0 < b.toNat) (h2 : b.toNat ≤ 2 ^ 64 - 64) {k : Int} (hk : 0 ≤ k)
    (random : Nat → BitVec 64) (ops1 ops2 : List Op) {f f1 f2 : Filter} (e : new b k random = .ok f)
    (e1 : run f ops1 = .ok f1) (e2 : run f ops2 = .ok f2) (hset : ∀ a, a ∈ added ops1 ↔ a ∈ added ops2) (h : BitVec 64) :
    contains f1 h = contains f2 h := by
  have w1 := C48_exact h1 h2 hk random ops1 e e1 h
  have w2 := C48_exact h1 h2 hk random ops2 e e2 h
  obtain ⟨g, g1, eg, eg1, _, _, t1⟩ := C49_total h1 h2 hk random ops1
  cases e.symm.trans eg
  cases e1.symm.trans eg1
  obtain ⟨g', g2, eg', eg2, _, _, t2⟩ := C49_total h1 h2 hk random ops2
  cases e.symm.trans eg'
  cases e2.symm.trans eg2
  obtain ⟨r1, hr1⟩ := t1 h
  obtain ⟨r2, hr2⟩ := t2 h
  have : contains f1 h = .ok true ↔ contains f2 h = .ok true := by
    rw [w1, w2]
    unfold mayContain
    simp only [hset]
  rw [hr1, hr2] at this ⊢
  cases r1 <;> cases r2 <;> simp_all

theorem mem_addedFrom {ops : List Op} (hc : Op.clear ∉ ops) {acc : List (BitVec 64)} {h : BitVec 64} (hh : h ∈ acc) :
    h ∈ addedFrom acc ops := by
  induction ops generalizing acc with
  | nil => exact hh
  | cons op ops ih =>
    have hc' : Op.clear ∉ ops := fun h => hc (List.mem_cons_of_mem _ h)
    cases op with
    | clear => exact absurd (List.mem_cons_self ..) hc
    | add x => exact ih hc' (List.mem_append_left _ hh)
    | addBytes x => exact ih hc' (List.mem_append_left _ hh)
    | addString x => exact ih hc' (List.mem_append_left _ hh)

theorem addedFrom_append (acc : List (BitVec 64)) (xs ys : List Op) :
    addedFrom acc (xs ++ ys) = addedFrom (addedFrom acc xs) ys := by
  induction xs generalizing acc with
  | nil => rfl
  | cons op xs ih =>
    simp only [List.cons_append, addedFrom]
    split
    · exact ih _
    · exact ih _

/-- **C46.** No false negatives: whatever happened before, an element that was added, in any of the three forms, is
contained after any further operations without `Clear`. -/
theorem C46_no_false_negative {b : BitVec 64} (h1 : 0 < b.toNat) (h2 : b.toNat ≤ 2 ^ 64 - 64) {k : Int} (hk : 0 ≤ k)
    (random : Nat → BitVec 64) (before after : List Op) (op : Op) (h : BitVec 64) (hop : hashOf op = some h)
    (hc : Op.clear ∉ after) {f f' : Filter} (e : new b k random = .ok f) (e' : run f (before ++ op :: after) = .ok f') :
    contains f' h = .ok true := by
  rw [C48_exact h1 h2 hk random _ e e' h]
  intro s hs
  refine ⟨h, ?_, s, hs, rfl⟩
  unfold added
  rw [addedFrom_append]
  simp only [addedFrom, hop]
  exact mem_addedFrom hc (by simp)

/-- The same for the byte and string forms of the question. -/
theorem C46_bytes {b : BitVec 64} (h1 : 0 < b.toNat) (h2 : b.toNat ≤ 2 ^ 64 - 64) {k : Int} (hk : 0 ≤ k)
    (random : Nat → BitVec 64) (before after : List Op) (x : List (BitVec 8)) (op : Op)
    (hop : op = .addBytes x ∨ op = .addString x) (hc : Op.clear ∉ after) {f f' : Filter} (e : new b k random = .ok f)
    (e' : run f (before ++ op :: after) = .ok f') : containsBytes f' x = .ok true ∧ containsString f' x = .ok true := by
  have : hashOf op = some (hash x) := by rcases hop with rfl | rfl <;> rfl
  have := C46_no_false_negative h1 h2 hk random before after op (hash x) this hc e e'
  exact ⟨this, this⟩

/-- More additions never remove anything. -/
theorem C48_mono {b : BitVec 64} (h1 : 0 < b.toNat) (h2 : b.toNat ≤ 2 ^ 64 - 64) {k : Int} (hk : 0 ≤ k)
    (random : Nat → BitVec 64) (before after : List Op) (hc : Op.clear ∉ after) {f f1 f2 : Filter}
    (e : new b k random = .ok f) (e1 : run f before = .ok f1) (e2 : run f (before ++ after) = .ok f2) (h : BitVec 64)
    (hh : contains f1 h = .ok true) : contains f2 h = .ok true := by
  rw [C48_exact h1 h2 hk random _ e e1 h] at hh
  rw [C48_exact h1 h2 hk random _ e e2 h]
  intro s hs
  obtain ⟨a, ha, r⟩ := hh s hs
  refine ⟨a, ?_, r⟩
  unfold added
  rw [addedFrom_append]
  exact mem_addedFrom hc ha

/-- **C47.** After `Clear` and any further operations, the filter answers as a new one after those operations. -/
theorem C47_as_new {b : BitVec 64} (h1 : 0 < b.toNat) (h2 : b.toNat ≤ 2 ^ 64 - 64) {k : Int} (hk : 0 ≤ k)
    (random : Nat → BitVec 64) (before after : List Op) {f f1 f2 : Filter} (e : new b k random = .ok f)
    (e1 : run f (before ++ .clear :: after) = .ok f1) (e2 : run f after = .ok f2) (h : BitVec 64) :
    contains f1 h = contains f2 h := by
  refine C48_set h1 h2 hk random _ _ e e1 e2 ?_ h
  intro a
  unfold added
  rw [addedFrom_append]
  simp [addedFrom, hashOf]

/-- Right after `Clear`, nothing is contained, if there is a seed. -/
theorem C47_empty {b : BitVec 64} (h1 : 0 < b.toNat) (h2 : b.toNat ≤ 2 ^ 64 - 64) {k : Int} (hk : 0 < k)
    (random : Nat → BitVec 64) (before : List Op) {f f' : Filter} (e : new b k random = .ok f)
    (e' : run f (before ++ [.clear]) = .ok f') (h : BitVec 64) : contains f' h = .ok false := by
  have w := C48_exact h1 h2 (by omega) random _ e e' h
  obtain ⟨g, g1, eg, eg1, _, _, t1⟩ := C49_total h1 h2 (by omega : 0 ≤ k) random (before ++ [.clear])
  cases e.symm.trans eg
  cases e'.symm.trans eg1
  obtain ⟨r, hr⟩ := t1 h
  rw [hr] at w ⊢
  cases r with
  | false => rfl
  | true =>
    have := w.1 rfl
    unfold added at this
    rw [addedFrom_append] at this
    obtain ⟨a, ha, _⟩ := this (random 0) (List.mem_map.2 ⟨0, by simp; omega, rfl⟩)
    simp [addedFrom, hashOf] at ha

/-- **Without seeds C47 fails**: a filter without hash functions contains everything. -/
theorem C47_no_seeds_refuted (b : BitVec 64) (random : Nat → BitVec 64) (h : BitVec 64) :
    ∃ f, new b 0 random = .ok f ∧ contains (clear f) h = .ok true := ⟨_, rfl, rfl⟩

/-- **Zero bits.** `New(0, p)` gives a filter whose operations panic (if it has a seed). -/
theorem C49_zero_refuted (k : Int) (hk : 0 < k) (random : Nat → BitVec 64) (h : BitVec 64) :
    ∃ f, new 0#64 k random = .ok f ∧ add f h = .error .divZero ∧ contains f h = .error .divZero := by
  obtain ⟨n, rfl⟩ : ∃ n : Nat, k = n + 1 := ⟨(k - 1).toNat, by omega⟩
  have hs : (List.range ((n : Int) + 1).toNat).map random = random 0 :: (List.range n).map fun i => random (i + 1) := by
    have : ((n : Int) + 1).toNat = n + 1 := by omega
    rw [this, List.range_succ_eq_map]
    simp [Function.comp_def]
  refine ⟨_, by rw [new, if_neg (by omega)], ?_, ?_⟩
  · rw [add]; simp only [hs]; rfl
  · rw [contains]; simp only [hs]; rfl

/-- **Overflow.** A bit count above `2^64 - 64` is rounded to zero. -/
theorem C49_overflow_refuted (b : BitVec 64) (hb : 2 ^ 64 - 64 < b.toNat) : roundUp b = 0#64 := by
  have := b.isLt
  apply BitVec.eq_of_toNat_eq
  rw [roundUp_eq, BitVec.toNat_ofNat]
  omega

/-- A weakness of `pos`: if the number of bits is a power of two, hashes that agree modulo it are not told apart, however
many seeds there are. -/
theorem C48_power_of_two {n : Nat} {seeds added : List (BitVec 64)} {h h' : BitVec 64}
    (e : h.toNat % 2 ^ n = h'.toNat % 2 ^ n) :
    mayContain (2 ^ n) seeds added h ↔ mayContain (2 ^ n) seeds added h' := by
  have : ∀ s, probe (2 ^ n) h s = probe (2 ^ n) h' s := by
    intro s
    unfold probe
    rw [Nat.xor_mod_two_pow, Nat.xor_mod_two_pow, e]
  unfold mayContain
  simp only [this]

/-! A filter of 128 bits with two seeds. -/
example : (do
    let f ← new 65#64 2 (fun i => BitVec.ofNat 64 (i * 77))
    let f ← run f [.add 5#64, .addString [97#8, 98#8]]
    let a ← contains f 5#64
    let b ← contains f 6#64
    let c ← containsString f [97#8, 98#8]
    pure (len f, a, b, c)).toOption = some (128#64, true, false, true) := by decide +kernel

/-- FNV-1 of "a" (the published test vector). -/
example : hash [97#8] = 0xaf63bd4c8601b7be#64 := by decide +kernel

end Verif.Bloom

namespace Verif.Hash

/-- **C50.** Whatever was hashed before, in either form, each result is a function of the seed and the argument only; the byte
and the string form agree. -/
theorem C50_history_independent {Seed : Type} (F : Seed → List (BitVec 8) → BitVec 64) (seed : Seed) (cs : List Call) :
    ∃ h, run F (new seed) cs = .ok (h, cs.map fun c => F seed c.2) := by
  have aux : ∀ (cs : List Call) (w : List (BitVec 8)),
      ∃ h, run F ⟨some ⟨seed, w⟩⟩ cs = .ok (h, cs.map fun c => F seed c.2) := by
    intro cs
    induction cs with
    | nil => exact fun w => ⟨_, rfl⟩
    | cons c cs ih =>
      intro w
      obtain ⟨h, hh⟩ := ih c.2
      refine ⟨h, ?_⟩
      have hc : call F ⟨some ⟨seed, w⟩⟩ c = .ok (⟨some ⟨seed, c.2⟩⟩, F seed c.2) := by
        unfold call sum64String sum64 reset write
        simp
      rw [run, hc]
      simp only [Go.bind_ok]
      rw [hh]
      rfl
  exact aux cs []

/-- The zero `Hash{}` panics. -/
theorem C50_zero_value_refuted {Seed : Type} (F : Seed → List (BitVec 8) → BitVec 64) (b : List (BitVec 8)) :
    (sum64 F ⟨none⟩ b).isOk = false := rfl

example : (run (fun s b => s + b.length) (new 3#64) [(true, [1#8]), (false, []), (true, [1#8])]).map Prod.snd =
    .ok [4#64, 3#64, 4#64] := rfl

end Verif.Hash
