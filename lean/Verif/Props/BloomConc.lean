import Verif.Model.BloomConc
import Verif.Props.Bloom
import Verif.Proof.Mutex

/-!
# C144: the Bloom filter used by several goroutines
-/

namespace Verif.BloomConc

open Bloom Bloom.BloomSpec
open Mutex (put put_self put_ne)

/-- The word and the bit of a probe. -/
theorem pos_inv {f : Filter} (w : Wf f) {h seed index offset : BitVec 64} (e : pos f h seed = .ok (index, offset)) :
    index.toNat = probe f.bitCnt.toNat h seed / 64 ∧ offset.toNat = probe f.bitCnt.toNat h seed % 64 := by
  obtain ⟨i, o, e', hi, ho⟩ := pos_eq w h seed
  rw [e] at e'
  simp only [Except.ok.injEq, Prod.mk.injEq] at e'
  rw [e'.1, e'.2]
  exact ⟨hi, ho⟩

theorem idx_inv {f : Filter} {n : Nat} {word : BitVec 64} (e : Go.idx f.bits n = .ok word) : f.bits.getD n 0#64 = word := by
  unfold Go.idx at e
  split at e
  · rename_i h
    rw [List.getD_eq_getElem?_getD, h]
    simpa using e
  · cases e

theorem set_inv {bs bs' : List (BitVec 64)} {n : Nat} {x : BitVec 64} (e : Go.set bs n x = .ok bs') : n < bs.length ∧ bs' = bs.set n x := by
  unfold Go.set at e
  split at e
  · rename_i h
    simp only [Except.ok.injEq] at e
    exact ⟨h, e.symm⟩
  · cases e

/-- What a write does to the bits. -/
theorem bit_store {f : Filter} (w : Wf f) {h seed index offset word : BitVec 64} (hi : index.toNat = probe f.bitCnt.toNat h seed / 64)
    (ho : offset.toNat = probe f.bitCnt.toNat h seed % 64) {bits : List (BitVec 64)} (e : Go.set f.bits index.toNat (word ||| 1#64 <<< offset) = .ok bits) :
    Wf { f with bits := bits } ∧
    ∀ i, i < f.bitCnt.toNat → bit { f with bits := bits } i =
      if i / 64 = index.toNat then word.getLsbD (i % 64) || decide (i = probe f.bitCnt.toNat h seed) else bit f i := by
  obtain ⟨hlt, rfl⟩ := set_inv e
  refine ⟨⟨w.pos, by simpa using w.len⟩, fun i hl => ?_⟩
  have hil : i / 64 < f.bits.length := by have := w.len; omega
  unfold bit
  simp only
  rw [getD_of_lt (by simpa using hil), getD_of_lt hil, List.getElem_set]
  split
  · rename_i e
    rw [if_pos e.symm, BitVec.getLsbD_or, mask_bit _ (by omega) _ (by omega)]
    congr 1
    apply decide_eq_decide.2
    omega
  · rename_i e
    rw [if_neg (fun h => e h.symm)]

/-- Position `i` is a probe of one of the hashes. -/
def Covered (f : Filter) (hs : List (BitVec 64)) (i : Nat) : Prop := ∃ a ∈ hs, ∃ s ∈ f.seeds, i = probe f.bitCnt.toNat a s

theorem Covered.mono {f : Filter} {hs hs' : List (BitVec 64)} {i : Nat} (h : Covered f hs i) (hm : ∀ a ∈ hs, a ∈ hs') : Covered f hs' i := by
  obtain ⟨a, ha, x⟩ := h
  exact ⟨a, hm a ha, x⟩

/-- The state of a goroutine makes sense, given what `Add` has been called with. -/
def PcOk (f : Filter) (started : List (BitVec 64)) : Pc → Prop
  | .idle => True
  | .add h rest => h ∈ started ∧ ∀ s ∈ rest, s ∈ f.seeds
  | .loaded h index offset word rest => h ∈ started ∧ (∀ s ∈ rest, s ∈ f.seeds) ∧
      (∃ seed ∈ f.seeds, index.toNat = probe f.bitCnt.toNat h seed / 64 ∧ offset.toNat = probe f.bitCnt.toNat h seed % 64) ∧
      ∀ i, i < f.bitCnt.toNat → i / 64 = index.toNat → word.getLsbD (i % 64) = true → Covered f started i
  | .look h _ rest => ∃ past, f.seeds = past ++ rest ∧ ∀ s ∈ past, Covered f started (probe f.bitCnt.toNat h s)

theorem PcOk.mono {f : Filter} {hs hs' : List (BitVec 64)} {pc : Pc} (h : PcOk f hs pc) (hm : ∀ a ∈ hs, a ∈ hs') : PcOk f hs' pc := by
  cases pc with
  | idle => trivial
  | add _ _ => exact ⟨hm _ h.1, h.2⟩
  | loaded _ _ _ _ _ => exact ⟨hm _ h.1, h.2.1, h.2.2.1, fun i hi h1 h2 => (h.2.2.2 i hi h1 h2).mono hm⟩
  | look _ _ _ =>
    obtain ⟨past, e, hp⟩ := h
    exact ⟨past, e, fun s hs => (hp s hs).mono hm⟩

/-- `PcOk` only depends on the number of bits and the seeds. -/
theorem PcOk.congr {f f' : Filter} {hs : List (BitVec 64)} {pc : Pc} (h : PcOk f hs pc) (hc : f'.bitCnt = f.bitCnt) (hs' : f'.seeds = f.seeds) :
    PcOk f' hs pc := by
  cases pc <;> simp only [PcOk, Covered, hc, hs'] at h ⊢ <;> exact h

structure Inv (f0 : Filter) (s : State) : Prop where
  wf : Wf s.f
  cnt : s.f.bitCnt = f0.bitCnt
  seeds : s.f.seeds = f0.seeds
  bits : ∀ i, i < s.f.bitCnt.toNat → bit s.f i = true → Covered s.f s.started i
  pcs : ∀ i, PcOk s.f s.started (s.pc i)
  answers : ∀ a ∈ s.answers, a.result = true → mayContain f0.bitCnt.toNat f0.seeds a.started a.hash

theorem word_bit {f : Filter} (w : Wf f) {n : Nat} {word : BitVec 64} (e : Go.idx f.bits n = .ok word) (i : Nat) (hn : i / 64 = n) :
    word.getLsbD (i % 64) = bit f i := by
  unfold bit
  rw [hn, idx_inv e]

theorem pcs_put {f : Filter} {hs : List (BitVec 64)} {pc : Nat → Pc} (h : ∀ i, PcOk f hs (pc i)) (i : Nat) {p : Pc} (hp : PcOk f hs p) (j : Nat) :
    PcOk f hs (put pc i p j) := by
  by_cases hj : j = i
  · subst hj; rw [put_self]; exact hp
  · rw [put_ne _ _ hj]; exact h j

theorem inv_step {f0 : Filter} {excl : Prop} {i : Nat} {s s' : State} (h : Inv f0 s) (st : Step excl i s s') : Inv f0 s' := by
  have hp := h.pcs i
  cases st with
  | callAdd x e _ =>
    have hm : ∀ a ∈ s.started, a ∈ s.started ++ [x] := fun a ha => List.mem_append_left _ ha
    refine ⟨h.wf, h.cnt, h.seeds, fun i hi hb => (h.bits i hi hb).mono hm, fun j => ?_, h.answers⟩
    exact pcs_put (fun j => (h.pcs j).mono hm) i (p := .add x s.f.seeds) ⟨by simp, fun s hs => hs⟩ j
  | load x seed rest index offset word e hpos hidx =>
    rw [e] at hp
    obtain ⟨g1, g2⟩ := pos_inv h.wf hpos
    refine ⟨h.wf, h.cnt, h.seeds, h.bits, fun j => ?_, h.answers⟩
    refine pcs_put h.pcs i (p := .loaded x index offset word rest) ⟨hp.1, fun s hs => hp.2 s (List.mem_cons_of_mem _ hs),
      ⟨seed, hp.2 seed List.mem_cons_self, g1, g2⟩, fun k hk hki hb => ?_⟩ j
    rw [word_bit h.wf hidx k hki] at hb
    exact h.bits k hk hb
  | store x index offset word rest bits e hset =>
    rw [e] at hp
    obtain ⟨p1, p2, ⟨seed, hs, p3, p4⟩, p5⟩ := hp
    obtain ⟨w', hb⟩ := bit_store h.wf p3 p4 hset
    refine ⟨w', h.cnt, h.seeds, fun k hk hbk => ?_, fun j => ?_, h.answers⟩
    · rw [hb k hk] at hbk
      split at hbk
      · rename_i hki
        rw [Bool.or_eq_true, decide_eq_true_eq] at hbk
        rcases hbk with hbk | hbk
        · exact p5 k hk hki hbk
        · exact ⟨x, p1, seed, hs, hbk⟩
      · exact h.bits k hk hbk
    · exact pcs_put (f := { s.f with bits := bits }) (fun j => (h.pcs j).congr rfl rfl) i (p := .add x rest) ⟨p1, p2⟩ j
  | addDone x e => exact ⟨h.wf, h.cnt, h.seeds, h.bits, pcs_put h.pcs i trivial, h.answers⟩
  | callContains x e =>
    exact ⟨h.wf, h.cnt, h.seeds, h.bits, pcs_put h.pcs i (p := .look x s.added s.f.seeds) ⟨[], rfl, by simp⟩, h.answers⟩
  | absent x before seed rest index offset word e hpos hidx hn =>
    refine ⟨h.wf, h.cnt, h.seeds, h.bits, pcs_put h.pcs i trivial, fun a ha hr => ?_⟩
    rcases List.mem_append.1 ha with ha | ha
    · exact h.answers a ha hr
    · rw [List.mem_singleton.1 ha] at hr; cases hr
  | present x before seed rest index offset word e hpos hidx hy =>
    rw [e] at hp
    obtain ⟨past, hsp, hpp⟩ := hp
    obtain ⟨g1, g2⟩ := pos_inv h.wf hpos
    refine ⟨h.wf, h.cnt, h.seeds, h.bits, ?_, h.answers⟩
    refine pcs_put h.pcs i (p := .look x before rest) ⟨past ++ [seed], by simp [hsp], fun s' hs' => ?_⟩
    rcases List.mem_append.1 hs' with hs' | hs'
    · exact hpp s' hs'
    · rw [List.mem_singleton.1 hs']
      have ho : offset.toNat < 64 := by omega
      have hb : word.getLsbD offset.toNat = true := by
        by_contra hc
        exact (test_mask word offset ho).2 (by simpa using hc) hy
      rw [g2, word_bit h.wf hidx _ g1.symm] at hb
      exact h.bits _ (probe_lt h.wf.pos _ _) hb
  | lookDone x before e =>
    rw [e] at hp
    obtain ⟨past, hsp, hpp⟩ := hp
    refine ⟨h.wf, h.cnt, h.seeds, h.bits, pcs_put h.pcs i trivial, fun a ha hr => ?_⟩
    rcases List.mem_append.1 ha with ha | ha
    · exact h.answers a ha hr
    · rw [List.mem_singleton.1 ha]
      intro s' hs'
      rw [← h.seeds, hsp, List.append_nil] at hs'
      have := hpp s' hs'
      unfold Covered at this
      rw [h.cnt, h.seeds] at this
      exact this

theorem inv_reach {f : Filter} (w : Wf f) (hb : ∀ i, i < f.bitCnt.toNat → bit f i = false) {excl : Prop} {s : State} (r : Reach excl f s) : Inv f s := by
  induction r with
  | init =>
    refine ⟨w, rfl, rfl, fun i hi h => ?_, fun _ => trivial, fun a ha => by cases ha⟩
    have := hb i hi
    rw [show bit f i = true from h] at this
    cases this
  | step i _ st ih => exact inv_step ih st

/-- A fresh filter. -/
theorem new_wf {b : BitVec 64} (h1 : 0 < b.toNat) (h2 : b.toNat ≤ 2 ^ 64 - 64) {k : Int} {random : Nat → BitVec 64} {f : Filter}
    (hf : new b k random = .ok f) : Wf f ∧ ∀ i, i < f.bitCnt.toNat → bit f i = false := by
  have hk : 0 ≤ k := by
    by_contra hc
    unfold new at hf
    rw [if_pos (by omega)] at hf
    cases hf
  obtain ⟨f', e, r⟩ := new_rep h1 h2 hk random
  rw [hf] at e
  simp only [Except.ok.injEq] at e
  subst e
  refine ⟨r.2.2.wf, fun i hi => ?_⟩
  cases hb : bit f i with
  | false => rfl
  | true =>
    obtain ⟨a, ha, -⟩ := (r.2.2.bits i hi).1 hb
    cases ha

/-- **C144** However many goroutines add at the same time: what `Contains` finds has its positions among those of hashes that `Add` had been called with. -/
theorem C144_no_ghosts {b : BitVec 64} (h1 : 0 < b.toNat) (h2 : b.toNat ≤ 2 ^ 64 - 64) {k : Int} {random : Nat → BitVec 64} {f : Filter}
    (hf : new b k random = .ok f) {s : State} (r : Reach False f s) : ∀ a ∈ s.answers, a.result = true → mayContain f.bitCnt.toNat f.seeds a.started a.hash :=
  (inv_reach (new_wf h1 h2 hf).1 (new_wf h1 h2 hf).2 r).answers

/-! ## One goroutine adds at a time -/

/-- The bits of a hash for some seeds. -/
def HasBits (f : Filter) (h : BitVec 64) (seeds : List (BitVec 64)) : Prop := ∀ s ∈ seeds, bit f (probe f.bitCnt.toNat h s) = true

/-- What the one adder has done so far. -/
def AdderOk (f : Filter) : Pc → Prop
  | .add h rest => ∃ past, f.seeds = past ++ rest ∧ HasBits f h past
  | .loaded h index offset word rest => ∃ past seed, f.seeds = past ++ seed :: rest ∧ HasBits f h past ∧
      index.toNat = probe f.bitCnt.toNat h seed / 64 ∧ offset.toNat = probe f.bitCnt.toNat h seed % 64 ∧ f.bits.getD index.toNat 0#64 = word
  | _ => True

/-- The hash that is being added. -/
def _root_.Verif.BloomConc.Pc.adds : Pc → Option (BitVec 64)
  | .add h _ => some h
  | .loaded h _ _ _ _ => some h
  | _ => none

structure One (s : State) : Prop where
  one : ∀ i j, (s.pc i).adding → (s.pc j).adding → i = j
  adder : ∀ i, AdderOk s.f (s.pc i)
  added : ∀ h ∈ s.added, HasBits s.f h s.f.seeds
  looks : ∀ i h before rest, s.pc i = .look h before rest → (∀ a ∈ before, a ∈ s.added) ∧ ∀ x ∈ rest, x ∈ s.f.seeds
  answers : ∀ a ∈ s.answers, a.hash ∈ a.before → a.result = true
  started : ∀ a ∈ s.started, a ∈ s.added ∨ ∃ i, (s.pc i).adds = some a

theorem adds_put {pc : Nat → Pc} {started added : List (BitVec 64)} (h : ∀ a ∈ started, a ∈ added ∨ ∃ i, (pc i).adds = some a) (i : Nat) {p : Pc}
    (hp : (pc i).adds = p.adds) : ∀ a ∈ started, a ∈ added ∨ ∃ j, (put pc i p j).adds = some a := by
  intro a ha
  rcases h a ha with h | ⟨j, hj⟩
  · exact .inl h
  · right
    by_cases hji : j = i
    · subst hji; exact ⟨j, by rw [put_self, ← hp]; exact hj⟩
    · exact ⟨j, by rw [put_ne _ _ hji]; exact hj⟩

theorem one_put {pc : Nat → Pc} (h : ∀ i j, (pc i).adding → (pc j).adding → i = j) (i : Nat) {p : Pc} (hp : p.adding → ∀ j, j ≠ i → ¬ (pc j).adding) :
    ∀ a b, (put pc i p a).adding → (put pc i p b).adding → a = b := by
  intro a b ha hb
  by_cases hai : a = i <;> by_cases hbi : b = i
  · rw [hai, hbi]
  · subst hai
    rw [put_self] at ha
    rw [put_ne _ _ hbi] at hb
    exact absurd hb (hp ha b hbi)
  · subst hbi
    rw [put_self] at hb
    rw [put_ne _ _ hai] at ha
    exact absurd ha (hp hb a hai)
  · rw [put_ne _ _ hai] at ha
    rw [put_ne _ _ hbi] at hb
    exact h a b ha hb

theorem adder_put {f : Filter} {pc : Nat → Pc} (h : ∀ i, AdderOk f (pc i)) (i : Nat) {p : Pc} (hp : AdderOk f p) (j : Nat) : AdderOk f (put pc i p j) := by
  by_cases hj : j = i
  · subst hj; rw [put_self]; exact hp
  · rw [put_ne _ _ hj]; exact h j

theorem looks_put {pc : Nat → Pc} {added seeds : List (BitVec 64)}
    (h : ∀ i x before rest, pc i = .look x before rest → (∀ a ∈ before, a ∈ added) ∧ ∀ y ∈ rest, y ∈ seeds) (i : Nat) {p : Pc}
    (hp : ∀ x before rest, p = .look x before rest → (∀ a ∈ before, a ∈ added) ∧ ∀ y ∈ rest, y ∈ seeds) :
    ∀ j x before rest, put pc i p j = .look x before rest → (∀ a ∈ before, a ∈ added) ∧ ∀ y ∈ rest, y ∈ seeds := by
  intro j x before rest
  by_cases hj : j = i
  · subst hj; rw [put_self]; exact hp x before rest
  · rw [put_ne _ _ hj]; exact h j x before rest

theorem one_step {f0 : Filter} {i : Nat} {s s' : State} (h : Inv f0 s) (o : One s) (st : Step True i s s') : One s' := by
  have hp := o.adder i
  cases st with
  | callAdd x e hx =>
    have hn := hx trivial
    refine ⟨one_put o.one i fun _ j _ => hn j, adder_put o.adder i (p := .add x s.f.seeds) ⟨[], rfl, by simp [HasBits]⟩, o.added,
      looks_put o.looks i (by intro _ _ _ e; cases e), o.answers, fun a ha => ?_⟩
    rcases List.mem_append.1 ha with ha | ha
    · rcases o.started a ha with h | ⟨j, hj⟩
      · exact .inl h
      · right
        refine ⟨j, ?_⟩
        have hji : j ≠ i := by rintro rfl; rw [e] at hj; cases hj
        dsimp only
        rw [put_ne _ _ hji]
        exact hj
    · right
      refine ⟨i, ?_⟩
      dsimp only
      rw [put_self, List.mem_singleton.1 ha]
      rfl
  | load x seed rest index offset word e hpos hidx =>
    rw [e] at hp
    obtain ⟨past, hsp, hb⟩ := hp
    obtain ⟨g1, g2⟩ := pos_inv h.wf hpos
    have ha : (s.pc i).adding := by rw [e]; trivial
    exact ⟨one_put o.one i fun _ j hj hc => hj (o.one j i hc ha),
      adder_put o.adder i (p := .loaded x index offset word rest) ⟨past, seed, hsp, hb, g1, g2, idx_inv hidx⟩, o.added,
      looks_put o.looks i (by intro _ _ _ e; cases e), o.answers, adds_put o.started i (by rw [e]; rfl)⟩
  | store x index offset word rest bits e hset =>
    rw [e] at hp
    obtain ⟨past, seed, hsp, hb, g1, g2, g3⟩ := hp
    have ha : (s.pc i).adding := by rw [e]; trivial
    obtain ⟨w', hbit⟩ := bit_store h.wf g1 g2 hset
    have hbit' : ∀ k, k < s.f.bitCnt.toNat → bit { s.f with bits := bits } k = (bit s.f k || decide (k = probe s.f.bitCnt.toNat x seed)) := by
      intro k hk
      rw [hbit k hk]
      split
      · rename_i hki
        rw [← g3]
        unfold bit
        rw [hki]
      · rename_i hki
        have : ¬ k = probe s.f.bitCnt.toNat x seed := fun hc => hki (by rw [hc, g1])
        simp [this]
    have mono : ∀ y seeds, HasBits s.f y seeds → HasBits { s.f with bits := bits } y seeds := by
      intro y seeds hy z hz
      show bit { s.f with bits := bits } (probe s.f.bitCnt.toNat y z) = true
      rw [hbit' _ (probe_lt h.wf.pos _ _), hy z hz]
      rfl
    refine ⟨one_put o.one i fun _ j hj hc => hj (o.one j i hc ha), fun j => ?_, fun y hy => mono _ _ (o.added y hy),
      looks_put o.looks i (by intro _ _ _ e; cases e), o.answers, adds_put o.started i (by rw [e]; rfl)⟩
    by_cases hj : j = i
    · subst hj
      dsimp only
      rw [put_self]
      refine ⟨past ++ [seed], by simp [hsp], fun z hz => ?_⟩
      rcases List.mem_append.1 hz with hz | hz
      · exact mono _ _ hb z hz
      · rw [List.mem_singleton.1 hz]
        show bit { s.f with bits := bits } (probe s.f.bitCnt.toNat x seed) = true
        rw [hbit' _ (probe_lt h.wf.pos _ _)]
        simp
    · dsimp only
      rw [put_ne _ _ hj]
      have hn : ¬ (s.pc j).adding := fun hc => hj (o.one j i hc ha)
      cases hpj : s.pc j with
      | idle => trivial
      | add _ _ => rw [hpj] at hn; exact absurd trivial hn
      | loaded _ _ _ _ _ => rw [hpj] at hn; exact absurd trivial hn
      | look _ _ _ => trivial
  | addDone x e =>
    rw [e] at hp
    obtain ⟨past, hsp, hb⟩ := hp
    rw [List.append_nil] at hsp
    refine ⟨one_put o.one i fun hc => hc.elim, adder_put o.adder i (p := .idle) trivial, fun y hy => ?_,
      looks_put (fun j x b r e => ⟨fun a ha => List.mem_append_left _ ((o.looks j x b r e).1 a ha), (o.looks j x b r e).2⟩) i (by intro _ _ _ e; cases e), o.answers, fun a ha => ?_⟩
    · rcases List.mem_append.1 hy with hy | hy
      · exact o.added y hy
      · rw [List.mem_singleton.1 hy]
        show HasBits s.f x s.f.seeds
        rw [hsp]
        exact hb
    · rcases o.started a ha with h | ⟨j, hj⟩
      · exact .inl (List.mem_append_left _ h)
      · by_cases hji : j = i
        · subst hji
          rw [e] at hj
          simp only [Pc.adds, Option.some.injEq] at hj
          exact .inl (by rw [hj]; simp)
        · right
          exact ⟨j, by dsimp only; rw [put_ne _ _ hji]; exact hj⟩
  | callContains x e =>
    refine ⟨one_put o.one i fun hc => hc.elim, adder_put o.adder i (p := .look x s.added s.f.seeds) trivial, o.added,
      looks_put o.looks i ?_, o.answers, adds_put o.started i (by rw [e]; rfl)⟩
    intro y b r e
    cases e
    exact ⟨fun a ha => ha, fun a ha => ha⟩
  | absent x before seed rest index offset word e hpos hidx hn =>
    refine ⟨one_put o.one i fun hc => hc.elim, adder_put o.adder i (p := .idle) trivial, o.added, looks_put o.looks i (by intro _ _ _ e; cases e), fun a ha hm => ?_, adds_put o.started i (by rw [e]; rfl)⟩
    rcases List.mem_append.1 ha with ha | ha
    · exact o.answers a ha hm
    · rw [List.mem_singleton.1 ha] at hm
      obtain ⟨l1, l2⟩ := o.looks i x before _ e
      have hb := o.added x (l1 x hm) seed (l2 seed List.mem_cons_self)
      obtain ⟨g1, g2⟩ := pos_inv h.wf hpos
      have := (test_mask word offset (by omega)).1 hn
      rw [g2, word_bit h.wf hidx _ g1.symm, hb] at this
      cases this
  | present x before seed rest index offset word e hpos hidx hy =>
    obtain ⟨l1, l2⟩ := o.looks i x before _ e
    refine ⟨one_put o.one i fun hc => hc.elim, adder_put o.adder i (p := .look x before rest) trivial, o.added, looks_put o.looks i ?_, o.answers, adds_put o.started i (by rw [e]; rfl)⟩
    intro y b r e
    cases e
    exact ⟨l1, fun a ha => l2 a (List.mem_cons_of_mem _ ha)⟩
  | lookDone x before e =>
    refine ⟨one_put o.one i fun hc => hc.elim, adder_put o.adder i (p := .idle) trivial, o.added, looks_put o.looks i (by intro _ _ _ e; cases e), fun a ha hm => ?_, adds_put o.started i (by rw [e]; rfl)⟩
    rcases List.mem_append.1 ha with ha | ha
    · exact o.answers a ha hm
    · rw [List.mem_singleton.1 ha]

theorem one_reach {f : Filter} (w : Wf f) (hb : ∀ i, i < f.bitCnt.toNat → bit f i = false) {s : State} (r : Reach True f s) : One s := by
  induction r with
  | init => exact ⟨fun i j h => h.elim, fun _ => trivial, by simp [init], fun i h b r e => by simp [init] at e, by simp [init], by simp [init]⟩
  | step i r st ih => exact one_step (inv_reach w hb r) ih st

/-- **C144** If one goroutine adds at a time, any number of others may look at the same time: a hash whose `Add` had returned before `Contains` was called is found. -/
theorem C144_one_adder {b : BitVec 64} (h1 : 0 < b.toNat) (h2 : b.toNat ≤ 2 ^ 64 - 64) {k : Int} {random : Nat → BitVec 64} {f : Filter}
    (hf : new b k random = .ok f) {s : State} (r : Reach True f s) : ∀ a ∈ s.answers, a.hash ∈ a.before → a.result = true :=
  (one_reach (new_wf h1 h2 hf).1 (new_wf h1 h2 hf).2 r).answers

/-- **C144** And when nobody is adding, the filter is that of a single goroutine which has added the same hashes. -/
theorem C144_as_one {b : BitVec 64} (h1 : 0 < b.toNat) (h2 : b.toNat ≤ 2 ^ 64 - 64) {k : Int} {random : Nat → BitVec 64} {f : Filter}
    (hf : new b k random = .ok f) {s : State} (r : Reach True f s) (hn : ∀ j, ¬ (s.pc j).adding) (h : BitVec 64) :
    ∃ c, contains s.f h = .ok c ∧ (c = true ↔ mayContain f.bitCnt.toNat f.seeds s.added h) := by
  have hinv := inv_reach (new_wf h1 h2 hf).1 (new_wf h1 h2 hf).2 r
  have o := one_reach (new_wf h1 h2 hf).1 (new_wf h1 h2 hf).2 r
  have rep : Rep s.f s.added := by
    refine ⟨hinv.wf, fun i hi => ⟨fun hb => (hinv.bits i hi hb).mono fun a ha => ?_, ?_⟩⟩
    · rcases o.started a ha with h | ⟨j, hj⟩
      · exact h
      · exfalso
        apply hn j
        cases hp : s.pc j <;> rw [hp] at hj <;> first | trivial | cases hj
    · rintro ⟨a, ha, x, hx, rfl⟩
      exact o.added a ha x hx
  rw [← hinv.cnt, ← hinv.seeds]
  exact rep.contains h

theorem idx_bits {f : Filter} (w : Wf f) (h seed : BitVec 64) {n : Nat} (hn : n = probe f.bitCnt.toNat h seed / 64) :
    Go.idx f.bits n = .ok (f.bits.getD n 0#64) := by
  have hl := word_lt w h seed
  rw [← hn] at hl
  rw [Go.idx_of_lt _ _ hl, getD_of_lt hl]

/-- **C144 (refuted: with several adders what has been added is found).** A filter with one seed, and two hashes whose bits are in the same word: both goroutines read the word,
both write it, and the first bit is lost. Both `Add` calls have returned, yet `Contains` says no, then and for ever. -/
theorem C144_lost_refuted {b : BitVec 64} (h1 : 0 < b.toNat) (h2 : b.toNat ≤ 2 ^ 64 - 64) {k : Int} {random : Nat → BitVec 64} {f : Filter}
    (hf : new b k random = .ok f) {seed x y : BitVec 64} (hs : f.seeds = [seed])
    (hw : probe f.bitCnt.toNat x seed / 64 = probe f.bitCnt.toNat y seed / 64) (hd : probe f.bitCnt.toNat x seed ≠ probe f.bitCnt.toNat y seed) :
    ∃ s, Reach False f s ∧ (∀ j, s.pc j = .idle) ∧ s.added = [x, y] ∧ contains s.f x = .ok false := by
  obtain ⟨w, hb⟩ := new_wf h1 h2 hf
  obtain ⟨ix, ox, ex, hix, hox⟩ := pos_eq w x seed
  obtain ⟨iy, oy, ey, hiy, hoy⟩ := pos_eq w y seed
  have hxy : ix.toNat = iy.toNat := by rw [hix, hiy, hw]
  have lx := word_lt w x seed
  have ly := word_lt w y seed
  rw [← hix] at lx
  rw [← hiy] at ly
  let wd := f.bits.getD ix.toNat 0#64
  let bx := f.bits.set ix.toNat (wd ||| 1#64 <<< ox)
  let by' := bx.set iy.toNat (wd ||| 1#64 <<< oy)
  let p0 : Nat → Pc := fun _ => .idle
  let p1 := put p0 0 (.add x f.seeds)
  let p2 := put p1 1 (.add y f.seeds)
  let p3 := put p2 0 (.loaded x ix ox wd [])
  let p4 := put p3 1 (.loaded y iy oy wd [])
  let p5 := put p4 0 (.add x [])
  let p6 := put p5 1 (.add y [])
  let p7 := put p6 0 .idle
  let p8 := put p7 1 .idle
  have r0 : Reach False f ⟨f, p0, [], [], []⟩ := .init
  have r1 : Reach False f ⟨f, p1, [x], [], []⟩ := .step 0 r0 (.callAdd _ x rfl (fun h => h.elim))
  have r2 : Reach False f ⟨f, p2, [x, y], [], []⟩ := .step 1 r1 (.callAdd _ y rfl (fun h => h.elim))
  have r3 : Reach False f ⟨f, p3, [x, y], [], []⟩ :=
    .step 0 r2 (.load _ x seed [] ix ox wd (by show Pc.add x f.seeds = _; rw [hs]) ex (idx_bits w x seed hix))
  have r4 : Reach False f ⟨f, p4, [x, y], [], []⟩ :=
    .step 1 r3 (.load _ y seed [] iy oy wd (by show Pc.add y f.seeds = _; rw [hs]) ey (by rw [idx_bits w y seed hiy, ← hxy]))
  have r5 : Reach False f ⟨{ f with bits := bx }, p5, [x, y], [], []⟩ :=
    .step 0 r4 (.store _ x ix ox wd [] bx rfl (by rw [Go.set_of_lt _ _ _ lx]))
  have e6 : Go.set bx iy.toNat (wd ||| 1#64 <<< oy) = .ok by' := Go.set_of_lt _ _ _ (by simpa [bx] using ly)
  have r6 : Reach False f ⟨{ f with bits := by' }, p6, [x, y], [], []⟩ := .step 1 r5 (.store _ y iy oy wd [] by' rfl e6)
  have r7 : Reach False f ⟨{ f with bits := by' }, p7, [x, y], [x], []⟩ := .step 0 r6 (.addDone _ x rfl)
  have r8 : Reach False f ⟨{ f with bits := by' }, p8, [x, y], [x, y], []⟩ := .step 1 r7 (.addDone _ y rfl)
  refine ⟨_, r8, fun j => ?_, rfl, ?_⟩
  · show p8 j = .idle
    by_cases hj1 : j = 1
    · subst hj1; rfl
    by_cases hj0 : j = 0
    · subst hj0; rfl
    simp only [p8, p7, p6, p5, p4, p3, p2, p1, p0]
    simp only [put_ne _ _ hj1, put_ne _ _ hj0]
  · have w5 : Wf { f with bits := bx } := ⟨w.pos, by simpa [bx] using w.len⟩
    obtain ⟨w6, hb6⟩ := bit_store (f := { f with bits := bx }) w5 hiy hoy e6
    have hx : bit { f with bits := by' } (probe f.bitCnt.toNat x seed) = false := by
      have := hb6 (probe f.bitCnt.toNat x seed) (probe_lt w.pos _ _)
      rw [if_pos (by rw [hw, hiy])] at this
      refine this.trans ?_
      have hwd : wd.getLsbD (probe f.bitCnt.toNat x seed % 64) = bit f (probe f.bitCnt.toNat x seed) := by
        show (f.bits.getD ix.toNat 0#64).getLsbD _ = _
        unfold bit
        rw [hix]
      rw [hwd, hb _ (probe_lt w.pos _ _)]
      simp [hd]
    obtain ⟨c, ec, hc⟩ := containsLoop_spec w6 x f.seeds
    unfold contains
    show containsLoop { f with bits := by' } x f.seeds = _
    refine ec.trans ?_
    cases c with
    | false => rfl
    | true =>
      have := hc.1 rfl seed (by rw [hs]; simp)
      rw [show bit { f with bits := by' } (probe f.bitCnt.toNat x seed) = true from this] at hx
      cases hx

/-- Hashes 0 and 1 in a filter of 64 bits with the seed 0. -/
example : ∃ f, new 64#64 1 (fun _ => 0#64) = .ok f ∧ f.seeds = [0#64] ∧ f.bitCnt.toNat = 64 ∧ probe 64 0#64 0#64 / 64 = probe 64 1#64 0#64 / 64 ∧
    probe 64 0#64 0#64 ≠ probe 64 1#64 0#64 := ⟨_, rfl, by decide, by decide, by decide, by decide⟩

end Verif.BloomConc
