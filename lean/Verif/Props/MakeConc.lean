import Verif.Model.MakeConc
import Verif.Proof.Mutex

/-! # Property C180: several calls of `MakeFile` with one file name -/

namespace Verif.MakeConc

open Utf8
open Mutex (put put_self put_ne)

namespace Spec

/-- The bytes that go to file `f`, from a log of writes. -/
def into (f : Nat) (log : List (Nat × Nat × Bytes)) : Bytes := (log.filter (fun e => e.1 = f)).flatMap (fun e => e.2.2)

/-- The bytes that call `i` writes. -/
def from' (i : Nat) (log : List (Nat × Nat × Bytes)) : Bytes := (log.filter (fun e => e.2.1 = i)).flatMap (fun e => e.2.2)

end Spec

theorem into_snoc (f : Nat) (log : List (Nat × Nat × Bytes)) (e : Nat × Nat × Bytes) :
    Spec.into f (log ++ [e]) = Spec.into f log ++ if e.1 = f then e.2.2 else [] := by
  unfold Spec.into
  rw [List.filter_append, List.flatMap_append]
  by_cases h : e.1 = f <;> simp [h]

theorem from_snoc (i : Nat) (log : List (Nat × Nat × Bytes)) (e : Nat × Nat × Bytes) :
    Spec.from' i (log ++ [e]) = Spec.from' i log ++ if e.2.1 = i then e.2.2 else [] := by
  unfold Spec.from'
  rw [List.filter_append, List.flatMap_append]
  by_cases h : e.2.1 = i <;> simp [h]

/-- How far a call is, and the file it writes to. -/
def written : Pc → Option (Nat × Bytes)
  | .writing cs f k o => some (f, (cs.take k).flatten ++ (cs[k]?.getD []).take o)
  | .returned cs f true => some (f, cs.flatten)
  | _ => none

def early : Pc → Bool
  | .idle | .opening _ => true
  | _ => false

/-- A call that has met an error. -/
def failed : Pc → Bool
  | .removing _ | .returned _ _ false => true
  | _ => false

structure Inv (old : Option Bytes) (s : State) : Prop where
  data : ∀ f, f < s.next → s.data f = (if f = 0 then old.getD [] else []) ++ Spec.into f s.log
  path : ∀ f, s.path = some f → f < s.next
  opened : ∀ i p, written (s.pc i) = some p → p.1 < s.next ∧ Spec.from' i s.log = p.2 ∧ ∀ e ∈ s.log, e.2.1 = i → e.1 = p.1
  fresh : ∀ i, early (s.pc i) = true → ∀ e ∈ s.log, e.2.1 ≠ i
  bound : ∀ i cs f k o, s.pc i = .writing cs f k o → k ≤ cs.length
  low : ∀ e ∈ s.log, e.1 < s.next
  pos : old ≠ none → 0 < s.next
  clean : (∀ i, failed (s.pc i) = false) → s.next ≤ 1 ∧ (s.path = none → s.next = 0)

theorem inv_init (old : Option Bytes) : Inv old (init old) := by
  cases old with
  | none =>
    refine ⟨fun f h => absurd h (by simp [init]), fun f h => by simp [init] at h, fun i p h => by simp [init, written] at h,
      fun i _ e he => by simp [init] at he, fun i cs f k o h => by simp [init] at h, fun e he => by simp [init] at he,
      fun h => absurd rfl h, fun _ => by simp [init]⟩
  | some c =>
    refine ⟨fun f h => ?_, fun f h => ?_, fun i p h => by simp [init, written] at h,
      fun i _ e he => by simp [init] at he, fun i cs f k o h => by simp [init] at h, fun e he => by simp [init] at he,
      fun _ => by simp [init], fun _ => by simp [init]⟩
    · have : f = 0 := by simp only [init] at h; omega
      subst this
      simp [init, Spec.into]
    · simp only [init, Option.some.injEq] at h ⊢
      omega

theorem from_none {log : List (Nat × Nat × Bytes)} {i : Nat} (h : ∀ e ∈ log, e.2.1 ≠ i) : Spec.from' i log = [] := by
  unfold Spec.from'
  rw [List.filter_eq_nil_iff.2 (fun e he => by simpa using h e he)]
  rfl

theorem into_none {log : List (Nat × Nat × Bytes)} {f : Nat} (h : ∀ e ∈ log, e.1 ≠ f) : Spec.into f log = [] := by
  unfold Spec.into
  rw [List.filter_eq_nil_iff.2 (fun e he => by simpa using h e he)]
  rfl

theorem take_more (c : Bytes) (o m : Nat) : c.take o ++ (c.drop o).take m = c.take (o + ((c.drop o).take m).length) := by
  rw [List.take_add]
  congr 1
  rw [List.length_take, List.take_eq_take_iff]
  omega

/-- Only the place of one call changes (and perhaps the path is emptied). -/
theorem Inv.move {old : Option Bytes} {s : State} (h : Inv old s) (i : Nat) (p : Pc) (path' : Option Nat)
    (hp : path' = s.path ∨ path' = none ∧ failed p = true)
    (hw : ∀ q, written p = some q → q.1 < s.next ∧ Spec.from' i s.log = q.2 ∧ ∀ e ∈ s.log, e.2.1 = i → e.1 = q.1)
    (he : early p = true → early (s.pc i) = true) (hf : failed (s.pc i) = true → failed p = true)
    (hb : ∀ cs f k o, p = .writing cs f k o → k ≤ cs.length) :
    Inv old { s with path := path', pc := put s.pc i p } := by
  refine ⟨h.data, ?_, ?_, ?_, ?_, h.low, h.pos, ?_⟩
  · intro f hx
    dsimp only at hx ⊢
    rcases hp with hp | ⟨hp, -⟩
    · exact h.path f (hp ▸ hx)
    · rw [hp] at hx; cases hx
  · intro j q hq
    dsimp only at hq ⊢
    by_cases e : j = i
    · subst e
      rw [put_self] at hq
      exact hw q hq
    · rw [put_ne _ _ e] at hq
      exact h.opened j q hq
  · intro j hj
    dsimp only at hj ⊢
    by_cases e : j = i
    · subst e
      rw [put_self] at hj
      exact h.fresh j (he hj)
    · rw [put_ne _ _ e] at hj
      exact h.fresh j hj
  · intro j cs f k o hj
    dsimp only at hj
    by_cases e : j = i
    · subst e
      rw [put_self] at hj
      exact hb cs f k o hj
    · rw [put_ne _ _ e] at hj
      exact h.bound j cs f k o hj
  · intro hc
    dsimp only at hc ⊢
    have hi := hc i
    rw [put_self] at hi
    have hall : ∀ j, failed (s.pc j) = false := by
      intro j
      by_cases e : j = i
      · subst e
        cases hx : failed (s.pc j) with
        | false => rfl
        | true => rw [hf hx] at hi; cases hi
      · have := hc j
        rw [put_ne _ _ e] at this
        exact this
    rcases hp with hp | ⟨-, hp⟩
    · rw [hp]; exact h.clean hall
    · rw [hp] at hi; cases hi

theorem inv_open {old : Option Bytes} {s : State} (h : Inv old s) {i : Nat} {cs : List Bytes} (hi : s.pc i = .opening cs) (hf : s.path = none) :
    Inv old { s with path := some s.next, data := put s.data s.next [], next := s.next + 1, pc := put s.pc i (.writing cs s.next 0 0) } := by
  have hn : ∀ e ∈ s.log, e.2.1 ≠ i := h.fresh i (by rw [hi]; rfl)
  refine ⟨?_, ?_, ?_, ?_, ?_, ?_, fun _ => Nat.succ_pos _, ?_⟩
  · intro f hlt
    dsimp only at hlt ⊢
    by_cases hfe : f = s.next
    · subst hfe
      rw [put_self, into_none (fun e he => by have := h.low e he; omega), List.append_nil]
      split
      · rename_i h0
        cases old with
        | none => rfl
        | some c => have := h.pos (by simp); omega
      · rfl
    · rw [put_ne _ _ hfe]
      exact h.data f (by omega)
  · intro f hx
    dsimp only at hx ⊢
    cases hx
    omega
  · intro j q hq
    dsimp only at hq ⊢
    by_cases ej : j = i
    · subst ej
      rw [put_self] at hq
      simp only [written, List.take_zero, List.flatten_nil, List.append_nil, Option.some.injEq] at hq
      subst hq
      exact ⟨by dsimp only; omega, from_none hn, fun e he hx => absurd hx (hn e he)⟩
    · rw [put_ne _ _ ej] at hq
      obtain ⟨a1, a2, a3⟩ := h.opened j q hq
      exact ⟨by omega, a2, a3⟩
  · intro j hj
    dsimp only at hj ⊢
    by_cases ej : j = i
    · subst ej; exact hn
    · rw [put_ne _ _ ej] at hj
      exact h.fresh j hj
  · intro j cs' f k o hj
    dsimp only at hj
    by_cases ej : j = i
    · subst ej
      rw [put_self] at hj
      cases hj
      exact Nat.zero_le _
    · rw [put_ne _ _ ej] at hj
      exact h.bound j cs' f k o hj
  · intro e he
    have := h.low e he
    dsimp only
    omega
  · intro hc
    dsimp only at hc ⊢
    have hall : ∀ j, failed (s.pc j) = false := by
      intro j
      by_cases e : j = i
      · subst e; rw [hi]; rfl
      · have := hc j
        rw [put_ne _ _ e] at this
        exact this
    have := (h.clean hall).2 hf
    exact ⟨by omega, fun x => by cases x⟩

theorem inv_wrote {old : Option Bytes} {s : State} (h : Inv old s) {i m f k o : Nat} {cs : List Bytes} {c : Bytes}
    (hi : s.pc i = .writing cs f k o) (hk : cs[k]? = some c) :
    Inv old { s with data := put s.data f (s.data f ++ (c.drop o).take m),
                     pc := put s.pc i (.writing cs f k (o + ((c.drop o).take m).length)), log := s.log ++ [(f, i, (c.drop o).take m)] } := by
  obtain ⟨b1, b2, b3⟩ := h.opened i (f, (cs.take k).flatten ++ (cs[k]?.getD []).take o) (by rw [hi]; rfl)
  dsimp only at b1 b2 b3
  refine ⟨?_, h.path, ?_, ?_, ?_, ?_, h.pos, ?_⟩
  · intro g hg
    dsimp only at hg ⊢
    rw [into_snoc]
    dsimp only
    by_cases e : g = f
    · subst e
      have h1 : (if g = g then (c.drop o).take m else []) = (c.drop o).take m := if_pos rfl
      rw [put_self, h.data g hg, h1, List.append_assoc]
    · have h1 : (if f = g then (c.drop o).take m else []) = [] := if_neg (fun x => e x.symm)
      rw [put_ne _ _ e, h1, List.append_nil]
      exact h.data g hg
  · intro j q hq
    dsimp only at hq ⊢
    by_cases e : j = i
    · subst e
      rw [put_self] at hq
      simp only [written, Option.some.injEq] at hq
      subst hq
      refine ⟨b1, ?_, ?_⟩
      · rw [from_snoc, if_pos rfl, b2, hk]
        dsimp only [Option.getD_some]
        rw [List.append_assoc, take_more]
      · intro x hx hxi
        rcases List.mem_append.1 hx with hx | hx
        · exact b3 x hx hxi
        · rw [List.mem_singleton.1 hx]
    · rw [put_ne _ _ e] at hq
      obtain ⟨a1, a2, a3⟩ := h.opened j q hq
      refine ⟨a1, ?_, ?_⟩
      · rw [from_snoc, if_neg (fun x => e x.symm), List.append_nil]; exact a2
      · intro x hx hxi
        rcases List.mem_append.1 hx with hx | hx
        · exact a3 x hx hxi
        · rw [List.mem_singleton.1 hx] at hxi
          exact absurd hxi.symm e
  · intro j hj x hx
    dsimp only at hj hx
    by_cases e : j = i
    · subst e
      rw [put_self] at hj
      cases hj
    · rw [put_ne _ _ e] at hj
      rcases List.mem_append.1 hx with hx | hx
      · exact h.fresh j hj x hx
      · rw [List.mem_singleton.1 hx]
        exact fun y => e y.symm
  · intro j cs' f' k' o' hj
    dsimp only at hj
    by_cases e : j = i
    · subst e
      rw [put_self] at hj
      cases hj
      exact h.bound j cs f k o hi
    · rw [put_ne _ _ e] at hj
      exact h.bound j cs' f' k' o' hj
  · intro x hx
    dsimp only at hx ⊢
    rcases List.mem_append.1 hx with hx | hx
    · exact h.low x hx
    · rw [List.mem_singleton.1 hx]; exact b1
  · intro hc
    dsimp only at hc ⊢
    refine h.clean (fun j => ?_)
    by_cases e : j = i
    · subst e; rw [hi]; rfl
    · have := hc j
      rw [put_ne _ _ e] at this
      exact this

theorem inv_step {old : Option Bytes} {s s' : State} {a : Act} (h : Inv old s) (e : exec s a = some s') : Inv old s' := by
  cases a with
  | call i cs =>
    unfold exec at e
    dsimp only at e
    split at e
    · rename_i hi
      cases e
      exact h.move i (.opening cs) s.path (Or.inl rfl) (fun q hq => by simp [written] at hq) (fun _ => by rw [hi]; rfl)
        (fun x => by rw [hi] at x; cases x) (fun _ _ _ _ x => by cases x)
    · cases e
  | step i =>
    unfold exec at e
    dsimp only at e
    split at e
    · rename_i cs hi
      split at e
      · rename_i f hf
        cases e
        have hn : ∀ e ∈ s.log, e.2.1 ≠ i := h.fresh i (by rw [hi]; rfl)
        refine h.move i (.writing cs f 0 0) s.path (Or.inl rfl) (fun q hq => ?_) (fun x => by cases x)
          (fun x => by rw [hi] at x; cases x) (fun _ _ _ _ x => by cases x; exact Nat.zero_le _)
        simp only [written, List.take_zero, List.flatten_nil, List.append_nil, Option.some.injEq] at hq
        subst hq
        exact ⟨h.path f hf, from_none hn, fun e he hx => absurd hx (hn e he)⟩
      · rename_i hf
        cases e
        exact inv_open h hi hf
    · rename_i cs f k o hi
      obtain ⟨b1, b2, b3⟩ := h.opened i (f, (cs.take k).flatten ++ (cs[k]?.getD []).take o) (by rw [hi]; rfl)
      split at e
      · rename_i hk
        cases e
        refine h.move i (.returned cs f true) s.path (Or.inl rfl) (fun q hq => ?_) (fun x => by cases x)
          (fun x => by rw [hi] at x; cases x) (fun _ _ _ _ x => by cases x)
        simp only [written, Option.some.injEq] at hq
        subst hq
        refine ⟨b1, ?_, b3⟩
        rw [b2, hk, List.take_of_length_le (List.getElem?_eq_none_iff.1 hk)]
        simp
      · rename_i c hk
        split at e
        · rename_i ho
          cases e
          have hlt : k < cs.length := (List.getElem?_eq_some_iff.1 hk).1
          refine h.move i (.writing cs f (k + 1) 0) s.path (Or.inl rfl) (fun q hq => ?_) (fun x => by cases x)
            (fun x => by rw [hi] at x; cases x) (fun _ _ _ _ x => by cases x; exact hlt)
          simp only [written, Option.some.injEq] at hq
          subst hq
          refine ⟨b1, ?_, b3⟩
          rw [b2, hk, ho]
          dsimp only [Option.getD_some]
          rw [List.take_length, List.take_zero, List.append_nil, List.take_add_one, hk]
          simp
        · cases e
    · rename_i cs hi
      cases e
      exact h.move i (.returned cs 0 false) none (Or.inr ⟨rfl, rfl⟩) (fun q hq => by simp [written] at hq) (fun x => by cases x)
        (fun _ => rfl) (fun _ _ _ _ x => by cases x)
    · cases e
  | wrote i m =>
    unfold exec at e
    dsimp only at e
    split at e
    · rename_i cs f k o hi
      split at e
      · cases e
      · rename_i c hk
        cases e
        exact inv_wrote h hi hk
    · cases e
  | fail i =>
    unfold exec at e
    dsimp only at e
    split at e
    · rename_i cs hi
      cases e
      exact h.move i (.returned cs 0 false) s.path (Or.inl rfl) (fun q hq => by simp [written] at hq) (fun x => by cases x)
        (fun _ => rfl) (fun _ _ _ _ x => by cases x)
    · rename_i cs f k o hi
      split at e
      · cases e
        exact h.move i (.removing cs) s.path (Or.inl rfl) (fun q hq => by simp [written] at hq) (fun x => by cases x)
          (fun _ => rfl) (fun _ _ _ _ x => by cases x)
      · cases e
    · rename_i cs hi
      cases e
      exact h.move i (.returned cs 0 false) s.path (Or.inl rfl) (fun q hq => by simp [written] at hq) (fun x => by cases x)
        (fun _ => rfl) (fun _ _ _ _ x => by cases x)
    · cases e

theorem inv_execs {old : Option Bytes} : ∀ (as : List Act) {s s' : State}, Inv old s → execs as s = some s' → Inv old s'
  | [], s, s', h, e => by cases e; exact h
  | a :: as, s, s', h, e => by
    unfold execs at e
    cases hx : exec s a with
    | none => rw [hx] at e; cases e
    | some s1 => rw [hx] at e; exact inv_execs as (inv_step h hx) e

/-- **C180 (what is in the file).** Whatever the calls do and in whatever order: every file holds what was there before and then pieces of the calls; and a call that reports success has
put all its chunks, in order, into one file. -/
theorem C180_pieces {old : Option Bytes} {as : List Act} {s : State} (e : execs as (init old) = some s) :
    ∃ log, (∀ f, f < s.next → s.data f = (if f = 0 then old.getD [] else []) ++ Spec.into f log) ∧
      ∀ i cs f, s.pc i = .returned cs f true → f < s.next ∧ Spec.from' i log = cs.flatten ∧ ∀ x ∈ log, x.2.1 = i → x.1 = f := by
  have h := inv_execs as (inv_init old) e
  refine ⟨s.log, h.data, fun i cs f hi => ?_⟩
  obtain ⟨a, b, c⟩ := h.opened i (f, cs.flatten) (by rw [hi]; rfl)
  exact ⟨a, b, c⟩

theorem from_sub_into {i f : Nat} : ∀ {log : List (Nat × Nat × Bytes)}, (∀ x ∈ log, x.2.1 = i → x.1 = f) →
    (Spec.from' i log).Sublist (Spec.into f log)
  | [], _ => List.Sublist.refl _
  | x :: log, h => by
    have ih := from_sub_into (fun y hy => h y (List.mem_cons_of_mem _ hy))
    unfold Spec.from' Spec.into at ih ⊢
    by_cases hi : x.2.1 = i
    · have hf := h x List.mem_cons_self hi
      rw [List.filter_cons_of_pos (by simpa using hi), List.filter_cons_of_pos (by simpa using hf), List.flatMap_cons, List.flatMap_cons]
      exact List.Sublist.append (List.Sublist.refl _) ih
    · rw [List.filter_cons_of_neg (by simpa using hi)]
      by_cases hf : x.1 = f
      · rw [List.filter_cons_of_pos (by simpa using hf), List.flatMap_cons]
        exact ih.trans (List.sublist_append_right _ _)
      · rw [List.filter_cons_of_neg (by simpa using hf)]
        exact ih

/-- The bytes of all calls together. -/
theorem into_perm {f : Nat} {is : List Nat} (hd : is.Nodup) : ∀ {log : List (Nat × Nat × Bytes)}, (∀ x ∈ log, x.1 = f ∧ x.2.1 ∈ is) →
    (Spec.into f log).Perm (is.flatMap (fun i => Spec.from' i log))
  | [], _ => by
    have : (is.flatMap fun i => Spec.from' i []) = [] := by
      rw [List.flatMap_eq_nil_iff]; intro _ _; rfl
    rw [this]; exact List.Perm.refl _
  | x :: log, h => by
    have ih := into_perm hd (fun y hy => h y (List.mem_cons_of_mem _ hy))
    obtain ⟨hf, hm⟩ := h x List.mem_cons_self
    have h1 : Spec.into f (x :: log) = x.2.2 ++ Spec.into f log := by
      unfold Spec.into
      rw [List.filter_cons_of_pos (by simpa using hf), List.flatMap_cons]
    have h2 : ∀ i, Spec.from' i (x :: log) = (if x.2.1 = i then x.2.2 else []) ++ Spec.from' i log := by
      intro i
      unfold Spec.from'
      by_cases e : x.2.1 = i <;> simp [e]
    rw [h1]
    obtain ⟨l, r, rfl⟩ := List.append_of_mem hm
    have hl : x.2.1 ∉ l ∧ x.2.1 ∉ r := by
      rw [List.nodup_append] at hd
      exact ⟨fun q => hd.2.2 _ q _ List.mem_cons_self rfl, (List.nodup_cons.1 hd.2.1).1⟩
    have keep : ∀ ks : List Nat, x.2.1 ∉ ks → (ks.flatMap fun i => Spec.from' i (x :: log)) = ks.flatMap fun i => Spec.from' i log := by
      intro ks hk
      induction ks with
      | nil => rfl
      | cons k ks ihk =>
        rw [List.flatMap_cons, List.flatMap_cons, ihk (fun q => hk (List.mem_cons_of_mem _ q)), h2 k,
          if_neg (fun (q : x.2.1 = k) => hk (by rw [q]; exact List.mem_cons_self)), List.nil_append]
    rw [List.flatMap_append, List.flatMap_cons, keep l hl.1, keep r hl.2, h2, if_pos rfl]
    rw [List.flatMap_append, List.flatMap_cons] at ih
    refine (List.Perm.append_left x.2.2 ih).trans ?_
    rw [← List.append_assoc]
    refine (List.Perm.append_right _ List.perm_append_comm).trans ?_
    rw [List.append_assoc, List.append_assoc]

/-- **C180 (no call fails).** When the calls `is` have all succeeded and nobody else has called, the path has a file with what was there before, followed by the bytes of all the calls: none is lost, none is
there twice, and those of each call are in order. -/
theorem C180_together {old : Option Bytes} {as : List Act} {s : State} (e : execs as (init old) = some s) {is : List Nat} (hd : is.Nodup) (hne : is ≠ [])
    {cs : Nat → List Bytes} (hok : ∀ i ∈ is, ∃ f, s.pc i = .returned (cs i) f true) (ho : ∀ j, j ∉ is → s.pc j = .idle) :
    ∃ f x, s.path = some f ∧ s.data f = old.getD [] ++ x ∧ x.Perm (is.flatMap fun i => (cs i).flatten) ∧ ∀ i ∈ is, ((cs i).flatten).Sublist x := by
  have h := inv_execs as (inv_init old) e
  have hcl := h.clean (fun i => by
    by_cases hi : i ∈ is
    · obtain ⟨f, hf⟩ := hok i hi; rw [hf]; rfl
    · rw [ho i hi]; rfl)
  have hw : ∀ i ∈ is, 0 < s.next ∧ Spec.from' i s.log = (cs i).flatten ∧ ∀ x ∈ s.log, x.2.1 = i → x.1 = 0 := by
    intro i hi
    obtain ⟨f, hf⟩ := hok i hi
    obtain ⟨a, b, c⟩ := h.opened i (f, (cs i).flatten) (by rw [hf]; rfl)
    dsimp only at a b c
    have : f = 0 := by have := hcl.1; omega
    subst this
    exact ⟨a, b, c⟩
  obtain ⟨i0, hi0⟩ := List.exists_mem_of_ne_nil is hne
  have hpos := (hw i0 hi0).1
  have hp : s.path = some 0 := by
    cases hx : s.path with
    | none => have := hcl.2 hx; omega
    | some f => have := h.path f hx; have := hcl.1; congr 1; omega
  have hin : ∀ x ∈ s.log, x.1 = 0 ∧ x.2.1 ∈ is := by
    intro x hx
    by_cases hm : x.2.1 ∈ is
    · exact ⟨(hw _ hm).2.2 x hx rfl, hm⟩
    · exact absurd rfl (h.fresh x.2.1 (by rw [ho _ hm]; rfl) x hx)
  refine ⟨0, Spec.into 0 s.log, hp, by rw [h.data 0 hpos, if_pos rfl], ?_, ?_⟩
  · have h1 := into_perm hd hin
    have h2 : (is.flatMap fun i => Spec.from' i s.log) = is.flatMap fun i => (cs i).flatten := by
      have : ∀ ks : List Nat, (∀ k ∈ ks, k ∈ is) → (ks.flatMap fun i => Spec.from' i s.log) = ks.flatMap fun i => (cs i).flatten := by
        intro ks hk
        induction ks with
        | nil => rfl
        | cons k ks ihk =>
          rw [List.flatMap_cons, List.flatMap_cons, ihk (fun q hq => hk q (List.mem_cons_of_mem _ hq)), (hw k (hk k List.mem_cons_self)).2.1]
      exact this is (fun _ q => q)
    rwa [h2] at h1
  · intro i hi
    rw [← (hw i hi).2.1]
    exact from_sub_into (hw i hi).2.2

/-- **C180 (one call).** A call that is alone and succeeds leaves at the path what was there before and then its chunks. -/
theorem C180_alone {old : Option Bytes} {as : List Act} {s : State} (e : execs as (init old) = some s) {i f : Nat} {cs : List Bytes}
    (hi : s.pc i = .returned cs f true) (ho : ∀ j, j ≠ i → s.pc j = .idle) :
    ∃ g, s.path = some g ∧ s.data g = old.getD [] ++ cs.flatten := by
  obtain ⟨g, x, h1, h2, h3, h4⟩ := C180_together e (is := [i]) (by simp) (by simp) (cs := fun _ => cs)
    (fun j hj => by rw [List.mem_singleton.1 hj]; exact ⟨f, hi⟩) (fun j hj => ho j (by simpa using hj))
  have h5 := (h4 i (by simp)).eq_of_length (by have := h3.length_eq; simpa using this.symm)
  exact ⟨g, h1, by rw [h2, ← h5]⟩

/-- What can be seen of a state: the first two calls, the path, the first file. -/
def view (s : State) : Pc × Pc × Option Nat × Bytes := (s.pc 0, s.pc 1, s.path, s.data 0)

theorem of_view {as : List Act} {old : Option Bytes} {v : Pc × Pc × Option Nat × Bytes} (h : (execs as (init old)).map view = some v) :
    ∃ s, execs as (init old) = some s ∧ s.pc 0 = v.1 ∧ s.pc 1 = v.2.1 ∧ s.path = v.2.2.1 ∧ s.data 0 = v.2.2.2 := by
  cases e : execs as (init old) with
  | none => rw [e] at h; cases h
  | some s =>
    rw [e] at h
    cases h
    exact ⟨s, rfl, rfl, rfl, rfl, rfl⟩

/-- Two calls for the same upload, taking turns. -/
def mixed : List Act :=
  [.call 0 [[1, 2], [3]], .call 1 [[1, 2], [3]], .step 0, .step 1, .wrote 0 2, .wrote 1 2, .step 0, .step 1, .wrote 0 1, .wrote 1 1, .step 0, .step 1, .step 0, .step 1]

/-- **C180 (refuted: the file is the upload, or the upload twice).** Two calls for one upload both succeed, and the file has its chunks mixed. -/
theorem C180_mixed_refuted : ∃ s, execs mixed (init none) = some s ∧ s.pc 0 = .returned [[1, 2], [3]] 0 true ∧ s.pc 1 = .returned [[1, 2], [3]] 0 true ∧
    s.path = some 0 ∧ s.data 0 = [1, 2, 1, 2, 3, 3] :=
  of_view (v := (.returned [[1, 2], [3]] 0 true, .returned [[1, 2], [3]] 0 true, some 0, [1, 2, 1, 2, 3, 3])) (by decide +kernel)

/-- One call writes half of its chunk, another does all its work, then the first fails. -/
def gone : List Act :=
  [.call 0 [[1, 2]], .call 1 [[1, 2]], .step 0, .wrote 0 1, .step 1, .fail 0, .wrote 1 2, .step 1, .step 1, .step 0]

/-- **C180 (refuted: a success means that the file is there).** A call succeeds; another one, which fails, then removes the file. -/
theorem C180_gone_refuted : ∃ s, execs gone (init none) = some s ∧ s.pc 0 = .returned [[1, 2]] 0 false ∧ s.pc 1 = .returned [[1, 2]] 0 true ∧ s.path = none ∧
    s.data 0 = [1, 1, 2] :=
  of_view (v := (.returned [[1, 2]] 0 false, .returned [[1, 2]] 0 true, none, [1, 1, 2])) (by decide +kernel)

/-- The file is removed first; the other call goes on writing to what nobody can open any more, and reports success. -/
def unlinked : List Act :=
  [.call 0 [[1, 2]], .call 1 [[1, 2]], .step 0, .wrote 0 1, .step 1, .fail 0, .step 0]

/-- **C180 (refuted: what a call writes is written to the path).** The file is gone before call 1 writes its first byte; it still writes all and succeeds. -/
theorem C180_unlinked_refuted : (∃ s, execs unlinked (init none) = some s ∧ s.pc 0 = .returned [[1, 2]] 0 false ∧ s.pc 1 = .writing [[1, 2]] 0 0 0 ∧ s.path = none ∧ s.data 0 = [1]) ∧
    ∃ s, execs (unlinked ++ [.wrote 1 2, .step 1, .step 1]) (init none) = some s ∧ s.pc 0 = .returned [[1, 2]] 0 false ∧ s.pc 1 = .returned [[1, 2]] 0 true ∧ s.path = none ∧
      s.data 0 = [1, 1, 2] :=
  ⟨of_view (v := (.returned [[1, 2]] 0 false, .writing [[1, 2]] 0 0 0, none, [1])) (by decide +kernel),
   of_view (v := (.returned [[1, 2]] 0 false, .returned [[1, 2]] 0 true, none, [1, 1, 2])) (by decide +kernel)⟩

/-- Who acts. -/
def actor : Act → Nat
  | .call i _ | .step i | .wrote i _ | .fail i => i

theorem exec_other {s s' : State} {a : Act} {j : Nat} (h : j ≠ actor a) (e : exec s a = some s') : s'.pc j = s.pc j := by
  cases a <;> unfold exec at e <;> dsimp only [actor] at e h <;> (repeat' split at e) <;> first | cases e; done | (cases e; exact put_ne _ _ h)

theorem execs_other {j : Nat} : ∀ {as : List Act} {s s' : State}, (∀ a ∈ as, j ≠ actor a) → execs as s = some s' → s'.pc j = s.pc j
  | [], _, _, _, e => by cases e; rfl
  | a :: as, s, s', h, e => by
    unfold execs at e
    cases hx : exec s a with
    | none => rw [hx] at e; cases e
    | some s1 =>
      rw [hx] at e
      rw [execs_other (fun b hb => h b (List.mem_cons_of_mem _ hb)) e, exec_other (h a List.mem_cons_self) hx]

/-- The hypotheses of `C180_together` hold for two calls that take turns, with a file there before. -/
example : ∃ s, execs mixed (init (some [9])) = some s ∧ s.data 0 = [9, 1, 2, 1, 2, 3, 3] ∧
    (∀ i ∈ [0, 1], ∃ f, s.pc i = .returned [[1, 2], [3]] f true) ∧ ∀ j, j ∉ [0, 1] → s.pc j = .idle := by
  obtain ⟨s, h, h0, h1, -, h3⟩ := of_view (as := mixed) (old := some [9])
    (v := (.returned [[1, 2], [3]] 0 true, .returned [[1, 2], [3]] 0 true, some 0, [9, 1, 2, 1, 2, 3, 3])) (by decide +kernel)
  refine ⟨s, h, h3, ?_, ?_⟩
  · intro i hi
    rcases List.mem_cons.1 hi with rfl | hi
    · exact ⟨0, h0⟩
    · rw [List.mem_singleton.1 hi]; exact ⟨0, h1⟩
  · intro j hj
    rw [execs_other (as := mixed) (fun a ha => ?_) h]
    · rfl
    · have : actor a ∈ [0, 1] := by
        have hall : ∀ b ∈ mixed, actor b ∈ [0, 1] := by decide +kernel
        exact hall a ha
      exact fun x => hj (x ▸ this)

/-- One call alone; its second chunk is empty. -/
example : ∃ s, execs [.call 0 [[1, 2], []], .step 0, .wrote 0 1, .wrote 0 5, .step 0, .step 0, .step 0] (init (some [7])) = some s ∧
    s.pc 0 = .returned [[1, 2], []] 0 true ∧ s.pc 1 = .idle ∧ s.path = some 0 ∧ s.data 0 = [7, 1, 2] :=
  of_view (v := (.returned [[1, 2], []] 0 true, .idle, some 0, [7, 1, 2])) (by decide +kernel)

end Verif.MakeConc
