import Verif.Model.SafeMap
import Verif.Proof.RWMutex
import Mathlib.Data.List.Nodup
import Mathlib.Data.List.Perm.Basic

/-!
# C92: `Map` is linearizable (help/utils/maps.go)
-/

namespace Verif.SafeMap

open Mutex (Seq Exec Done Ev)

/-! ## Specification: a partial function -/

/-- A list of all pairs of the partial function, each once. -/
def Graph (f : Nat → Option Val) (ps : List (Nat × Val)) : Prop :=
  (ps.map (·.1)).Nodup ∧ ∀ k v, (k, v) ∈ ps ↔ f k = some v

/-- What one call does to an atomic map. -/
def Spec (op : Op) (f f' : Nat → Option Val) (r : Res) : Prop :=
  match op with
  | .get k => f' = f ∧ r = .val ((f k).getD none)
  | .set k v => (f' = fun x => if x = k then some v else f x) ∧ r = .unit
  | .testAndSet k v =>
    match f k with
    | some w => f' = f ∧ r = .val w
    | none => (f' = fun x => if x = k then some v else f x) ∧ r = .val none
  | .del k => (f' = fun x => if x = k then none else f x) ∧ r = .unit
  | .len => f' = f ∧ ∃ ps, Graph f ps ∧ r = .num ps.length
  | .rLockRange => f' = f ∧ ∃ ps, Graph f ps ∧ r = .pairs ps
  | .lockRange => f' = f ∧ ∃ ps, Graph f ps ∧ r = .pairs ps

/-- Calls executed one after the other. -/
inductive SpecSeq : (Nat → Option Val) → List (Done Op Res) → (Nat → Option Val) → Prop
  | nil (f) : SpecSeq f [] f
  | snoc {f f' f'' ds d} : SpecSeq f ds f' → Spec d.op f' f'' d.res → SpecSeq f (ds ++ [d]) f''

/-! ## The list of pairs -/

/-- Distinct keys. -/
def WF (s : St) : Prop := ((s.getD []).map (·.1)).Nodup

/-- The partial function of a map. -/
def abs (s : St) : Nat → Option Val := lookup (s.getD [])

theorem lookup_mem (m : List (Nat × Val)) (h : (m.map (·.1)).Nodup) (k : Nat) (v : Val) : (k, v) ∈ m ↔ lookup m k = some v := by
  induction m with
  | nil => simp [lookup]
  | cons p m ih =>
    rw [List.map_cons, List.nodup_cons] at h
    unfold lookup at ih ⊢
    rw [List.mem_cons, List.find?_cons]
    by_cases hp : p.1 = k
    · rw [show (p.1 == k) = true by simpa using hp]
      simp only [Option.map_some, Option.some.injEq]
      constructor
      · rintro (rfl | hm)
        · rfl
        · exfalso
          apply h.1
          rw [hp]
          exact List.mem_map.2 ⟨_, hm, rfl⟩
      · intro he
        left
        rw [← hp, ← he]
    · rw [show (p.1 == k) = false by simpa using hp]
      dsimp only
      rw [← ih h.2]
      constructor
      · rintro (rfl | hm)
        · exact absurd rfl hp
        · exact hm
      · exact Or.inr

theorem lookup_filter (m : List (Nat × Val)) (k x : Nat) :
    lookup (m.filter (fun p => p.1 != k)) x = if x = k then none else lookup m x := by
  unfold lookup
  induction m with
  | nil => simp
  | cons p m ih =>
    by_cases hp : p.1 = k
    · rw [List.filter_cons_of_neg (by simp [hp]), ih, List.find?_cons]
      by_cases hx : x = k
      · rw [if_pos hx, if_pos hx]
      · rw [if_neg hx, if_neg hx, show (p.1 == x) = false by rw [hp]; simp [Ne.symm hx]]
    · rw [List.filter_cons_of_pos (by simp [hp]), List.find?_cons, List.find?_cons]
      by_cases hx : p.1 = x
      · rw [show (p.1 == x) = true by simpa using hx, if_neg (by rw [← hx]; exact hp)]
      · rw [show (p.1 == x) = false by simpa using hx]
        exact ih

theorem lookup_insert (m : List (Nat × Val)) (k x : Nat) (v : Val) : lookup (insert m k v) x = if x = k then some v else lookup m x := by
  unfold insert
  have h := lookup_filter m k x
  unfold lookup at h ⊢
  rw [List.find?_cons]
  by_cases hx : x = k
  · rw [if_pos hx, show (k == x) = true by simp [hx]]
    rfl
  · rw [if_neg hx, show (k == x) = false by simp [Ne.symm hx]]
    dsimp only
    rw [h, if_neg hx]

theorem wf_filter (m : List (Nat × Val)) (h : (m.map (·.1)).Nodup) (k : Nat) :
    ((m.filter (fun p => p.1 != k)).map (·.1)).Nodup :=
  (List.Sublist.map _ List.filter_sublist).nodup h

theorem wf_insert (m : List (Nat × Val)) (h : (m.map (·.1)).Nodup) (k : Nat) (v : Val) : ((insert m k v).map (·.1)).Nodup := by
  unfold insert
  rw [List.map_cons, List.nodup_cons]
  refine ⟨?_, wf_filter m h k⟩
  intro hm
  obtain ⟨p, hp, he⟩ := List.mem_map.1 hm
  have := (List.mem_filter.1 hp).2
  simp at this
  exact this he

/-! ## The methods refine the specification -/

/-- What is still to be done at a local state. -/
def Post (x : St × Local) (z : St × Res) : Prop :=
  match x.2 with
  | .at op => WF x.1 → WF z.1 ∧ Spec op (abs x.1) (abs z.1) z.2
  | .inited (.set k v) => ∃ m, x.1 = some m ∧ z.1 = some (insert m k v) ∧ z.2 = .unit
  | .inited (.testAndSet k v) => ∃ m, x.1 = some m ∧
      ((∃ w, lookup m k = some w ∧ z.1 = some m ∧ z.2 = .val w) ∨ (lookup m k = none ∧ z.1 = some (insert m k v) ∧ z.2 = .val none))
  | .inited (.del k) => ∃ m, x.1 = some m ∧ z.1 = some (remove m k) ∧ z.2 = .unit
  | .inited _ => True
  | .absent k v => ∃ m, x.1 = some m ∧ z.1 = some (insert m k v) ∧ z.2 = .val none
  | .visiting seen => ∃ m, x.1 = some m ∧ z.1 = some m ∧
      ((m.map (·.1)).Nodup → (seen.map (·.1)).Nodup → (∀ p ∈ seen, p ∈ m) →
        ∃ ps, z.2 = .pairs ps ∧ (ps.map (·.1)).Nodup ∧ ∀ p, p ∈ ps ↔ p ∈ m)
  | .done r => z = (x.1, r)

theorem post_step (x y : St × Local) (h : Step x y) (z : St × Res) (hz : Post y z) : Post x z := by
  cases h with
  | getNil k =>
    intro hwf
    rw [show z = (none, .val none) from hz]
    exact ⟨hwf, rfl, rfl⟩
  | get m k =>
    intro hwf
    rw [show z = (some m, .val ((lookup m k).getD none)) from hz]
    exact ⟨hwf, rfl, rfl⟩
  | initSet s k v =>
    intro hwf
    obtain ⟨m, h1, h2, h3⟩ := hz
    rw [Option.some.injEq] at h1
    rw [h2, h3]
    subst h1
    refine ⟨wf_insert _ hwf k v, ?_, rfl⟩
    funext y
    exact lookup_insert _ k y v
  | initTas s k v =>
    intro hwf
    obtain ⟨m, h1, h2⟩ := hz
    rw [Option.some.injEq] at h1
    subst h1
    rcases h2 with ⟨w, h2, h3, h4⟩ | ⟨h2, h3, h4⟩
    · rw [h3, h4]
      refine ⟨hwf, ?_⟩
      unfold Spec
      dsimp only
      rw [show abs s k = some w from h2]
      exact ⟨rfl, rfl⟩
    · rw [h3, h4]
      refine ⟨wf_insert _ hwf k v, ?_⟩
      unfold Spec
      dsimp only
      rw [show abs s k = none from h2]
      refine ⟨?_, rfl⟩
      funext y
      exact lookup_insert _ k y v
  | initDel s k =>
    intro hwf
    obtain ⟨m, h1, h2, h3⟩ := hz
    rw [Option.some.injEq] at h1
    rw [h2, h3]
    subst h1
    refine ⟨wf_filter _ hwf k, ?_, rfl⟩
    funext y
    exact lookup_filter _ k y
  | set m k v =>
    rw [show z = (some (insert m k v), .unit) from hz]
    exact ⟨m, rfl, rfl, rfl⟩
  | found m k v w hl =>
    rw [show z = (some m, .val w) from hz]
    exact ⟨m, rfl, Or.inl ⟨w, hl, rfl, rfl⟩⟩
  | notFound m k v hl =>
    obtain ⟨m', h1, h2, h3⟩ := hz
    rw [Option.some.injEq] at h1
    subst h1
    exact ⟨m, rfl, Or.inr ⟨hl, h2, h3⟩⟩
  | store m k v =>
    rw [show z = (some (insert m k v), .val none) from hz]
    exact ⟨m, rfl, rfl, rfl⟩
  | del m k =>
    rw [show z = (some (remove m k), .unit) from hz]
    exact ⟨m, rfl, rfl, rfl⟩
  | lenNil =>
    intro hwf
    rw [show z = (none, .num 0) from hz]
    exact ⟨hwf, rfl, [], ⟨by simp, by simp [abs, lookup]⟩, rfl⟩
  | len m =>
    intro hwf
    rw [show z = (some m, .num m.length) from hz]
    exact ⟨hwf, rfl, m, ⟨hwf, fun k v => lookup_mem m hwf k v⟩, rfl⟩
  | rangeNil op hop =>
    intro hwf
    rw [show z = (none, .pairs []) from hz]
    rcases hop with rfl | rfl <;>
      exact ⟨hwf, rfl, [], ⟨by simp, by simp [abs, lookup]⟩, rfl⟩
  | range m op hop =>
    intro hwf
    obtain ⟨m', h1, h2, h3⟩ := hz
    rw [Option.some.injEq] at h1
    subst h1
    obtain ⟨ps, e1, e2, e3⟩ := h3 hwf (by simp) (by simp)
    rw [h2, e1]
    have hg : Graph (abs (some m)) ps := ⟨e2, fun k v => by rw [e3]; exact lookup_mem m hwf k v⟩
    rcases hop with rfl | rfl <;> exact ⟨hwf, rfl, ps, hg, rfl⟩
  | visit m seen p hp hk =>
    obtain ⟨m', h1, h2, h3⟩ := hz
    rw [Option.some.injEq] at h1
    subst h1
    refine ⟨m, rfl, h2, fun hm hs hsub => h3 hm ?_ ?_⟩
    · rw [List.map_append, List.nodup_append]
      refine ⟨hs, by simp, ?_⟩
      intro a ha b hb hab
      simp only [List.map_cons, List.map_nil, List.mem_singleton] at hb
      rw [hab, hb] at ha
      exact hk ha
    · intro q hq
      rcases List.mem_append.1 hq with hq | hq
      · exact hsub q hq
      · rw [List.mem_singleton] at hq; rw [hq]; exact hp
  | rangeEnd m seen hall =>
    rw [show z = (some m, .pairs seen) from hz]
    refine ⟨m, rfl, rfl, fun hm hs hsub => ⟨seen, rfl, hs, fun p => ⟨hsub p, fun hp => ?_⟩⟩⟩
    obtain ⟨q, hq, he⟩ := List.mem_map.1 (hall p hp)
    have h1 := (lookup_mem m hm p.1 p.2).1 hp
    have h2 := (lookup_mem m hm q.1 q.2).1 (hsub q hq)
    rw [he, h1, Option.some.injEq] at h2
    have : p = q := Prod.ext he.symm h2
    rw [this]
    exact hq

theorem exec_spec (op : Op) (now : Int) (s s' : St) (r : Res) (h : Exec body op now s s' r) (hwf : WF s) :
    WF s' ∧ Spec op (abs s) (abs s') r := by
  obtain ⟨l, h1, h2⟩ := Mutex.exec_post (B := body) (Post := Post) post_step (by
    intro s l r hf
    cases l with
    | done r' =>
      have : r' = r := by
        have : (some r' : Option Res) = some r := hf
        simpa using this
      rw [this]
      rfl
    | «at» op => cases hf
    | inited op => cases hf
    | absent k v => cases hf
    | visiting seen => cases hf) h
  rw [show l = .at op from h1] at h2
  exact h2 hwf

theorem seq_spec (s s' : St) (ds : List (Done Op Res)) (h : Seq body s ds s') (hwf : WF s) :
    WF s' ∧ SpecSeq (abs s) ds (abs s') := by
  induction h with
  | nil => exact ⟨hwf, .nil _⟩
  | snoc _ he ih =>
    obtain ⟨h1, h2⟩ := ih
    obtain ⟨h3, h4⟩ := exec_spec _ _ _ _ _ he h1
    exact ⟨h3, .snoc h2 h4⟩

/-- The local states of the reading methods. -/
def Ro : Local → Prop
  | .at op => reads op = true
  | .inited _ => False
  | .absent _ _ => False
  | .visiting _ => True
  | .done _ => True

theorem ro_step (x y : St × Local) (h : Step x y) (hr : Ro x.2) : Ro y.2 ∧ y.1 = x.1 := by
  cases h <;> first | exact ⟨trivial, rfl⟩ | exact hr.elim | cases hr

theorem readOnly : RWMutex.ReadOnly body reads := by
  intro op hop l0 s l s' l' h0 hstar hst
  have hro : ∀ {x y}, Mutex.Star body x y → Ro x.2 → Ro y.2 := by
    intro x y hxy
    induction hxy with
    | refl => exact id
    | tail _ hs ih => exact fun hx => (ro_step _ _ hs (ih hx)).1
  have h1 : Ro l := hro hstar (by rw [show l0 = .at op from h0]; exact hop)
  exact (ro_step _ _ hst h1).2

/-! ## C92 -/

/-- **C92.** Under every interleaving, starting from an empty `Map`, the calls have the results of an atomic map: to the history of calls
and returns one can add, for each completed call, a moment between its call and its return, such that the calls executed at these moments
one after the other give exactly these results; and if no writer is inside, they give the map as it is. -/
theorem C92_linearizable {c : RWMutex.Config St Op Local Res} (h : RWMutex.Reach body reads none c) :
    ∃ (H : List (Ev Op Res)) (f : Nat → Option Val),
      H.filterMap Ev.vis = c.hist ∧
      (∀ i, ∃ ph, Mutex.Follows (H.filter fun e => decide (e.tid = i)) ph) ∧
      SpecSeq (fun _ => none) (H.filterMap Ev.done) f ∧
      (c.writer = none → f = abs c.obj) := by
  obtain ⟨H, s, h1, h2⟩ := RWMutex.linearizable body reads readOnly none h
  obtain ⟨-, h3⟩ := seq_spec none s _ h1.seq (by simp [WF])
  refine ⟨H, abs s, h1.vis, h1.follows, ?_, fun hn => by rw [h2 hn]⟩
  have : abs none = fun _ => none := by funext k; rfl
  rwa [this] at h3

/-- **C92 (readers).** `Get`, `Len` and `RLockRange` do not wait for each other: whatever other calls are running, such a call may enter as long as
no writer is inside. -/
theorem C92_readers (c : RWMutex.Config St Op Local Res) (i : Nat) (op : Op) (ho : (∃ k, op = .get k) ∨ op = .len ∨ op = .rLockRange)
    (hw : c.writer = none) (hp : c.pc i = .waiting op) :
    ∃ c', RWMutex.Step body reads c c' ∧ (∃ l, c'.pc i = .running op l) ∧ c'.obj = c.obj ∧ ∀ j, j ≠ i → c'.pc j = c.pc j := by
  have hr : reads op = true := by
    rcases ho with ⟨k, rfl⟩ | rfl | rfl <;> rfl
  refine ⟨_, .rlock c i op (.at op) hp hr hw rfl, ⟨_, Mutex.put_self _ _ _⟩, rfl, fun j hj => Mutex.put_ne _ _ hj⟩

/-- **C92 (writers).** While `Set`, `TestAndSet`, `Del` or `LockRange` runs, no other call does. -/
theorem C92_writers {c : RWMutex.Config St Op Local Res} (h : RWMutex.Reach body reads none c) {i j : Nat} {op op' : Op} {l l' : Local}
    (ho : (∀ k, op ≠ .get k) ∧ op ≠ .len ∧ op ≠ .rLockRange) (hi : c.pc i = .running op l) (hj : c.pc j = .running op' l') : i = j := by
  have hr : reads op = false := by
    cases op with
    | get k => exact absurd rfl (ho.1 k)
    | len => exact absurd rfl ho.2.1
    | rLockRange => exact absurd rfl ho.2.2
    | _ => rfl
  obtain ⟨H, inv⟩ := RWMutex.inv_of_reach body reads readOnly none h
  have h1 := (inv.writer i).2 ⟨op, l, hi, hr⟩
  cases hr' : reads op' with
  | false =>
    have h2 := (inv.writer j).2 ⟨op', l', hj, hr'⟩
    rw [h1, Option.some.injEq] at h2
    exact h2
  | true =>
    have h2 := (inv.reader j).2 ⟨op', l', hj, hr'⟩
    rw [inv.excl (by rw [h1]; simp) j] at h2
    cases h2

/-- The call is a `TestAndSet` of key `k`. -/
def isTas (k : Nat) (d : Done Op Res) : Bool :=
  match d.op with
  | .testAndSet k' _ => decide (k' = k)
  | _ => false

/-- Calls that leave key `k` alone, or `TestAndSet` it with a value that is not `nil`. -/
def TasOnly (k : Nat) (op : Op) : Prop :=
  match op with
  | .set k' _ => k' ≠ k
  | .del k' => k' ≠ k
  | .testAndSet k' v => k' = k → v ≠ none
  | _ => True

/-- **C92 (partial).** If key `k` is absent and only `TestAndSet` calls with values that are not `nil` touch it, exactly one of them (the
first in the order of effects) gets `nil`, and all others get the value of that one. Missing: `nil` values, see below. -/
theorem C92_one_winner_partial (k : Nat) (f f' : Nat → Option Val) (ds : List (Done Op Res)) (h : SpecSeq f ds f') (hk : f k = none)
    (hops : ∀ d ∈ ds, TasOnly k d.op) :
    (ds.filter (isTas k) = [] ∧ f' k = none) ∨
    ∃ d rest v, ds.filter (isTas k) = d :: rest ∧ d.op = .testAndSet k (some v) ∧ d.res = .val none ∧ f' k = some (some v) ∧
      ∀ e ∈ rest, e.res = .val (some v) := by
  induction h with
  | nil => exact Or.inl ⟨rfl, hk⟩
  | snoc hs hd ih =>
    rename_i f1 f2 ds d
    have hih := ih (fun d hd => hops d (List.mem_append_left _ hd))
    have hd0 := hops d (by simp)
    -- a call that is not a TestAndSet of this key keeps it
    have hkeep : isTas k d = false → f2 k = f1 k := by
      intro hn
      cases hop : d.op with
      | get k' => rw [hop] at hd; rw [hd.1]
      | set k' v =>
        rw [hop] at hd hd0
        rw [hd.1]
        exact if_neg (Ne.symm hd0)
      | del k' =>
        rw [hop] at hd hd0
        rw [hd.1]
        exact if_neg (Ne.symm hd0)
      | len => rw [hop] at hd; rw [hd.1]
      | rLockRange => rw [hop] at hd; rw [hd.1]
      | lockRange => rw [hop] at hd; rw [hd.1]
      | testAndSet k' v =>
        have hne : k' ≠ k := by
          intro he
          unfold isTas at hn
          rw [hop] at hn
          simp [he] at hn
        rw [hop] at hd
        unfold Spec at hd
        dsimp only at hd
        split at hd
        · rw [hd.1]
        · rw [hd.1]; exact if_neg (Ne.symm hne)
    rw [List.filter_append]
    cases ht : isTas k d with
    | false =>
      rw [List.filter_cons_of_neg (by simp [ht]), List.filter_nil, List.append_nil, hkeep ht]
      exact hih
    | true =>
      rw [List.filter_cons_of_pos ht, List.filter_nil]
      have hop : ∃ v, d.op = .testAndSet k v := by
        unfold isTas at ht
        split at ht
        · rename_i k' v he
          exact ⟨v, by rw [he, of_decide_eq_true ht]⟩
        · cases ht
      obtain ⟨v, hop⟩ := hop
      rw [hop] at hd hd0
      obtain ⟨v, rfl⟩ : ∃ w, v = some w := by
        cases v with
        | none => exact absurd rfl (hd0 rfl)
        | some w => exact ⟨w, rfl⟩
      unfold Spec at hd
      dsimp only at hd
      right
      rcases hih with ⟨h1, h2⟩ | ⟨d1, rest, w, h1, h2, h3, h4, h5⟩
      · rw [h2] at hd
        dsimp only at hd
        rw [h1]
        exact ⟨d, [], v, rfl, hop, hd.2, by rw [hd.1]; exact if_pos rfl, by simp⟩
      · rw [h4] at hd
        dsimp only at hd
        rw [h1]
        refine ⟨d1, rest ++ [d], w, rfl, h2, h3, by rw [hd.1]; exact h4, ?_⟩
        intro e he
        rcases List.mem_append.1 he with he | he
        · exact h5 e he
        · rw [List.mem_singleton] at he; rw [he]; exact hd.2

/-- **C92 (refuted).** With `nil` values, two `TestAndSet` calls on an absent key both get `nil`. -/
theorem C92_nil_refuted (k : Nat) :
    SpecSeq (fun _ => none) [⟨.testAndSet k none, 0, .val none⟩, ⟨.testAndSet k (some 7), 0, .val none⟩]
      (fun x => if x = k then some none else none) := by
  have h1 : SpecSeq (fun _ => none) ([] ++ [⟨.testAndSet k none, 0, .val none⟩]) (fun x => if x = k then some none else none) :=
    .snoc (.nil _) ⟨rfl, rfl⟩
  refine .snoc h1 ?_
  unfold Spec
  dsimp only
  rw [if_pos rfl]
  exact ⟨rfl, rfl⟩

/-! ## A concrete run -/

/-- Two goroutines: a `TestAndSet` and a `Get` that waits for it. -/
example : ∃ c : RWMutex.Config St Op Local Res, RWMutex.Reach body reads none c ∧
    c.hist = [.inv 0 (.testAndSet 5 (some 1)), .inv 1 (.get 5), .res 0 (.val none), .res 1 (.val (some 1))] := by
  have st : ∀ op : Op, body.start op 0 (.at op) := fun _ => rfl
  have r0 : RWMutex.Reach body reads none (RWMutex.init none) := .init
  have r1 := r0.step (.call _ 0 (.testAndSet 5 (some 1)) rfl)
  have r2 := r1.step (.call _ 1 (.get 5) rfl)
  have r3 := r2.step (.lock _ 0 (.testAndSet 5 (some 1)) _ rfl rfl rfl (fun _ => rfl) (st _))
  have r4 := r3.step (.body _ 0 (.testAndSet 5 (some 1)) _ _ _ rfl (Step.initTas none 5 (some 1)))
  have r5 := r4.step (.body _ 0 (.testAndSet 5 (some 1)) _ _ _ rfl (Step.notFound [] 5 (some 1) rfl))
  have r6 := r5.step (.body _ 0 (.testAndSet 5 (some 1)) _ _ _ rfl (Step.store [] 5 (some 1)))
  have r7 := r6.step (.unlock _ 0 (.testAndSet 5 (some 1)) _ (.val none) rfl rfl rfl)
  have r8 := r7.step (.ret _ 0 (.val none) rfl)
  have r9 := r8.step (.rlock _ 1 (.get 5) _ rfl rfl rfl (st _))
  have r10 := r9.step (.body _ 1 (.get 5) _ _ _ rfl (Step.get [(5, some 1)] 5))
  have r11 := r10.step (.runlock _ 1 (.get 5) _ (.val (some 1)) rfl rfl rfl)
  exact ⟨_, r11.step (.ret _ 1 (.val (some 1)) rfl), rfl⟩

end Verif.SafeMap
