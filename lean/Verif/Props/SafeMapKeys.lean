import Verif.Model.SafeMapKeys
import Mathlib.Data.List.Perm.Basic
import Mathlib.Data.List.Perm.Subperm
import Mathlib.Data.List.Nodup

/-!
# C142: odd keys, and callbacks that use the `Unsafe` methods
-/

namespace Verif.SafeMapKeys

variable {K V : Type} [DecidableEq K] (ks : Keys K)

/-! ## Specification: a finite map, and entries that nobody finds -/

/-- The pairs of the map. -/
def pairs (s : State K V) : List (K × Option V) := s.es.map fun e => (e.key, e.val)

/-- The map holds `v` under `k`. -/
def Holds (s : State K V) (k : K) (v : Option V) : Prop := (k, v) ∈ pairs s

/-- The pairs whose keys are not equal to themselves. -/
def lost (s : State K V) : List (K × Option V) := (pairs s).filter fun p => !ks.rfx p.1

/-! ## States -/

structure Wf (s : State K V) : Prop where
  ids : (s.es.map (·.id)).Nodup
  bound : ∀ e ∈ s.es, e.id < s.next
  keys : ∀ e ∈ s.es, ∀ e' ∈ s.es, e.key = e'.key → ks.rfx e.key = true → e.id = e'.id
  hash : ∀ e ∈ s.es, ks.hashable e.key = true

theorem id_inj {s : State K V} (h : Wf ks s) {e e' : Entry K V} (he : e ∈ s.es) (he' : e' ∈ s.es) (hi : e.id = e'.id) : e = e' :=
  List.inj_on_of_nodup_map h.ids he he' hi

theorem key_inj {s : State K V} (h : Wf ks s) {e e' : Entry K V} (he : e ∈ s.es) (he' : e' ∈ s.es) (hk : e.key = e'.key)
    (hr : ks.rfx e.key = true) : e = e' := id_inj ks h he he' (h.keys e he e' he' hk hr)

theorem es_init (s : State K V) : (init s).es = s.es := rfl

theorem lookup_some {es : List (Entry K V)} {k : K} {v : Option V} (h : lookup ks es k = some v) :
    ks.rfx k = true ∧ ∃ e ∈ es, e.key = k ∧ e.val = v := by
  unfold lookup at h
  split at h
  · rename_i hr
    refine ⟨hr, ?_⟩
    obtain ⟨e, he, hv⟩ := Option.map_eq_some_iff.1 h
    exact ⟨e, List.mem_of_find?_eq_some he, by simpa using List.find?_some he, hv⟩
  · cases h

theorem lookup_none {es : List (Entry K V)} {k : K} (h : lookup ks es k = none) (hr : ks.rfx k = true) : ∀ e ∈ es, e.key ≠ k := by
  unfold lookup at h
  rw [if_pos hr] at h
  have := Option.map_eq_none_iff.1 h
  intro e he hk
  simpa [hk] using List.find?_eq_none.1 this e he

theorem lookup_iff {s : State K V} (h : Wf ks s) (k : K) (v : Option V) : lookup ks s.es k = some v ↔ ks.rfx k = true ∧ Holds s k v := by
  constructor
  · intro hl
    obtain ⟨hr, e, he, hk, hv⟩ := lookup_some ks hl
    exact ⟨hr, List.mem_map.2 ⟨e, he, by rw [hk, hv]⟩⟩
  · rintro ⟨hr, hm⟩
    obtain ⟨e, he, hp⟩ := List.mem_map.1 hm
    simp only [Prod.mk.injEq] at hp
    cases hl : lookup ks s.es k with
    | none => exact absurd hp.1 (lookup_none ks hl hr e he)
    | some w =>
      obtain ⟨-, e', he', hk', hv'⟩ := lookup_some ks hl
      have := key_inj ks h he he' (by rw [hp.1, hk']) (by rw [hp.1]; exact hr)
      rw [← hv', ← this, hp.2]

/-- `m[k] = v` gives the entry of `k` the value `v`, or makes a new one. -/
theorem assign_cases (es : List (Entry K V)) (n : Nat) (k : K) (v : Option V) :
    ks.rfx k = true ∧ (∃ e ∈ es, e.key = k) ∧ assign ks es n k v = es.map (fun e => if e.key = k then { e with val := v } else e) ∨
    (ks.rfx k = true → ∀ e ∈ es, e.key ≠ k) ∧ assign ks es n k v = es ++ [⟨n, k, v⟩] := by
  unfold assign
  cases hl : lookup ks es k with
  | none => exact .inr ⟨lookup_none ks hl, by simp⟩
  | some w =>
    obtain ⟨hr, e, he, hk, -⟩ := lookup_some ks hl
    exact .inl ⟨hr, ⟨e, he, hk⟩, by simp⟩

theorem wf_assign {s : State K V} (h : Wf ks s) (k : K) (v : Option V) (hh : ks.hashable k = true) :
    Wf ks (⟨some (assign ks s.es s.next k v), s.next + 1⟩ : State K V) := by
  rcases assign_cases ks s.es s.next k v with ⟨hr, -, e⟩ | ⟨hn, e⟩
  · rw [e]
    have hf : ∀ x : Entry K V, (if x.key = k then { x with val := v } else x).id = x.id ∧ (if x.key = k then { x with val := v } else x).key = x.key := by
      intro x; split <;> exact ⟨rfl, rfl⟩
    refine ⟨?_, ?_, ?_, ?_⟩
    · have : (State.es (⟨some (s.es.map fun e => if e.key = k then { e with val := v } else e), s.next + 1⟩ : State K V)).map (·.id) = s.es.map (·.id) := by
        show (s.es.map fun e => if e.key = k then { e with val := v } else e).map (·.id) = _
        rw [List.map_map]
        exact List.map_congr_left fun x _ => (hf x).1
      rw [this]
      exact h.ids
    · intro x hx
      obtain ⟨y, hy, rfl⟩ := List.mem_map.1 hx
      rw [(hf y).1]
      exact Nat.lt_succ_of_lt (h.bound y hy)
    · intro x hx x' hx' hk hr'
      obtain ⟨y, hy, rfl⟩ := List.mem_map.1 hx
      obtain ⟨y', hy', rfl⟩ := List.mem_map.1 hx'
      rw [(hf y).2, (hf y').2] at hk
      rw [(hf y).2] at hr'
      rw [(hf y).1, (hf y').1]
      exact h.keys y hy y' hy' hk hr'
    · intro x hx
      obtain ⟨y, hy, rfl⟩ := List.mem_map.1 hx
      rw [(hf y).2]
      exact h.hash y hy
  · rw [e]
    refine ⟨?_, ?_, ?_, ?_⟩
    · show ((s.es ++ [(⟨s.next, k, v⟩ : Entry K V)]).map (·.id)).Nodup
      rw [List.map_append, List.nodup_append]
      refine ⟨h.ids, by simp, ?_⟩
      intro a ha b hb
      obtain ⟨y, hy, rfl⟩ := List.mem_map.1 ha
      simp only [List.map_cons, List.map_nil, List.mem_singleton] at hb
      have := h.bound y hy
      omega
    · intro x hx
      rcases List.mem_append.1 hx with hx | hx
      · exact Nat.lt_succ_of_lt (h.bound x hx)
      · rw [List.mem_singleton.1 hx]; exact Nat.lt_succ_self _
    · intro x hx x' hx' hk hr'
      rcases List.mem_append.1 hx with hx | hx <;> rcases List.mem_append.1 hx' with hx' | hx'
      · exact h.keys x hx x' hx' hk hr'
      · rw [List.mem_singleton.1 hx'] at hk
        exact absurd hk (hn (by rw [← show x.key = k from hk]; exact hr') x hx)
      · rw [List.mem_singleton.1 hx] at hk hr'
        exact absurd hk.symm (hn hr' x' hx')
      · rw [List.mem_singleton.1 hx, List.mem_singleton.1 hx']
    · intro x hx
      rcases List.mem_append.1 hx with hx | hx
      · exact h.hash x hx
      · rw [List.mem_singleton.1 hx]; exact hh

theorem mem_remove {es : List (Entry K V)} {k : K} {e : Entry K V} : e ∈ remove ks es k ↔ e ∈ es ∧ ¬ (ks.rfx k = true ∧ e.key = k) := by
  unfold remove
  split
  · rename_i hr; simp [hr]
  · rename_i hr; simp [hr]

theorem wf_remove {s : State K V} (h : Wf ks s) (k : K) : Wf ks (⟨some (remove ks s.es k), s.next⟩ : State K V) := by
  refine ⟨?_, fun e he => h.bound e ((mem_remove ks).1 he).1,
    fun e he e' he' => h.keys e ((mem_remove ks).1 he).1 e' ((mem_remove ks).1 he').1, fun e he => h.hash e ((mem_remove ks).1 he).1⟩
  show ((remove ks s.es k).map (·.id)).Nodup
  unfold remove
  split
  · exact h.ids.sublist (List.Sublist.map _ List.filter_sublist)
  · exact h.ids

theorem wf_init {s : State K V} (h : Wf ks s) : Wf ks (init s) := ⟨h.ids, h.bound, h.keys, h.hash⟩

theorem wf_set {s : State K V} (h : Wf ks s) (k : K) (v : Option V) : Wf ks (set ks s k v).1 := by
  unfold set
  dsimp only
  split
  · rename_i hh; exact wf_assign ks (wf_init ks h) k v hh
  · exact wf_init ks h

theorem wf_del {s : State K V} (h : Wf ks s) (k : K) : Wf ks (del ks s k).1 := by
  unfold del
  dsimp only
  split
  · exact wf_remove ks (wf_init ks h) k
  · exact wf_init ks h

theorem wf_reach {s : State K V} (h : Reach ks s) : Wf ks s := by
  induction h with
  | zero => exact ⟨by simp [zero, State.es], by simp [zero, State.es], by simp [zero, State.es], by simp [zero, State.es]⟩
  | set k v _ ih => exact wf_set ks ih k v
  | testAndSet k v _ ih =>
    unfold testAndSet
    dsimp only
    split
    · rename_i hh
      split
      · exact wf_init ks ih
      · exact wf_assign ks (wf_init ks ih) k v hh
    · exact wf_init ks ih
  | del k _ ih => exact wf_del ks ih k

/-! ## Single calls -/

/-- The one entry with its key. -/
theorem count_one {es : List (Entry K V)} (hn : es.Nodup) {e : Entry K V} (he : e ∈ es) (h : ∀ e' ∈ es, e'.key = e.key → e' = e) :
    (es.map (·.key)).count e.key = 1 := by
  induction es with
  | nil => cases he
  | cons a as ih =>
    rw [List.nodup_cons] at hn
    rw [List.map_cons, List.count_cons]
    by_cases ha : a = e
    · subst ha
      have : (as.map (·.key)).count a.key = 0 := by
        rw [List.count_eq_zero]
        intro hm
        obtain ⟨b, hb, hk⟩ := List.mem_map.1 hm
        have := h b (List.mem_cons_of_mem _ hb) hk
        exact hn.1 (this ▸ hb)
      simp [this]
    · have hk : a.key ≠ e.key := fun hk => ha (h a List.mem_cons_self hk)
      have hm : e ∈ as := by
        rcases List.mem_cons.1 he with rfl | hm
        · exact absurd rfl ha
        · exact hm
      rw [ih hn.2 hm fun e' he' => h e' (List.mem_cons_of_mem _ he')]
      simp [hk]

theorem wf_nodup {s : State K V} (w : Wf ks s) : s.es.Nodup := List.Nodup.of_map _ w.ids

/-- **C142** The map stays a map: for a key that is equal to itself there is at most one pair, and `Get` returns its value, or `nil` if there is none. -/
theorem C142_get {s : State K V} (h : Reach ks s) {k : K} (hr : ks.rfx k = true) (hh : ks.hashable k = true) :
    (∀ v, Holds s k v → get ks s k = .ok v ∧ ((pairs s).map (·.1)).count k = 1) ∧ ((∀ v, ¬ Holds s k v) → get ks s k = .ok none) := by
  have w := wf_reach ks h
  constructor
  · intro v hv
    have hl := (lookup_iff ks w k v).2 ⟨hr, hv⟩
    constructor
    · unfold get
      cases hm : s.m with
      | none => simp [Holds, pairs, State.es, hm] at hv
      | some es =>
        have : s.es = es := by simp [State.es, hm]
        rw [this] at hl
        simp [hh, hl]
    · obtain ⟨e, he, hp⟩ := List.mem_map.1 hv
      simp only [Prod.mk.injEq] at hp
      have := count_one (wf_nodup ks w) he fun e' he' hk => key_inj ks w he' he hk (by rw [hk, hp.1]; exact hr)
      rw [hp.1] at this
      simpa [pairs, Function.comp_def] using this
  · intro hv
    unfold get
    cases hm : s.m with
    | none => rfl
    | some es =>
      have he : s.es = es := by simp [State.es, hm]
      cases hl : lookup ks es k with
      | none => simp [hh, hl]
      | some v => exact absurd ((lookup_iff ks w k v).1 (by rw [he]; exact hl)).2 (hv v)

theorem holds_assign {s : State K V} {k : K} (hr : ks.rfx k = true) (v : Option V) (n : Nat) (k' : K) (v' : Option V) :
    Holds (⟨some (assign ks s.es s.next k v), n⟩ : State K V) k' v' ↔ if k' = k then v' = v else Holds s k' v' := by
  show (k', v') ∈ (assign ks s.es s.next k v).map _ ↔ _
  rcases assign_cases ks s.es s.next k v with ⟨-, ⟨e, he, hk⟩, ea⟩ | ⟨hn, ea⟩
  · rw [ea, List.map_map]
    constructor
    · intro hm
      obtain ⟨x, hx, hp⟩ := List.mem_map.1 hm
      simp only [Function.comp_apply] at hp
      split at hp
      · rename_i hxk
        simp only [Prod.mk.injEq] at hp
        rw [if_pos (by rw [← hp.1, hxk]), hp.2]
      · rename_i hxk
        simp only [Prod.mk.injEq] at hp
        rw [if_neg (by rw [← hp.1]; exact hxk)]
        exact List.mem_map.2 ⟨x, hx, by rw [hp.1, hp.2]⟩
    · intro hm
      split at hm
      · rename_i hkk
        subst hm hkk
        exact List.mem_map.2 ⟨e, he, by simp [hk]⟩
      · rename_i hkk
        obtain ⟨x, hx, hp⟩ := List.mem_map.1 hm
        simp only [Prod.mk.injEq] at hp
        exact List.mem_map.2 ⟨x, hx, by simp [hp, hkk]⟩
  · rw [ea, List.map_append, List.mem_append, List.map_cons, List.map_nil, List.mem_singleton, Prod.mk.injEq]
    split
    · rename_i hkk
      subst hkk
      constructor
      · rintro (hm | hm)
        · obtain ⟨x, hx, hp⟩ := List.mem_map.1 hm
          simp only [Prod.mk.injEq] at hp
          exact absurd hp.1 (hn hr x hx)
        · exact hm.2
      · exact fun hm => .inr ⟨rfl, hm⟩
    · rename_i hkk
      exact ⟨fun hm => hm.elim id fun hm => absurd hm.1 hkk, .inl⟩

/-- **C142** `Set` with a key that is equal to itself: that pair, and all pairs of other keys as before. -/
theorem C142_set (s : State K V) {k : K} (hr : ks.rfx k = true) (hh : ks.hashable k = true) (v : Option V) :
    (set ks s k v).2 = .ok () ∧ ∀ k' v', Holds (set ks s k v).1 k' v' ↔ if k' = k then v' = v else Holds s k' v' := by
  unfold set
  dsimp only
  rw [if_pos hh]
  exact ⟨rfl, holds_assign (s := init s) ks hr v _⟩

/-- **C142** `TestAndSet` with a key that is equal to itself: it returns the value and changes nothing, or stores the new one and returns `nil`. -/
theorem C142_testAndSet {s : State K V} (h : Reach ks s) {k : K} (hr : ks.rfx k = true) (hh : ks.hashable k = true) (v : Option V) :
    (∀ w, Holds s k w → (testAndSet ks s k v).2 = .ok w ∧ pairs (testAndSet ks s k v).1 = pairs s) ∧
    ((∀ w, ¬ Holds s k w) → (testAndSet ks s k v).2 = .ok none ∧
      ∀ k' v', Holds (testAndSet ks s k v).1 k' v' ↔ if k' = k then v' = v else Holds s k' v') := by
  have w := wf_reach ks h
  unfold testAndSet
  dsimp only
  rw [if_pos hh, es_init]
  constructor
  · intro x hx
    rw [(lookup_iff ks w k x).2 ⟨hr, hx⟩]
    exact ⟨rfl, rfl⟩
  · intro hx
    cases hl : lookup ks s.es k with
    | none => exact ⟨rfl, holds_assign (s := init s) ks hr v _⟩
    | some x => exact absurd ((lookup_iff ks w k x).1 hl).2 (hx x)

/-- **C142** `Del` with a key that is equal to itself: its pair is gone, all others are as before. -/
theorem C142_del (s : State K V) {k : K} (hr : ks.rfx k = true) (hh : ks.hashable k = true) :
    (del ks s k).2 = .ok () ∧ ∀ k' v', Holds (del ks s k).1 k' v' ↔ k' ≠ k ∧ Holds s k' v' := by
  unfold del
  dsimp only
  rw [if_pos hh]
  refine ⟨rfl, fun k' v' => ?_⟩
  show (k', v') ∈ (remove ks s.es k).map _ ↔ _
  constructor
  · intro hm
    obtain ⟨x, hx, hp⟩ := List.mem_map.1 hm
    simp only [Prod.mk.injEq] at hp
    obtain ⟨h1, h2⟩ := (mem_remove ks).1 hx
    exact ⟨fun hk => h2 ⟨hr, by rw [hp.1, hk]⟩, List.mem_map.2 ⟨x, h1, by rw [hp.1, hp.2]⟩⟩
  · rintro ⟨hk, hm⟩
    obtain ⟨x, hx, hp⟩ := List.mem_map.1 hm
    simp only [Prod.mk.injEq] at hp
    exact List.mem_map.2 ⟨x, (mem_remove ks).2 ⟨hx, fun hc => hk (by rw [← hp.1, hc.2])⟩, by rw [hp.1, hp.2]⟩

/-- **C142** `Len` is the number of pairs. -/
theorem C142_len (s : State K V) : len s = (pairs s).length := by
  unfold len pairs State.es
  cases s.m <;> simp

/-- **C142** A key that is not equal to itself: every `Set` and every `TestAndSet` adds a pair, `Get` does not find it and `Del` does not remove it.
The pairs of other keys are not touched. -/
theorem C142_nan (s : State K V) {k : K} (hr : ks.rfx k = false) (hh : ks.hashable k = true) (v : Option V) :
    get ks s k = .ok none ∧
    (set ks s k v).2 = .ok () ∧ pairs (set ks s k v).1 = pairs s ++ [(k, v)] ∧
    (testAndSet ks s k v).2 = .ok none ∧ pairs (testAndSet ks s k v).1 = pairs s ++ [(k, v)] ∧
    (del ks s k).2 = .ok () ∧ pairs (del ks s k).1 = pairs s := by
  have hl : ∀ es : List (Entry K V), lookup ks es k = none := fun es => by simp [lookup, hr]
  have ha : ∀ es n, assign ks es n k v = es ++ [⟨n, k, v⟩] := fun es n => by simp [assign, hl]
  refine ⟨?_, ?_⟩
  · unfold get
    cases s.m with
    | none => rfl
    | some es => simp [hh, hl]
  · simp [set, testAndSet, del, hh, hl, ha, pairs, State.es, init, remove, hr]

/-- **C142** A key that cannot be hashed: `Set`, `TestAndSet` and `Del` panic and leave the pairs as they were. -/
theorem C142_unhashable (s : State K V) {k : K} (hh : ks.hashable k = false) (v : Option V) :
    (set ks s k v).2 = .error unhashable ∧ pairs (set ks s k v).1 = pairs s ∧
    (testAndSet ks s k v).2 = .error unhashable ∧ pairs (testAndSet ks s k v).1 = pairs s ∧
    (del ks s k).2 = .error unhashable ∧ pairs (del ks s k).1 = pairs s := by
  simp [set, testAndSet, del, hh, pairs, State.es, init]

/-- **C142** What this panic says. -/
theorem C142_unhashable_text (s : State K V) {k : K} (hh : ks.hashable k = false) (v : Option V) :
    (set ks s k v).2 = .error (.explicit "runtime error: hash of unhashable type") ∧ (del ks s k).2 = .error (.explicit "runtime error: hash of unhashable type") := by
  obtain ⟨a, -, -, -, b, -⟩ := C142_unhashable ks s hh v
  exact ⟨a, b⟩

/-- **C142 (refuted: `Get` depends on what the map holds).** `Get` of a key that cannot be hashed returns `nil` on a fresh map, and panics after any call of
`Set`, `TestAndSet` or `Del` – even one that itself panicked, so that both maps are empty. -/
theorem C142_get_unhashable_refuted {k : K} (hh : ks.hashable k = false) (k' : K) :
    get ks (zero : State K V) k = .ok none ∧ get ks (del ks (zero : State K V) k').1 k = .error unhashable ∧
    pairs (del ks (zero : State K V) k').1 = pairs (zero : State K V) := by
  refine ⟨rfl, ?_, ?_⟩
  · unfold del get zero init
    by_cases h : ks.hashable k' = true <;> simp [h, hh]
  · unfold del zero init pairs
    by_cases h : ks.hashable k' = true <;> simp [h, State.es, remove]

/-- **C142 (refuted: of several `TestAndSet` calls with one key, one wins).** With a key that is not equal to itself all win. -/
theorem C142_all_win_refuted {k : K} (hr : ks.rfx k = false) (hh : ks.hashable k = true) (s : State K V) (vs : List (Option V)) :
    ∃ s', (∀ v ∈ vs, ∀ s, (testAndSet ks s k v).2 = .ok none) ∧ vs.foldl (fun s v => (testAndSet ks s k v).1) s = s' ∧ len s' = len s + vs.length := by
  refine ⟨_, fun v _ s => (C142_nan ks s hr hh v).2.2.2.1, rfl, ?_⟩
  induction vs generalizing s with
  | nil => rfl
  | cons v vs ih =>
    rw [List.foldl_cons, ih, C142_len, C142_len, (C142_nan ks s hr hh v).2.2.2.2.1]
    simp
    omega

/-! ## Ranges -/

/-- What a callback does not destroy. -/
theorem acts_ind (P : State K V → Prop) (hset : ∀ s k v, ks.hashable k = true → P s → P (set ks s k v).1)
    (l : List (Act K V)) (hdel : ∀ s k, Act.del k ∈ l → ks.hashable k = true → P s → P (del ks s k).1)
    {s s' : State K V} (h : P s) (he : acts ks s l = (s', .ok ())) : P s' := by
  induction l generalizing s with
  | nil =>
    simp only [acts, Prod.mk.injEq] at he
    rw [← he.1]
    exact h
  | cons a as ih =>
    have hd : ∀ s k, Act.del k ∈ as → ks.hashable k = true → P s → P (del ks s k).1 := fun s k hm => hdel s k (List.mem_cons_of_mem _ hm)
    cases a with
    | set k v =>
      rw [acts] at he
      by_cases hk : ks.hashable k = true
      · have e : set ks s k v = ((set ks s k v).1, .ok ()) := by unfold set; dsimp only; rw [if_pos hk]
        rw [e] at he
        exact ih hd (hset s k v hk h) he
      · have e : set ks s k v = (init s, .error unhashable) := by unfold set; dsimp only; rw [if_neg hk]
        rw [e] at he
        simp at he
    | del k =>
      rw [acts] at he
      by_cases hk : ks.hashable k = true
      · have e : del ks s k = ((del ks s k).1, .ok ()) := by unfold del; dsimp only; rw [if_pos hk]
        rw [e] at he
        exact ih hd (hdel s k List.mem_cons_self hk h) he
      · have e : del ks s k = (init s, .error unhashable) := by unfold del; dsimp only; rw [if_neg hk]
        rw [e] at he
        simp at he

theorem wf_iter {f : K → Option V → List (Act K V)} {s0 s : State K V} {seen : List (Entry K V)} (h : Wf ks s0) (it : Iter ks f s0 s seen) : Wf ks s := by
  induction it with
  | start _ => exact h
  | visit e s' _ _ _ ha ih => exact acts_ind ks (Wf ks) (fun s k v _ hs => wf_set ks hs k v) _ (fun s k _ _ hs => wf_del ks hs k) ih ha

/-- The entry `i` of the key `k` is there. -/
def There (k : K) (i : Nat) (s : State K V) : Prop := ∃ e ∈ s.es, e.key = k ∧ e.id = i

theorem there_set {s : State K V} {k : K} {i : Nat} (h : There k i s) (k' : K) (v : Option V) (hh : ks.hashable k' = true) : There k i (set ks s k' v).1 := by
  obtain ⟨e, he, hk, hi⟩ := h
  unfold set
  dsimp only
  rw [if_pos hh]
  show ∃ e ∈ assign ks s.es s.next k' v, _
  rcases assign_cases ks s.es s.next k' v with ⟨-, -, ea⟩ | ⟨-, ea⟩
  · rw [ea]
    refine ⟨_, List.mem_map_of_mem he, ?_⟩
    split <;> exact ⟨hk, hi⟩
  · rw [ea]
    exact ⟨e, List.mem_append_left _ he, hk, hi⟩

theorem there_del {s : State K V} {k : K} {i : Nat} (h : There k i s) (k' : K) (hk' : ¬ (ks.rfx k' = true ∧ k' = k)) (hh : ks.hashable k' = true) :
    There k i (del ks s k').1 := by
  obtain ⟨e, he, hk, hi⟩ := h
  unfold del
  dsimp only
  rw [if_pos hh]
  exact ⟨e, (mem_remove ks).2 ⟨he, fun hc => hk' ⟨hc.1, by rw [← hc.2, hk]⟩⟩, hk, hi⟩

theorem there_iter {f : K → Option V → List (Act K V)} {s0 s : State K V} {seen : List (Entry K V)} {k : K} {i : Nat} (h : There k i s0)
    (hd : ks.rfx k = true → ∀ k' v', Act.del k ∉ f k' v') (it : Iter ks f s0 s seen) : There k i s := by
  induction it with
  | start _ => exact h
  | visit e s' _ _ _ ha ih =>
    exact acts_ind ks (There k i) (fun s k v hh hs => there_set ks hs k v hh) _
      (fun s k' hm hh hs => there_del ks hs k' (by rintro ⟨hr, rfl⟩; exact hd hr _ _ hm) hh) ih ha

/-- **C142** Whatever the callback does with the map (by the `Unsafe` methods): a key that was there at the start, and that the callback never deletes,
comes exactly once. -/
theorem C142_range_once {f : K → Option V → List (Act K V)} {s0 s : State K V} {seen : List (Entry K V)} (h : Reach ks s0) (it : Ended ks f s0 s seen)
    {k : K} (hr : ks.rfx k = true) (hk : ∃ v, Holds s0 k v) (hd : ∀ k' v', Act.del k ∉ f k' v') : (seen.map (·.key)).count k = 1 := by
  obtain ⟨it, hend⟩ := it
  have w0 := wf_reach ks h
  obtain ⟨v, hv⟩ := hk
  obtain ⟨e0, he0, hp⟩ := List.mem_map.1 hv
  simp only [Prod.mk.injEq] at hp
  have h0 : There k e0.id s0 := ⟨e0, he0, hp.1, rfl⟩
  have key : ((seen.map (·.key)).count k = if e0.id ∈ seen.map (·.id) then 1 else 0) := by
    clear hend
    induction it with
    | start _ => simp
    | @visit s1 seen1 e s' it1 hm hn ha ih =>
      have w1 := wf_iter ks w0 it1
      obtain ⟨e1, he1, hk1, hi1⟩ := there_iter ks h0 (fun _ => hd) it1
      have hiff : e.key = k ↔ e.id = e0.id := by
        constructor
        · intro hek
          rw [← hi1, key_inj ks w1 hm he1 (by rw [hek, hk1]) (by rw [hek]; exact hr)]
        · intro hei
          rw [id_inj ks w1 hm he1 (by rw [hei, hi1]), hk1]
      rw [List.map_append, List.count_append, ih, List.map_append]
      by_cases hek : e.key = k
      · have hei := hiff.1 hek
        rw [hei] at hn
        simp [hek, hei, hn]
      · have hei : ¬ e0.id = e.id := fun hc => hek (hiff.2 hc.symm)
        simp [hek, hei]
  obtain ⟨e1, he1, hk1, hi1⟩ := there_iter ks h0 (fun _ => hd) it
  have := hend e1 he1 (by rw [hi1]; exact w0.bound e0 he0)
  rw [key, if_pos (by rw [← hi1]; exact this)]

/-- **C142** No entry comes twice, and the callback gets the value the entry has at that moment. (By definition of `Iter`, the entry is in the map then.) -/
theorem C142_range_nodup {f : K → Option V → List (Act K V)} {s0 s : State K V} {seen : List (Entry K V)} (it : Iter ks f s0 s seen) :
    (seen.map (·.id)).Nodup := by
  induction it with
  | start _ => simp
  | visit e s' _ _ hn _ ih =>
    rw [List.map_append, List.nodup_append]
    refine ⟨ih, by simp, ?_⟩
    intro a ha b hb
    simp only [List.map_cons, List.map_nil, List.mem_singleton] at hb
    subst hb
    rintro rfl
    exact hn ha

/-- The callback that deletes what it is called with. -/
def clear (k : K) (_ : Option V) : List (Act K V) := [.del k]

/-- The callback that gives the key a new value. -/
def update (g : K → Option V → Option V) (k : K) (v : Option V) : List (Act K V) := [.set k (g k v)]

theorem acts_clear {s s' : State K V} (w : Wf ks s) {e : Entry K V} (he : e ∈ s.es) (h : acts ks s (clear e.key e.val) = (s', .ok ())) :
    s'.es = remove ks s.es e.key := by
  have hh := w.hash e he
  simp only [clear, acts, del, hh, if_true, Prod.mk.injEq] at h
  rw [← h.1]
  rfl

theorem acts_update {s s' : State K V} (w : Wf ks s) (g : K → Option V → Option V) {e : Entry K V} (he : e ∈ s.es)
    (h : acts ks s (update g e.key e.val) = (s', .ok ())) : s'.es = assign ks s.es s.next e.key (g e.key e.val) := by
  have hh := w.hash e he
  simp only [update, acts, set, hh, if_true, Prod.mk.injEq] at h
  rw [← h.1]
  rfl

/-- **C142** A range that deletes every key it comes to: the callback has been called once with each pair that was there, in some order, and what is left
are the pairs whose keys are not equal to themselves. -/
theorem C142_clear {s0 s : State K V} {seen : List (Entry K V)} (h : Reach ks s0) (it : Ended ks clear s0 s seen) :
    (seen.map fun e => (e.key, e.val)).Perm (pairs s0) ∧ pairs s = lost ks s0 := by
  obtain ⟨it, hend⟩ := it
  have w0 := wf_reach ks h
  -- the map holds what has not been seen, and what cannot be deleted
  have key : (∀ e ∈ seen, e ∈ s0.es) ∧ s.es = s0.es.filter (fun e => decide (e.id ∉ seen.map (·.id)) || !ks.rfx e.key) := by
    clear hend
    induction it with
    | start _ => simp
    | @visit s1 seen1 e s' it1 hm hn ha ih =>
      obtain ⟨ih1, ih2⟩ := ih
      have w1 := wf_iter ks w0 it1
      have hm0 : e ∈ s0.es := by rw [ih2] at hm; exact (List.mem_filter.1 hm).1
      refine ⟨fun x hx => ?_, ?_⟩
      · rcases List.mem_append.1 hx with hx | hx
        · exact ih1 x hx
        · rw [List.mem_singleton.1 hx]; exact hm0
      · rw [acts_clear ks w1 hm ha, ih2]
        unfold remove
        by_cases hr : ks.rfx e.key = true
        · rw [if_pos hr, List.filter_filter]
          refine List.filter_congr fun x hx => ?_
          by_cases hk : x.key = e.key
          · have : x = e := key_inj ks w0 hx hm0 hk (by rw [hk]; exact hr)
            subst this
            simp [hr]
          · have : x.id ≠ e.id := fun hi => hk (by rw [id_inj ks w0 hx hm0 hi])
            simp [hk, this]
        · rw [if_neg hr]
          refine List.filter_congr fun x hx => ?_
          by_cases hk : x.id = e.id
          · have : x = e := id_inj ks w0 hx hm0 hk
            subst this
            simp [hr]
          · simp [hk]
  obtain ⟨k1, k2⟩ := key
  have hall : ∀ e ∈ s0.es, e.id ∈ seen.map (·.id) := by
    intro e he
    by_contra hc
    exact hc (hend e (by rw [k2]; exact List.mem_filter.2 ⟨he, by simp only [hc]; rfl⟩) (w0.bound e he))
  constructor
  · refine List.Perm.map _ ((List.perm_ext_iff_of_nodup (List.Nodup.of_map _ (C142_range_nodup ks it)) (wf_nodup ks w0)).2 fun e => ⟨k1 e, fun he => ?_⟩)
    obtain ⟨e', he', hi⟩ := List.mem_map.1 (hall e he)
    rw [id_inj ks w0 he (k1 e' he') hi.symm]
    exact he'
  · unfold lost pairs
    rw [k2, List.filter_map]
    congr 1
    refine List.filter_congr fun e he => ?_
    have := hall e he
    simp only [Function.comp_apply, Bool.or_eq_right_iff_imp, decide_eq_true_eq]
    intro hc
    exact absurd this hc

/-- **C142** So with keys equal to themselves the map is empty afterwards. -/
theorem C142_clear_empty {s0 s : State K V} {seen : List (Entry K V)} (h : Reach ks s0) (hr : ∀ k v, Holds s0 k v → ks.rfx k = true)
    (it : Ended ks clear s0 s seen) : len s = 0 := by
  rw [C142_len, (C142_clear ks h it).2, lost, List.length_eq_zero_iff, List.filter_eq_nil_iff]
  rintro ⟨k, v⟩ hm
  simp [hr k v hm]

/-- **C142** A range that gives every key it comes to a new value, the keys being equal to themselves: the callback has been called once with each pair that was there,
and afterwards each key has its new value. -/
theorem C142_update {s0 s : State K V} {seen : List (Entry K V)} (g : K → Option V → Option V) (h : Reach ks s0)
    (hr : ∀ k v, Holds s0 k v → ks.rfx k = true) (it : Ended ks (update g) s0 s seen) :
    (seen.map fun e => (e.key, e.val)).Perm (pairs s0) ∧ pairs s = (pairs s0).map fun p => (p.1, g p.1 p.2) := by
  obtain ⟨it, hend⟩ := it
  have w0 := wf_reach ks h
  have hr' : ∀ e ∈ s0.es, ks.rfx e.key = true := fun e he => hr e.key e.val (List.mem_map_of_mem he)
  have key : (∀ e ∈ seen, e ∈ s0.es) ∧ s.es = s0.es.map (fun e => if e.id ∈ seen.map (·.id) then { e with val := g e.key e.val } else e) := by
    clear hend
    induction it with
    | start _ => simp
    | @visit s1 seen1 e s' it1 hm hn ha ih =>
      obtain ⟨ih1, ih2⟩ := ih
      have w1 := wf_iter ks w0 it1
      have hm0 : e ∈ s0.es := by
        rw [ih2] at hm
        obtain ⟨x, hx, rfl⟩ := List.mem_map.1 hm
        split at hn
        · rename_i hc; exact absurd hc hn
        · rename_i hc; rw [if_neg hc]; exact hx
      refine ⟨fun x hx => ?_, ?_⟩
      · rcases List.mem_append.1 hx with hx | hx
        · exact ih1 x hx
        · rw [List.mem_singleton.1 hx]; exact hm0
      · rw [acts_update ks w1 g hm ha]
        rcases assign_cases ks s1.es s1.next e.key (g e.key e.val) with ⟨-, -, ea⟩ | ⟨hn', -⟩
        · rw [ea, ih2, List.map_map]
          refine List.map_congr_left fun x hx => ?_
          simp only [Function.comp_apply]
          by_cases hxe : x.id = e.id
          · have : x = e := id_inj ks w0 hx hm0 hxe
            subst this
            simp [hn]
          · have hk : x.key ≠ e.key := fun hk => hxe (by rw [key_inj ks w0 hx hm0 hk (hr' x hx)])
            by_cases hs : x.id ∈ seen1.map (·.id)
            · simp [hk, hs, hxe]
            · simp only [List.map_append, List.mem_append, List.map_cons, List.map_nil, List.mem_singleton, hs, hxe, or_self, if_false, hk]
        · exact absurd rfl (hn' (hr' e hm0) e hm)
  obtain ⟨k1, k2⟩ := key
  have hall : ∀ e ∈ s0.es, e.id ∈ seen.map (·.id) := by
    intro e he
    by_contra hc
    exact hc (hend e (by rw [k2]; exact List.mem_map.2 ⟨e, he, by rw [if_neg hc]⟩) (w0.bound e he))
  constructor
  · refine List.Perm.map _ ((List.perm_ext_iff_of_nodup (List.Nodup.of_map _ (C142_range_nodup ks it)) (wf_nodup ks w0)).2 fun e => ⟨k1 e, fun he => ?_⟩)
    obtain ⟨e', he', hi⟩ := List.mem_map.1 (hall e he)
    rw [id_inj ks w0 he (k1 e' he') hi.symm]
    exact he'
  · unfold pairs
    rw [k2, List.map_map, List.map_map]
    refine List.map_congr_left fun e he => ?_
    simp only [Function.comp_apply]
    rw [if_pos (hall e he)]

/-- **C142 (refuted: a range that updates the values leaves the number of pairs alone).** With a key that is not equal to itself every call adds a pair. -/
theorem C142_update_refuted {s0 s : State K V} {seen : List (Entry K V)} (g : K → Option V → Option V) (h : Reach ks s0) (hl : lost ks s0 ≠ [])
    (it : Ended ks (update g) s0 s seen) : len s0 < len s := by
  obtain ⟨it, hend⟩ := it
  have w0 := wf_reach ks h
  have hlen : len s = len s0 + (seen.filter fun e => !ks.rfx e.key).length := by
    clear hend
    induction it with
    | start _ => simp
    | @visit s1 seen1 e s' it1 hm hn ha ih =>
      have w1 := wf_iter ks w0 it1
      have e1 := acts_update ks w1 g hm ha
      rw [C142_len] at ih ⊢
      simp only [pairs, List.length_map] at ih ⊢
      rw [e1, List.filter_append, List.length_append]
      rcases assign_cases ks s1.es s1.next e.key (g e.key e.val) with ⟨hr, -, ea⟩ | ⟨hn', ea⟩
      · rw [ea, List.length_map, ih]
        simp [hr]
      · have hr : ks.rfx e.key = false := by
          by_contra hc
          exact hn' (by simpa using hc) e hm rfl
        rw [ea, List.length_append, ih]
        simp [hr]
        omega
  obtain ⟨⟨k, v⟩, hm⟩ := List.exists_mem_of_ne_nil _ hl
  obtain ⟨hm, hr⟩ := List.mem_filter.1 hm
  obtain ⟨e0, he0, hp⟩ := List.mem_map.1 hm
  simp only [Prod.mk.injEq] at hp
  have hr' : ks.rfx k = false := by simpa using hr
  have ht : There k e0.id s := there_iter ks ⟨e0, he0, hp.1, rfl⟩ (fun hc => by rw [hr'] at hc; cases hc) it
  obtain ⟨e1, he1, hk1, hi1⟩ := ht
  have hs := hend e1 he1 (by rw [hi1]; exact w0.bound e0 he0)
  obtain ⟨e2, he2, hi2⟩ := List.mem_map.1 hs
  have hseen : ∀ e ∈ seen, e.id = e0.id → e.key = k := by
    clear hlen hend he2 hs he1
    induction it with
    | start _ => simp
    | @visit s1 seen1 e s' it1 hm hn ha ih =>
      intro x hx hxi
      rcases List.mem_append.1 hx with hx | hx
      · exact ih x hx hxi
      · rw [List.mem_singleton.1 hx] at hxi ⊢
        obtain ⟨e1, he1, hk1, hi1⟩ := there_iter ks (k := k) (i := e0.id) ⟨e0, he0, hp.1, rfl⟩ (fun hc => by rw [hr'] at hc; cases hc) it1
        rw [id_inj ks (wf_iter ks w0 it1) hm he1 (by rw [hxi, hi1]), hk1]
  have : e2 ∈ seen.filter fun e => !ks.rfx e.key := List.mem_filter.2 ⟨he2, by rw [hseen e2 he2 (by rw [hi2, hi1]), hr']; rfl⟩
  have := List.length_pos_of_mem this
  omega

/-- **C142** A range is never stuck: it may end, or it can call the callback once more (which may panic). -/
theorem C142_range_goes_on {f : K → Option V → List (Act K V)} {s0 s : State K V} {seen : List (Entry K V)} (it : Iter ks f s0 s seen) :
    Ended ks f s0 s seen ∨ ∃ e ∈ s.es, e.id ∉ seen.map (·.id) ∧
      ((∃ s', Iter ks f s0 s' (seen ++ [e])) ∨ ∃ s' p, acts ks s (f e.key e.val) = (s', .error p)) := by
  by_cases h : ∀ e ∈ s.es, e.id < s0.next → e.id ∈ seen.map (·.id)
  · exact .inl ⟨it, h⟩
  · push Not at h
    obtain ⟨e, he, -, hn⟩ := h
    refine .inr ⟨e, he, hn, ?_⟩
    rcases ha : acts ks s (f e.key e.val) with ⟨s', r⟩
    cases r with
    | ok u => exact .inl ⟨s', .visit e s' it he hn ha⟩
    | error p => exact .inr ⟨s', p, rfl⟩

/-! ## Examples: keys 0 .. 9 are ordinary, 10 .. 19 are NaNs, the others cannot be hashed -/

def exKeys : Keys Nat := ⟨fun k => decide (k < 10), fun k => decide (k < 20)⟩

def exState : State Nat Nat := (set exKeys (set exKeys (set exKeys (set exKeys zero 1 (some 5)).1 12 (some 6)).1 2 none).1 12 (some 7)).1

example : Reach exKeys exState := .set _ _ (.set _ _ (.set _ _ (.set _ _ .zero)))
example : pairs exState = [(1, some 5), (12, some 6), (2, none), (12, some 7)] := by decide
example : lost exKeys exState = [(12, some 6), (12, some 7)] := by decide
example : Holds exState 1 (some 5) ∧ exKeys.rfx 1 = true ∧ exKeys.hashable 1 = true := by simp [Holds, exKeys]; decide
example : (set exKeys exState 25 none).2 = .error unhashable := by decide
/-- A range that deletes, to its end: entry 2 (key 2) first, then the others. -/
example : ∃ s seen, Ended exKeys clear exState s seen ∧ seen.map (·.key) = [2, 1, 12, 12] ∧ pairs s = [(12, some 6), (12, some 7)] := by
  refine ⟨⟨some [⟨1, 12, some 6⟩, ⟨3, 12, some 7⟩], 4⟩, [⟨2, 2, none⟩, ⟨0, 1, some 5⟩, ⟨1, 12, some 6⟩, ⟨3, 12, some 7⟩], ⟨?_, ?_⟩, rfl, rfl⟩
  · have h0 : Iter exKeys clear exState exState [] := .start (by simp [exState, set, exKeys])
    have h1 : Iter exKeys clear exState _ ([] ++ [⟨2, 2, none⟩]) :=
      .visit ⟨2, 2, none⟩ ⟨some [⟨0, 1, some 5⟩, ⟨1, 12, some 6⟩, ⟨3, 12, some 7⟩], 4⟩ h0 (.tail _ (.tail _ (.head _))) (by simp) rfl
    have h2 : Iter exKeys clear exState _ (([] ++ [⟨2, 2, none⟩]) ++ [⟨0, 1, some 5⟩]) :=
      .visit ⟨0, 1, some 5⟩ ⟨some [⟨1, 12, some 6⟩, ⟨3, 12, some 7⟩], 4⟩ h1 (.head _) (by simp) rfl
    have h3 : Iter exKeys clear exState _ ((([] ++ [⟨2, 2, none⟩]) ++ [⟨0, 1, some 5⟩]) ++ [⟨1, 12, some 6⟩]) :=
      .visit ⟨1, 12, some 6⟩ ⟨some [⟨1, 12, some 6⟩, ⟨3, 12, some 7⟩], 4⟩ h2 (.head _) (by simp) rfl
    exact .visit ⟨3, 12, some 7⟩ ⟨some [⟨1, 12, some 6⟩, ⟨3, 12, some 7⟩], 4⟩ h3 (.tail _ (.head _)) (by simp) rfl
  · intro e he _
    simp only [State.es, Option.getD_some, List.mem_cons, List.not_mem_nil, or_false] at he
    rcases he with rfl | rfl <;> simp

end Verif.SafeMapKeys
