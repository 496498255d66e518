import Verif.Spec.Gorm
import Mathlib.Data.List.Forall2

/-!
# The statements of the GORM helpers
-/

namespace Verif.Gorm

open Spec.Sql

/-! ## Texts -/

theorem trimSuffix_append (s suf : Str) : trimSuffix (s ++ suf) suf = s := by
  have : suf.isSuffixOf (s ++ suf) = true := by simp
  simp [trimSuffix, this]

theorem join_eq (sep : Str) (l : List Str) : join sep l = List.intercalate sep l := by
  induction l with
  | nil => rfl
  | cons a as ih =>
    cases as with
    | nil => simp [join, List.intercalate]
    | cons b bs =>
      rw [join, ih]
      · simp [List.intercalate]
      · simp

/-- Items each followed by a comma: all but the last comma separate them. -/
theorem flatten_comma (l : List Str) (h : l ≠ []) : (l.map (· ++ [','])).flatten = List.intercalate [','] l ++ [','] := by
  induction l with
  | nil => exact absurd rfl h
  | cons a as ih =>
    cases as with
    | nil => simp [List.intercalate]
    | cons b bs =>
      rw [List.map_cons, List.flatten_cons, ih (by simp)]
      simp [List.intercalate]

theorem foldl_const (s t : Str) (n : Nat) :
    (List.range n).foldl (fun s _ => s ++ t) s = s ++ (List.replicate n t).flatten := by
  induction n with
  | zero => simp
  | succ n ih => simp [List.range_succ, ih, List.replicate_succ', List.foldl_append]

theorem insertSql_eq {V : Type} (s : Insert V) (h : s.rows ≠ []) : insertSql s.table s.columns s.rows.length = s.text := by
  have hr : (List.replicate s.rows.length "(?),".toList).flatten
      = List.intercalate [','] (s.rows.map (fun _ => "(?)".toList)) ++ [','] := by
    rw [← flatten_comma _ (by simpa using h)]
    congr 1
    rw [List.map_map]
    simp [List.map_const', Function.comp_def]
  unfold insertSql Insert.text
  simp only [foldl_const, hr, join_eq]
  rw [← List.append_assoc, show ",".toList = [','] from rfl, trimSuffix_append]
  simp [Function.comp_def]

theorem contains_iff (s sub : Str) : contains s sub = true ↔ sub <:+: s := by
  induction s with
  | nil => simp [contains, List.infix_nil]
  | cons c s ih => simp [contains, ih, List.infix_cons_iff]

/-! ## Inserts -/

/-- `ins` carries the records of `chunk`: its columns are the fields of the first record, in some order, and each row has, at
the place of each column, the value of that record, or nil. -/
def Carries {R V : Type} (env : Env R V) (chunk : List R) (ins : Insert V) : Prop :=
  ∃ m ms, chunk.map env.dump = (m :: ms).map .ok ∧ ins.columns.Perm (m.map (·.1)) ∧
    ins.rows = (m :: ms).map (fun m => ins.columns.map (fun c => (m.lookup c).getD env.nil))

theorem dumpAll_ok {R V : Type} (env : Env R V) (rs : List R) (ms : List (Fields V)) (h : dumpAll env rs = .ok ms) :
    rs.map env.dump = ms.map .ok := by
  induction rs generalizing ms with
  | nil => simp only [dumpAll, Except.ok.injEq] at h; subst h; rfl
  | cons r rs ih =>
    simp only [dumpAll] at h
    split at h
    · cases h
    rename_i m hm
    split at h
    · cases h
    rename_i ms' hms
    cases h
    simp [hm, ih ms' hms]

theorem dumpAll_error {R V : Type} (env : Env R V) (rs : List R) (e : Str) (h : dumpAll env rs = .error e) :
    ∃ r ∈ rs, env.dump r = .error e := by
  induction rs with
  | nil => cases h
  | cons r rs ih =>
    simp only [dumpAll] at h
    split at h
    · rename_i e' he
      cases h
      exact ⟨r, List.mem_cons_self, he⟩
    rename_i m hm
    split at h
    · rename_i e' he
      cases h
      obtain ⟨r', hr, h'⟩ := ih he
      exact ⟨r', List.mem_cons_of_mem _ hr, h'⟩
    · cases h

/-- One batch: either some record cannot be converted, and nothing is sent; or one statement is sent that carries the records,
and the verdict on the database's answer is returned. -/
theorem batch_spec {R V : Type} (env : Env R V) (hk : ∀ h m, (env.keys h m).Perm (m.map (·.1))) (table : Str) (records : List R)
    (hist : List (Stmt V)) (hr : records ≠ []) :
    (∃ e, (∃ r ∈ records, env.dump r = .error e) ∧ batchInsert env table records hist = (hist, some (.dump e))) ∨
    (∃ ins : Insert V, ins.table = table ∧ Carries env records ins ∧
      batchInsert env table records hist = (hist ++ [ins.stmt], verdict (env.exec hist ins.stmt))) := by
  obtain ⟨r, rs, rfl⟩ : ∃ r rs, records = r :: rs := by
    cases records with
    | nil => exact absurd rfl hr
    | cons r rs => exact ⟨r, rs, rfl⟩
  unfold batchInsert
  cases hd : dumpAll env (r :: rs) with
  | error e => exact Or.inl ⟨e, dumpAll_error env _ e hd, by simp⟩
  | ok ms =>
    have hd' := dumpAll_ok env _ _ hd
    cases ms with
    | nil => simp at hd'
    | cons m ms =>
      refine Or.inr ⟨⟨table, env.keys hist m, (m :: ms).map (fun item =>
        (env.keys hist m).map (fun c => (item.lookup c).getD env.nil))⟩, rfl, ⟨m, ms, hd', hk hist m, rfl⟩, ?_⟩
      generalize hins : (⟨table, env.keys hist m, (m :: ms).map (fun item =>
        (env.keys hist m).map (fun c => (item.lookup c).getD env.nil))⟩ : Insert V) = ins
      have hs : (⟨insertSql table (env.keys hist m) ((m :: ms).map (fun item => Arg.row ((env.keys hist m).map
          (fun name => (item.lookup name).getD env.nil)))).length, (m :: ms).map (fun item => Arg.row ((env.keys hist m).map
          (fun name => (item.lookup name).getD env.nil)))⟩ : Stmt V) = ins.stmt := by
        have := insertSql_eq ins (by rw [← hins]; simp)
        unfold Insert.stmt
        rw [← this, ← hins]
        simp
      simp only [hs]
      generalize env.exec hist ins.stmt = ret
      obtain ⟨err, rows⟩ := ret
      cases err with
      | none =>
        have : contains "<nil>".toList "Duplicate entry".toList = false := by decide
        simp only [this, verdict]
        by_cases h0 : rows = 0 <;> simp [h0]
      | some e =>
        simp only [contains_iff, verdict]
        split <;> rfl

/-- The statements of a successful run of the loop. -/
theorem loop_ok {R V : Type} (env : Env R V) (hk : ∀ h m, (env.keys h m).Perm (m.map (·.1))) (table : Str) (max fuel : Nat)
    (records : List R) (hist hist' : List (Stmt V)) (h : splitLoop env table max fuel records hist = .ok (hist', none)) :
    ∃ (chunks : List (List R)) (inss : List (Insert V)), chunks.flatten = records ∧ hist' = hist ++ inss.map Insert.stmt ∧
      List.Forall₂ (fun c i => i.table = table ∧ c.length ≤ max ∧ Carries env c i) chunks inss ∧
      (∀ pre i post, inss = pre ++ i :: post → verdict (env.exec (hist ++ pre.map Insert.stmt) i.stmt) = none) := by
  induction fuel generalizing records hist with
  | zero => cases h
  | succ fuel ih =>
    rw [splitLoop] at h
    split at h
    · rename_i h0
      cases h
      exact ⟨[], [], by simp [List.length_eq_zero_iff.1 h0], by simp, .nil, by simp⟩
    rename_i h0
    generalize hn : (if records.length > max then max else records.length) = n at h
    dsimp only at h
    by_cases hz : n = 0
    · subst hz
      exact ih records hist (by simpa [batchInsert] using h)
    have hne : records.take n ≠ [] := by
      intro h'
      rcases List.take_eq_nil_iff.1 h' with h' | h'
      · exact hz h'
      · exact h0 (by simp [h'])
    rcases batch_spec env hk table _ hist hne with ⟨e, _, hb⟩ | ⟨ins, ht, hc, hb⟩
    · simp [hb] at h
    · rw [hb] at h
      cases hv : verdict (env.exec hist ins.stmt) with
      | some e => simp [hv] at h
      | none =>
        rw [hv] at h
        obtain ⟨chunks, inss, h1, h2, h3, h4⟩ := ih _ _ h
        refine ⟨records.take n :: chunks, ins :: inss, by simp [h1, List.take_append_drop], by simp [h2],
          .cons ⟨ht, ?_, hc⟩ h3, ?_⟩
        · rw [List.length_take]
          split at hn <;> omega
        · intro pre i post he
          cases pre with
          | nil =>
            simp only [List.nil_append, List.cons.injEq] at he
            rw [← he.1]
            simpa using hv
          | cons p pre =>
            simp only [List.cons_append, List.cons.injEq] at he
            have := h4 pre i post he.2
            rw [← he.1]
            simpa using this

/-- A run of the loop that fails. -/
theorem loop_error {R V : Type} (env : Env R V) (hk : ∀ h m, (env.keys h m).Perm (m.map (·.1))) (table : Str) (max fuel : Nat)
    (records : List R) (hist hist' : List (Stmt V)) (e : InsErr)
    (h : splitLoop env table max fuel records hist = .ok (hist', some e)) :
    ∃ (chunks : List (List R)) (inss : List (Insert V)) (bad rest : List R),
      chunks.flatten ++ bad ++ rest = records ∧ bad ≠ [] ∧ bad.length ≤ max ∧
      List.Forall₂ (fun c i => i.table = table ∧ c.length ≤ max ∧ Carries env c i) chunks inss ∧
      (∀ pre i post, inss = pre ++ i :: post → verdict (env.exec (hist ++ pre.map Insert.stmt) i.stmt) = none) ∧
      ((∃ d, e = .dump d ∧ (∃ r ∈ bad, env.dump r = .error d) ∧ hist' = hist ++ inss.map Insert.stmt) ∨
       (∃ i : Insert V, i.table = table ∧ Carries env bad i ∧ hist' = hist ++ inss.map Insert.stmt ++ [i.stmt] ∧
          verdict (env.exec (hist ++ inss.map Insert.stmt) i.stmt) = some e)) := by
  induction fuel generalizing records hist with
  | zero => cases h
  | succ fuel ih =>
    rw [splitLoop] at h
    split at h
    · cases h
    rename_i h0
    generalize hn : (if records.length > max then max else records.length) = n at h
    dsimp only at h
    by_cases hz : n = 0
    · subst hz
      exact ih records hist (by simpa [batchInsert] using h)
    have hne : records.take n ≠ [] := by
      intro h'
      rcases List.take_eq_nil_iff.1 h' with h' | h'
      · exact hz h'
      · exact h0 (by simp [h'])
    have hlen : (records.take n).length ≤ max := by
      rw [List.length_take]
      split at hn <;> omega
    rcases batch_spec env hk table _ hist hne with ⟨d, hd, hb⟩ | ⟨ins, ht, hc, hb⟩
    · simp only [hb, Except.ok.injEq, Prod.mk.injEq, Option.some.injEq] at h
      refine ⟨[], [], records.take n, records.drop n, by simp, hne, hlen, .nil, by simp, Or.inl ⟨d, h.2.symm, hd, by simp [h.1]⟩⟩
    · rw [hb] at h
      cases hv : verdict (env.exec hist ins.stmt) with
      | some e' =>
        simp only [hv, Except.ok.injEq, Prod.mk.injEq, Option.some.injEq] at h
        refine ⟨[], [], records.take n, records.drop n, by simp, hne, hlen, .nil, by simp,
          Or.inr ⟨ins, ht, hc, by simp [h.1], by simp [hv, h.2]⟩⟩
      | none =>
        rw [hv] at h
        obtain ⟨chunks, inss, bad, rest, h1, h2, h3, h4, h5, h6⟩ := ih _ _ h
        refine ⟨records.take n :: chunks, ins :: inss, bad, rest, ?_, h2, h3, .cons ⟨ht, hlen, hc⟩ h4, ?_, ?_⟩
        · rw [List.flatten_cons, List.append_assoc, List.append_assoc, ← List.append_assoc chunks.flatten, h1,
            List.take_append_drop]
        · intro pre i post he
          cases pre with
          | nil =>
            simp only [List.nil_append, List.cons.injEq] at he
            rw [← he.1]
            simpa using hv
          | cons p pre =>
            simp only [List.cons_append, List.cons.injEq] at he
            have := h5 pre i post he.2
            rw [← he.1]
            simpa using this
        · rcases h6 with ⟨d, h7, h8, h9⟩ | ⟨i, h7, h8, h9, h10⟩
          · exact Or.inl ⟨d, h7, h8, by simp [h9]⟩
          · exact Or.inr ⟨i, h7, h8, by simp [h9], by simpa using h10⟩

theorem loop_terminates {R V : Type} (env : Env R V) (table : Str) (max : Nat) (hmax : 0 < max) (fuel : Nat)
    (records : List R) (hist : List (Stmt V)) (hf : records.length < fuel) :
    ∃ r, splitLoop env table max fuel records hist = .ok r := by
  induction fuel generalizing records hist with
  | zero => omega
  | succ fuel ih =>
    rw [splitLoop]
    split
    · exact ⟨_, rfl⟩
    rename_i h0
    dsimp only
    generalize hn : (if records.length > max then max else records.length) = n
    have : 0 < n := by split at hn <;> omega
    split
    · exact ⟨_, rfl⟩
    · exact ih _ _ (by rw [List.length_drop]; omega)

theorem loop_diverges {R V : Type} (env : Env R V) (table : Str) (fuel : Nat) (records : List R) (hist : List (Stmt V))
    (h : records ≠ []) : splitLoop env table 0 fuel records hist = .error .diverge := by
  induction fuel with
  | zero => rfl
  | succ fuel ih =>
    have : 0 < records.length := List.length_pos_iff.2 h
    rw [splitLoop, if_neg (by omega)]
    simp [this, batchInsert, ih]

/-! ## Updates -/

theorem mapSet_new {V : Type} (m : IdMap V) (k : Int) (v : Fields V) (h : k ∉ m.map (·.1)) : mapSet m k v = m ++ [(k, v)] := by
  have : (m.lookup k).isSome = false := by
    induction m with
    | nil => rfl
    | cons e m ih =>
      simp only [List.map_cons, List.mem_cons, not_or] at h
      rw [List.lookup_cons]
      have : (k == e.1) = false := by simpa using h.1
      simp [this, ih h.2]
  simp [mapSet, this]

/-- The loop that slices the map, after the entries `p`, with `q` still to come. -/
structure Sliced {V : Type} (p : IdMap V) (q : Nat) (s : Slicing V) : Prop where
  total : s.total = p.length
  whole : s.slices.flatten ++ (if s.index = 0 then [] else s.tmp) = p
  tmp : s.index = if s.index = 0 then 0 else s.tmp.length
  small : s.index < 500
  full : ∀ m ∈ s.slices, m ≠ [] ∧ m.length ≤ 500
  last : q = 0 → p ≠ [] → s.index = 0

theorem Sliced.step {V : Type} (p : IdMap V) (q len : Nat) (s : Slicing V) (e : Int × Fields V) (h : Sliced p (q + 1) s)
    (hl : len = p.length + 1 + q) (hn : e.1 ∉ p.map (·.1)) : Sliced (p ++ [e]) q (slice1 len s e) := by
  obtain ⟨index, total, tmp, slices⟩ := s
  obtain ⟨h1, h2, h3, h4, h5, -⟩ := h
  dsimp only at h1 h2 h3 h4 h5
  have key : ∀ tmp' : IdMap V, tmp' = (if index = 0 then [] else tmp) →
      mapSet tmp' e.1 e.2 = tmp' ++ [e] ∧ slices.flatten ++ (tmp' ++ [e]) = p ++ [e] ∧ tmp'.length = index := by
    intro tmp' ht
    rw [← ht] at h2
    refine ⟨mapSet_new _ _ _ (fun h' => hn ?_), by rw [← List.append_assoc, h2], ?_⟩
    · rw [← h2, List.map_append]
      exact List.mem_append_right _ h'
    · rw [ht]
      by_cases h0 : index = 0
      · simp [h0]
      · rw [if_neg h0] at h3 ⊢
        exact h3.symm
  obtain ⟨k1, k2, k3⟩ := key _ rfl
  unfold slice1 maxUpdateLen
  dsimp only
  rw [k1]
  generalize (if index = 0 then [] else tmp) = tmp' at k1 k2 k3 ⊢
  split
  · refine ⟨by simp [h1], by simpa using k2, by simp, by simp, ?_, by simp⟩
    intro m hm
    rcases List.mem_append.1 hm with hm | hm
    · exact h5 m hm
    · rw [List.mem_singleton.1 hm]
      refine ⟨by simp, ?_⟩
      rw [List.length_append, k3]
      simp
      omega
  · rename_i hc
    simp only [not_or] at hc
    refine ⟨by simp [h1], by simpa using k2, by simp [k3], by dsimp only; omega, h5, ?_⟩
    intro hq _
    dsimp only
    omega

theorem slices_spec {V : Type} (m : IdMap V) (hn : (m.map (·.1)).Nodup) :
    (slices m).flatten = m ∧ ∀ b ∈ slices m, b ≠ [] ∧ b.length ≤ 500 := by
  have key : ∀ (q p : IdMap V) (s : Slicing V), p ++ q = m → Sliced p q.length s →
      Sliced m 0 (q.foldl (slice1 m.length) s) := by
    intro q
    induction q with
    | nil =>
      intro p s hp hs
      simp only [List.append_nil] at hp
      subst hp
      exact hs
    | cons e q ih =>
      intro p s hp hs
      refine ih (p ++ [e]) _ (by simp [hp]) (hs.step p q.length m.length s e ?_ ?_)
      · rw [← hp]; simp; omega
      · rw [← hp, List.map_append, List.nodup_append] at hn
        intro h'
        exact hn.2.2 _ h' e.1 (by simp) rfl
  have h := key m [] ⟨0, 0, [], []⟩ rfl ⟨rfl, rfl, rfl, by simp, by simp, by simp⟩
  refine ⟨?_, h.full⟩
  have hw := h.whole
  unfold slices
  by_cases he : m = []
  · subst he; rfl
  · rw [if_pos (h.last rfl he), List.append_nil] at hw
    exact hw

/-- The text and the arguments of one field. -/
theorem caseOf_spec {V : Type} (field : Str) (m : IdMap V) (sql : Str) (args : List (Arg V)) :
    caseOf field m (sql, args) =
      if (∀ e ∈ m, (e.2.lookup field).isSome) then
        some (sql ++ ((m.filterMap (fun e => (e.2.lookup field).map (fun v => (e.1, v)))).map
                (fun _ => "when id = ? then ? ".toList)).flatten,
          args ++ ((m.filterMap (fun e => (e.2.lookup field).map (fun v => (e.1, v)))).map
                (fun w => [Arg.id w.1, Arg.val w.2])).flatten)
      else none := by
  induction m generalizing sql args with
  | nil => simp [caseOf]
  | cons e m ih =>
    obtain ⟨i, upd⟩ := e
    rw [caseOf]
    cases hl : upd.lookup field with
    | none =>
      rw [if_neg (fun h => by have := h _ List.mem_cons_self; simp [hl] at this)]
    | some v =>
      dsimp only
      rw [ih]
      simp only [List.mem_cons, forall_eq_or_imp, hl, Option.isSome_some, true_and]
      split
      · simp [hl]
      · rfl

/-- The ids and values of one field. -/
def whens {V : Type} (m : IdMap V) (f : Str) : List (Int × V) :=
  m.filterMap (fun e => (e.2.lookup f).map (fun v => (e.1, v)))

/-- The assignments the loop over the fields builds. -/
def setsOf {V : Type} (env : UEnv V) (hist : List (Stmt V)) (m : IdMap V) : Nat → List Str → List (Str × List (Int × V))
  | _, [] => []
  | n, f :: fs => (f, whens (env.order hist n m) f) :: setsOf env hist m (n + 1) fs

/-- The text of one assignment. -/
def setText {V : Type} (p : Str × List (Int × V)) : Str :=
  p.1 ++ "= case ".toList ++ (p.2.map (fun _ => "when id = ? then ? ".toList)).flatten ++ "end".toList

theorem casesOf_spec {V : Type} (env : UEnv V) (ho : ∀ h n m, (env.order h n m).Perm m) (hist : List (Stmt V)) (m : IdMap V)
    (n : Nat) (fs : List Str) (sql : Str) (args : List (Arg V)) :
    casesOf env hist m n fs (sql, args) =
      if (∀ f ∈ fs, ∀ e ∈ m, (e.2.lookup f).isSome) then
        some (sql ++ ((setsOf env hist m n fs).map (fun p => setText p ++ [','])).flatten,
          args ++ ((setsOf env hist m n fs).map (fun p => (p.2.map (fun w => [Arg.id w.1, Arg.val w.2])).flatten)).flatten)
      else none := by
  induction fs generalizing n sql args with
  | nil => simp [casesOf, setsOf]
  | cons f fs ih =>
    rw [casesOf, caseOf_spec]
    have hm : (∀ e ∈ env.order hist n m, (e.2.lookup f).isSome) ↔ (∀ e ∈ m, (e.2.lookup f).isSome) := by
      constructor
      · exact fun h e he => h e ((ho hist n m).mem_iff.2 he)
      · exact fun h e he => h e ((ho hist n m).mem_iff.1 he)
    by_cases h1 : ∀ e ∈ m, (e.2.lookup f).isSome
    · rw [if_pos (hm.2 h1)]
      dsimp only
      rw [ih]
      have : (∀ f' ∈ f :: fs, ∀ e ∈ m, (e.2.lookup f').isSome) ↔ (∀ f ∈ fs, ∀ e ∈ m, (e.2.lookup f).isSome) := by
        simp only [List.mem_cons, forall_eq_or_imp]
        exact ⟨fun h => h.2, fun h => ⟨h1, h⟩⟩
      by_cases h2 : ∀ f ∈ fs, ∀ e ∈ m, (e.2.lookup f).isSome
      · rw [if_pos h2, if_pos (this.2 h2)]
        simp [setsOf, setText, whens]
      · rw [if_neg h2, if_neg (fun h => h2 (this.1 h))]
    · rw [if_neg (fun h => h1 (hm.1 h)), if_neg (fun h => h1 (h f List.mem_cons_self))]

theorem setsOf_fields {V : Type} (env : UEnv V) (hist : List (Stmt V)) (m : IdMap V) (n : Nat) (fs : List Str) :
    (setsOf env hist m n fs).map (·.1) = fs := by
  induction fs generalizing n with
  | nil => rfl
  | cons f fs ih => simp [setsOf, ih]

theorem setsOf_lookup {V : Type} (env : UEnv V) (hist : List (Stmt V)) (m : IdMap V) (n : Nat) (fs : List Str) (f : Str)
    (hf : f ∈ fs) : ∃ k, (setsOf env hist m n fs).lookup f = some (whens (env.order hist k m) f) := by
  induction fs generalizing n with
  | nil => cases hf
  | cons g fs ih =>
    simp only [setsOf, List.lookup_cons]
    by_cases h : f = g
    · subst h
      exact ⟨n, by simp⟩
    · have : (f == g) = false := by simpa using h
      rw [this]
      exact ih (n + 1) ((List.mem_cons.1 hf).resolve_left h)

theorem setsOf_lookup_none {V : Type} (env : UEnv V) (hist : List (Stmt V)) (m : IdMap V) (n : Nat) (fs : List Str) (f : Str)
    (hf : f ∉ fs) : (setsOf env hist m n fs).lookup f = none := by
  induction fs generalizing n with
  | nil => rfl
  | cons g fs ih =>
    simp only [List.mem_cons, not_or] at hf
    have : (f == g) = false := by simpa using hf.1
    simp [setsOf, List.lookup_cons, this, ih (n + 1) hf.2]

/-- With distinct keys, looking up is membership. -/
theorem lookup_iff {K V : Type} [BEq K] [LawfulBEq K] (m : List (K × V)) (hn : (m.map (·.1)).Nodup) (k : K) (v : V) :
    m.lookup k = some v ↔ (k, v) ∈ m := by
  induction m with
  | nil => simp
  | cons e m ih =>
    obtain ⟨k', v'⟩ := e
    simp only [List.map_cons, List.nodup_cons] at hn
    rw [List.lookup_cons]
    by_cases h : k = k'
    · subst h
      have : ∀ v, (k, v) ∉ m := fun v hv => hn.1 (List.mem_map_of_mem (f := (·.1)) hv)
      simp [this, eq_comm]
    · have hb : (k == k') = false := by simpa using h
      simp [hb, ih hn.2, h]

theorem lookup_none {K V : Type} [BEq K] [LawfulBEq K] (m : List (K × V)) (k : K) : m.lookup k = none ↔ k ∉ m.map (·.1) := by
  induction m with
  | nil => simp
  | cons e m ih =>
    obtain ⟨k', v'⟩ := e
    rw [List.lookup_cons]
    by_cases h : k = k'
    · subst h; simp
    · have hb : (k == k') = false := by simpa using h
      simp only [hb, ih, List.map_cons, List.mem_cons, not_or]
      exact ⟨fun h' => ⟨h, h'⟩, fun h' => h'.2⟩

theorem lookup_perm {K V : Type} [BEq K] [LawfulBEq K] (m m' : List (K × V)) (h : m.Perm m') (hn : (m.map (·.1)).Nodup) (k : K) :
    m.lookup k = m'.lookup k := by
  have hn' : (m'.map (·.1)).Nodup := (h.map _).nodup_iff.1 hn
  apply Option.ext
  intro v
  rw [lookup_iff m hn, lookup_iff m' hn', h.mem_iff]

theorem whens_keys {V : Type} (m : IdMap V) (f : Str) (h : ∀ e ∈ m, (e.2.lookup f).isSome) :
    (whens m f).map (·.1) = m.map (·.1) := by
  induction m with
  | nil => rfl
  | cons e m ih =>
    have h1 := h e List.mem_cons_self
    obtain ⟨v, hv⟩ := Option.isSome_iff_exists.1 h1
    have := ih (fun e he => h e (List.mem_cons_of_mem _ he))
    simp only [whens, List.filterMap_cons, hv, Option.map_some, List.map_cons, List.cons.injEq, true_and]
    exact this

theorem whens_lookup {V : Type} (m : IdMap V) (hn : (m.map (·.1)).Nodup) (f : Str) (h : ∀ e ∈ m, (e.2.lookup f).isSome) (i : Int)
    (upd : Fields V) (hi : (i, upd) ∈ m) : (whens m f).lookup i = upd.lookup f := by
  obtain ⟨v, hv⟩ := Option.isSome_iff_exists.1 (h _ hi)
  dsimp only at hv
  rw [hv, lookup_iff _ (by rw [whens_keys m f h]; exact hn)]
  unfold whens
  rw [List.mem_filterMap]
  exact ⟨_, hi, by simp [hv]⟩

/-- `u` updates the rows of `b`: its fields are those of one of the items, every item has them, and it sets each of them to what
the items say. -/
def Updates {V : Type} (b : IdMap V) (u : Update V) : Prop :=
  u.ids.Perm (b.map (·.1)) ∧ (∃ e ∈ b, (u.sets.map (·.1)).Perm (e.2.map (·.1))) ∧
  (∀ f ∈ u.sets.map (·.1), ∀ e ∈ b, (e.2.lookup f).isSome) ∧
  ∀ f ∈ u.sets.map (·.1), ∃ b', b'.Perm b ∧ u.sets.lookup f = some (whens b' f)

theorem update_spec {V : Type} (env : UEnv V) (ho : ∀ h n m, (env.order h n m).Perm m)
    (hf : ∀ h m, (env.fields h m).Perm (m.map (·.1))) (table : Str) (m : IdMap V) (hist : List (Stmt V)) (hm : m ≠ []) :
    (∃ e ∈ m, ∃ f ∈ e.2.map (·.1), ∃ e' ∈ m, e'.2.lookup f = none ∧ batchUpdate env table m hist = (hist, some .fields)) ∨
    (∃ u : Update V, u.table = table ∧ Updates m u ∧
      batchUpdate env table m hist = (hist ++ [u.stmt], (env.exec hist u.stmt).err.map .failed)) := by
  obtain ⟨⟨i, item⟩, l, hl⟩ : ∃ e l, env.order hist 0 m = e :: l := by
    cases h : env.order hist 0 m with
    | nil => exact absurd (List.nil_perm.1 (h ▸ ho hist 0 m)) hm
    | cons e l => exact ⟨e, l, rfl⟩
  have hi : (i, item) ∈ m := (ho hist 0 m).mem_iff.1 (by rw [hl]; exact List.mem_cons_self)
  have hlen : ¬ m.length = 0 := by simpa using hm
  unfold batchUpdate
  rw [if_neg hlen]
  simp only [hl]
  generalize hfs : env.fields hist item = fs
  have hp : fs.Perm (item.map (·.1)) := hfs ▸ hf hist item
  rw [casesOf_spec env ho]
  by_cases hall : ∀ f ∈ fs, ∀ e ∈ m, (e.2.lookup f).isSome
  · rw [if_pos hall]
    right
    refine ⟨⟨table, setsOf env hist m 1 fs, (env.order hist (1 + fs.length) m).map (·.1)⟩, rfl,
      ⟨(ho _ _ _).map _, ⟨_, hi, ?_⟩, ?_, ?_⟩, ?_⟩
    · simpa only [setsOf_fields] using hp
    · simpa only [setsOf_fields] using hall
    · intro f hf'
      simp only [setsOf_fields] at hf'
      obtain ⟨k, hk⟩ := setsOf_lookup env hist m 1 fs f hf'
      exact ⟨_, ho hist k m, hk⟩
    · have ht : trimSuffix ([] ++ ((setsOf env hist m 1 fs).map (fun p => setText p ++ [','])).flatten) ",".toList =
          List.intercalate [','] ((setsOf env hist m 1 fs).map setText) := by
        rw [List.nil_append]
        by_cases h0 : setsOf env hist m 1 fs = []
        · rw [h0]
          rfl
        · have h1 := flatten_comma ((setsOf env hist m 1 fs).map setText) (by simpa using h0)
          rw [List.map_map] at h1
          have h2 : ((fun x => x ++ [',']) ∘ setText : Str × List (Int × V) → Str) = fun p => setText p ++ [','] := rfl
          rw [h2] at h1
          rw [h1]
          exact trimSuffix_append _ _
      dsimp only
      rw [ht]
      have hs : (⟨"update ".toList ++ table ++ " set ".toList ++ List.intercalate [','] ((setsOf env hist m 1 fs).map setText) ++
          " where id in (?)".toList, [] ++ ((setsOf env hist m 1 fs).map (fun p => (p.2.map
            (fun w => [Arg.id w.1, Arg.val w.2])).flatten)).flatten ++
            [Arg.ids ((env.order hist (1 + fs.length) m).map (·.1))]⟩ : Stmt V) =
          (⟨table, setsOf env hist m 1 fs, (env.order hist (1 + fs.length) m).map (·.1)⟩ : Update V).stmt := by
        rw [List.nil_append]
        rfl
      rw [hs]
      generalize env.exec hist _ = ret
      cases ret.err <;> rfl
  · rw [if_neg hall]
    left
    have : ∃ f ∈ fs, ∃ e' ∈ m, e'.2.lookup f = none := by
      apply Classical.byContradiction
      intro hn
      apply hall
      intro f hf' e he
      cases h : e.2.lookup f with
      | some _ => rfl
      | none => exact absurd ⟨f, hf', e, he, h⟩ hn
    obtain ⟨f, h1, e', h2, h3⟩ := this
    exact ⟨_, hi, f, hp.mem_iff.1 h1, e', h2, h3, rfl⟩

/-- The run over the batches: all sent, or it stops at the first that fails. -/
theorem updateAll_spec {V : Type} (env : UEnv V) (ho : ∀ h n m, (env.order h n m).Perm m)
    (hf : ∀ h m, (env.fields h m).Perm (m.map (·.1))) (table : Str) (bs : List (IdMap V)) (hist : List (Stmt V))
    (hb : ∀ b ∈ bs, b ≠ []) :
    (∃ us : List (Update V), updateAll env table bs hist = (hist ++ us.map Update.stmt, none) ∧
      List.Forall₂ (fun b u => u.table = table ∧ Updates b u) bs us ∧
      ∀ pre u post, us = pre ++ u :: post → (env.exec (hist ++ pre.map Update.stmt) u.stmt).err = none) ∨
    (∃ (good : List (IdMap V)) (bad : IdMap V) (rest : List (IdMap V)) (us : List (Update V)),
      bs = good ++ bad :: rest ∧ List.Forall₂ (fun b u => u.table = table ∧ Updates b u) good us ∧
      (∀ pre u post, us = pre ++ u :: post → (env.exec (hist ++ pre.map Update.stmt) u.stmt).err = none) ∧
      ((updateAll env table bs hist = (hist ++ us.map Update.stmt, some .fields) ∧
          ∃ e ∈ bad, ∃ f ∈ e.2.map (·.1), ∃ e' ∈ bad, e'.2.lookup f = none) ∨
       (∃ u err, u.table = table ∧ Updates bad u ∧ (env.exec (hist ++ us.map Update.stmt) u.stmt).err = some err ∧
          updateAll env table bs hist = (hist ++ us.map Update.stmt ++ [u.stmt], some (.failed err))))) := by
  induction bs generalizing hist with
  | nil => exact Or.inl ⟨[], by simp [updateAll], .nil, by simp⟩
  | cons b bs ih =>
    rw [updateAll]
    rcases update_spec env ho hf table b hist (hb b List.mem_cons_self) with ⟨e, he, f, hfe, e', he', hn, hr⟩ | ⟨u, ht, hu, hr⟩
    · refine Or.inr ⟨[], b, bs, [], rfl, .nil, by simp, Or.inl ⟨by simp [hr], e, he, f, hfe, e', he', hn⟩⟩
    · cases hx : (env.exec hist u.stmt).err with
      | some err =>
        refine Or.inr ⟨[], b, bs, [], rfl, .nil, by simp, Or.inr ⟨u, err, ht, hu, by simpa using hx, ?_⟩⟩
        simp [hr, hx]
      | none =>
        have hr' : batchUpdate env table b hist = (hist ++ [u.stmt], none) := by rw [hr, hx]; rfl
        have hpre : ∀ us : List (Update V),
            (∀ pre u' post, us = pre ++ u' :: post → (env.exec (hist ++ [u.stmt] ++ pre.map Update.stmt) u'.stmt).err = none) →
            ∀ pre u' post, u :: us = pre ++ u' :: post → (env.exec (hist ++ pre.map Update.stmt) u'.stmt).err = none := by
          intro us h4 pre u' post he
          cases pre with
          | nil =>
            simp only [List.nil_append, List.cons.injEq] at he
            rw [← he.1]
            simpa using hx
          | cons p pre =>
            simp only [List.cons_append, List.cons.injEq] at he
            have := h4 pre u' post he.2
            rw [← he.1]
            simpa using this
        rw [hr']
        dsimp only
        rcases ih (hist ++ [u.stmt]) (fun b h => hb b (List.mem_cons_of_mem _ h)) with
          ⟨us, h1, h2, h3⟩ | ⟨good, bad, rest, us, h1, h2, h3, h4⟩
        · exact Or.inl ⟨u :: us, by simp [h1], .cons ⟨ht, hu⟩ h2, hpre us h3⟩
        · refine Or.inr ⟨b :: good, bad, rest, u :: us, by simp [h1], .cons ⟨ht, hu⟩ h2, hpre us h3, ?_⟩
          rcases h4 with ⟨h5, h6⟩ | ⟨u', err, h5, h6, h7, h8⟩
          · exact Or.inl ⟨by simp [h5], h6⟩
          · exact Or.inr ⟨u', err, h5, h6, by simpa using h7, by simp [h8]⟩

/-- What the statement does to the table. -/
theorem Updates.apply {V : Type} (b : IdMap V) (u : Update V) (hn : (b.map (·.1)).Nodup)
    (h : Updates b u) (tbl : Int → Str → Option V) (i : Int) (f : Str) :
    u.apply tbl i f =
      match b.lookup i with
      | none => tbl i f
      | some upd => if f ∈ u.sets.map (·.1) then upd.lookup f else tbl i f := by
  obtain ⟨h1, -, h3, h4⟩ := h
  unfold Update.apply
  by_cases hi : i ∈ u.ids
  · rw [if_pos hi]
    have hi' := h1.mem_iff.1 hi
    cases hl : b.lookup i with
    | none => exact absurd hi' ((lookup_none b i).1 hl)
    | some upd =>
      dsimp only
      by_cases hf : f ∈ u.sets.map (·.1)
      · rw [if_pos hf]
        obtain ⟨b', hb', hs⟩ := h4 f hf
        rw [hs]
        dsimp only
        have hm := (lookup_iff b hn i upd).1 hl
        exact whens_lookup b' ((hb'.map _).nodup_iff.2 hn) f (fun e he => h3 f hf e (hb'.mem_iff.1 he)) i upd (hb'.mem_iff.2 hm)
      · rw [if_neg hf, (lookup_none _ f).2 hf]
  · rw [if_neg hi, (lookup_none b i).2 (fun h' => hi (h1.mem_iff.2 h'))]

/-! ## Names without back quotes -/

theorem quote_split (a b r r' : Str) (ha : '`' ∉ a) (hb : '`' ∉ b) (h : a ++ '`' :: r = b ++ '`' :: r') : a = b ∧ r = r' := by
  induction a generalizing b with
  | nil =>
    cases b with
    | nil => simpa using h
    | cons c b =>
      simp only [List.nil_append, List.cons_append, List.cons.injEq] at h
      exact absurd (h.1 ▸ List.mem_cons_self) hb
  | cons c a ih =>
    cases b with
    | nil =>
      simp only [List.nil_append, List.cons_append, List.cons.injEq] at h
      exact absurd (h.1 ▸ List.mem_cons_self) ha
    | cons d b =>
      simp only [List.cons_append, List.cons.injEq] at h
      obtain ⟨h1, h2⟩ := ih b (fun h' => ha (List.mem_cons_of_mem _ h')) (fun h' => hb (List.mem_cons_of_mem _ h')) h.2
      exact ⟨by rw [h.1, h1], h2⟩

theorem columns_inj (l l' : List Str) (h : ∀ a ∈ l, '`' ∉ a) (h' : ∀ a ∈ l', '`' ∉ a)
    (e : List.intercalate [','] (l.map (fun c => '`' :: (c ++ ['`']))) = List.intercalate [','] (l'.map (fun c => '`' :: (c ++ ['`'])))) :
    l = l' := by
  have one : ∀ (a : Str) (l : List Str), List.intercalate [','] ((a :: l).map (fun c => '`' :: (c ++ ['`']))) =
      '`' :: (a ++ '`' :: (if l = [] then [] else ',' :: List.intercalate [','] (l.map (fun c => '`' :: (c ++ ['`']))))) := by
    intro a l
    cases l with
    | nil => simp [List.intercalate]
    | cons b l => simp [List.intercalate]
  have nil : List.intercalate [','] (([] : List Str).map (fun c => '`' :: (c ++ ['`']))) = [] := rfl
  induction l generalizing l' with
  | nil =>
    cases l' with
    | nil => rfl
    | cons b l' => rw [one, nil] at e; cases e
  | cons a l ih =>
    cases l' with
    | nil => rw [one, nil] at e; cases e
    | cons b l' =>
      rw [one, one] at e
      obtain ⟨hab, e2⟩ := quote_split a b _ _ (h a List.mem_cons_self) (h' b List.mem_cons_self) (List.cons.inj e).2
      subst hab
      clear e
      congr 1
      refine ih l' (fun a ha => h a (List.mem_cons_of_mem _ ha)) (fun a ha => h' a (List.mem_cons_of_mem _ ha)) ?_
      by_cases h1 : l = []
      · by_cases h2 : l' = []
        · rw [h1, h2]
        · rw [if_pos h1, if_neg h2] at e2; cases e2
      · by_cases h2 : l' = []
        · rw [if_neg h1, if_pos h2] at e2; cases e2
        · rw [if_neg h1, if_neg h2] at e2
          exact (List.cons.inj e2).2

end Verif.Gorm
