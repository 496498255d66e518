import Verif.Proof.Gorm

/-!
# C64–C69, C100: the GORM helpers

The database, the conversion of a record into a map, and the iteration order of every loop over a map are arbitrary.
-/

namespace Verif.Gorm

open Spec.Sql

/-- An order of iteration yields the keys of the map, each once. -/
def KeysOk {R V : Type} (env : Env R V) : Prop := ∀ h m, (env.keys h m).Perm (m.map (·.1))

/-- Orders of iteration yield the entries of the map, each once. -/
def OrdersOk {V : Type} (env : UEnv V) : Prop :=
  (∀ h n m, (env.order h n m).Perm m) ∧ ∀ h m, (env.fields h m).Perm (m.map (·.1))

/-! ## Concrete cases -/

/-- Records that are maps already; a database that accepts everything. -/
def demoEnv : Env (Fields Nat) Nat where
  nil := 0
  dump := fun r => .ok r
  exec := fun _ _ => ⟨none, 1⟩
  keys := fun _ m => m.map (·.1)

theorem demo_keys : KeysOk demoEnv := fun _ _ => .refl _

/-- The same, but the second statement hits a duplicate. -/
def dupEnv : Env (Fields Nat) Nat where
  nil := 0
  dump := fun r => .ok r
  exec := fun h _ => if h.length = 1 then ⟨some "Error 1062: Duplicate entry '7'".toList, 0⟩ else ⟨none, 1⟩
  keys := fun _ m => (m.map (·.1)).reverse

theorem dup_keys : KeysOk dupEnv := fun _ _ => List.reverse_perm _

def recA : Fields Nat := [("id".toList, 1), ("age".toList, 30)]
def recB : Fields Nat := [("age".toList, 40), ("id".toList, 2)]

/-! ## C64 -/

/-- On success the records were sent batch by batch, in their order, and the database accepted every batch. -/
theorem C64_sent {R V : Type} (env : Env R V) (hk : KeysOk env) (table : Str) (fuel : Nat) (r : R) (rs : List R) (m : Fields V)
    (hm : env.dump r = .ok m) (hne : m ≠ []) (hist hist' : List (Stmt V))
    (h : splitInsert env table fuel (r :: rs) hist = .ok (hist', none)) :
    ∃ (chunks : List (List R)) (inss : List (Insert V)), chunks.flatten = r :: rs ∧ hist' = hist ++ inss.map Insert.stmt ∧
      List.Forall₂ (fun c i => i.table = table ∧ Carries env c i) chunks inss ∧
      (∀ pre i post, inss = pre ++ i :: post → verdict (env.exec (hist ++ pre.map Insert.stmt) i.stmt) = none) := by
  rw [splitInsert, hm] at h
  dsimp only at h
  rw [if_neg (by simpa using hne)] at h
  obtain ⟨c, i, h1, h2, h3, h4⟩ := loop_ok env hk table _ fuel _ _ _ h
  exact ⟨c, i, h1, h2, h3.imp (fun _ _ h => ⟨h.1, h.2.2⟩), h4⟩

/-- It stops at the first batch that fails: a prefix of the records was sent and accepted; of the next batch either a record cannot be
converted, and nothing more was sent, or it was sent and not accepted, and the error tells what the database said. -/
theorem C64_stops {R V : Type} (env : Env R V) (hk : KeysOk env) (table : Str) (fuel : Nat) (records : List R)
    (hist hist' : List (Stmt V)) (e : InsErr) (h : splitInsert env table fuel records hist = .ok (hist', some e)) :
    ∃ (chunks : List (List R)) (inss : List (Insert V)) (bad rest : List R),
      chunks.flatten ++ bad ++ rest = records ∧ bad ≠ [] ∧
      List.Forall₂ (fun c i => i.table = table ∧ Carries env c i) chunks inss ∧
      (∀ pre i post, inss = pre ++ i :: post → verdict (env.exec (hist ++ pre.map Insert.stmt) i.stmt) = none) ∧
      ((∃ d, e = .dump d ∧ (∃ r ∈ bad, env.dump r = .error d) ∧ hist' = hist ++ inss.map Insert.stmt) ∨
       (∃ i : Insert V, i.table = table ∧ Carries env bad i ∧ hist' = hist ++ inss.map Insert.stmt ++ [i.stmt] ∧
          verdict (env.exec (hist ++ inss.map Insert.stmt) i.stmt) = some e)) := by
  cases records with
  | nil => cases h
  | cons r rs =>
    rw [splitInsert] at h
    cases hd : env.dump r with
    | error d =>
      simp only [hd, Except.ok.injEq, Prod.mk.injEq, Option.some.injEq] at h
      exact ⟨[], [], [r], rs, by simp, by simp, .nil, by simp,
        Or.inl ⟨d, h.2.symm, ⟨r, List.mem_cons_self, hd⟩, by simp [h.1]⟩⟩
    | ok m =>
      simp only [hd] at h
      split at h
      · cases h
      · obtain ⟨c, i, b, t, h1, h2, -, h4, h5, h6⟩ := loop_error env hk table _ fuel _ _ _ e h
        exact ⟨c, i, b, t, h1, h2, h4.imp (fun _ _ h => ⟨h.1, h.2.2⟩), h5, h6⟩

/-- Both cases occur: two records in one batch; and a duplicate, reported as such. -/
theorem C64_example :
    splitInsert demoEnv "t".toList 3 [recA, recB] [] =
      .ok ([(⟨"t".toList, ["id".toList, "age".toList], [[1, 30], [2, 40]]⟩ : Insert Nat).stmt], none) ∧
    splitInsert dupEnv "t".toList 3 [recA, recB] [⟨[], []⟩] =
      .ok ([⟨[], []⟩, (⟨"t".toList, ["age".toList, "id".toList], [[30, 1], [40, 2]]⟩ : Insert Nat).stmt], some .duplicate) := by
  decide +kernel

/-- If the first record has no fields, the call succeeds without having sent anything, whatever the other records are. -/
theorem C64_empty_refuted {R V : Type} (env : Env R V) (table : Str) (fuel : Nat) (r : R) (rs : List R)
    (hm : env.dump r = .ok []) (hist : List (Stmt V)) : splitInsert env table fuel (r :: rs) hist = .ok (hist, none) := by
  simp [splitInsert, hm]

example : splitInsert demoEnv "t".toList 9 [[], recA, recB] [] = .ok ([], none) := C64_empty_refuted _ _ _ _ _ rfl _

/-! ## C65 -/

theorem Carries.size {R V : Type} (env : Env R V) (c : List R) (i : Insert V) (h : Carries env c i) (n : Nat)
    (hs : ∀ r ∈ c, ∃ m, env.dump r = .ok m ∧ m.length = n) : i.size = c.length * n := by
  obtain ⟨m, ms, h1, h2, h3⟩ := h
  have hl : (m :: ms).length = c.length := by simpa using (congrArg List.length h1).symm
  have hc : i.columns.length = n := by
    cases c with
    | nil => simp at h1
    | cons r c =>
      obtain ⟨m', hm', hl'⟩ := hs r List.mem_cons_self
      simp only [List.map_cons, List.cons.injEq] at h1
      have : m' = m := by
        rw [hm'] at h1
        exact (Except.ok.inj h1.1)
      rw [h2.length_eq, List.length_map, ← this, hl']
  have : ∀ l : List (Fields V), ((l.map (fun m => i.columns.map (fun c => (m.lookup c).getD env.nil))).map List.length).sum =
      l.length * n := by
    intro l
    induction l with
    | nil => simp
    | cons a l ih => simp only [List.map_cons, List.sum_cons, ih, List.length_map, hc, List.length_cons, Nat.succ_mul]; omega
  unfold Insert.size
  rw [h3, this, hl]

/-- Every statement sent carries at most 65000 values, if all records have as many fields as the first; whether the call succeeds or
not. -/
theorem C65_limit {R V : Type} (env : Env R V) (hk : KeysOk env) (table : Str) (fuel : Nat) (records : List R) (n : Nat)
    (hs : ∀ r ∈ records, ∃ m, env.dump r = .ok m ∧ m.length = n)
    (hist hist' : List (Stmt V)) (e : Option InsErr) (h : splitInsert env table fuel records hist = .ok (hist', e)) :
    ∃ inss : List (Insert V), hist' = hist ++ inss.map Insert.stmt ∧ ∀ i ∈ inss, i.size ≤ 65000 := by
  cases records with
  | nil => cases h; exact ⟨[], by simp, by simp⟩
  | cons r rs =>
    obtain ⟨m, hm, hn⟩ := hs r List.mem_cons_self
    rw [splitInsert, hm] at h
    dsimp only at h
    split at h
    · cases h; exact ⟨[], by simp, by simp⟩
    rename_i h0
    rw [hn] at h h0
    have bound : ∀ c : List R, c.length ≤ 65000 / n → c.length * n ≤ 65000 := fun c hc =>
      Nat.le_trans (Nat.mul_le_mul_right n hc) (Nat.div_mul_le_self _ _)
    have all : ∀ (cs : List (List R)) (is : List (Insert V)), (∀ c ∈ cs, ∀ x ∈ c, x ∈ r :: rs) →
        List.Forall₂ (fun c i => i.table = table ∧ c.length ≤ 65000 / n ∧ Carries env c i) cs is →
        ∀ i ∈ is, i.size ≤ 65000 := by
      intro cs is hsub hf
      induction hf with
      | nil => simp
      | cons h1 _ ih =>
        intro i hi
        rcases List.mem_cons.1 hi with rfl | hi
        · rw [h1.2.2.size env _ _ n (fun x hx => hs x (hsub _ List.mem_cons_self x hx))]
          exact bound _ h1.2.1
        · exact ih (fun c hc => hsub c (List.mem_cons_of_mem _ hc)) i hi
    cases e with
    | none =>
      obtain ⟨cs, is, h1, h2, h3, -⟩ := loop_ok env hk table _ fuel _ _ _ h
      refine ⟨is, h2, all cs is (fun c hc x hx => ?_) h3⟩
      rw [← h1]
      exact List.mem_flatten.2 ⟨c, hc, hx⟩
    | some e =>
      obtain ⟨cs, is, bad, rest, h1, h2, hb, h3, -, h4⟩ := loop_error env hk table _ fuel _ _ _ e h
      have hsub : ∀ c ∈ cs, ∀ x ∈ c, x ∈ r :: rs := fun c hc x hx => by
        rw [← h1]
        exact List.mem_append_left _ (List.mem_append_left _ (List.mem_flatten.2 ⟨c, hc, hx⟩))
      rcases h4 with ⟨d, -, -, h5⟩ | ⟨i, -, h6, h5, -⟩
      · exact ⟨is, h5, all cs is hsub h3⟩
      · refine ⟨is ++ [i], by simp [h5], fun j hj => ?_⟩
        rcases List.mem_append.1 hj with hj | hj
        · exact all cs is hsub h3 j hj
        · rw [List.mem_singleton.1 hj, h6.size env _ _ n (fun x hx => hs x (by
            rw [← h1]; exact List.mem_append_left _ (List.mem_append_right _ hx)))]
          exact bound _ hb

/-- Without that assumption the limit is not kept: the columns of a later batch are those of its own first record. -/
theorem C65_mixed_refuted : ∃ hist', splitInsert demoEnv "t".toList 3
    (List.replicate 65000 [("a".toList, 1)] ++ List.replicate 65000 [("a".toList, 1), ("b".toList, 2)]) [] = .ok (hist', none) ∧
    ∃ i : Insert Nat, i.stmt ∈ hist' ∧ i.size = 130000 := by
  have key : ∀ (x : Fields Nat) (k : Nat) (hist : List (Stmt Nat)), ∃ i : Insert Nat,
      Carries demoEnv (List.replicate (k + 1) x) i ∧
      batchInsert demoEnv "t".toList (List.replicate (k + 1) x) hist = (hist ++ [i.stmt], none) := by
    intro x k hist
    rcases batch_spec demoEnv demo_keys "t".toList (List.replicate (k + 1) x) hist (by simp) with ⟨e, ⟨r, -, hr⟩, -⟩ | ⟨i, -, hi, hb⟩
    · cases hr
    · exact ⟨i, hi, hb⟩
  obtain ⟨i, hi, hb⟩ := key [("a".toList, 1)] 64999 []
  obtain ⟨j, hj, hb'⟩ := key [("a".toList, 1), ("b".toList, 2)] 64999 ([] ++ [i.stmt])
  refine ⟨[] ++ [i.stmt] ++ [j.stmt], ?_, j, by simp, ?_⟩
  · generalize hq : List.replicate 65000 [("a".toList, 1), ("b".toList, 2)] = q at hb'
    have hql : q.length = 65000 := by rw [← hq, List.length_replicate]
    have hp : List.replicate 65000 [("a".toList, 1)] = [("a".toList, 1)] :: List.replicate 64999 [("a".toList, 1)] :=
      List.replicate_succ
    rw [hp, List.cons_append, splitInsert]
    have h1 : 65000 / ([("a".toList, 1)] : Fields Nat).length = 65000 := by decide
    simp only [demoEnv]
    rw [if_neg (by simp), h1, ← List.cons_append, ← hp, splitLoop]
    have hl : (List.replicate 65000 [("a".toList, 1)] ++ q).length = 130000 := by
      rw [List.length_append, hql, List.length_replicate]
    dsimp only
    rw [hl, if_neg (by omega), if_pos (by omega)]
    have ht : (List.replicate 65000 [("a".toList, 1)] ++ q).take 65000 = List.replicate 65000 [("a".toList, 1)] :=
      List.take_left' (by rw [List.length_replicate])
    have hd : (List.replicate 65000 [("a".toList, 1)] ++ q).drop 65000 = q :=
      List.drop_left' (by rw [List.length_replicate])
    rw [ht, hd]
    have hb1 := hb
    simp only [demoEnv] at hb1
    rw [hb1]
    dsimp only
    rw [splitLoop, hql, if_neg (by omega), if_neg (by omega)]
    dsimp only
    rw [show q.take 65000 = q from List.take_of_length_le (by omega), show q.drop 65000 = [] from List.drop_of_length_le (by omega)]
    have hb2 := hb'
    simp only [demoEnv] at hb2
    rw [hb2]
    rfl
  · rw [hj.size demoEnv _ _ 2 (fun r hr => ⟨r, rfl, by rw [(List.mem_replicate.1 hr).2]; rfl⟩), List.length_replicate]

/-! ## C66 -/

/-- With at most 65000 fields in the first record the call returns. -/
theorem C66_terminates {R V : Type} (env : Env R V) (table : Str) (fuel : Nat) (records : List R) (hist : List (Stmt V))
    (hf : records.length < fuel) (hm : ∀ r m, records.head? = some r → env.dump r = .ok m → m.length ≤ 65000) :
    ∃ r, splitInsert env table fuel records hist = .ok r := by
  cases records with
  | nil => exact ⟨_, rfl⟩
  | cons r rs =>
    rw [splitInsert]
    cases hd : env.dump r with
    | error e => exact ⟨_, rfl⟩
    | ok m =>
      dsimp only
      split
      · exact ⟨_, rfl⟩
      · exact loop_terminates env table _ (Nat.div_pos (hm r m rfl hd) (by omega)) fuel _ _ hf

/-- With more than 65000 fields it does not return: it keeps sending empty batches, which succeed. -/
theorem C66_refuted {R V : Type} (env : Env R V) (table : Str) (fuel : Nat) (r : R) (rs : List R) (m : Fields V)
    (hm : env.dump r = .ok m) (hl : 65000 < m.length) (hist : List (Stmt V)) :
    splitInsert env table fuel (r :: rs) hist = .error .diverge := by
  rw [splitInsert, hm]
  dsimp only
  rw [if_neg (by omega), Nat.div_eq_of_lt hl]
  exact loop_diverges env table fuel _ hist (by simp)

/-- There is such a record. -/
theorem C66_refuted_example (fuel : Nat) :
    splitInsert demoEnv "t".toList fuel [(List.range 65001).map (fun i => ((Nat.repr i).toList, i))] [] = .error .diverge :=
  C66_refuted demoEnv _ fuel _ [] _ rfl (by rw [List.length_map, List.length_range]; omega) []

/-! ## C67 -/

theorem zip_lookup {K V : Type} [BEq K] [LawfulBEq K] (l : List K) (g : K → V) (k : K) (h : k ∈ l) :
    (l.zip (l.map g)).lookup k = some (g k) := by
  induction l with
  | nil => cases h
  | cons a l ih =>
    rw [List.map_cons, List.zip_cons_cons, List.lookup_cons]
    by_cases he : k = a
    · subst he; simp
    · have hb : (k == a) = false := by simpa using he
      rw [hb]
      exact ih ((List.mem_cons.1 h).resolve_left he)

/-- If every record can be converted, one statement is sent, for every order of iteration: its columns are the fields of the first
record, it has as many rows as there are records, the value at the `j`-th place of the `k`-th row is what the `k`-th record has
for the `j`-th column (nil if it has nothing), and so the `k`-th inserted row has in each column what the `k`-th record says. -/
theorem C67_aligned {R V : Type} (env : Env R V) (hk : KeysOk env) (table : Str) (records : List R) (ms : List (Fields V))
    (hd : records.map env.dump = ms.map .ok) (hne : records ≠ []) (hist : List (Stmt V)) :
    ∃ ins : Insert V, (batchInsert env table records hist).1 = hist ++ [ins.stmt] ∧ ins.table = table ∧
      (∀ m, ms.head? = some m → ins.columns.Perm (m.map (·.1))) ∧ ins.rows.length = records.length ∧
      (∀ k m, ms[k]? = some m → (ins.rows[k]?).map List.length = some ins.columns.length ∧
        (∀ (j : Nat) c, ins.columns[j]? = some c → (ins.rows[k]?).bind (·[j]?) = some ((m.lookup c).getD env.nil)) ∧
        (∀ c ∈ ins.columns, ins.cell k c = some ((m.lookup c).getD env.nil))) := by
  rcases batch_spec env hk table records hist hne with ⟨e, ⟨r, hr, he⟩, -⟩ | ⟨ins, ht, ⟨m, ms', h1, h2, h3⟩, hb⟩
  · have : env.dump r ∈ records.map env.dump := List.mem_map_of_mem hr
    rw [hd, he, List.mem_map] at this
    obtain ⟨_, _, h⟩ := this
    cases h
  · have hms : ms = m :: ms' := by
      have : ms.map (Except.ok (ε := Str)) = (m :: ms').map .ok := by rw [← hd, h1]
      exact List.map_injective_iff.2 (fun _ _ h => Except.ok.inj h) this
    subst hms
    have hlen : (m :: ms').length = records.length := by simpa using (congrArg List.length h1).symm
    refine ⟨ins, by rw [hb], ht, ?_, by rw [h3, List.length_map, hlen], ?_⟩
    · intro m' hm'
      simp only [List.head?_cons, Option.some.injEq] at hm'
      rw [← hm']
      exact h2
    · intro k mk hmk
      have hrow : ins.rows[k]? = some (ins.columns.map (fun c => (mk.lookup c).getD env.nil)) := by
        rw [h3, List.getElem?_map, hmk]
        rfl
      refine ⟨by rw [hrow]; simp, ?_, ?_⟩
      · intro j c hc
        rw [hrow]
        simp [hc]
      · intro c hc
        unfold Insert.cell
        rw [hrow]
        exact zip_lookup ins.columns (fun c => (mk.lookup c).getD env.nil) c hc

/-- No records: nothing is sent, and that is a success. -/
theorem C67_empty {R V : Type} (env : Env R V) (table : Str) (hist : List (Stmt V)) :
    batchInsert env table [] hist = (hist, none) := rfl

/-- The caller is told success exactly if the database accepted the statement and inserted something. -/
theorem C67_result {R V : Type} (env : Env R V) (hk : KeysOk env) (table : Str) (records : List R) (hne : records ≠ [])
    (hist : List (Stmt V)) (hd : ∀ r ∈ records, ∃ m, env.dump r = .ok m) :
    ∃ s, (batchInsert env table records hist).1 = hist ++ [s] ∧
      ((batchInsert env table records hist).2 = none ↔ (env.exec hist s).err = none ∧ (env.exec hist s).rows ≠ 0) ∧
      ((batchInsert env table records hist).2 = some .duplicate ↔
        ∃ e, (env.exec hist s).err = some e ∧ "Duplicate entry".toList <:+: e) := by
  rcases batch_spec env hk table records hist hne with ⟨e, ⟨r, hr, he⟩, -⟩ | ⟨ins, -, -, hb⟩
  · obtain ⟨m, hm⟩ := hd r hr
    rw [hm] at he
    cases he
  · refine ⟨ins.stmt, by rw [hb], ?_⟩
    rw [hb]
    dsimp only
    generalize env.exec hist ins.stmt = ret
    obtain ⟨err, rows⟩ := ret
    cases err with
    | none =>
      simp only [verdict]
      by_cases h : rows = 0 <;> simp [h]
    | some e =>
      simp only [verdict]
      by_cases h : "Duplicate entry".toList <:+: e
      · rw [if_pos h]; exact ⟨by simp, by simp only [true_iff]; exact ⟨e, rfl, h⟩⟩
      · rw [if_neg h]
        refine ⟨by simp, ?_⟩
        simp only [Option.some.injEq, reduceCtorEq, false_iff]
        rintro ⟨e', he, h'⟩
        exact h (he ▸ h')

/-- Fields the first record does not have are dropped, fields another record does not have become nil; the call succeeds. -/
theorem C67_ragged : batchInsert demoEnv "t".toList [recA, [("id".toList, 2), ("name".toList, 9)]] [] =
    ([(⟨"t".toList, ["id".toList, "age".toList], [[1, 30], [2, 0]]⟩ : Insert Nat).stmt], none) := by
  decide +kernel

/-! ## C100 -/

/-- If no column name contains a back quote, the statement determines table rows and columns: no name can pass for other names. -/
theorem C100_injective {V : Type} (i j : Insert V) (ht : i.table = j.table) (hi : ∀ c ∈ i.columns, '`' ∉ c)
    (hj : ∀ c ∈ j.columns, '`' ∉ c) (h : i.stmt = j.stmt) : i = j := by
  obtain ⟨t, ci, ri⟩ := i
  obtain ⟨t', cj, rj⟩ := j
  dsimp only at ht hi hj
  subst ht
  obtain ⟨h1, h2⟩ := Stmt.mk.inj h
  have hr : ri = rj := List.map_injective_iff.2 (fun _ _ h => Arg.row.inj h) h2
  subst hr
  have := List.append_cancel_right h1
  have := List.append_cancel_right this
  have := List.append_cancel_left this
  rw [columns_inj ci cj hi hj this]

example : (⟨"t".toList, ["a".toList, "b".toList], [[1, 2]]⟩ : Insert Nat).stmt ≠
    (⟨"t".toList, ["b".toList, "a".toList], [[1, 2]]⟩ : Insert Nat).stmt := fun h => by
  have := C100_injective (⟨"t".toList, ["a".toList, "b".toList], [[1, 2]]⟩ : Insert Nat)
    ⟨"t".toList, ["b".toList, "a".toList], [[1, 2]]⟩ rfl (by decide) (by decide) h
  simp at this

/-- A name with a back quote is not escaped: one field passes for two, and the values no longer match the columns. -/
theorem C100_refuted :
    (batchInsert demoEnv "t".toList [[("a`,`b".toList, 1)]] []).1.map (·.sql) = ["insert into t(`a`,`b`) values (?)".toList] ∧
    (batchInsert demoEnv "t".toList [[("a".toList, 1), ("b".toList, 2)]] []).1.map (·.sql) =
      ["insert into t(`a`,`b`) values (?)".toList] := by
  decide +kernel

/-! ## C68 -/

/-- `u` is an update of exactly the rows of `b`, to what `b` says. -/
def Sets {V : Type} (b : IdMap V) (u : Update V) : Prop :=
  u.ids.Perm (b.map (·.1)) ∧ ∀ tbl i f, u.apply tbl i f =
    match b.lookup i with
    | none => tbl i f
    | some upd => if f ∈ u.sets.map (·.1) then upd.lookup f else tbl i f

/-- The batches: together they are the map, no id is in two of them, each has between 1 and 500 ids, for every order of iteration. -/
theorem C68_batches {V : Type} (env : UEnv V) (ho : OrdersOk env) (table : Str) (m : IdMap V) (hn : (m.map (·.1)).Nodup)
    (hist : List (Stmt V)) :
    ∃ bs : List (IdMap V), splitUpdate env table m hist = updateAll env table bs hist ∧ bs.flatten.Perm m ∧
      (bs.flatten.map (·.1)).Nodup ∧ ∀ b ∈ bs, 1 ≤ b.length ∧ b.length ≤ 500 := by
  have hp := ho.1 hist 0 m
  have hn' : ((env.order hist 0 m).map (·.1)).Nodup := (hp.map _).nodup_iff.2 hn
  obtain ⟨h1, h2⟩ := slices_spec _ hn'
  refine ⟨slices (env.order hist 0 m), rfl, by rw [h1]; exact hp, by rw [h1]; exact hn', fun b hb => ?_⟩
  exact ⟨List.length_pos_iff.2 (h2 b hb).1, (h2 b hb).2⟩

/-- The whole run: the map is cut into batches of 1 to 500 ids. Either one statement is sent for each, in turn, all accepted; or
some batches are sent and accepted, and the next is refused (for lack of a common set of fields, without being sent) or rejected
by the database, and nothing is sent after it. -/
theorem C68_run {V : Type} (env : UEnv V) (ho : OrdersOk env) (table : Str) (m : IdMap V) (hn : (m.map (·.1)).Nodup)
    (hist : List (Stmt V)) :
    ∃ bs : List (IdMap V), bs.flatten.Perm m ∧ (∀ b ∈ bs, 1 ≤ b.length ∧ b.length ≤ 500) ∧
    ((∃ us : List (Update V), splitUpdate env table m hist = (hist ++ us.map Update.stmt, none) ∧
      List.Forall₂ (fun b u => u.table = table ∧ Sets b u) bs us ∧
      ∀ pre u post, us = pre ++ u :: post → (env.exec (hist ++ pre.map Update.stmt) u.stmt).err = none) ∨
    (∃ (good : List (IdMap V)) (bad : IdMap V) (rest : List (IdMap V)) (us : List (Update V)),
      bs = good ++ bad :: rest ∧ List.Forall₂ (fun b u => u.table = table ∧ Sets b u) good us ∧
      (∀ pre u post, us = pre ++ u :: post → (env.exec (hist ++ pre.map Update.stmt) u.stmt).err = none) ∧
      ((splitUpdate env table m hist = (hist ++ us.map Update.stmt, some .fields) ∧
          ∃ e ∈ bad, ∃ f ∈ e.2.map (·.1), ∃ e' ∈ bad, e'.2.lookup f = none) ∨
       (∃ u err, u.table = table ∧ Sets bad u ∧ (env.exec (hist ++ us.map Update.stmt) u.stmt).err = some err ∧
          splitUpdate env table m hist = (hist ++ us.map Update.stmt ++ [u.stmt], some (.failed err)))))) := by
  obtain ⟨bs, h1, h2, h3, h4⟩ := C68_batches env ho table m hn hist
  refine ⟨bs, h2, h4, ?_⟩
  have nodup : ∀ b ∈ bs, (b.map (·.1)).Nodup := fun b hb =>
    List.Sublist.nodup (List.Sublist.map _ (List.sublist_flatten_of_mem hb)) h3
  have sets : ∀ b u, b ∈ bs → Updates b u → Sets b u := fun b u hb h => ⟨h.1, h.apply b u (nodup b hb)⟩
  have all : ∀ (cs : List (IdMap V)) us, (∀ c ∈ cs, c ∈ bs) → List.Forall₂ (fun b u => u.table = table ∧ Updates b u) cs us →
      List.Forall₂ (fun b u => u.table = table ∧ Sets b u) cs us := by
    intro cs us hc hf
    induction hf with
    | nil => exact .nil
    | cons h _ ih =>
      exact .cons ⟨h.1, sets _ _ (hc _ List.mem_cons_self) h.2⟩ (ih (fun c h => hc c (List.mem_cons_of_mem _ h)))
  rw [h1]
  rcases updateAll_spec env ho.1 ho.2 table bs hist (fun b hb => List.length_pos_iff.1 (h4 b hb).1) with
    ⟨us, h5, h6, h7⟩ | ⟨good, bad, rest, us, h5, h6, h7, h8⟩
  · exact Or.inl ⟨us, h5, all bs us (fun _ h => h) h6, h7⟩
  · have hbad : bad ∈ bs := by rw [h5]; simp
    refine Or.inr ⟨good, bad, rest, us, h5, all good us (fun c hc => by rw [h5]; exact List.mem_append_left _ hc) h6, h7, ?_⟩
    rcases h8 with h8 | ⟨u, err, h8, h9, h10, h11⟩
    · exact Or.inl h8
    · exact Or.inr ⟨u, err, h8, sets bad u hbad h9, h10, h11⟩

/-- Iteration in order, a database that accepts everything. -/
def demoU : UEnv Nat where
  exec := fun _ _ => ⟨none, 1⟩
  order := fun _ _ m => m
  fields := fun _ m => m.map (·.1)

theorem demoU_ok : OrdersOk demoU := ⟨fun _ _ _ => .refl _, fun _ _ => .refl _⟩

/-- 501 ids: two batches. -/
example : (slices ((List.range 501).map (fun i => ((i : Int), ([] : Fields Nat))))).map List.length = [500, 1] := by
  decide +kernel

/-! ## C69 -/

/-- When all ids update the same fields, one statement is sent, for all orders of iteration; it lists exactly the given ids, and
executing it gives every listed row, in every field, its own value, and changes nothing else. -/
theorem C69_sets {V : Type} (env : UEnv V) (ho : OrdersOk env) (table : Str) (m : IdMap V) (hn : (m.map (·.1)).Nodup)
    (hm : m ≠ []) (F : List Str) (hF : ∀ e ∈ m, ∀ f, f ∈ e.2.map (·.1) ↔ f ∈ F) (hist : List (Stmt V)) :
    ∃ u : Update V, batchUpdate env table m hist = (hist ++ [u.stmt], (env.exec hist u.stmt).err.map .failed) ∧ u.table = table ∧
      u.ids.Perm (m.map (·.1)) ∧ (∀ f, f ∈ u.sets.map (·.1) ↔ f ∈ F) ∧
      ∀ tbl i f, u.apply tbl i f =
        match (m.lookup i).bind (fun upd => upd.lookup f) with
        | some v => some v
        | none => tbl i f := by
  rcases update_spec env ho.1 ho.2 table m hist hm with ⟨e, he, f, hf, e', he', hl, -⟩ | ⟨u, ht, hu, hr⟩
  · exact absurd ((hF e' he' f).2 ((hF e he f).1 hf)) ((lookup_none _ f).1 hl)
  · have hsets : ∀ f, f ∈ u.sets.map (·.1) ↔ f ∈ F := by
      obtain ⟨e, he, hp⟩ := hu.2.1
      intro f
      rw [hp.mem_iff]
      exact hF e he f
    refine ⟨u, hr, ht, hu.1, hsets, fun tbl i f => ?_⟩
    rw [hu.apply m u hn tbl i f]
    cases hl : m.lookup i with
    | none => rfl
    | some upd =>
      have hmem := (lookup_iff m hn i upd).1 hl
      simp only [Option.bind_some]
      cases hv : upd.lookup f with
      | none =>
        have : f ∉ u.sets.map (·.1) := fun h => (lookup_none upd f).1 hv ((hF _ hmem f).2 ((hsets f).1 h))
        rw [if_neg this]
      | some v =>
        have : f ∈ u.sets.map (·.1) := by
          apply Classical.byContradiction
          intro h
          have h' : f ∉ upd.map (·.1) := fun h' => h ((hsets f).2 ((hF _ hmem f).1 h'))
          rw [(lookup_none upd f).2 h'] at hv
          cases hv
        rw [if_pos this]

/-- The item that is looked at first decides. If some id lacks one of its fields, the call fails and sends nothing. -/
theorem C69_lacks {V : Type} (env : UEnv V) (ho : OrdersOk env) (table : Str) (m : IdMap V) (hist : List (Stmt V))
    (first : Int × Fields V) (rest : IdMap V) (h0 : env.order hist 0 m = first :: rest) (f : Str) (hf : f ∈ first.2.map (·.1))
    (e : Int × Fields V) (he : e ∈ m) (hl : e.2.lookup f = none) : batchUpdate env table m hist = (hist, some .fields) := by
  have hm : ¬ m.length = 0 := by
    have := List.length_pos_of_mem he
    omega
  unfold batchUpdate
  rw [if_neg hm]
  simp only [h0]
  rw [casesOf_spec env ho.1, if_neg]
  intro h
  have := h f ((ho.2 hist first.2).mem_iff.2 hf) e he
  rw [hl] at this
  cases this

/-- Otherwise it sends one. So with different sets of fields the outcome depends on the order of iteration: here it either fails, or
silently drops the field `b` of the second id. -/
theorem C69_order_refuted :
    let m : IdMap Nat := [(1, [("a".toList, 10)]), (2, [("a".toList, 20), ("b".toList, 21)])]
    let back : UEnv Nat := { demoU with order := fun _ _ m => m.reverse }
    OrdersOk demoU ∧ OrdersOk back ∧ batchUpdate back "t".toList m [] = ([], some .fields) ∧
    batchUpdate demoU "t".toList m [] = ([(⟨"t".toList, [("a".toList, [(1, 10), (2, 20)])], [1, 2]⟩ : Update Nat).stmt], none) := by
  refine ⟨demoU_ok, ⟨fun _ _ _ => List.reverse_perm _, fun _ _ => .refl _⟩, ?_, ?_⟩
  · decide +kernel
  · decide +kernel

/-- If the item looked at first has no fields, a statement without assignments is sent. -/
theorem C69_no_fields_refuted :
    batchUpdate demoU "t".toList [(1, []), (2, [("a".toList, 20)])] [] =
      ([⟨"update t set  where id in (?)".toList, [.ids [1, 2]]⟩], none) := by
  decide +kernel

/-- A concrete case of `C69_sets`, with two orders that differ. -/
theorem C69_example :
    batchUpdate { demoU with order := fun _ n m => if n = 1 then m.reverse else m } "t".toList
        [(1, [("a".toList, 10), ("b".toList, 11)]), (2, [("b".toList, 21), ("a".toList, 20)])] [] =
      ([⟨("update t set a= case when id = ? then ? when id = ? then ? end," ++
          "b= case when id = ? then ? when id = ? then ? end where id in (?)").toList,
        [.id 2, .val 20, .id 1, .val 10, .id 1, .val 11, .id 2, .val 21, .ids [1, 2]]⟩], none) := by
  decide +kernel

end Verif.Gorm
