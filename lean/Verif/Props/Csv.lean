import Verif.Model.Csv
import Verif.Props.Files

/-!
# C111, C112: reading tables of comma separated values, and what `WriteCsv` wrote (help/utils/csv.go)
-/

namespace Verif

open Utf8

/-! ## What a file of comma separated values says -/

namespace Spec

/-- The text of one value: plain, or between quotes with quotes doubled. -/
inductive FieldText : Bytes → Bytes → Prop
  | plain (f : Bytes) (h : ∀ c ∈ f, c ≠ 34 ∧ c ≠ 44 ∧ c ≠ 10 ∧ c ≠ 13) : FieldText f f
  | quoted (f : Bytes) (h : 13 ∉ f) : FieldText (34 :: (f.flatMap (fun c => if c = 34 then [34, 34] else [c]) ++ [34])) f

/-- The text of one or more values. -/
inductive RowText : Bytes → List Bytes → Prop
  | last (t f : Bytes) : FieldText t f → RowText t [f]
  | cons (t f : Bytes) (ts : Bytes) (fs : List Bytes) : FieldText t f → RowText ts fs → RowText (t ++ 44 :: ts) (f :: fs)

/-- The text of a table: no line is empty, and lines end in `\n` or `\r\n`. -/
inductive TableText : Bytes → List (List Bytes) → Prop
  | nil : TableText [] []
  | cons (t : Bytes) (row : List Bytes) (eol ts : Bytes) (rows : List (List Bytes)) : RowText t row → t ≠ [] →
      eol = [10] ∨ eol = [13, 10] → TableText ts rows → TableText (t ++ eol ++ ts) (row :: rows)

end Spec

namespace Fs

open Spec

theorem csvNorm_append (s t : Bytes) (h : s.getLast? ≠ some 13) : csvNorm (s ++ t) = csvNorm s ++ csvNorm t := by
  induction s using csvNorm.induct with
  | case1 => simp [csvNorm]
  | case2 => simp at h
  | case3 s ih =>
    simp only [List.cons_append]
    rw [csvNorm, csvNorm, ih (by cases s <;> simp_all), List.cons_append]
  | case4 c s h1 h2 ih =>
    have hs : s.getLast? ≠ some 13 := by cases s <;> simp_all
    rw [csvNorm, List.cons_append, csvNorm, ih hs]
    · rfl
    · intro hc ht
      have : s = [] := by cases s <;> simp_all
      subst this
      simp [hc] at h
    · intro r hc ht
      cases s with
      | nil => simp [hc] at h
      | cons a s =>
        simp at ht
        exact h2 s hc (by rw [ht.1])
    · exact h1
    · exact h2

theorem csvNorm_last (s : Bytes) (h : s.getLast? = some 10) : (csvNorm s).getLast? = some 10 := by
  induction s using csvNorm.induct with
  | case1 => simp at h
  | case2 => simp at h
  | case3 s ih =>
    rw [csvNorm]
    cases s with
    | nil => simp [csvNorm]
    | cons a s =>
      have := ih (by simpa using h)
      rw [List.getLast?_cons, this]; rfl
  | case4 c s h1 h2 ih =>
    rw [csvNorm]
    · cases s with
      | nil => simpa [csvNorm] using h
      | cons a s =>
        have := ih (by simpa using h)
        rw [List.getLast?_cons, this]; rfl
    · exact h1
    · exact h2

theorem csvNorm_plain (s : Bytes) (h : 13 ∉ s) : csvNorm s = s := by
  induction s with
  | nil => rfl
  | cons c s ih =>
    simp at h
    rw [csvNorm, ih h.2]
    · intro hc; exact absurd hc.symm h.1
    · intro r hc; exact absurd hc.symm h.1

theorem csvNorm_plain_append (s t : Bytes) (h : 13 ∉ s) : csvNorm (s ++ t) = s ++ csvNorm t := by
  rw [csvNorm_append, csvNorm_plain _ h]
  intro hl
  exact h (List.mem_of_getLast? hl)

/-- The reader is at the start of a field. -/
def AtStart (s : CsvState) : Prop := s.mode = .fieldStart ∨ s.mode = .recordStart

theorem run_bare (f : Bytes) (h : ∀ c ∈ f, c ≠ 34 ∧ c ≠ 44 ∧ c ≠ 10 ∧ c ≠ 13) (s : CsvState) (acc : Bytes) :
    f.foldlM csvStep { s with mode := .bare acc } = some { s with mode := .bare (acc ++ f) } := by
  induction f generalizing acc with
  | nil => simp
  | cons c f ih =>
    have hc := h c (by simp)
    rw [List.foldlM_cons]
    simp only [csvStep, hc.1, hc.2.1, hc.2.2.1, if_false]
    have := ih (fun c hc => h c (by simp [hc])) (acc ++ [c])
    simp only [List.append_assoc, List.singleton_append] at this
    exact this

theorem run_quoted (f : Bytes) (s : CsvState) (acc : Bytes) :
    (f.flatMap (fun c => if c = 34 then [34, 34] else [c])).foldlM csvStep { s with mode := .quoted acc } =
      some { s with mode := .quoted (acc ++ f) } := by
  induction f generalizing acc with
  | nil => simp
  | cons c f ih =>
    rw [List.flatMap_cons, List.foldlM_append]
    have := ih (acc ++ [c])
    simp only [List.append_assoc, List.singleton_append] at this
    by_cases hc : c = 34
    · subst hc
      simp [csvStep, this]
    · simp [csvStep, hc, this]

theorem run_field {t f : Bytes} (h : FieldText t f) (s : CsvState) (hs : AtStart s) (rest : Bytes) :
    (t ++ 44 :: rest).foldlM csvStep s = rest.foldlM csvStep (s.addField f) := by
  rw [List.foldlM_append]
  cases h with
  | plain _ h =>
    cases t with
    | nil => rcases hs with hs | hs <;> simp [csvStep, hs]
    | cons c t =>
      have hc := h c (by simp)
      have := run_bare t (fun c hc => h c (by simp [hc])) s [c]
      rcases hs with hs | hs <;> simp [csvStep, hs, hc, this, CsvState.addField]
  | quoted _ h =>
    have := run_quoted f s []
    rcases hs with hs | hs <;> simp [csvStep, hs, this, CsvState.addField]

theorem run_last {t f : Bytes} (h : FieldText t f) (s : CsvState) (hs : AtStart s) (ht : s.mode = .fieldStart ∨ t ≠ []) (rest : Bytes) :
    (t ++ 10 :: rest).foldlM csvStep s = rest.foldlM csvStep (s.addRecord f) := by
  rw [List.foldlM_append]
  cases h with
  | plain _ h =>
    cases t with
    | nil =>
      have hs := ht.resolve_right (by simp)
      simp [csvStep, hs]
    | cons c t =>
      have hc := h c (by simp)
      have := run_bare t (fun c hc => h c (by simp [hc])) s [c]
      rcases hs with hs | hs <;> simp [csvStep, hs, hc, this, CsvState.addRecord]
  | quoted _ h =>
    have := run_quoted f s []
    rcases hs with hs | hs <;> simp [csvStep, hs, this, CsvState.addRecord]

theorem run_row {t : Bytes} {row : List Bytes} (h : RowText t row) (s : CsvState) (hs : AtStart s) (ht : s.mode = .fieldStart ∨ t ≠ [])
    (rest : Bytes) :
    (t ++ 10 :: rest).foldlM csvStep s = rest.foldlM csvStep ⟨s.records ++ [s.fields ++ row], [], .recordStart⟩ := by
  induction h generalizing s with
  | last t f h => exact run_last h s hs ht rest
  | cons t f ts fs h _ ih =>
    rw [List.append_assoc, List.cons_append, run_field h s hs, ih (s.addField f) (Or.inl rfl) (Or.inl rfl)]
    simp [CsvState.addField]

theorem not_mem_field {t f : Bytes} (h : FieldText t f) : 13 ∉ t := by
  cases h with
  | plain _ h => exact fun h' => (h 13 h').2.2.2 rfl
  | quoted _ h =>
    simp only [List.mem_cons, List.mem_append, List.mem_flatMap, not_or, not_exists, not_and]
    refine ⟨by omega, ?_, by simp⟩
    intro c hc
    by_cases h34 : c = 34
    · simp [h34]
    · simp only [if_neg h34, List.mem_singleton]
      rintro rfl
      exact h hc

theorem not_mem_row {t : Bytes} {row : List Bytes} (h : RowText t row) : 13 ∉ t := by
  induction h with
  | last t f h => exact not_mem_field h
  | cons t f ts fs h _ ih =>
    have := not_mem_field h
    simp [this, ih]

theorem run_table {t : Bytes} {rows : List (List Bytes)} (h : TableText t rows) (rs : List (List Bytes)) (rest : Bytes) :
    (csvNorm (t ++ rest)).foldlM csvStep ⟨rs, [], .recordStart⟩ = (csvNorm rest).foldlM csvStep ⟨rs ++ rows, [], .recordStart⟩ := by
  induction h generalizing rs with
  | nil => simp
  | cons t row eol ts rows hr hne he _ ih =>
    have hn : csvNorm (t ++ eol ++ ts ++ rest) = t ++ 10 :: csvNorm (ts ++ rest) := by
      rw [List.append_assoc, List.append_assoc, csvNorm_plain_append _ _ (not_mem_row hr)]
      rcases he with rfl | rfl
      · simp only [List.cons_append, List.nil_append]
        rw [csvNorm] <;> simp
      · simp only [List.cons_append, List.nil_append]
        rw [csvNorm]
    rw [hn, run_row hr _ (Or.inr rfl) (Or.inr hne)]
    simpa using ih (rs ++ [row])

/-- **C112.** A table in which all rows have the same number of values is read as it stands in the file. -/
theorem C112_read (fs : FS) (l : Loc) (t : Bytes) (rows : List (List Bytes)) (hf : fs l = some (.file t)) (h : TableText t rows)
    (n : Nat) (hn : ∀ r ∈ rows, r.length = n) : readCsv fs l = some rows := by
  have := run_table h [] []
  simp only [List.append_nil, List.nil_append] at this
  unfold readCsv
  rw [hf]
  dsimp only
  unfold readAll
  rw [this]
  simp only [csvNorm, List.foldlM_nil, Option.pure_def, Option.bind_eq_bind, Option.bind_some, csvEnd]
  rw [if_pos]
  rw [List.all_eq_true]
  intro r hr
  have h1 := hn r hr
  cases rows with
  | nil => simp at hr
  | cons r0 rows =>
    have h2 := hn r0 (by simp)
    simp [h1, h2]

/-- **C112 (ragged tables).** If two rows have different numbers of values, the result is nil. -/
theorem C112_ragged (fs : FS) (l : Loc) (t : Bytes) (rows : List (List Bytes)) (hf : fs l = some (.file t)) (h : TableText t rows)
    (r1 r2 : List Bytes) (h1 : r1 ∈ rows) (h2 : r2 ∈ rows) (hn : r1.length ≠ r2.length) : readCsv fs l = none := by
  have := run_table h [] []
  simp only [List.append_nil, List.nil_append] at this
  unfold readCsv
  rw [hf]
  dsimp only
  unfold readAll
  rw [this]
  simp only [csvNorm, List.foldlM_nil, Option.pure_def, Option.bind_eq_bind, Option.bind_some, csvEnd]
  rw [if_neg]
  rw [List.all_eq_true]
  intro hall
  have e1 := hall r1 h1
  have e2 := hall r2 h2
  simp at e1 e2
  omega

/-- **C112 (what is read).** All rows of a result have the same number of values. -/
theorem C112_rectangular (fs : FS) (l : Loc) (rows : List (List Bytes)) (h : readCsv fs l = some rows) :
    ∃ n, ∀ r ∈ rows, r.length = n := by
  unfold readCsv at h
  split at h
  · unfold readAll at h
    simp only [Option.bind_eq_bind, Option.bind_eq_some_iff] at h
    obtain ⟨st, _, rs, _, h⟩ := h
    split at h
    · rename_i hall
      injection h with h
      subst h
      refine ⟨(rs.headD []).length, fun r hr => ?_⟩
      rw [List.all_eq_true] at hall
      simpa using hall r hr
    · simp at h
  · simp at h

/-- No file, no rows. -/
theorem C112_missing (fs : FS) (l : Loc) (h : ∀ c, fs l ≠ some (.file c)) : readCsv fs l = none := by
  unfold readCsv
  split
  · rename_i c hc
    exact absurd hc (h c)
  · rfl

example : TableText (lit "a,\"b,\"\"c\"\n,d\n") [[lit "a", lit "b,\"c"], [[], lit "d"]] := by
  have h1 : RowText (lit "a,\"b,\"\"c\"") [lit "a", lit "b,\"c"] :=
    .cons (lit "a") (lit "a") _ _ (.plain _ (by decide)) (.last _ _ (.quoted (lit "b,\"c") (by decide)))
  have h2 : RowText (lit ",d") [[], lit "d"] := .cons [] [] _ _ (.plain _ (by decide)) (.last _ _ (.plain (lit "d") (by decide)))
  exact .cons _ _ [10] _ _ h1 (by decide) (Or.inl rfl) (.cons _ _ [10] _ _ h2 (by decide) (Or.inl rfl) .nil)

/-! ## C111 -/

/-- Nothing, or whole lines. -/
def WholeLines (s : Bytes) : Prop := s = [] ∨ s.getLast? = some 10

/-- The row that `WriteCsv` writes. -/
def fixedRow : List Bytes := [lit "1", lit "2", lit "3", lit "4", lit "5,6"]

theorem step_newline (s s' : CsvState) (h : csvStep s 10 = some s') : s'.mode = .recordStart ∨ ∃ acc, s'.mode = .quoted acc := by
  unfold csvStep at h
  split at h <;> simp [CsvState.addRecord] at h <;> subst h <;> simp_all

theorem step_newline_fields (s s' : CsvState) (h : csvStep s 10 = some s') (hm : s'.mode = .recordStart)
    (hs : s.mode = .recordStart → s.fields = []) : s'.fields = [] := by
  unfold csvStep at h
  split at h <;> simp [CsvState.addRecord] at h <;> subst h <;> simp_all

theorem run_fields (t : Bytes) (s s' : CsvState) (h : t.foldlM csvStep s = some s') (hs : s.mode = .recordStart → s.fields = []) :
    s'.mode = .recordStart → s'.fields = [] := by
  induction t generalizing s with
  | nil => simp at h; subst h; exact hs
  | cons c t ih =>
    rw [List.foldlM_cons] at h
    simp only [Option.bind_eq_bind, Option.bind_eq_some_iff] at h
    obtain ⟨s1, h1, h⟩ := h
    refine ih s1 h ?_
    unfold csvStep at h1
    intro hm
    split at h1 <;> (repeat' split at h1) <;> simp [CsvState.addRecord, CsvState.addField] at h1 <;> subst h1 <;> simp_all

theorem run_whole (t : Bytes) (h : WholeLines t) (rs : List (List Bytes)) (st : CsvState)
    (hr : (csvNorm t).foldlM csvStep ⟨[], [], .recordStart⟩ = some st) (he : csvEnd st = some rs) : st = ⟨rs, [], .recordStart⟩ := by
  have hm : st.mode = .recordStart := by
    rcases h with rfl | h
    · simp [csvNorm] at hr
      rw [← hr]
    · have hl := csvNorm_last t h
      obtain ⟨a, ha⟩ := List.getLast?_eq_some_iff.1 hl
      rw [ha, List.foldlM_append] at hr
      simp only [Option.bind_eq_bind, Option.bind_eq_some_iff] at hr
      obtain ⟨s1, _, hr⟩ := hr
      simp at hr
      rcases step_newline s1 st hr with h' | ⟨acc, h'⟩
      · exact h'
      · simp [csvEnd, h'] at he
  have hf := run_fields _ _ _ hr (fun _ => rfl) hm
  simp [csvEnd, hm] at he
  cases st
  simp_all

theorem fixedRow_text : TableText (lit "1,2,3,4,\"5,6\"" ++ [13, 10]) [fixedRow] := by
  have h : RowText (lit "1,2,3,4,\"5,6\"") fixedRow :=
    .cons (lit "1") _ _ _ (.plain _ (by decide)) (.cons (lit "2") _ _ _ (.plain _ (by decide))
      (.cons (lit "3") _ _ _ (.plain _ (by decide)) (.cons (lit "4") _ _ _ (.plain _ (by decide))
        (.last _ _ (.quoted (lit "5,6") (by decide))))))
  have := TableText.cons _ _ [13, 10] _ _ h (by decide) (Or.inr rfl) .nil
  simpa using this

/-- What is read after one more row has been written, whatever was read before. -/
theorem read_appended (old : Bytes) (rows : List (List Bytes)) (hw : WholeLines old) (h : readAll old = some rows) :
    readAll (old ++ (lit "1,2,3,4,\"5,6\"" ++ [13, 10])) =
      if ∀ r ∈ rows, r.length = 5 then some (rows ++ [fixedRow]) else none := by
  unfold readAll at h ⊢
  simp only [Option.bind_eq_bind, Option.bind_eq_some_iff] at h ⊢
  obtain ⟨st, hr, rs, he, h⟩ := h
  have hall : rs.all (fun r => r.length == (rs.headD []).length) = true := by
    by_contra hc
    rw [if_neg hc] at h
    simp at h
  rw [if_pos hall] at h
  injection h with h
  subst h
  have hst := run_whole old hw rs st hr he
  have hne : old.getLast? ≠ some 13 := by rcases hw with rfl | hw <;> simp_all
  have := run_table fixedRow_text rs []
  simp only [List.append_nil] at this
  rw [csvNorm_append _ _ hne, List.foldlM_append, hr, hst]
  simp only [Option.bind_eq_bind, Option.bind_some, this, csvNorm, List.foldlM_nil, Option.pure_def, csvEnd]
  rw [List.all_eq_true] at hall
  cases rs with
  | nil => decide
  | cons r0 rs =>
    have h0 : ∀ r ∈ r0 :: rs, r.length = r0.length := fun r hr => by simpa using hall r hr
    by_cases h5 : r0.length = 5
    · rw [if_pos, if_pos]
      · intro r hr; rw [h0 r hr, h5]
      · rw [List.all_eq_true]
        intro r hr
        rw [List.mem_append] at hr
        rcases hr with hr | hr
        · simpa using h0 r hr
        · simp at hr
          subst hr
          simp [h5, fixedRow]
    · rw [if_neg, if_neg]
      · intro hc; exact h5 (hc r0 (by simp))
      · rw [List.all_eq_true]
        intro hc
        have := hc fixedRow (by simp)
        simp [fixedRow] at this
        exact h5 this.symm

/-- **C111 (partial).** If the file has whole lines of five values, the rows are those from before and the row written. Missing: the row
given by the caller is not the one written (C95), and files of other shapes, see the refutations. -/
theorem C111_appended_partial (fs : FS) (l : Loc) (row : List Bytes) (old : Bytes) (rows : List (List Bytes)) (wrote : Nat)
    (hf : fs l = some (.file old)) (hw : WholeLines old) (h : readCsv fs l = some rows) (h5 : ∀ r ∈ rows, r.length = 5)
    (hwr : 15 ≤ wrote) : readCsv (writeCsv fs l row wrote).1 l = some (rows ++ [fixedRow]) := by
  have hx := (C95_write_exact fs l row old hf wrote hwr).2.1
  unfold readCsv at h ⊢
  rw [hf] at h
  rw [hx]
  dsimp only at h ⊢
  rw [read_appended old rows hw h, if_pos h5]

/-- Any number of calls. -/
def writeTimes (l : Loc) (row : List Bytes) (wrote : Nat) : Nat → FS → FS
  | 0, fs => fs
  | n + 1, fs => writeTimes l row wrote n (writeCsv fs l row wrote).1

/-- **C111 (partial: any number of calls).** A file filled by `n` calls only has `n` rows. -/
theorem C111_calls_partial (fs : FS) (l : Loc) (row : List Bytes) (wrote n : Nat) (hf : fs l = none) (hd : fs l.dropLast = some .dir)
    (hwr : 15 ≤ wrote) : readCsv (writeTimes l row wrote (n + 1) fs) l = some (List.replicate (n + 1) fixedRow) := by
  have key : ∀ (n : Nat) (fs : FS) (old : Bytes) (rows : List (List Bytes)), fs l = some (.file old) → WholeLines old →
      readCsv fs l = some rows → (∀ r ∈ rows, r.length = 5) →
      readCsv (writeTimes l row wrote n fs) l = some (rows ++ List.replicate n fixedRow) := by
    intro n
    induction n with
    | zero => intro fs old rows _ _ h _; simpa [writeTimes] using h
    | succ n ih =>
      intro fs old rows hf hw h h5
      have h1 := C111_appended_partial fs l row old rows wrote hf hw h h5 hwr
      have hx := (C95_write_exact fs l row old hf wrote hwr).2.1
      rw [writeTimes, ih _ _ _ hx (Or.inr (by rw [← List.append_assoc, List.getLast?_append]; simp)) h1]
      · simp [List.replicate_succ]
      · intro r hr
        rw [List.mem_append] at hr
        rcases hr with hr | hr
        · exact h5 r hr
        · simp at hr
          subst hr
          rfl
  have e : (writeCsv fs l row wrote).1 = (writeCsv (fs.set l (some (.file []))) l row wrote).1 := by
    unfold writeCsv openKeep
    simp [hf, hd, FS.set]
  have h0 : (fs.set l (some (.file []))) l = some (.file []) := by simp [FS.set]
  have h1 : readCsv (fs.set l (some (.file []))) l = some [] := by unfold readCsv; rw [h0]; decide
  rw [writeTimes, e]
  have := key (n + 1) (fs.set l (some (.file []))) [] [] h0 (Or.inl rfl) h1 (by simp)
  rw [writeTimes] at this
  simpa using this

/-- **C111 (does not hold: other tables).** If the rows had another number of values, nothing can be read any more. -/
theorem C111_ragged_refuted (fs : FS) (l : Loc) (row : List Bytes) (old : Bytes) (rows : List (List Bytes)) (wrote : Nat)
    (hf : fs l = some (.file old)) (hw : WholeLines old) (h : readCsv fs l = some rows) (h5 : ∃ r ∈ rows, r.length ≠ 5)
    (hwr : 15 ≤ wrote) : readCsv (writeCsv fs l row wrote).1 l = none := by
  have hx := (C95_write_exact fs l row old hf wrote hwr).2.1
  unfold readCsv at h ⊢
  rw [hf] at h
  rw [hx]
  dsimp only at h ⊢
  rw [read_appended old rows hw h, if_neg]
  intro hc
  obtain ⟨r, hr, hne⟩ := h5
  exact hne (hc r hr)

/-- **C111 (does not hold: a last line without an end).** The row written is glued to a last line that has no newline. -/
theorem C111_glued_refuted : readAll (lit "a,b,c,d,e") = some [[lit "a", lit "b", lit "c", lit "d", lit "e"]] ∧
    readAll (lit "a,b,c,d,e" ++ (lit "1,2,3,4,\"5,6\"" ++ [13, 10])) =
      some [[lit "a", lit "b", lit "c", lit "d", lit "e1", lit "2", lit "3", lit "4", lit "5,6"]] := by
  decide +kernel

end Fs

end Verif
