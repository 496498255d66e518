import Verif.Props.Csv

/-!
# C112: exactly which texts `ReadCsv` reads, and as what
-/

namespace Verif

open Utf8

namespace Spec.Csv

/-- Ends of lines: `\r\n` is `\n`, and a `\r` at the very end does not count. -/
inductive Eol : Bytes → Bytes → Prop
  | nil : Eol [] []
  | cr : Eol [13] []
  | crlf (s t) : Eol s t → Eol (13 :: 10 :: s) (10 :: t)
  | other (c s t) : (c = 13 → s ≠ [] ∧ s.head? ≠ some 10) → Eol s t → Eol (c :: s) (c :: t)

/-- A value: plain, without quotes, commas and newlines; or between quotes, with quotes doubled. -/
inductive Field : Bytes → Bytes → Prop
  | plain (f : Bytes) (h : ∀ c ∈ f, c ≠ 34 ∧ c ≠ 44 ∧ c ≠ 10) : Field f f
  | quoted (f : Bytes) : Field (34 :: (f.flatMap (fun c => if c = 34 then [34, 34] else [c]) ++ [34])) f

/-- Values followed by commas. -/
inductive Fields : Bytes → List Bytes → Prop
  | nil : Fields [] []
  | snoc (w fs t f) : Fields w fs → Field t f → Fields (w ++ (t ++ [44])) (fs ++ [f])

/-- A row: values with commas between them; not an empty line. -/
def Row (t : Bytes) (row : List Bytes) : Prop := t ≠ [] ∧ ∃ w fs u f, t = w ++ u ∧ row = fs ++ [f] ∧ Fields w fs ∧ Field u f

/-- Lines that end in a newline: rows, and empty lines, which do not count. -/
inductive Lines : Bytes → List (List Bytes) → Prop
  | nil : Lines [] []
  | blank (z rs) : Lines z rs → Lines (z ++ [10]) rs
  | row (z rs t r) : Lines z rs → Row t r → Lines (z ++ (t ++ [10])) (rs ++ [r])

/-- A table: lines, and perhaps a last row without newline. -/
def Table (s : Bytes) (rs : List (List Bytes)) : Prop :=
  Lines s rs ∨ ∃ z rs' t r, s = z ++ t ∧ rs = rs' ++ [r] ∧ Lines z rs' ∧ Row t r

end Spec.Csv

namespace Fs

open Spec.Csv

theorem eol_iff (s t : Bytes) : Eol s t ↔ csvNorm s = t := by
  constructor
  · intro h
    induction h with
    | nil => rfl
    | cr => rfl
    | crlf s t _ ih => rw [csvNorm, ih]
    | other c s t hc _ ih =>
      rw [csvNorm, ih]
      · rintro rfl rfl
        exact (hc rfl).1 rfl
      · rintro r rfl rfl
        exact (hc rfl).2 rfl
  · rintro rfl
    induction s using csvNorm.induct with
    | case1 => exact .nil
    | case2 => exact .cr
    | case3 s ih => rw [csvNorm]; exact .crlf _ _ ih
    | case4 c s h1 h2 ih =>
      rw [csvNorm]
      · refine .other _ _ _ ?_ ih
        rintro rfl
        refine ⟨fun h => h1 rfl h, ?_⟩
        intro hh
        cases s with
        | nil => cases hh
        | cons a s =>
          simp at hh
          exact h2 s rfl (by rw [hh])
      · exact h1
      · exact h2

/-! ## Reading tables -/

theorem step_bare (f : Bytes) (h : ∀ c ∈ f, c ≠ 34 ∧ c ≠ 44 ∧ c ≠ 10) (s : CsvState) (acc : Bytes) :
    f.foldlM csvStep { s with mode := .bare acc } = some { s with mode := .bare (acc ++ f) } := by
  induction f generalizing acc with
  | nil => simp
  | cons c f ih =>
    have hc := h c (by simp)
    rw [List.foldlM_cons]
    simp only [csvStep, hc.1, hc.2.1, hc.2.2, if_false]
    have := ih (fun c hc => h c (by simp [hc])) (acc ++ [c])
    simp only [List.append_assoc, List.singleton_append] at this
    exact this

/-- After a value a comma ends it, and so does a newline, unless nothing has been read of the record. -/
theorem step_field {t f : Bytes} (h : Field t f) (s : CsvState) (hs : AtStart s) :
    ∃ st, t.foldlM csvStep s = some st ∧ csvStep st 44 = some (s.addField f) ∧
      ((s.mode = .fieldStart ∨ t ≠ []) → csvStep st 10 = some (s.addRecord f)) := by
  cases h with
  | plain _ h =>
    cases t with
    | nil => rcases hs with hs | hs <;> exact ⟨s, by simp, by simp [csvStep, hs], by simp [csvStep, hs]⟩
    | cons c t =>
      have hc := h c (by simp)
      have := step_bare t (fun c hc => h c (by simp [hc])) s [c]
      refine ⟨{ s with mode := .bare ([c] ++ t) }, ?_, by simp [csvStep, CsvState.addField], by simp [csvStep, CsvState.addRecord]⟩
      rcases hs with hs | hs <;> simp [csvStep, hs, hc] <;> simpa using this
  | quoted _ =>
    have := run_quoted f s []
    refine ⟨{ s with mode := .quote ([] ++ f) }, ?_, by simp [csvStep, CsvState.addField], by simp [csvStep, CsvState.addRecord]⟩
    rcases hs with hs | hs <;> simp [csvStep, hs, this]

theorem step_fields {w : Bytes} {fs : List Bytes} (h : Fields w fs) (s : CsvState) (hs : AtStart s) :
    ∃ st, w.foldlM csvStep s = some st ∧ AtStart st ∧ st.records = s.records ∧ st.fields = s.fields ++ fs ∧
      (w ≠ [] → st.mode = .fieldStart) ∧ (w = [] → st.mode = s.mode) := by
  induction h with
  | nil => exact ⟨s, by simp, hs, rfl, by simp, by simp, fun _ => rfl⟩
  | snoc w fs t f _ hf ih =>
    obtain ⟨st, h1, h2, h3, h4, -, -⟩ := ih
    obtain ⟨st2, h5, h6, -⟩ := step_field hf st h2
    refine ⟨st.addField f, ?_, Or.inl rfl, h3, ?_, fun _ => rfl, ?_⟩
    · rw [List.foldlM_append, h1]
      simp only [Option.bind_eq_bind, Option.bind_some]
      rw [List.foldlM_append, h5]
      simp [h6]
    · simp [CsvState.addField, h4]
    · simp

theorem step_row {t : Bytes} {r : List Bytes} (h : Row t r) (rs : List (List Bytes)) :
    ∃ st, t.foldlM csvStep ⟨rs, [], .recordStart⟩ = some st ∧ csvStep st 10 = some ⟨rs ++ [r], [], .recordStart⟩ := by
  obtain ⟨hne, w, fs, u, f, rfl, rfl, hw, hu⟩ := h
  obtain ⟨st, h1, h2, h3, h4, h5, h6⟩ := step_fields hw ⟨rs, [], .recordStart⟩ (Or.inr rfl)
  obtain ⟨st2, h7, -, h8⟩ := step_field hu st h2
  refine ⟨st2, ?_, ?_⟩
  · rw [List.foldlM_append, h1]
    simpa using h7
  · rw [h8]
    · simp [CsvState.addRecord, h3, h4]
    · by_cases hw0 : w = []
      · subst hw0
        right
        simpa using hne
      · exact Or.inl (h5 hw0)

theorem step_lines {z : Bytes} {rs : List (List Bytes)} (h : Lines z rs) :
    z.foldlM csvStep ⟨[], [], .recordStart⟩ = some ⟨rs, [], .recordStart⟩ := by
  induction h with
  | nil => simp
  | blank z rs _ ih =>
    rw [List.foldlM_append, ih]
    simp [csvStep]
  | row z rs t r _ hr ih =>
    obtain ⟨st, h1, h2⟩ := step_row hr rs
    rw [List.foldlM_append, ih]
    simp only [Option.bind_eq_bind, Option.bind_some]
    rw [List.foldlM_append, h1]
    simp [h2]

theorem end_of_newline (st st' : CsvState) (h : csvStep st 10 = some st') (hm : st'.mode = .recordStart) : csvEnd st = some st'.records := by
  unfold csvStep at h
  unfold csvEnd
  split at h <;> simp_all
  subst h
  simp_all

/-! ## What has been read -/

/-- The part of a value read so far. -/
def Cur : CsvMode → Bytes → Prop
  | .recordStart, u => u = []
  | .fieldStart, u => u = []
  | .bare acc, u => u = acc ∧ acc ≠ [] ∧ ∀ c ∈ acc, c ≠ 34 ∧ c ≠ 44 ∧ c ≠ 10
  | .quoted acc, u => u = 34 :: acc.flatMap (fun c => if c = 34 then [34, 34] else [c])
  | .quote acc, u => u = 34 :: (acc.flatMap (fun c => if c = 34 then [34, 34] else [c]) ++ [34])

/-- The text read so far. -/
def Read (s : Bytes) (st : CsvState) : Prop :=
  ∃ z w u, s = z ++ (w ++ u) ∧ Lines z st.records ∧ Fields w st.fields ∧ Cur st.mode u ∧ (st.mode = .recordStart → w = []) ∧
    (st.mode = .fieldStart → w ≠ [])

theorem fields_nil {fs : List Bytes} (h : Fields [] fs) : fs = [] := by
  generalize hw : ([] : Bytes) = w at h
  cases h with
  | nil => rfl
  | snoc w fs t f _ _ => simp at hw

theorem read_field {s : Bytes} {st : CsvState} {z w u f : Bytes} (hs : s = z ++ (w ++ u)) (hz : Lines z st.records) (hw : Fields w st.fields)
    (hu : Field u f) : Read (s ++ [44]) (st.addField f) := by
  refine ⟨z, w ++ (u ++ [44]), [], by simp [hs], hz, .snoc _ _ _ _ hw hu, rfl, ?_, by simp⟩
  intro h; cases h

theorem read_record {s : Bytes} {st : CsvState} {z w u f : Bytes} (hs : s = z ++ (w ++ u)) (hz : Lines z st.records) (hw : Fields w st.fields)
    (hu : Field u f) (hne : w ++ u ≠ []) : Read (s ++ [10]) (st.addRecord f) := by
  refine ⟨z ++ ((w ++ u) ++ [10]), [], [], by simp [hs], ?_, .nil, rfl, fun _ => rfl, ?_⟩
  · exact .row _ _ _ _ hz ⟨hne, w, st.fields, u, f, rfl, rfl, hw, hu⟩
  · intro h; cases h

theorem read_step (s : Bytes) (st st' : CsvState) (c : Nat) (h : Read s st) (hc : csvStep st c = some st') : Read (s ++ [c]) st' := by
  obtain ⟨z, w, u, hs, hz, hw, hu, hr, hf⟩ := h
  obtain ⟨rs, fs, m⟩ := st
  simp only at hz hw hu hr hf
  have start : ∀ c, c ≠ 10 → c ≠ 44 → c ≠ 34 → u = [] → Read (s ++ [c]) ⟨rs, fs, .bare [c]⟩ := by
    intro c h1 h2 h3 hu
    refine ⟨z, w, [c], by rw [hs, hu]; simp, hz, hw, ⟨rfl, by simp, ?_⟩, by simp, by simp⟩
    intro d hd
    simp at hd
    subst hd
    exact ⟨h3, h2, h1⟩
  have quote : u = [] → Read (s ++ [34]) ⟨rs, fs, .quoted []⟩ := by
    intro hu
    exact ⟨z, w, [34], by rw [hs, hu]; simp, hz, hw, by simp [Cur], by simp, by simp⟩
  have empty : Field [] [] := .plain _ (by simp)
  cases m with
  | recordStart =>
    have hu : u = [] := hu
    have hw0 := hr rfl
    simp only [csvStep] at hc
    split at hc
    · rename_i h10
      injection hc with hc
      subst hc h10
      refine ⟨z ++ [10], [], [], by rw [hs, hw0, hu]; simp, .blank _ _ hz, hw0 ▸ hw, rfl, fun _ => rfl, by simp⟩
    · split at hc
      · rename_i h44
        injection hc with hc
        subst hc h44
        exact read_field hs hz hw (hu ▸ empty)
      · split at hc
        · rename_i h34
          injection hc with hc
          subst hc h34
          exact quote hu
        · injection hc with hc
          subst hc
          exact start c ‹_› ‹_› ‹_› hu
  | fieldStart =>
    have hu : u = [] := hu
    have hw0 := hf rfl
    simp only [csvStep] at hc
    split at hc
    · rename_i h10
      injection hc with hc
      subst hc h10
      exact read_record hs hz hw (hu ▸ empty) (by simp [hw0])
    · split at hc
      · rename_i h44
        injection hc with hc
        subst hc h44
        exact read_field hs hz hw (hu ▸ empty)
      · split at hc
        · rename_i h34
          injection hc with hc
          subst hc h34
          exact quote hu
        · injection hc with hc
          subst hc
          exact start c ‹_› ‹_› ‹_› hu
  | bare acc =>
    obtain ⟨rfl, hne, hp⟩ := hu
    simp only [csvStep] at hc
    split at hc
    · rename_i h10
      injection hc with hc
      subst hc h10
      exact read_record hs hz hw (.plain _ hp) (by simp [hne])
    · split at hc
      · rename_i h44
        injection hc with hc
        subst hc h44
        exact read_field hs hz hw (.plain _ hp)
      · split at hc
        · cases hc
        · injection hc with hc
          subst hc
          refine ⟨z, w, u ++ [c], by rw [hs]; simp, hz, hw, ⟨rfl, by simp, ?_⟩, by simp, by simp⟩
          intro d hd
          rcases List.mem_append.1 hd with hd | hd
          · exact hp d hd
          · simp at hd
            subst hd
            exact ⟨‹_›, ‹_›, ‹_›⟩
  | quoted acc =>
    have hu : u = 34 :: acc.flatMap (fun c => if c = 34 then [34, 34] else [c]) := hu
    simp only [csvStep] at hc
    split at hc
    · rename_i h34
      injection hc with hc
      subst hc h34
      exact ⟨z, w, u ++ [34], by rw [hs]; simp, hz, hw, by rw [hu]; simp [Cur], by simp, by simp⟩
    · rename_i h34
      injection hc with hc
      subst hc
      exact ⟨z, w, u ++ [c], by rw [hs]; simp, hz, hw, by rw [hu]; simp [Cur, h34], by simp, by simp⟩
  | quote acc =>
    have hu : u = 34 :: (acc.flatMap (fun c => if c = 34 then [34, 34] else [c]) ++ [34]) := hu
    have hq : Field u acc := hu ▸ .quoted acc
    simp only [csvStep] at hc
    split at hc
    · rename_i h10
      injection hc with hc
      subst hc h10
      exact read_record hs hz hw hq (by rw [hu]; simp)
    · split at hc
      · rename_i h44
        injection hc with hc
        subst hc h44
        exact read_field hs hz hw hq
      · split at hc
        · rename_i h34
          injection hc with hc
          subst hc h34
          exact ⟨z, w, u ++ [34], by rw [hs]; simp, hz, hw, by rw [hu]; simp [Cur], by simp, by simp⟩
        · cases hc

theorem read_all (t s : Bytes) (st st' : CsvState) (h : Read s st) (ht : t.foldlM csvStep st = some st') : Read (s ++ t) st' := by
  induction t generalizing s st with
  | nil =>
    simp at ht
    subst ht
    simpa using h
  | cons c t ih =>
    rw [List.foldlM_cons] at ht
    simp only [Option.bind_eq_bind, Option.bind_eq_some_iff] at ht
    obtain ⟨st1, h1, h2⟩ := ht
    have := ih (s ++ [c]) st1 (read_step s st st1 c h h1) h2
    simpa using this

theorem read_end (s : Bytes) (st : CsvState) (rs : List (List Bytes)) (h : Read s st) (he : csvEnd st = some rs) : Table s rs := by
  obtain ⟨z, w, u, hs, hz, hw, hu, hr, hf⟩ := h
  have last : ∀ f, Field u f → w ++ u ≠ [] → rs = st.records ++ [st.fields ++ [f]] → Table s rs := by
    intro f hf hne he
    exact Or.inr ⟨z, st.records, w ++ u, st.fields ++ [f], hs, he, hz, hne, w, st.fields, u, f, rfl, rfl, hw, hf⟩
  unfold csvEnd at he
  split at he <;> rename_i hm
  · injection he with he
    subst he
    rw [hm] at hu
    have hu : u = [] := hu
    rw [hs, hr hm, hu]
    left
    simpa using hz
  · injection he with he
    rw [hm] at hu
    have hu : u = [] := hu
    exact last [] (by rw [hu]; exact .plain _ (by simp)) (by simp [hf hm]) he.symm
  · injection he with he
    rw [hm] at hu
    obtain ⟨h1, h2, h3⟩ := hu
    exact last _ (by rw [h1]; exact .plain _ h3) (by rw [h1]; simp [h2]) he.symm
  · cases he
  · injection he with he
    rw [hm] at hu
    have hu : u = _ := hu
    exact last _ (by rw [hu]; exact .quoted _) (by rw [hu]; simp) he.symm

/-- **C112 (exactly).** A file is read as some rows exactly if its text is a table of these rows, all with the same number of values.
Every other text gives nil. -/
theorem C112_exact (fs : FS) (l : Loc) (rs : List (List Bytes)) :
    readCsv fs l = some rs ↔ ∃ s t, fs l = some (.file s) ∧ Eol s t ∧ Table t rs ∧ ∃ n, ∀ r ∈ rs, r.length = n := by
  have rect : ∀ rs : List (List Bytes), rs.all (fun r => r.length == (rs.headD []).length) = true ↔ ∃ n, ∀ r ∈ rs, r.length = n := by
    intro rs
    rw [List.all_eq_true]
    constructor
    · intro h
      exact ⟨_, fun r hr => by simpa using h r hr⟩
    · rintro ⟨n, h⟩ r hr
      cases rs with
      | nil => cases hr
      | cons r0 rs => simp [h r hr, h r0 (by simp)]
  constructor
  · intro h
    unfold readCsv at h
    split at h
    · rename_i s hs
      unfold readAll at h
      simp only [Option.bind_eq_bind, Option.bind_eq_some_iff] at h
      obtain ⟨st, h1, rs', h2, h3⟩ := h
      split at h3
      · rename_i hr
        injection h3 with h3
        subst h3
        have h0 : Read [] ⟨[], [], .recordStart⟩ := ⟨[], [], [], rfl, .nil, .nil, rfl, fun _ => rfl, by simp⟩
        have := read_all _ [] _ _ h0 h1
        exact ⟨s, csvNorm s, hs, (eol_iff _ _).2 rfl, read_end _ _ _ (by simpa using this) h2, (rect _).1 hr⟩
      · cases h3
    · cases h
  · rintro ⟨s, t, hs, he, ht, hn⟩
    rw [eol_iff] at he
    unfold readCsv readAll
    rw [hs]
    simp only [he, Option.bind_eq_bind]
    rcases ht with ht | ⟨z, rs', t', r, rfl, rfl, hz, hr⟩
    · rw [step_lines ht]
      simp only [Option.bind_some, csvEnd]
      rw [if_pos ((rect _).2 hn)]
    · obtain ⟨st, h1, h2⟩ := step_row hr rs'
      rw [List.foldlM_append, step_lines hz]
      simp only [Option.bind_eq_bind, Option.bind_some]
      rw [h1]
      simp only [Option.bind_some]
      rw [end_of_newline _ _ h2 rfl]
      simp only [Option.bind_some]
      rw [if_pos ((rect _).2 hn)]

/-- A table with an empty line, and a last row without newline. -/
example : Table (lit "a,\"b\"\n\nc,d") [[lit "a", lit "b"], [lit "c", lit "d"]] := by
  refine Or.inr ⟨lit "a,\"b\"\n\n", [[lit "a", lit "b"]], lit "c,d", [lit "c", lit "d"], by decide, rfl, ?_, ?_⟩
  · have h : Row (lit "a,\"b\"") [lit "a", lit "b"] :=
      ⟨by decide, lit "a,", [lit "a"], lit "\"b\"", lit "b", by decide, rfl,
        .snoc [] [] (lit "a") _ .nil (.plain _ (by decide)), .quoted (lit "b")⟩
    exact .blank _ _ (.row [] [] _ _ .nil h)
  · exact ⟨by decide, lit "c,", [lit "c"], lit "d", lit "d", by decide, rfl, .snoc [] [] (lit "c") _ .nil (.plain _ (by decide)),
      .plain _ (by decide)⟩

end Fs
end Verif
