import Verif.Props.Files
import Verif.Props.FileIo
import Verif.Props.Upload
import Verif.Props.GormTable
import Verif.Proof.Gorm
import Verif.Props.DelayChannel
import Verif.Model.Sniff
import Verif.Model.Calendar
import Verif.Model.MathFloat
import Verif.Go.Float64

/-!
# Failing calls, and concrete values of the library functions in the model
-/

namespace Verif.Fs

open Utf8

/-- **C104.** `PathExists` says yes only for a directory, and there is no error only for a directory and where nothing is and no file is on the
way. -/
theorem C104_path_exists (fs : FS) (l : Loc) :
    ((pathExists fs l).1 = true ↔ fs l = some .dir) ∧
    ((pathExists fs l).2 = true ↔ fs l = some .dir ∨ fs l = none ∧ ∀ p : Loc, p <+: l → isFile (fs p) = false) := by
  unfold pathExists
  cases hst : stat fs l with
  | ok n =>
    rw [stat_ok] at hst
    cases n with
    | dir => simp [hst]
    | file c => simp [hst]
  | notExist =>
    have hn := stat_notExist fs l hst
    have : ∀ p : Loc, p <+: l → isFile (fs p) = false := by
      intro p hp
      unfold stat at hst
      rw [hn] at hst
      dsimp only at hst
      split at hst
      · cases hst
      · rename_i h
        simp only [List.any_eq_true, List.mem_range, not_exists, not_and, Bool.not_eq_true] at h
        by_cases he : p.length < l.length
        · have := h p.length he
          rwa [← List.prefix_iff_eq_take.1 hp] at this
        · rw [hp.eq_of_length (by have := hp.length_le; omega), hn]
          rfl
    simp only [hn]
    exact ⟨by simp, by simpa using this⟩
  | notDir =>
    unfold stat at hst
    cases hn : fs l with
    | some n => rw [hn] at hst; cases hst
    | none =>
      rw [hn] at hst
      dsimp only at hst
      split at hst
      · rename_i h
        simp only [List.any_eq_true, List.mem_range] at h
        obtain ⟨i, -, hi⟩ := h
        refine ⟨by simp, ?_⟩
        constructor
        · intro h; cases h
        · rintro (h | ⟨-, h⟩)
          · cases h
          · rw [h _ (List.take_prefix _ _)] at hi; cases hi
      · cases hst

/-- **C95.** If the file cannot be opened, `WriteCsv` reports it and changes nothing. -/
theorem C95_cannot_open (fs : FS) (l : Loc) (row : List Bytes) (wrote : Nat)
    (h : fs l = some .dir ∨ fs l = none ∧ fs l.dropLast ≠ some .dir) : writeCsv fs l row wrote = (fs, false) := by
  unfold writeCsv openKeep
  rcases h with h | ⟨h, h'⟩
  · rw [h]
  · rw [h]
    dsimp only
    rw [if_neg h']

/-- **C115.** If the target cannot be opened, `MakeFile` reports it, and nothing but directories on the way changes. -/
theorem C115_open_fails (cwd : Loc) (io : MakeIo) (f h : Bytes) (hh : Plain h) (fs : FS)
    (hd : fs (upDir cwd ++ [h]) = some .dir) (ho : io.openFails = true) :
    (makeFile cwd io fs f h).2 = false ∧ ∀ x, fs x ≠ none ∨ ¬ x <+: outDir cwd → (makeFile cwd io fs f h).1 x = fs x := by
  unfold makeFile
  rw [loc_upload cwd h hh, if_neg (by rw [hd]; simp), loc_finish]
  dsimp only
  rw [ho]
  simp only [if_true, true_and]
  intro x hx
  unfold mkdirAll
  split
  · rfl
  · rw [Option.getD_some, if_neg]
    rintro ⟨h1, h2⟩
    rcases hx with hx | hx
    · exact hx h2
    · exact hx h1

/-- **C115.** `BreakPointContinue` reports when its directory or its file cannot be made; nothing that existed is changed. -/
theorem C115_chunk_fails (cwd : Loc) (io : UploadIo) (fs : FS) (cont f : Bytes) (n : Int) (h : Bytes)
    (hf : io.mkdirFails = true ∨ io.createFails = true) :
    (breakPointContinue cwd io fs cont f n h).2 = false ∧ ∀ x, fs x ≠ none → (breakPointContinue cwd io fs cont f n h).1 x = fs x := by
  unfold breakPointContinue
  cases hm : io.mkdirFails with
  | true => simp
  | false =>
    have hc : io.createFails = true := by simpa [hm] using hf
    rw [hc]
    simp only [Bool.false_eq_true, if_false, if_true]
    unfold mkdirAll
    split
    · exact ⟨rfl, fun _ _ => rfl⟩
    · rename_i fs' he
      refine ⟨rfl, fun x hx => ?_⟩
      split at he
      · cases he
      · cases he
        exact if_neg (fun h => hx h.2)

/-- Fields that need quotes: a quotation mark is doubled, a carriage return goes, a line feed becomes both. -/
example : csvField (lit "a\"b") = lit "\"a\"\"b\"" ∧ csvField [97, 13, 98] = [34, 97, 98, 34] ∧ csvField [97, 10, 98] = [34, 97, 13, 10, 98, 34] ∧
    csvField [97, 11, 35] = [97, 11, 35] ∧ csvField (lit "\\.") = lit "\"\\.\"" ∧ csvField (lit "a,") = lit "\"a,\"" := by decide +kernel

end Verif.Fs

namespace Verif.Gorm

/-- **C126.** Deleting succeeds exactly if the table has the column and its constraints admit the rows that stay. -/
theorem C126_delete_succeeds (t : Table) (ids : List Int) :
    (delById t ids).2 = none ↔ idCol ∈ t.cols ∧ t.valid (t.rows.filter (fun r => decide (∀ i ∈ ids, r idCol ≠ .int i))) = true := by
  have hf : ∀ r : Row, decide (∀ i ∈ ids, r idCol ≠ .int i) = !idIn ids r := by
    intro r
    rw [Bool.eq_iff_iff]
    simp only [decide_eq_true_eq, Bool.not_eq_true']
    rw [← Bool.not_eq_true, idIn_iff]
    simp
  simp only [hf]
  unfold delById
  by_cases hc : idCol ∈ t.cols
  · rw [if_neg (not_not_intro hc)]
    by_cases hv : t.valid (t.rows.filter (fun r => !idIn ids r)) = true
    · rw [if_pos hv]; simp [hc, hv]
    · rw [if_neg hv]; simp [hv]
  · rw [if_pos hc]; simp [hc]

/-- `m[k] = v`: a later lookup of `k` gives `v`, of any other key what it gave before. -/
theorem mapSet_lookup {V : Type} (m : IdMap V) (k j : Int) (v : Fields V) :
    (mapSet m k v).lookup j = if j = k then some v else m.lookup j := by
  have h1 : ∀ m : IdMap V, (m.lookup k).isSome = true → (m.map (fun e => if e.1 = k then (k, v) else e)).lookup j =
      if j = k then some v else m.lookup j := by
    intro m
    induction m with
    | nil => intro h; simp at h
    | cons e m ih =>
      intro h
      obtain ⟨i, w⟩ := e
      rw [List.map_cons]
      dsimp only
      by_cases hi : i = k
      · subst hi
        rw [if_pos rfl]
        by_cases hj : j = i
        · subst hj; simp
        · rw [if_neg hj]
          have hb : (j == i) = false := by simpa using hj
          rw [List.lookup_cons, List.lookup_cons, hb]
          dsimp only
          clear h ih
          induction m with
          | nil => rfl
          | cons e m ih =>
            rw [List.map_cons]
            obtain ⟨i2, w2⟩ := e
            dsimp only
            by_cases h2 : i2 = i
            · subst h2; rw [if_pos rfl, List.lookup_cons, List.lookup_cons, hb]; exact ih
            · rw [if_neg h2, List.lookup_cons, List.lookup_cons]
              split
              · rfl
              · exact ih
      · rw [if_neg hi, List.lookup_cons, List.lookup_cons]
        have hk : (k == i) = false := by simpa using fun h : k = i => hi h.symm
        rw [List.lookup_cons, hk] at h
        split
        · rename_i hji
          rw [if_neg]
          rintro rfl
          rw [hk] at hji; cases hji
        · exact ih h
  unfold mapSet
  split
  · exact h1 m ‹_›
  · rename_i h
    have hn : m.lookup k = none := by
      cases hc : m.lookup k with
      | none => rfl
      | some w => rw [hc] at h; exact absurd rfl h
    rw [List.lookup_append]
    by_cases hj : j = k
    · subst hj; simp [hn]
    · rw [if_neg hj]
      have hb : (j == k) = false := by simpa using hj
      rw [List.lookup_cons, hb]
      simp

end Verif.Gorm

namespace Verif.DelayQueue

variable {V : Type}

/-- **C130.** Without a cancellation of the context the channel stays open. -/
theorem C130_open {g size : Nat} {reader : Prop} {q0 : State V} {s : ChState V} (h : ChFrom g size False reader (chInit q0) s) :
    s.at' ≠ .closed ∧ s.cancelled = false := by
  induction h with
  | refl => exact ⟨by simp [chInit], rfl⟩
  | step h st ih => cases st <;> first | contradiction | exact ⟨ih.1, ih.2⟩ | exact ⟨by simp, ih.2⟩

end Verif.DelayQueue

namespace Verif.Sniff

open Utf8

/-- The types that no claim names one by one. -/
example : detect (lit "MThd" ++ [0, 0, 0, 6, 0]) = lit "audio/midi" ∧ detect (lit "PK" ++ [3, 4, 0]) = lit "application/zip" ∧
    detect (lit "PK" ++ [3, 5, 0]) = lit "application/octet-stream" ∧ detect [31, 139, 8] = lit "application/x-gzip" ∧
    detect (lit "Rar!" ++ [26, 7, 0]) = lit "application/x-rar-compressed" ∧ detect (lit "Rar!" ++ [26, 7, 1, 0]) = lit "application/x-rar-compressed" ∧
    detect [0, 97, 115, 109] = lit "application/wasm" ∧ detect [0, 1, 0, 0] = lit "font/ttf" ∧ detect (lit "OTTO") = lit "font/otf" ∧
    detect (lit "ttcf") = lit "font/collection" ∧ detect (lit "wOFF") = lit "font/woff" ∧ detect (lit "wOF2") = lit "font/woff2" ∧
    detect (lit "OggS" ++ [0]) = lit "application/ogg" ∧ detect (lit "ID3") = lit "audio/mpeg" ∧
    detect (lit "FORM" ++ [1, 2, 3, 4] ++ lit "AIFF") = lit "audio/aiff" ∧ detect (lit "RIFF" ++ [1, 2, 3, 4] ++ lit "WAVE") = lit "audio/wave" ∧
    detect (List.replicate 34 0 ++ lit "LP") = lit "application/vnd.ms-fontobject" ∧ detect (lit "%!PS-Adobe-") = lit "application/postscript" ∧
    detect [254, 255, 0, 65] = lit "text/plain; charset=utf-16be" ∧ detect [255, 254, 65, 0] = lit "text/plain; charset=utf-16le" := by decide +kernel

end Verif.Sniff

namespace Verif.F64

/-- Infinities. -/
example (q : ℚ) (hq : 0 < q) (a b : Bool) :
    add (.inf a) (.inf a) = .inf a ∧ add (.inf a) (.inf (!a)) = .nan ∧ mul (.inf a) (.inf b) = .inf (a != b) ∧
    mul (.fin q) (.inf a) = .inf a ∧ mul (.fin (-q)) (.inf a) = .inf (!a) ∧ mul (.inf a) (.fin q) = .inf a ∧ mul (.inf a) (.fin (-q)) = .inf (!a) ∧
    mul (.fin 0) (.inf a) = .nan ∧ mul (.inf a) (.fin 0) = .nan ∧
    div (.fin q) (.fin 0) = .inf false ∧ div (.fin (-q)) (.fin 0) = .inf true ∧ div (.fin 0) (.fin 0) = .nan ∧ div (.inf a) (.inf b) = .nan ∧
    div (.inf a) (.fin q) = .inf a ∧ div (.inf a) (.fin (-q)) = .inf (!a) ∧ div (.fin q) (.inf a) = .fin 0 := by
  have h0 : q ≠ 0 := ne_of_gt hq
  have h1 : ¬ q < 0 := not_lt.2 (le_of_lt hq)
  cases a <;> cases b <;> simp [add, mul, div, h0, h1, hq]

end Verif.F64

namespace Verif.Calendar

/-- The seconds of the earliest moment wrap around to the end of 64 bits. -/
example : unixToAbs = 9223372028715321600 ∧ abs 0 0 = 9223372028715321600 ∧ abs (-(2 ^ 63)) 0 = 18446744065570097408 ∧
    abs (2 ^ 63 - 1) 0 = 18446744065570097407 := by decide +kernel

end Verif.Calendar

namespace Verif.MathFloat

/-- The smallest number, the smallest normal number, one, and minus two. -/
example : val 1#64 = .fin (1 / 2 ^ 1074) ∧ val 0x0010000000000000#64 = .fin (2 ^ 52 / 2 ^ 1074) ∧ val 0x3FF0000000000000#64 = .fin 1 ∧
    val 0xC000000000000000#64 = .fin (-2) := by
  refine ⟨?_, ?_, ?_, ?_⟩ <;> simp [val, size, exponent, fraction, magnitude, negative] <;> norm_num <;> rw [div_eq_mul_inv]

end Verif.MathFloat
