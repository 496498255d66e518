import Verif.Model.FileIo
import Verif.Props.Upload
import Verif.Props.Files
import Verif.Props.Md5
import Verif.Props.Base64

/-!
# C115 to C118: failing reads and writes of `MakeFile`; hashing, encoding, removing and making files
-/

namespace Verif.Fs

open Utf8 Spec.Path

/-! ## C115 -/

theorem makeLoop_fails (cwd : Loc) (io : MakeIo) (f h : Bytes) (target : Loc) (ks : List Nat) (fs : FS)
    (hw : ∃ k ∈ ks, io.writeFails k = true) :
    (makeLoop cwd io f h target ks fs).2 = false ∧
    ∀ x, (makeLoop cwd io f h target ks fs).1 x = if x = target then none else fs x := by
  induction ks generalizing fs with
  | nil => obtain ⟨k, hk, -⟩ := hw; cases hk
  | cons k ks ih =>
    rw [makeLoop]
    by_cases hk : io.writeFails k = true
    · rw [if_pos hk]
      exact ⟨rfl, fun x => rfl⟩
    · rw [if_neg hk]
      obtain ⟨j, hj, hjw⟩ := hw
      have hj' : j ∈ ks := by
        rcases List.mem_cons.1 hj with rfl | hj
        · exact absurd hjw hk
        · exact hj
      obtain ⟨h1, h2⟩ := ih (appendTo fs target (readChunk cwd io fs f h k)) ⟨j, hj', hjw⟩
      refine ⟨h1, fun x => ?_⟩
      rw [h2]
      split
      · rfl
      · rename_i hx
        simp [appendTo, FS.set, hx]

/-- The content of a chunk as it is read: all of it, or what was delivered before an error. -/
def delivered (cwd : Loc) (io : MakeIo) (fs : FS) (f h : Bytes) (k : Nat) : Bytes :=
  match io.readCut k with
  | none => content fs (upDir cwd ++ [h, chunkName f k])
  | some m => (content fs (upDir cwd ++ [h, chunkName f k])).take m

/-- **C115 (partial: what happens).** If no write fails, success is reported and what was delivered of the chunks is appended. Missing: errors
of reading, which go unnoticed. -/
theorem C115_success_partial (cwd : Loc) (io : MakeIo) (f h : Bytes) (hh : Plain h) (hf : Plain f) (fs : FS)
    (hd : fs (upDir cwd ++ [h]) = some .dir) (hr : Ready cwd fs f) (ho : io.openFails = false) (hw : ∀ k, io.writeFails k = false) :
    (makeFile cwd io fs f h).2 = true ∧
    (makeFile cwd io fs f h).1 (outDir cwd ++ [f]) =
      some (.file (content fs (outDir cwd ++ [f]) ++ ((List.range io.listing.length).map (delivered cwd io fs f h)).flatten)) := by
  obtain ⟨h1, h2, -⟩ := makeFile_spec cwd io f h hh hf fs hd hr ho hw
  refine ⟨h1, ?_⟩
  rw [h2]
  congr 4
  apply List.map_congr_left
  intro k _
  unfold readChunk delivered
  rw [loc_chunk cwd h f hh hf.1]
  cases io.readCut k <;> rfl

/-- **C115 (does not hold: failing reads).** Whatever the chunks are, if reading them fails at once success is reported for an empty
file. -/
theorem C115_read_refuted (cwd : Loc) (io : MakeIo) (f h : Bytes) (hh : Plain h) (hf : Plain f) (fs : FS)
    (hd : fs (upDir cwd ++ [h]) = some .dir) (hr : Ready cwd fs f) (ho : io.openFails = false) (hw : ∀ k, io.writeFails k = false)
    (hcut : ∀ k, io.readCut k = some 0) (hnew : fs (outDir cwd ++ [f]) = none) :
    (makeFile cwd io fs f h).2 = true ∧ (makeFile cwd io fs f h).1 (outDir cwd ++ [f]) = some (.file []) := by
  obtain ⟨h1, h2⟩ := C115_success_partial cwd io f h hh hf fs hd hr ho hw
  refine ⟨h1, ?_⟩
  rw [h2]
  have h3 : ((List.range io.listing.length).map (delivered cwd io fs f h)).flatten = [] := by
    rw [List.flatten_eq_nil_iff]
    intro l hl
    obtain ⟨k, -, rfl⟩ := List.mem_map.1 hl
    unfold delivered
    rw [hcut k]
    rfl
  rw [h3]
  unfold content
  rw [hnew]
  rfl

/-- **C115 (failing writes are reported).** If a write fails, an error is returned, and there is no file of that name any more; nothing but
directories on the way changes. -/
theorem C115_write_fails (cwd : Loc) (io : MakeIo) (f h : Bytes) (hh : Plain h) (hf : Plain f) (fs : FS)
    (hd : fs (upDir cwd ++ [h]) = some .dir) (hr : Ready cwd fs f) (ho : io.openFails = false)
    (hw : ∃ k < io.listing.length, io.writeFails k = true) :
    (makeFile cwd io fs f h).2 = false ∧ (makeFile cwd io fs f h).1 (outDir cwd ++ [f]) = none ∧
    ∀ x, ¬ x <+: outDir cwd → x ≠ outDir cwd ++ [f] → (makeFile cwd io fs f h).1 x = fs x := by
  unfold makeFile
  rw [loc_upload cwd h hh, if_neg (by rw [hd]; simp), loc_finish, loc_target cwd f hf, mkdirAll_some fs _ hr.way]
  dsimp only [Option.getD_some]
  rw [ho]
  simp only [Bool.false_eq_true, if_false]
  generalize hg : (fun x => if x <+: outDir cwd ∧ fs x = none then some Node.dir else fs x) = fs1
  have hfs1 : ∀ x, fs1 x = if x <+: outDir cwd ∧ fs x = none then some Node.dir else fs x := fun x => by rw [← hg]
  have hnp : ¬ (outDir cwd ++ [f]) <+: outDir cwd := by
    intro h
    have := h.length_le
    simp at this
  have ht : fs1 (outDir cwd ++ [f]) = fs (outDir cwd ++ [f]) := by rw [hfs1, if_neg (fun h => hnp h.1)]
  have hdir : fs1 (outDir cwd) = some .dir := by
    rw [hfs1]
    by_cases hn : fs (outDir cwd) = none
    · rw [if_pos ⟨List.prefix_refl _, hn⟩]
    · rw [if_neg (fun h => hn h.2)]
      have := hr.way (outDir cwd) (List.prefix_refl _)
      cases hc : fs (outDir cwd) with
      | none => exact absurd hc hn
      | some nd =>
        cases nd with
        | dir => rfl
        | file c => rw [hc] at this; cases this
  have hopen : ∃ fs2, openKeep fs1 (outDir cwd ++ [f]) = some fs2 ∧ ∀ x, x ≠ outDir cwd ++ [f] → fs2 x = fs1 x := by
    unfold openKeep
    rw [ht]
    cases hc : fs (outDir cwd ++ [f]) with
    | none =>
      dsimp only
      rw [List.dropLast_concat, if_pos hdir]
      exact ⟨_, rfl, fun x hx => if_neg hx⟩
    | some nd =>
      cases nd with
      | dir => exact absurd hc hr.target
      | file c => exact ⟨fs1, rfl, fun x _ => rfl⟩
  obtain ⟨fs2, h1, h2⟩ := hopen
  rw [h1]
  dsimp only
  obtain ⟨k, hk, hkw⟩ := hw
  obtain ⟨h3, h4⟩ := makeLoop_fails cwd io f h (outDir cwd ++ [f]) (List.range io.listing.length) fs2 ⟨k, List.mem_range.2 hk, hkw⟩
  refine ⟨h3, by rw [h4, if_pos rfl], ?_⟩
  intro x hx1 hx2
  rw [h4, if_neg hx2, h2 x hx2, hfs1, if_neg (fun h => hx1 h.1)]

/-- **C115 (does not hold: what was there).** A failing write removes a file of that name that was complete before. -/
theorem C115_write_refuted (cwd : Loc) (io : MakeIo) (f h old : Bytes) (hh : Plain h) (hf : Plain f) (fs : FS)
    (hd : fs (upDir cwd ++ [h]) = some .dir) (hr : Ready cwd fs f) (ho : io.openFails = false)
    (hw : ∃ k < io.listing.length, io.writeFails k = true) (_hold : fs (outDir cwd ++ [f]) = some (.file old)) :
    (makeFile cwd io fs f h).1 (outDir cwd ++ [f]) = none :=
  (C115_write_fails cwd io f h hh hf fs hd hr ho hw).2.1

/-- A finished file `f`, and one chunk of it. -/
def finished : FS := fun x =>
  if x = [] ∨ x = [lit "breakpointDir"] ∨ x = [lit "breakpointDir", lit "h"] ∨ x = [lit "fileDir"] then some .dir
  else if x = [lit "breakpointDir", lit "h", lit "f_0"] then some (.file (lit "abc"))
  else if x = [lit "fileDir", lit "f"] then some (.file (lit "done"))
  else none

/-- The old content is lost; a short read goes unnoticed. -/
example :
    (makeFile [] ⟨[lit "f_0"], false, fun _ => none, fun _ => true⟩ finished (lit "f") (lit "h")).1 [lit "fileDir", lit "f"] = none ∧
    (makeFile [] ⟨[lit "f_0"], false, fun _ => some 1, fun _ => false⟩ finished (lit "f") (lit "h")).2 = true ∧
    (makeFile [] ⟨[lit "f_0"], false, fun _ => some 1, fun _ => false⟩ finished (lit "f") (lit "h")).1 [lit "fileDir", lit "f"] =
      some (.file (lit "donea")) := by
  decide +kernel

example : Plain (lit "h") ∧ Plain (lit "f") ∧ finished (upDir [] ++ [lit "h"]) = some .dir ∧ Ready [] finished (lit "f") := by
  refine ⟨by unfold Plain Paths.Name; decide +kernel, by unfold Plain Paths.Name; decide +kernel, by decide +kernel, ?_, by decide +kernel⟩
  intro p hp
  have h1 : outDir [] = [lit "fileDir"] := by decide +kernel
  rw [h1] at hp
  have := hp.length_le
  have h2 := List.prefix_iff_eq_take.1 hp
  have h3 : p.length = 0 ∨ p.length = 1 := by simp at this; omega
  rcases h3 with h3 | h3 <;> rw [h3] at h2 <;> rw [h2] <;> decide +kernel

/-! ## C116 -/

/-- **C116.** `FileMd5` succeeds exactly if there is a file that can be read to its end; then the result is what `Md5` gives for its content,
and `CheckMd5` accepts it. Otherwise it is empty. -/
theorem C116_file_md5 (md5 : Bytes → Bytes) (fs : FS) (l : Loc) (cut : Option Nat) :
    ((fileMd5 md5 fs l cut).2 = true ↔ cut = none ∧ ∃ c, fs l = some (.file c)) ∧
    ((fileMd5 md5 fs l cut).2 = false → (fileMd5 md5 fs l cut).1 = []) ∧
    ∀ c, (fileMd5 md5 fs l cut).2 = true → fs l = some (.file c) →
      (fileMd5 md5 fs l cut).1 = Md5.md5String md5 c ∧ Md5.checkMd5 md5 c (fileMd5 md5 fs l cut).1 = true := by
  have key : ∀ c, fs l = some (.file c) → cut = none → fileMd5 md5 fs l cut = (Md5.md5String md5 c, true) := by
    intro c hc hcut
    unfold fileMd5 readFile
    rw [hc, hcut]
    rfl
  have bad : ¬ (cut = none ∧ ∃ c, fs l = some (.file c)) → fileMd5 md5 fs l cut = ([], false) := by
    intro h
    unfold fileMd5 readFile
    cases hl : fs l with
    | none => rfl
    | some n =>
      cases n with
      | dir => rfl
      | file c =>
        cases hc : cut with
        | none => exact absurd ⟨hc, c, hl⟩ h
        | some k => rfl
  by_cases h : cut = none ∧ ∃ c, fs l = some (.file c)
  · obtain ⟨hcut, c, hc⟩ := h
    rw [key c hc hcut]
    refine ⟨⟨fun _ => ⟨hcut, c, hc⟩, fun _ => rfl⟩, fun h => (by cases h), ?_⟩
    intro c' _ hc'
    rw [hc] at hc'
    injection hc' with hc'
    injection hc' with hc'
    subst hc'
    exact ⟨rfl, (Md5.C75_check md5 c _).2 rfl⟩
  · rw [bad h]
    refine ⟨⟨fun h => (by cases h), fun h' => absurd h' h⟩, fun _ => rfl, fun c h => (by cases h)⟩

/-! ## C117 -/

/-- **C117.** The text of a readable file is the fixed prefix and something from which the content can be decoded; so different contents have
different texts, and no text of a file is empty. -/
theorem C117_image (fs : FS) (l : Loc) (c : Bytes) (hc : fs l = some (.file c)) (hb : ∀ x ∈ c, IsByte x) :
    ∃ t, imageFileToBase64 fs l none = lit "data:image/png;base64," ++ t ∧ Base64.decode t = (c, false) := by
  refine ⟨Base64.encode c, ?_, Base64.C70_no_error c hb⟩
  unfold imageFileToBase64 readFile
  rw [hc]

theorem C117_injective (fs gs : FS) (l m : Loc) (a b : Bytes) (ha : fs l = some (.file a)) (hb : gs m = some (.file b))
    (ha' : ∀ x ∈ a, IsByte x) (hb' : ∀ x ∈ b, IsByte x) (h : imageFileToBase64 fs l none = imageFileToBase64 gs m none) : a = b := by
  obtain ⟨t, h1, h2⟩ := C117_image fs l a ha ha'
  obtain ⟨u, h3, h4⟩ := C117_image gs m b hb hb'
  rw [h1, h3] at h
  have := List.append_cancel_left h
  subst this
  rw [h2] at h4
  exact (Prod.mk.inj h4).1

/-- **C117 (errors).** The text is empty exactly if there is no file or it cannot be read. -/
theorem C117_empty (fs : FS) (l : Loc) (cut : Option Nat) :
    imageFileToBase64 fs l cut = [] ↔ ¬ (cut = none ∧ ∃ c, fs l = some (.file c)) := by
  unfold imageFileToBase64 readFile
  cases hl : fs l with
  | none => simp
  | some n =>
    cases n with
    | dir => simp
    | file c =>
      cases cut with
      | none =>
        simp only [true_and, Option.some.injEq, Node.file.injEq, exists_eq', not_true_eq_false, iff_false]
        have : lit "data:image/png;base64," ≠ [] := by decide +kernel
        simp [this]
      | some k => simp

/-- **C117 (does not hold: type).** Every file is called a PNG image, also one that is none. -/
theorem C117_type_refuted (fs : FS) (l : Loc) (c : Bytes) (hc : fs l = some (.file c)) :
    lit "data:image/png;base64," <+: imageFileToBase64 fs l none := by
  unfold imageFileToBase64 readFile
  rw [hc]
  exact List.prefix_append _ _

/-! ## C118 -/

/-- **C118 (partial).** For a path that is not empty and does not end in `.` or `..`, `DeLFile` succeeds unless a file is on the way, and then
exactly what is at the path and below is gone; otherwise nothing changes. -/
theorem C118_deleted_partial (cwd : Loc) (fs : FS) (p e : Bytes) (he : (elems p).getLast? = some e) (h1 : e ≠ [46]) (h2 : e ≠ [46, 46])
    (h0 : p ≠ []) :
    ((delFile cwd fs p).2 = true ↔ ∀ q, q <+: loc cwd p → q ≠ loc cwd p → isFile (fs q) = false) ∧
    ((delFile cwd fs p).2 = true → ∀ x, (delFile cwd fs p).1 x = if loc cwd p <+: x then none else fs x) ∧
    ((delFile cwd fs p).2 = false → (delFile cwd fs p).1 = fs) := by
  have key : ∀ d : Bytes, d = [46] ∨ d = [46, 46] → (47 :: d).isSuffixOf p = true → False := by
    intro d hd hs
    rw [List.isSuffixOf_iff_suffix] at hs
    obtain ⟨a, rfl⟩ := hs
    have hno : 47 ∉ d := by rcases hd with rfl | rfl <;> decide
    rw [Paths.elems_slash, Paths.elems_free d hno] at he
    simp at he
    rcases hd with rfl | rfl
    · exact h1 he.symm
    · exact h2 he.symm
  have hdot : p ≠ [46] := by
    rintro rfl
    have : elems [46] = [[46]] := by decide
    rw [this] at he
    simp at he
    exact h1 he.symm
  unfold delFile removeAllPath
  rw [if_neg h0, if_neg (by rintro (h | h); exacts [hdot h, key [46] (Or.inl rfl) h]),
    if_neg (fun h => key [46, 46] (Or.inr rfl) h)]
  by_cases hw : (List.range (loc cwd p).length).any (fun i => isFile (fs ((loc cwd p).take i))) = true
  · rw [if_pos hw]
    refine ⟨⟨fun h => absurd h (by simp), fun h => ?_⟩, fun h => absurd h (by simp), fun _ => rfl⟩
    rw [List.any_eq_true] at hw
    obtain ⟨i, hi, hf⟩ := hw
    rw [List.mem_range] at hi
    rw [h _ (List.take_prefix _ _) (fun e => by have := congrArg List.length e; rw [List.length_take] at this; omega)] at hf
    cases hf
  · rw [if_neg hw]
    refine ⟨⟨fun _ q hq hne => ?_, fun _ => rfl⟩, fun _ x => rfl, fun h => absurd h (by simp)⟩
    rw [List.any_eq_true] at hw
    by_contra hf
    refine hw ⟨q.length, List.mem_range.2 ?_, ?_⟩
    · rcases Nat.lt_or_ge q.length (loc cwd p).length with h | h
      · exact h
      · exact absurd (hq.eq_of_length_le h) hne
    · rw [← List.prefix_iff_eq_take.1 hq]
      simpa using hf

/-- **C118 (does not hold: the empty path).** Success is reported, and nothing is removed. -/
theorem C118_empty_refuted (cwd : Loc) (fs : FS) : delFile cwd fs [] = (fs, true) := rfl

/-- **C118 (does not hold: failures).** For a path that ends in `/..` an error is reported although everything below that directory is gone. -/
theorem C118_failure_refuted : ∃ fs : FS, fs [lit "a", lit "b"] = some (.file (lit "x")) ∧ (delFile [] fs (lit "a/c/..")).2 = false ∧
    (delFile [] fs (lit "a/c/..")).1 [lit "a", lit "b"] = none := by
  refine ⟨fun x => if x = [] ∨ x = [lit "a"] ∨ x = [lit "a", lit "c"] then some .dir
    else if x = [lit "a", lit "b"] then some (.file (lit "x")) else none, ?_⟩
  decide +kernel

example : (elems (lit "a/b")).getLast? = some (lit "b") := by decide +kernel

/-! ## C104 for `MkDir` -/

/-- **C104 (`MkDir`).** It succeeds exactly if no file is in the way; then the directory and those above it exist. In any case what existed is
unchanged, and what is new is a directory on the way. -/
theorem C104_mkdir (fs : FS) (l : Loc) :
    ((mkDir fs l).2 = true ↔ Free fs l) ∧
    ((mkDir fs l).2 = true → ∀ p, p <+: l → (mkDir fs l).1 p = some .dir) ∧
    (∀ x, fs x ≠ none → (mkDir fs l).1 x = fs x) ∧
    (∀ x, fs x = none → (mkDir fs l).1 x ≠ none → (mkDir fs l).1 x = some .dir ∧ x <+: l) := by
  unfold mkDir
  by_cases h : Free fs l
  · rw [mkdirAll_some fs l h]
    dsimp only
    refine ⟨⟨fun _ => h, fun _ => rfl⟩, ?_, ?_, ?_⟩
    · intro _ p hp
      by_cases h0 : fs p = none
      · rw [if_pos ⟨hp, h0⟩]
      · rw [if_neg (fun h => h0 h.2)]
        have := h p hp
        cases hq : fs p with
        | none => exact absurd hq h0
        | some n =>
          cases n with
          | dir => rfl
          | file c => rw [hq] at this; cases this
    · intro x hx
      rw [if_neg (fun h => hx h.2)]
    · intro x hx hx1
      by_cases hp : x <+: l ∧ fs x = none
      · rw [if_pos hp]; exact ⟨rfl, hp.1⟩
      · rw [if_neg hp] at hx1; exact absurd hx hx1
  · rw [(mkdirAll_iff fs l).2 h]
    exact ⟨⟨fun h => (by cases h), fun h' => absurd h' h⟩, fun h => (by cases h), fun _ _ => rfl, fun x hx hx1 => absurd hx hx1⟩

end Verif.Fs
