import Verif.Model.OpenFiles
import Verif.Props.Zip

/-!
# C165: what the helpers do with file descriptors
-/

namespace Verif.OpenFiles

open Utf8 Fs Paths Spec.Path Zip

/-- The numbers of the open descriptors have been given out. -/
def Proc.Ok (p : Proc) : Prop := ∀ h ∈ p.opened, h < p.fresh

/-- How many more files the process may open. -/
def Proc.free (p : Proc) : Nat := p.limit - p.opened.length

/-- Later, the process has the same files open. -/
structure GivenBack (p p' : Proc) : Prop where
  opened : p'.opened = p.opened
  limit : p'.limit = p.limit
  fresh : p.fresh ≤ p'.fresh

theorem GivenBack.refl (p : Proc) : GivenBack p p := ⟨rfl, rfl, Nat.le_refl _⟩

theorem GivenBack.trans {p q r : Proc} (h : GivenBack p q) (h' : GivenBack q r) : GivenBack p r :=
  ⟨h'.opened.trans h.opened, h'.limit.trans h.limit, Nat.le_trans h.fresh h'.fresh⟩

theorem GivenBack.ok {p p' : Proc} (h : GivenBack p p') (ho : p.Ok) : p'.Ok := by
  intro x hx
  rw [h.opened] at hx
  exact Nat.lt_of_lt_of_le (ho x hx) h.fresh

theorem GivenBack.free {p p' : Proc} (h : GivenBack p p') : p'.free = p.free := by
  unfold Proc.free; rw [h.opened, h.limit]

theorem open_none {p : Proc} : p.open = none ↔ p.free = 0 := by
  unfold Proc.open Proc.free
  split <;> simp <;> omega

theorem open_some {p p1 : Proc} {h : Nat} (e : p.open = some (p1, h)) :
    p1.opened = p.opened ++ [h] ∧ h = p.fresh ∧ p1.fresh = p.fresh + 1 ∧ p1.limit = p.limit ∧ p.free = p1.free + 1 := by
  unfold Proc.open at e
  split at e
  · cases e
    refine ⟨rfl, rfl, rfl, rfl, ?_⟩
    simp only [Proc.free, List.length_append, List.length_singleton]
    omega
  · cases e

theorem closeAll_eq (p : Proc) (ds : List Nat) : p.closeAll ds = { p with opened := p.opened.filter (fun x => x ∉ ds) } := by
  unfold Proc.closeAll
  have : ∀ (l : List Nat) (p : Proc), l.foldl Proc.close p = { p with opened := p.opened.filter (fun x => x ∉ l) } := by
    intro l
    induction l with
    | nil => intro p; simp
    | cons a l ih =>
      intro p
      rw [List.foldl_cons, ih]
      simp only [Proc.close, List.filter_filter, List.mem_cons, not_or, Bool.decide_and, decide_not]
      congr 2
      funext x
      exact Bool.and_comm _ _
  rw [this]
  simp

/-- Closing what was opened since. -/
theorem closeAll_givenBack {p p' : Proc} {ds : List Nat} (ho : p.Ok) (h1 : p'.opened = p.opened ++ ds) (h2 : ∀ d ∈ ds, p.fresh ≤ d)
    (h3 : p'.limit = p.limit) (h4 : p.fresh ≤ p'.fresh) : GivenBack p (p'.closeAll ds) := by
  rw [closeAll_eq]
  refine ⟨?_, h3, h4⟩
  show p'.opened.filter _ = _
  rw [h1, List.filter_append]
  have e1 : p.opened.filter (fun x => x ∉ ds) = p.opened := by
    rw [List.filter_eq_self]
    intro a ha
    simp only [decide_not, Bool.not_eq_eq_eq_not, Bool.not_true, decide_eq_false_iff_not]
    intro hd
    have := ho a ha
    have := h2 a hd
    omega
  have e2 : ds.filter (fun x => x ∉ ds) = [] := by
    rw [List.filter_eq_nil_iff]
    intro a ha
    simpa using ha
  rw [e1, e2, List.append_nil]

theorem close_eq (p : Proc) (h : Nat) : p.close h = p.closeAll [h] := rfl

theorem close_givenBack {p p1 q : Proc} {h : Nat} (ho : p.Ok) (e : p.open = some (p1, h)) (hq : GivenBack p1 q) : GivenBack p (q.closeAll [h]) := by
  obtain ⟨a1, a2, a3, a4, -⟩ := open_some e
  refine closeAll_givenBack ho (hq.opened.trans a1) ?_ (hq.limit.trans a4) ?_
  · intro d hd
    rw [List.mem_singleton] at hd
    omega
  · have := hq.fresh; omega

theorem open_ok {p p1 : Proc} {h : Nat} (ho : p.Ok) (e : p.open = some (p1, h)) : p1.Ok := by
  obtain ⟨a1, a2, a3, a4, -⟩ := open_some e
  intro x hx
  rw [a1, List.mem_append, List.mem_singleton] at hx
  rcases hx with hx | hx
  · have := ho x hx; omega
  · omega

theorem withFile_back {α : Type} {p : Proc} (ho : p.Ok) (c : Bool) (f b : α) : GivenBack p (withFile p c f b).2 := by
  unfold withFile
  cases e : p.open with
  | none => exact .refl _
  | some x =>
    obtain ⟨p1, h⟩ := x
    dsimp only
    split
    · exact .refl _
    · exact close_givenBack ho e (.refl _)

theorem withFile_one {α : Type} {p : Proc} (hf : 1 ≤ p.free) (c : Bool) (f b : α) : (withFile p c f b).1 = if c then f else b := by
  unfold withFile
  cases e : p.open with
  | none => rw [open_none] at e; omega
  | some x =>
    dsimp only
    split <;> rfl

/-- **C165.** `FileMd5`, `ImageFileToBase64`, `ReadCsv` and `WriteCsv` have closed their file when they return, and one free descriptor is
enough for them. -/
theorem C165_one_file (md5 : Bytes → Bytes) (fs : FS) (p : Proc) (ho : p.Ok) (l : Loc) (cut : Option Nat) (row : List Bytes) (wrote : Nat) :
    (GivenBack p (fileMd5P md5 fs p l cut).2 ∧ GivenBack p (imageFileToBase64P fs p l cut).2 ∧ GivenBack p (readCsvP fs p l).2 ∧
      GivenBack p (writeCsvP fs p l row wrote).2) ∧
    (1 ≤ p.free → (fileMd5P md5 fs p l cut).1 = fileMd5 md5 fs l cut ∧ (imageFileToBase64P fs p l cut).1 = imageFileToBase64 fs l cut ∧
      (readCsvP fs p l).1 = readCsv fs l ∧ (writeCsvP fs p l row wrote).1 = writeCsv fs l row wrote) := by
  refine ⟨⟨withFile_back ho _ _ _, withFile_back ho _ _ _, withFile_back ho _ _ _, withFile_back ho _ _ _⟩, fun hf => ⟨?_, ?_, ?_, ?_⟩⟩
  · unfold fileMd5P
    rw [withFile_one hf]
    by_cases h : fs l = none <;> simp [h, fileMd5, readFile]
  · unfold imageFileToBase64P
    rw [withFile_one hf]
    by_cases h : fs l = none <;> simp [h, imageFileToBase64, readFile]
  · unfold readCsvP
    rw [withFile_one hf]
    by_cases h : fs l = none <;> simp [h, readCsv]
  · unfold writeCsvP
    rw [withFile_one hf]
    by_cases h : openKeep fs l = none <;> simp [h, writeCsv]

/-- **C165.** `CopyFile` closes both files, and two free descriptors are enough. -/
theorem C165_copyFile (fs : FS) (p : Proc) (ho : p.Ok) (dst src : Loc) (wrote : Nat) :
    GivenBack p (copyFileP fs p dst src wrote).2 ∧ (2 ≤ p.free → (copyFileP fs p dst src wrote).1 = copyFile fs dst src wrote) := by
  unfold copyFileP
  cases e : p.open with
  | none => exact ⟨.refl _, fun hf => by rw [open_none] at e; omega⟩
  | some x =>
    obtain ⟨p1, h1⟩ := x
    have o1 := open_ok ho e
    have s1 := open_some e
    dsimp only
    split
    · rename_i hs
      exact ⟨.refl _, fun _ => by simp [copyFile, hs]⟩
    · rename_i hs
      cases e2 : p1.open with
      | none => exact ⟨close_givenBack ho e (.refl _), fun hf => by rw [open_none] at e2; omega⟩
      | some x =>
        obtain ⟨p2, h2⟩ := x
        have s2 := open_some e2
        dsimp only
        split
        · rename_i hd
          refine ⟨close_givenBack ho e (.refl _), fun _ => ?_⟩
          unfold copyFile
          cases hn : fs src with
          | none => rfl
          | some n => cases n <;> simp [hd]
        · refine ⟨closeAll_givenBack ho ?_ ?_ (s2.2.2.2.1.trans s1.2.2.2.1) (by omega), fun _ => rfl⟩
          · rw [s2.1, s1.1, List.append_assoc]; rfl
          · intro d hd
            simp only [List.mem_cons, List.not_mem_nil, or_false] at hd
            omega

/-! ## Uploads -/

/-- **C165 (uploads).** If the write does not fail, `BreakPointContinue` closes its file. One free descriptor is enough for it. -/
theorem C165_upload_partial (cwd : Loc) (io : UploadIo) (fs : FS) (p : Proc) (ho : p.Ok) (cont name : Bytes) (n : Int) (md5 : Bytes) :
    (cont.length ≤ io.wrote → GivenBack p (breakPointContinueP cwd io fs p cont name n md5).2) ∧
    (1 ≤ p.free → (breakPointContinueP cwd io fs p cont name n md5).1 = breakPointContinue cwd io fs cont name n md5) := by
  unfold breakPointContinueP breakPointContinue
  cases hm : (if io.mkdirFails then none else mkdirAll fs (loc cwd (breakpointDir ++ md5 ++ lit "/"))) with
  | none => exact ⟨fun _ => .refl _, fun _ => rfl⟩
  | some fs1 =>
    dsimp only
    cases e : p.open with
    | none => exact ⟨fun _ => .refl _, fun hf => by rw [open_none] at e; omega⟩
    | some x =>
      obtain ⟨p1, h⟩ := x
      dsimp only
      cases hc : (if io.createFails then none else create fs1 (loc cwd (chunkPath md5 name n))) with
      | none => exact ⟨fun _ => .refl _, fun _ => rfl⟩
      | some fs2 =>
        dsimp only
        by_cases hw : cont.length ≤ io.wrote
        · rw [if_pos hw]
          exact ⟨fun _ => close_givenBack ho e (.refl _), fun _ => by simp [hw]⟩
        · rw [if_neg hw]
          exact ⟨fun h => absurd h hw, fun _ => by simp [hw]⟩

/-- An upload whose write fails for want of space and for no other reason: with space it would have succeeded. -/
def OnlyNoSpace (cwd : Loc) (io : UploadIo) (fs : FS) (cont name : Bytes) (n : Int) (md5 : Bytes) : Prop :=
  (breakPointContinue cwd { io with wrote := cont.length } fs cont name n md5).2 = true ∧ io.wrote < cont.length

/-- Then `BreakPointContinue` returns its error with the file still open. -/
theorem C165_upload_leaks {cwd : Loc} {io : UploadIo} {fs : FS} {cont name : Bytes} {n : Int} {md5 : Bytes}
    (h : OnlyNoSpace cwd io fs cont name n md5) (p : Proc) :
    (breakPointContinueP cwd io fs p cont name n md5).1.2 = false ∧
    (breakPointContinueP cwd io fs p cont name n md5).2.free = p.free - 1 ∧
    (1 ≤ p.free → (breakPointContinueP cwd io fs p cont name n md5).2.opened = p.opened ++ [p.fresh]) := by
  obtain ⟨h, hw⟩ := h
  unfold breakPointContinue at h
  unfold breakPointContinueP
  dsimp only at h ⊢
  cases hm : (if io.mkdirFails then none else mkdirAll fs (loc cwd (breakpointDir ++ md5 ++ lit "/"))) with
  | none => rw [hm] at h; simp at h
  | some fs1 =>
    rw [hm] at h
    dsimp only at h ⊢
    cases hcr : (if io.createFails then none else create fs1 (loc cwd (chunkPath md5 name n))) with
    | none => rw [hcr] at h; simp at h
    | some fs3 =>
      cases e : p.open with
      | none =>
        rw [open_none] at e
        exact ⟨rfl, by dsimp only; omega, fun hf => by omega⟩
      | some x =>
        obtain ⟨p1, hh⟩ := x
        have s1 := open_some e
        dsimp only
        rw [if_neg (by omega)]
        refine ⟨rfl, by dsimp only; omega, fun _ => ?_⟩
        dsimp only
        rw [s1.1, s1.2.1]

/-- `k` such uploads after each other (and no garbage collection). -/
inductive Uploads (cwd : Loc) : FS × Proc → Nat → FS × Proc → Prop
  | none (s : FS × Proc) : Uploads cwd s 0 s
  | next {fs : FS} {p : Proc} {k : Nat} {s : FS × Proc} (io : UploadIo) (cont name : Bytes) (n : Int) (md5 : Bytes)
      (h : OnlyNoSpace cwd io fs cont name n md5)
      (hs : Uploads cwd ((breakPointContinueP cwd io fs p cont name n md5).1.1, (breakPointContinueP cwd io fs p cont name n md5).2) k s) :
      Uploads cwd (fs, p) (k + 1) s

/-- **C165 fails for uploads.** Each upload that finds the disk full keeps a descriptor: after as many of them as there were free
descriptors nothing can be opened any more, and then every upload fails, whether or not there is space. -/
theorem C165_uploads_refuted {cwd : Loc} {fs fs' : FS} {p p' : Proc} {k : Nat} (h : Uploads cwd (fs, p) k (fs', p')) :
    p'.free = p.free - k ∧
    (p.free ≤ k → p'.open = none ∧ ∀ io cont name n md5, (breakPointContinueP cwd io fs' p' cont name n md5).1.2 = false) := by
  have h1 : p'.free = p.free - k := by
    generalize hs : (fs, p) = s at h
    generalize hs' : (fs', p') = s' at h
    induction h generalizing fs p with
    | none s =>
      rw [← hs, Prod.mk.injEq] at hs'
      obtain ⟨-, rfl⟩ := hs'
      rfl
    | next io cont name n md5 h _ ih =>
      cases hs
      have := ih rfl hs'
      have h2 := fun q => (C165_upload_leaks h q).2.1
      rw [this, h2]
      omega
  refine ⟨h1, fun hk => ?_⟩
  have h2 : p'.open = none := by rw [open_none]; omega
  refine ⟨h2, fun io cont name n md5 => ?_⟩
  unfold breakPointContinueP
  split
  · rfl
  · dsimp only
    rw [h2]

/-! Two uploads on a full disk, in a process with a limit of five descriptors of which three are in use. -/

/-- Only the root directory. -/
def rootOnly : FS := fun l => if l = [] then some .dir else none

example : ∃ fs' p', Uploads [] (rootOnly, ⟨5, [0, 1, 2], 3⟩) 2 (fs', p') ∧ p'.opened = [0, 1, 2, 3, 4] := by
  refine ⟨_, _, .next ⟨false, false, 0⟩ [7] (lit "f") 0 (lit "m") ⟨?_, by decide⟩
    (.next ⟨false, false, 0⟩ [7] (lit "f") 1 (lit "m") ⟨?_, by decide⟩ (.none _)), ?_⟩ <;> decide +kernel

/-! ## `MakeFile` -/

theorem makeLoopP_back (cwd : Loc) (io : MakeIo) (name md5 : Bytes) (target : Loc) (ks : List Nat) : ∀ (fs : FS) (p : Proc), p.Ok →
    GivenBack p (makeLoopP cwd io name md5 target ks fs p).2 := by
  induction ks with
  | nil => intro fs p _; exact .refl _
  | cons k ks ih =>
    intro fs p ho
    unfold makeLoopP
    dsimp only
    have hb := withFile_back ho (decide (fs (loc cwd (chunkPath md5 name k)) = none)) [] (readChunk cwd io fs name md5 k)
    split
    · exact hb
    · exact hb.trans (ih _ _ (hb.ok ho))

theorem makeLoopP_one (cwd : Loc) (io : MakeIo) (name md5 : Bytes) (target : Loc) (ks : List Nat) : ∀ (fs : FS) (p : Proc), p.Ok → 1 ≤ p.free →
    (makeLoopP cwd io name md5 target ks fs p).1 = makeLoop cwd io name md5 target ks fs := by
  induction ks with
  | nil => intro fs p _ _; rfl
  | cons k ks ih =>
    intro fs p ho hf
    unfold makeLoopP makeLoop
    dsimp only
    have hb := withFile_back ho (decide (fs (loc cwd (chunkPath md5 name k)) = none)) [] (readChunk cwd io fs name md5 k)
    split
    · rfl
    · rw [ih _ _ (hb.ok ho) (by rw [hb.free]; exact hf), withFile_one hf]
      congr 2
      by_cases h : fs (loc cwd (chunkPath md5 name k)) = none
      · simp only [h, decide_true, if_true, readChunk, content]
        cases io.readCut k <;> simp
      · simp [h]

/-- **C165.** `MakeFile` closes its files, and two free descriptors are enough. -/
theorem C165_makeFile (cwd : Loc) (io : MakeIo) (fs : FS) (p : Proc) (ho : p.Ok) (name md5 : Bytes) :
    GivenBack p (makeFileP cwd io fs p name md5).2 ∧ (2 ≤ p.free → (makeFileP cwd io fs p name md5).1 = makeFile cwd io fs name md5) := by
  unfold makeFileP makeFile
  have hb := withFile_back ho (decide (fs (loc cwd (breakpointDir ++ md5)) = none)) none
    (if fs (loc cwd (breakpointDir ++ md5)) ≠ some .dir then none else some io.listing)
  have h1 : 2 ≤ p.free → _ := fun hf => withFile_one (p := p) (by omega) (decide (fs (loc cwd (breakpointDir ++ md5)) = none)) none
    (if fs (loc cwd (breakpointDir ++ md5)) ≠ some .dir then none else some io.listing)
  generalize withFile p (decide (fs (loc cwd (breakpointDir ++ md5)) = none)) none
    (if fs (loc cwd (breakpointDir ++ md5)) ≠ some .dir then none else some io.listing) = w at hb h1
  obtain ⟨w, p0⟩ := w
  dsimp only at hb h1
  have h0 := hb.ok ho
  have hf0 := hb.free
  cases w with
  | none =>
    refine ⟨hb, fun hf => ?_⟩
    have := h1 hf
    by_cases hd : fs (loc cwd (breakpointDir ++ md5)) = some .dir
    · simp [hd] at this
    · simp [hd]
  | some rd =>
    have hrd : 2 ≤ p.free → fs (loc cwd (breakpointDir ++ md5)) = some .dir ∧ rd = io.listing := by
      intro hf
      have := h1 hf
      by_cases hd : fs (loc cwd (breakpointDir ++ md5)) = some .dir
      · simp [hd] at this
        exact ⟨hd, this⟩
      · simp [hd] at this
    dsimp only
    cases e : p0.open with
    | none => exact ⟨hb, fun hf => by rw [open_none] at e; omega⟩
    | some x =>
      obtain ⟨p1, h⟩ := x
      have s1 := open_some e
      dsimp only
      cases hk : (if io.openFails then none else openKeep ((mkdirAll fs (loc cwd finishDir)).getD fs) (loc cwd (finishDir ++ name))) with
      | none =>
        refine ⟨hb, fun hf => ?_⟩
        rw [if_neg (by simp [(hrd hf).1])]
      | some fs2 =>
        refine ⟨hb.trans (close_givenBack h0 e (makeLoopP_back _ _ _ _ _ _ _ _ (open_ok h0 e))), fun hf => ?_⟩
        rw [if_neg (by simp [(hrd hf).1])]
        dsimp only
        rw [makeLoopP_one _ _ _ _ _ _ _ _ (open_ok h0 e) (by omega), (hrd hf).2]

theorem makeLoopP_zero (cwd : Loc) (io : MakeIo) (name md5 : Bytes) (target : Loc) (p : Proc) (hf : p.free = 0) (hw : ∀ k, io.writeFails k = false)
    (ks : List Nat) : ∀ fs : FS, fs target = some (.file []) →
    makeLoopP cwd io name md5 target ks fs p = ((fs, true), p) := by
  induction ks with
  | nil => intro fs _; rfl
  | cons k ks ih =>
    intro fs ht
    unfold makeLoopP withFile
    rw [open_none.2 hf]
    dsimp only
    rw [hw k]
    have : appendTo fs target [] = fs := by
      funext x
      simp only [appendTo, FS.set, content, ht, List.append_nil]
      split
      · rename_i h; rw [h, ht]
      · rfl
    rw [this]
    simpa using ih fs ht

/-- With one free descriptor, the last, `MakeFile` makes an empty file and reports success: that the chunks cannot be opened is not
noticed. -/
theorem C165_makeFile_refuted : ∃ (fs : FS) (p : Proc) (io : MakeIo), p.Ok ∧ p.free = 1 ∧
    (makeFile [] io fs (lit "f") (lit "m")).1 [lit "fileDir", lit "f"] = some (.file [7]) ∧
    (makeFileP [] io fs p (lit "f") (lit "m")).1.1 [lit "fileDir", lit "f"] = some (.file []) ∧
    (makeFileP [] io fs p (lit "f") (lit "m")).1.2 = true := by
  refine ⟨fun l => if l = [] ∨ l = [lit "breakpointDir"] ∨ l = [lit "breakpointDir", lit "m"] then some .dir
    else if l = [lit "breakpointDir", lit "m", lit "f_0"] then some (.file [7]) else none, ⟨4, [0, 1, 2], 3⟩,
    ⟨[lit "f_0"], false, fun _ => none, fun _ => false⟩, ?_, ?_, ?_, ?_, ?_⟩
  · intro h hh; revert h; decide
  · rfl
  all_goals decide +kernel

/-! ## `ZipFiles` -/

theorem zipLoopP_spec (cwd : Loc) (io : ZipIo) (fs : FS) (o n : Bytes) (files : List Bytes) : ∀ (a : List Entry) (p : Proc), p.Ok →
    GivenBack p (zipLoopP cwd io fs o n files a p).2 ∧ (1 ≤ p.free → (zipLoopP cwd io fs o n files a p).1 = zipLoop cwd io fs o n files a) := by
  induction files with
  | nil => intro a p _; exact ⟨.refl _, fun _ => rfl⟩
  | cons file rest ih =>
    intro a p ho
    unfold zipLoopP zipLoop
    cases e : p.open with
    | none => exact ⟨.refl _, fun hf => by rw [open_none] at e; omega⟩
    | some x =>
      obtain ⟨p1, h⟩ := x
      dsimp only
      have hb : GivenBack p (p1.closeAll [h]) := close_givenBack ho e (.refl _)
      have again := fun a => ih a _ (hb.ok ho)
      have more : ∀ a, GivenBack p (zipLoopP cwd io fs o n rest a (p1.closeAll [h])).2 ∧
          (1 ≤ p.free → (zipLoopP cwd io fs o n rest a (p1.closeAll [h])).1 = zipLoop cwd io fs o n rest a) := fun a =>
        ⟨hb.trans (again a).1, fun hf => (again a).2 (by rw [hb.free]; exact hf)⟩
      cases fs (loc cwd file) with
      | none => exact ⟨.refl _, fun _ => rfl⟩
      | some node =>
        dsimp only
        split
        · exact ⟨.refl _, fun _ => rfl⟩
        · split
          · exact ⟨hb, fun _ => rfl⟩
          · cases node with
            | dir => exact ⟨hb, fun _ => rfl⟩
            | file c =>
              dsimp only
              split
              · split
                · exact more _
                · exact ⟨hb, fun _ => rfl⟩
              · cases io.copyFails file with
                | some k => exact ⟨hb, fun _ => rfl⟩
                | none => exact more _

/-- **C165.** `ZipFiles` closes all its files, and two free descriptors are enough for any number of files. -/
theorem C165_zipFiles (cwd : Loc) (io : ZipIo) (enc : List Entry → Bytes) (fs : FS) (p : Proc) (ho : p.Ok) (filename : Bytes) (files : List Bytes)
    (o n : Bytes) :
    GivenBack p (zipFilesP cwd io enc fs p filename files o n).2 ∧
    (2 ≤ p.free → (zipFilesP cwd io enc fs p filename files o n).1 = zipFiles cwd io enc fs filename files o n) := by
  unfold zipFilesP zipFiles
  cases e : p.open with
  | none => exact ⟨.refl _, fun hf => by rw [open_none] at e; omega⟩
  | some x =>
    obtain ⟨p1, h⟩ := x
    have s1 := open_some e
    dsimp only
    cases create fs (loc cwd filename) with
    | none => exact ⟨.refl _, fun _ => rfl⟩
    | some fs1 =>
      dsimp only
      have hz := zipLoopP_spec cwd io fs1 o n files [] p1 (open_ok ho e)
      exact ⟨close_givenBack ho e hz.1, fun hf => by rw [hz.2 (by omega)]⟩

/-! ## `Unzip` -/

/-- The entries that are files. -/
def fileCount (es : List Entry) : Nat := es.countP (fun e => !e.isDir)

theorem unzipLoopP_inv (cwd zip : Loc) (bytes dest : Bytes) (es : List Entry) (base : Proc) : ∀ (paths : List Bytes) (fs : FS) (p : Proc)
    (ds : List Nat), p.opened = base.opened ++ ds → (∀ d ∈ ds, base.fresh ≤ d) → p.limit = base.limit → base.fresh ≤ p.fresh →
    let r := unzipLoopP cwd zip bytes dest es paths fs p ds
    r.2.1.opened = base.opened ++ r.2.2 ∧ (∀ d ∈ r.2.2, base.fresh ≤ d) ∧ r.2.1.limit = base.limit ∧ base.fresh ≤ r.2.1.fresh := by
  induction es with
  | nil => intro paths fs p ds h1 h2 h3 h4; exact ⟨h1, h2, h3, h4⟩
  | cons f rest ih =>
    intro paths fs p ds h1 h2 h3 h4
    unfold unzipLoopP
    dsimp only
    split
    · exact ih _ _ _ _ h1 h2 h3 h4
    · split
      · exact ⟨h1, h2, h3, h4⟩
      · split
        · exact ⟨h1, h2, h3, h4⟩
        · cases e : p.open with
          | none => exact ⟨h1, h2, h3, h4⟩
          | some x =>
            obtain ⟨p1, h⟩ := x
            have s1 := open_some e
            have i1 : p1.opened = base.opened ++ (ds ++ [h]) := by rw [s1.1, h1, List.append_assoc]
            have i2 : ∀ d ∈ ds ++ [h], base.fresh ≤ d := by
              intro d hd
              rw [List.mem_append, List.mem_singleton] at hd
              rcases hd with hd | hd
              · exact h2 d hd
              · omega
            have i3 : p1.limit = base.limit := by rw [s1.2.2.2.1, h3]
            have i4 : base.fresh ≤ p1.fresh := by omega
            dsimp only
            split
            · exact ⟨h1, h2, h3, h4⟩
            · split
              · exact ⟨i1, i2, i3, i4⟩
              · split
                · exact ⟨i1, i2, i3, i4⟩
                · exact ih _ _ _ _ i1 i2 i3 i4

theorem unzipLoopP_same (cwd zip : Loc) (bytes dest : Bytes) (es : List Entry) : ∀ (paths : List Bytes) (fs : FS) (p : Proc) (ds : List Nat),
    fileCount es ≤ p.free → (unzipLoopP cwd zip bytes dest es paths fs p ds).1 = Zip.unzipLoop cwd zip bytes dest es paths fs := by
  induction es with
  | nil => intro paths fs p ds _; rfl
  | cons f rest ih =>
    intro paths fs p ds hf
    unfold unzipLoopP Zip.unzipLoop
    simp only [fileCount, List.countP_cons] at hf
    dsimp only
    by_cases hd : f.isDir = true
    · rw [if_pos hd, if_pos hd]
      exact ih _ _ _ _ (by simpa [hd, fileCount] using hf)
    · rw [if_neg hd, if_neg hd]
      simp only [Bool.not_eq_true] at hd
      simp only [hd, Bool.not_false, if_true] at hf
      cases mkdirAll fs (loc cwd (dirOf (joinPath dest f.name))) with
      | none => rfl
      | some fs1 =>
        dsimp only
        by_cases ho : f.openErr = true ∨ fs1 zip ≠ some (.file bytes)
        · rw [if_pos ho, if_pos ho]
        · rw [if_neg ho, if_neg ho]
          cases e : p.open with
          | none => rw [open_none] at e; omega
          | some x =>
            obtain ⟨p1, h⟩ := x
            have s1 := open_some e
            dsimp only
            cases create fs1 (loc cwd (joinPath dest f.name)) with
            | none => rfl
            | some fs2 =>
              dsimp only
              by_cases h1 : fs2 zip ≠ some (.file bytes)
              · rw [if_pos h1, if_pos h1]
              · rw [if_neg h1, if_neg h1]
                by_cases h2 : f.copyErr = true
                · rw [if_pos h2, if_pos h2]
                · rw [if_neg h2, if_neg h2]
                  exact ih _ _ _ _ (by unfold fileCount; omega)

theorem unzipLoopP_fails (cwd zip : Loc) (bytes dest : Bytes) (es : List Entry) : ∀ (paths : List Bytes) (fs : FS) (p : Proc) (ds : List Nat),
    p.free < fileCount es → (unzipLoopP cwd zip bytes dest es paths fs p ds).1.2 = none := by
  induction es with
  | nil => intro paths fs p ds h; simp [fileCount] at h
  | cons f rest ih =>
    intro paths fs p ds hf
    unfold unzipLoopP
    simp only [fileCount, List.countP_cons] at hf
    dsimp only
    by_cases hd : f.isDir = true
    · rw [if_pos hd]
      exact ih _ _ _ _ (by simpa [hd, fileCount] using hf)
    · rw [if_neg hd]
      simp only [Bool.not_eq_true] at hd
      simp only [hd, Bool.not_false, if_true] at hf
      cases mkdirAll fs (loc cwd (dirOf (joinPath dest f.name))) with
      | none => rfl
      | some fs1 =>
        dsimp only
        split
        · rfl
        · cases e : p.open with
          | none => rfl
          | some x =>
            obtain ⟨p1, h⟩ := x
            have s1 := open_some e
            dsimp only
            cases create fs1 (loc cwd (joinPath dest f.name)) with
            | none => rfl
            | some fs2 =>
              dsimp only
              split
              · rfl
              · split
                · rfl
                · exact ih _ _ _ _ (by unfold fileCount; omega)

/-- **C165 (`Unzip`).** `Unzip` has closed all its files when it returns. With one more free descriptor than the archive has files it does
what it does without a limit. -/
theorem C165_unzip_partial (cwd : Loc) (dec : Bytes → Option (List Entry)) (fs : FS) (p : Proc) (ho : p.Ok) (zipFile dest : Bytes) :
    GivenBack p (unzipP cwd dec fs p zipFile dest).2 ∧
    (1 ≤ p.free → (∀ b es, fs (loc cwd zipFile) = some (.file b) → dec b = some es → fileCount es + 1 ≤ p.free) →
      (unzipP cwd dec fs p zipFile dest).1 = Zip.unzip cwd dec fs zipFile dest) := by
  unfold unzipP Zip.unzip
  cases e : p.open with
  | none => exact ⟨.refl _, fun hf => by rw [open_none] at e; omega⟩
  | some x =>
    obtain ⟨p1, h⟩ := x
    have s1 := open_some e
    dsimp only
    cases hz : fs (loc cwd zipFile) with
    | none => exact ⟨.refl _, fun _ _ => rfl⟩
    | some n =>
      cases n with
      | dir => exact ⟨close_givenBack ho e (.refl _), fun _ _ => rfl⟩
      | file b =>
        dsimp only
        cases hd : dec b with
        | none => exact ⟨close_givenBack ho e (.refl _), fun _ _ => rfl⟩
        | some es =>
          dsimp only
          have hi := unzipLoopP_inv cwd (loc cwd zipFile) b dest es p1 [] fs p1 [] (by simp) (by simp) rfl (Nat.le_refl _)
          dsimp only at hi
          refine ⟨closeAll_givenBack ho ?_ ?_ (by rw [hi.2.2.1, s1.2.2.2.1]) (by omega), fun hf hn => ?_⟩
          · rw [hi.1, s1.1, List.append_assoc]; rfl
          · intro d hd'
            rw [List.mem_cons] at hd'
            rcases hd' with hd' | hd'
            · omega
            · have := hi.2.1 d hd'; omega
          · have := hn b es rfl hd
            exact unzipLoopP_same _ _ _ _ _ _ _ _ _ (by omega)

/-- The files are closed only at the end: an archive with as many files as there are free descriptors, or more,
cannot be unpacked, however sound it is. -/
theorem C165_unzip_needs (cwd : Loc) (dec : Bytes → Option (List Entry)) (fs : FS) (p : Proc) (zipFile dest b : Bytes) (es : List Entry)
    (hz : fs (loc cwd zipFile) = some (.file b)) (hd : dec b = some es) (h : p.free ≤ fileCount es) :
    (unzipP cwd dec fs p zipFile dest).1.2 = none := by
  unfold unzipP
  cases e : p.open with
  | none => rfl
  | some x =>
    obtain ⟨p1, hh⟩ := x
    have s1 := open_some e
    dsimp only
    rw [hz]
    dsimp only
    rw [hd]
    exact unzipLoopP_fails _ _ _ _ _ _ _ _ _ (by omega)

/-- A sound entry. -/
def goodEntry : Entry := ⟨[97], false, [7], false, false⟩

theorem unzip_good (n : Nat) : ∀ (paths : List Bytes) (fs : FS), fs [] = some .dir → fs [[122]] = some (.file [1]) → fs [[97]] ≠ some .dir →
    Zip.unzipLoop [] [[122]] [1] [46] (List.replicate n goodEntry) paths fs ≠ (fs, none) ∧
    (Zip.unzipLoop [] [[122]] [1] [46] (List.replicate n goodEntry) paths fs).2 = some (paths ++ List.replicate n [97]) := by
  induction n with
  | zero => intro paths fs _ _ _; simp [Zip.unzipLoop]
  | succ n ih =>
    intro paths fs h1 h2 h3
    have e1 : joinPath [46] goodEntry.name = [97] := by decide +kernel
    have e2 : loc [] [97] = [[97]] := by decide +kernel
    have e3 : loc [] (dirOf [97]) = [] := by decide +kernel
    have hm : mkdirAll fs [] = some fs := by
      have h0 : (List.range (([] : Loc).length + 1)).any (fun i => isFile (fs (([] : Loc).take i))) = false := by
        simp [h1, isFile]
      unfold mkdirAll
      rw [h0]
      simp only [Bool.false_eq_true, if_false, Option.some.injEq]
      funext x
      split
      · rename_i hx
        rw [List.prefix_nil] at hx
        rw [hx.1] at hx
        rw [h1] at hx
        simp at hx
      · rfl
    have hc : create fs [[97]] = some (fs.set [[97]] (some (.file []))) := by
      unfold create
      rw [if_pos ⟨by simpa using h1, h3⟩]
    have hne : ([[122]] : Loc) ≠ [[97]] := by decide
    have g1 : ∀ c, (fs.set [[97]] c) [[122]] = some (.file [1]) := by
      intro c
      unfold FS.set
      rw [if_neg hne, h2]
    rw [List.replicate_succ, Zip.unzipLoop]
    dsimp only
    rw [if_neg (by simp [goodEntry]), e1, e3, hm]
    dsimp only
    rw [if_neg (by simp [goodEntry, h2]), e2, hc]
    dsimp only
    rw [if_neg (by simp [g1]), if_neg (by simp [goodEntry])]
    obtain ⟨-, i⟩ := ih (paths ++ [[97]]) ((fs.set [[97]] (some (.file []))).set [[97]] (some (.file goodEntry.content)))
      (by simp [FS.set, h1]) (by simp [FS.set, h2]) (by simp [FS.set])
    rw [i]
    refine ⟨?_, by rw [List.append_assoc, List.replicate_succ]; rfl⟩
    intro hh
    rw [hh] at i
    cases i

/-- **C165 fails for `Unzip`.** Whatever the limit, there is an archive, without any fault, that `Unzip` unpacks if there is no limit and
does not unpack with it. -/
theorem C165_unzip_refuted (p : Proc) : ∃ (dec : Bytes → Option (List Entry)) (fs : FS),
    (Zip.unzip [] dec fs (lit "z") (lit ".")).2 = some (List.replicate p.limit (lit "a")) ∧
    (unzipP [] dec fs p (lit "z") (lit ".")).1.2 = none := by
  refine ⟨fun _ => some (List.replicate p.limit goodEntry), fun l => if l = [] then some .dir else if l = [[122]] then some (.file [1]) else none,
    ?_, C165_unzip_needs _ _ _ _ _ _ [1] _ ?_ rfl ?_⟩
  · have ez : loc [] (lit "z") = [[122]] := by decide +kernel
    have := (unzip_good p.limit [] (fun l => if l = [] then some .dir else if l = [[122]] then some (.file [1]) else none)
      (by simp) (by simp) (by decide)).2
    have ed : lit "." = [46] := by decide +kernel
    have ea : lit "a" = [97] := by decide +kernel
    unfold Zip.unzip
    rw [ez, ed, ea]
    simpa using this
  · decide +kernel
  · have : fileCount (List.replicate p.limit goodEntry) = p.limit := by
      unfold fileCount
      rw [List.countP_replicate]
      rfl
    rw [this]
    unfold Proc.free
    omega

/-- An archive of `n` files `a`, `aa`, `aaa`, … -/
def manyFiles (n : Nat) : List Entry := (List.range n).map fun i => ⟨List.replicate (i + 1) 97, false, [7], false, false⟩

/-! Five descriptors, three in use: an archive of one file is unpacked, one of two files is not (without a limit it is). -/

/-- The archive `z` in the root directory. -/
def withArchive : FS := fun l => if l = [] then some .dir else if l = [lit "z"] then some (.file [1]) else none

example : (unzipP [] (fun _ => some (manyFiles 1)) withArchive ⟨5, [0, 1, 2], 3⟩ (lit "z") (lit "d")).1.2 = some [lit "d/a"] ∧
    (unzipP [] (fun _ => some (manyFiles 2)) withArchive ⟨5, [0, 1, 2], 3⟩ (lit "z") (lit "d")).1.2 = none ∧
    (Zip.unzip [] (fun _ => some (manyFiles 2)) withArchive (lit "z") (lit "d")).2 = some [lit "d/a", lit "d/aa"] ∧
    (unzipP [] (fun _ => some (manyFiles 2)) withArchive ⟨5, [0, 1, 2], 3⟩ (lit "z") (lit "d")).2.opened = [0, 1, 2] := by
  decide +kernel

end Verif.OpenFiles
