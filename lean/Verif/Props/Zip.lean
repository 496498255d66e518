import Verif.Proof.Zip
import Verif.Props.Files
import Mathlib.Logic.Encodable.Basic
import Mathlib.Logic.Equiv.List

/-!
# C113, C114: archives (help/utils/zip.go)
-/

namespace Verif.Zip

open Fs Paths Spec.Path Utf8

/-! ## C114: what `Unzip` does to the file system -/

theorem unzipLoop_kept (cwd zip : Loc) (bytes dest : Bytes) (es : List Entry) (paths : List Bytes) (fs : FS) (x : Loc) (hx : fs x ≠ none)
    (h : ∀ e ∈ es, e.isDir = false → target cwd dest e ≠ x) : (unzipLoop cwd zip bytes dest es paths fs).1 x = fs x := by
  induction es generalizing paths fs with
  | nil => rfl
  | cons f es ih =>
    obtain ⟨fs1, hd, hr | ⟨-, hr⟩⟩ := unzipLoop_cons cwd zip bytes dest f es paths fs
    · rw [hr]
      exact hd.kept x hx (h f List.mem_cons_self)
    · have h1 := hd.kept x hx (h f List.mem_cons_self)
      rw [hr, ih _ _ (by rw [h1]; exact hx) (fun e he => h e (List.mem_cons_of_mem _ he)), h1]

theorem unzipLoop_made (cwd zip : Loc) (bytes dest : Bytes) (es : List Entry) (paths : List Bytes) (fs : FS) (x : Loc) (hx : fs x = none)
    (h : (unzipLoop cwd zip bytes dest es paths fs).1 x ≠ none) :
    (∃ e ∈ es, e.isDir = false ∧ target cwd dest e = x) ∨
    ((unzipLoop cwd zip bytes dest es paths fs).1 x = some .dir ∧ ∃ e ∈ es, x <+: folder cwd dest e) := by
  induction es generalizing paths fs with
  | nil => exact absurd hx h
  | cons f es ih =>
    by_cases hw : ∃ e ∈ f :: es, e.isDir = false ∧ target cwd dest e = x
    · exact Or.inl hw
    right
    have hno : ∀ e ∈ f :: es, e.isDir = false → target cwd dest e ≠ x := fun e he hd ht => hw ⟨e, he, hd, ht⟩
    obtain ⟨fs1, hd, hr | ⟨-, hr⟩⟩ := unzipLoop_cons cwd zip bytes dest f es paths fs
    · rw [hr] at h ⊢
      rcases hd.made x hx h with ⟨h1, h2⟩ | ⟨h1, h2⟩
      · exact absurd h2 (hno f List.mem_cons_self h1)
      · exact ⟨h1, f, List.mem_cons_self, h2⟩
    · rw [hr] at h ⊢
      by_cases h0 : fs1 x = none
      · rcases ih _ _ h0 h with ⟨e, he, h1, h2⟩ | ⟨h1, e, he, h2⟩
        · exact absurd h2 (hno e (List.mem_cons_of_mem _ he) h1)
        · exact ⟨h1, e, List.mem_cons_of_mem _ he, h2⟩
      · rw [unzipLoop_kept _ _ _ _ _ _ _ _ h0 (fun e he => hno e (List.mem_cons_of_mem _ he))]
        rcases hd.made x hx h0 with ⟨h1, h2⟩ | ⟨h1, h2⟩
        · exact absurd h2 (hno f List.mem_cons_self h1)
        · exact ⟨h1, f, List.mem_cons_self, h2⟩

theorem unzipLoop_written (cwd zip : Loc) (bytes dest : Bytes) (pre post : List Entry) (f : Entry) (paths : List Bytes) (fs : FS)
    (hf : f.isDir = false) (hlast : ∀ e ∈ post, e.isDir = false → target cwd dest e ≠ target cwd dest f)
    (hok : (unzipLoop cwd zip bytes dest (pre ++ f :: post) paths fs).2 ≠ none) :
    (unzipLoop cwd zip bytes dest (pre ++ f :: post) paths fs).1 (target cwd dest f) = some (.file f.content) := by
  induction pre generalizing paths fs with
  | nil =>
    rw [List.nil_append] at hok ⊢
    obtain ⟨fs1, -, hr | ⟨hw, hr⟩⟩ := unzipLoop_cons cwd zip bytes dest f post paths fs
    · rw [hr] at hok; exact absurd rfl hok
    · rw [hr, unzipLoop_kept _ _ _ _ _ _ _ _ (by rw [hw hf]; simp) hlast, hw hf]
  | cons g pre ih =>
    rw [List.cons_append] at hok ⊢
    obtain ⟨fs1, -, hr | ⟨-, hr⟩⟩ := unzipLoop_cons cwd zip bytes dest g (pre ++ f :: post) paths fs
    · rw [hr] at hok; exact absurd rfl hok
    · rw [hr] at hok ⊢
      exact ih _ _ hok

theorem unzipLoop_paths (cwd zip : Loc) (bytes dest : Bytes) (es : List Entry) (paths : List Bytes) (fs : FS) (ps : List Bytes)
    (hok : (unzipLoop cwd zip bytes dest es paths fs).2 = some ps) : ps = paths ++ es.map (fun e => joinPath dest e.name) := by
  induction es generalizing paths fs with
  | nil =>
    simp [unzipLoop] at hok
    simp [hok]
  | cons g es ih =>
    obtain ⟨fs1, -, hr | ⟨-, hr⟩⟩ := unzipLoop_cons cwd zip bytes dest g es paths fs
    · rw [hr] at hok; cases hok
    · rw [hr] at hok
      rw [ih _ _ hok]
      simp

/-- **C114.** If `Unzip` succeeds, it returns the paths of all entries, and every file of the archive is on the disk with its content (the
last one, if several go to the same place). -/
theorem C114_written (cwd : Loc) (dec : Bytes → Option (List Entry)) (fs : FS) (zipFile dest b : Bytes) (es : List Entry) (ps : List Bytes)
    (hz : fs (loc cwd zipFile) = some (.file b)) (hb : dec b = some es) (hok : (unzip cwd dec fs zipFile dest).2 = some ps) :
    ps = es.map (fun e => joinPath dest e.name) ∧
    ∀ pre f post, es = pre ++ f :: post → f.isDir = false → (∀ e ∈ post, e.isDir = false → target cwd dest e ≠ target cwd dest f) →
      (unzip cwd dec fs zipFile dest).1 (loc cwd (joinPath dest f.name)) = some (.file f.content) := by
  have he : unzip cwd dec fs zipFile dest = unzipLoop cwd (loc cwd zipFile) b dest es [] fs := by
    unfold unzip
    rw [hz]
    dsimp only
    rw [hb]
  rw [he] at hok ⊢
  refine ⟨by simpa using unzipLoop_paths _ _ _ _ _ _ _ _ hok, ?_⟩
  rintro pre f post rfl hf hlast
  exact unzipLoop_written _ _ _ _ _ _ _ _ _ hf hlast (by rw [hok]; simp)

/-- **C114 (nothing else).** Whether or not it succeeds, what existed is unchanged unless a file of the archive goes there, and what is
new is such a file or a directory for an entry. -/
theorem C114_nothing_else (cwd : Loc) (dec : Bytes → Option (List Entry)) (fs : FS) (zipFile dest b : Bytes) (es : List Entry)
    (hz : fs (loc cwd zipFile) = some (.file b)) (hb : dec b = some es) (x : Loc)
    (hx : ∀ e ∈ es, e.isDir = false → loc cwd (joinPath dest e.name) ≠ x) :
    (unzip cwd dec fs zipFile dest).1 x = fs x ∨
    (fs x = none ∧ (unzip cwd dec fs zipFile dest).1 x = some .dir ∧
      ∃ e ∈ es, if e.isDir then x <+: loc cwd (joinPath dest e.name) else x <+: loc cwd (dirOf (joinPath dest e.name))) := by
  have he : unzip cwd dec fs zipFile dest = unzipLoop cwd (loc cwd zipFile) b dest es [] fs := by
    unfold unzip
    rw [hz]
    dsimp only
    rw [hb]
  rw [he]
  by_cases h0 : fs x = none
  · by_cases h1 : (unzipLoop cwd (loc cwd zipFile) b dest es [] fs).1 x = none
    · exact Or.inl (by rw [h0, h1])
    · rcases unzipLoop_made _ _ _ _ _ _ _ _ h0 h1 with ⟨e, he, h2, h3⟩ | ⟨h2, e, he, h3⟩
      · exact absurd h3 (hx e he h2)
      · refine Or.inr ⟨h0, h2, e, he, ?_⟩
        unfold folder at h3
        split at h3 <;> simp_all
  · exact Or.inl (unzipLoop_kept _ _ _ _ _ _ _ _ h0 hx)

/-- The name of an entry ends in a name. -/
def Named (f : Entry) : Prop := ∃ e, (elems f.name).getLast? = some e ∧ Name e

theorem folder_target (cwd : Loc) (dest : Bytes) (f : Entry) (hf : f.isDir = false) (hn : Named f) :
    folder cwd dest f = (target cwd dest f).dropLast ∧ target cwd dest f ≠ [] := by
  obtain ⟨e, he, hn⟩ := hn
  have := loc_dirOf cwd (joinPath dest f.name) e (joinPath_last dest f.name e he hn) hn
  unfold folder target
  rw [this]
  simp [hf]

/-- There is room for a file. -/
def Room (fs : FS) (l : Loc) : Prop := Free fs l.dropLast ∧ fs l ≠ some .dir

/-- A file for which there is room. -/
theorem unzipLoop_file (cwd zip : Loc) (bytes dest : Bytes) (f : Entry) (es : List Entry) (paths : List Bytes) (fs : FS)
    (hz : fs zip = some (.file bytes)) (h1 : f.isDir = false) (h2 : f.openErr = false) (h3 : f.copyErr = false) (h4 : Named f)
    (hr : Room fs (target cwd dest f)) (hzip : target cwd dest f ≠ zip) :
    ∃ fs1, unzipLoop cwd zip bytes dest (f :: es) paths fs = unzipLoop cwd zip bytes dest es (paths ++ [joinPath dest f.name]) fs1 ∧
      ∀ x, fs1 x = if x = target cwd dest f then some (.file f.content)
        else if x <+: (target cwd dest f).dropLast ∧ fs x = none then some .dir else fs x := by
  obtain ⟨hfree, hdir⟩ := hr
  obtain ⟨hfold, hne⟩ := folder_target cwd dest f h1 h4
  have hfold' : loc cwd (dirOf (joinPath dest f.name)) = (target cwd dest f).dropLast := by
    rw [← hfold]
    unfold folder
    simp [h1]
  rw [unzipLoop]
  dsimp only
  rw [h1, h2, h3, hfold']
  simp only [Bool.false_eq_true, if_false, false_or]
  obtain ⟨fs1, hm, hs⟩ : ∃ fs1, mkdirAll fs (target cwd dest f).dropLast = some fs1 ∧
      ∀ x, fs1 x = if x <+: (target cwd dest f).dropLast ∧ fs x = none then some Node.dir else fs x :=
    ⟨_, mkdirAll_some fs _ hfree, fun _ => rfl⟩
  rw [hm]
  dsimp only
  have hzip1 : fs1 zip = some (.file bytes) := by rw [hs, hz]; simp
  rw [if_neg (by simp [hzip1])]
  have hpar : fs1 (target cwd dest f).dropLast = some .dir := by
    rw [hs]
    by_cases h0 : fs (target cwd dest f).dropLast = none
    · simp [h0]
    · rw [if_neg (fun h => h0 h.2)]
      have := hfree _ (List.prefix_refl _)
      cases hq : fs (target cwd dest f).dropLast with
      | none => exact absurd hq h0
      | some n =>
        cases n with
        | dir => rfl
        | file c => rw [hq] at this; cases this
  have hnp : ¬ target cwd dest f <+: (target cwd dest f).dropLast := by
    intro h
    have := h.length_le
    rw [List.length_dropLast] at this
    have := List.length_pos_iff.2 hne
    omega
  have hdir1 : fs1 (target cwd dest f) ≠ some .dir := by
    rw [hs, if_neg (fun h => hnp h.1)]
    exact hdir
  have hc : create fs1 (loc cwd (joinPath dest f.name)) = some (fs1.set (target cwd dest f) (some (.file []))) := by
    unfold create
    exact if_pos ⟨hpar, hdir1⟩
  rw [hc]
  dsimp only
  have hz2 : (fs1.set (target cwd dest f) (some (.file []))) zip = some (.file bytes) := by
    unfold FS.set
    rw [if_neg (fun h => hzip h.symm), hzip1]
  rw [if_neg (by simp [hz2])]
  refine ⟨_, rfl, ?_⟩
  intro x
  by_cases hx : x = target cwd dest f
  · rw [if_pos hx]
    exact if_pos hx
  · rw [if_neg hx, ← hs]
    exact (if_neg hx).trans (if_neg hx)

/-- **C114 (success).** `Unzip` succeeds if all entries are readable files with names, no entry goes above or to the place of another one, and
there is room for each of them, which is not the archive. -/
theorem C114_success (cwd : Loc) (dec : Bytes → Option (List Entry)) (fs : FS) (zipFile dest b : Bytes) (es : List Entry)
    (hz : fs (loc cwd zipFile) = some (.file b)) (hb : dec b = some es)
    (hf : ∀ e ∈ es, e.isDir = false ∧ e.openErr = false ∧ e.copyErr = false ∧ Named e)
    (hp : es.Pairwise (fun e f => ¬ target cwd dest e <+: target cwd dest f ∧ ¬ target cwd dest f <+: target cwd dest e))
    (hr : ∀ e ∈ es, Room fs (target cwd dest e) ∧ target cwd dest e ≠ loc cwd zipFile) :
    (unzip cwd dec fs zipFile dest).2 ≠ none := by
  have he : unzip cwd dec fs zipFile dest = unzipLoop cwd (loc cwd zipFile) b dest es [] fs := by
    unfold unzip
    rw [hz]
    dsimp only
    rw [hb]
  rw [he]
  clear he hb
  generalize loc cwd zipFile = zip at *
  generalize ([] : List Bytes) = paths
  induction es generalizing paths fs with
  | nil => simp [unzipLoop]
  | cons f es ih =>
    obtain ⟨h1, h2, h3, h4⟩ := hf f List.mem_cons_self
    obtain ⟨hroom, hzip⟩ := hr f List.mem_cons_self
    have hpp := List.pairwise_cons.1 hp
    obtain ⟨fs1, hl, hs⟩ := unzipLoop_file cwd zip b dest f es paths fs hz h1 h2 h3 h4 hroom hzip
    rw [hl]
    refine ih _ (fun e he => hf e (List.mem_cons_of_mem _ he)) hpp.2 ?_ ?_ _
    · rw [hs, if_neg (fun h => hzip h.symm), hz]
      simp
    intro e he
    obtain ⟨⟨hfree', hdir'⟩, hzip'⟩ := hr e (List.mem_cons_of_mem _ he)
    obtain ⟨hq1, hq2⟩ := hpp.1 e he
    refine ⟨⟨?_, ?_⟩, hzip'⟩
    · intro p hpx
      have hpe : p <+: target cwd dest e := hpx.trans (List.dropLast_prefix _)
      have hpf : p ≠ target cwd dest f := fun h => hq1 (h ▸ hpe)
      rw [hs, if_neg hpf]
      have := hfree' p hpx
      split
      · rfl
      · exact this
    · have hef : target cwd dest e ≠ target cwd dest f := fun h => hq1 (by rw [h])
      rw [hs, if_neg hef, if_neg]
      · exact hdir'
      · rintro ⟨h, -⟩
        exact hq2 (h.trans (List.dropLast_prefix _))

/-! ## C113: what `ZipFiles` packs, `Unzip` unpacks -/

/-- The entry for a file. -/
def packed (oldForm newForm : Bytes) (p : Bytes × Bytes) : Entry := ⟨Strings.replaceAll p.1 oldForm newForm, false, p.2, false, false⟩

/-- Nothing goes wrong with these files. -/
structure Quiet (io : ZipIo) (oldForm newForm : Bytes) (files : List Bytes) : Prop where
  opens : ∀ f ∈ files, io.openFails f = false
  headers : ∀ f ∈ files, io.headerFails (Strings.replaceAll f oldForm newForm) = false
  copies : ∀ f ∈ files, io.copyFails f = none
  closes : io.closeFails = none

theorem zipLoop_all (cwd : Loc) (io : ZipIo) (fs : FS) (oldForm newForm : Bytes) (ps : List (Bytes × Bytes)) (a : List Entry)
    (hq : Quiet io oldForm newForm (ps.map (·.1))) (hf : ∀ p ∈ ps, fs (loc cwd p.1) = some (.file p.2))
    (hn : ∀ p ∈ ps, (Strings.replaceAll p.1 oldForm newForm).getLast? ≠ some 47 ∧
      (Strings.replaceAll p.1 oldForm newForm).length ≤ 65535) :
    zipLoop cwd io fs oldForm newForm (ps.map (·.1)) a = (a ++ ps.map (packed oldForm newForm), true) := by
  induction ps generalizing a with
  | nil => simp [zipLoop]
  | cons p ps ih =>
    rw [List.map_cons, zipLoop, hf p List.mem_cons_self]
    dsimp only
    have h1 := hn p List.mem_cons_self
    rw [hq.opens p.1 (by simp), hq.headers p.1 (by simp), hq.copies p.1 (by simp)]
    rw [if_neg (by simp), if_neg (by simp; omega),
      if_neg (show ¬ (Strings.replaceAll p.1 oldForm newForm).getLast? = some slash from h1.1)]
    dsimp only
    rw [ih]
    · simp [packed]
    · exact ⟨fun f hf => hq.opens f (by simp at hf ⊢; exact Or.inr hf), fun f hf => hq.headers f (by simp at hf ⊢; exact Or.inr hf),
        fun f hf => hq.copies f (by simp at hf ⊢; exact Or.inr hf), hq.closes⟩
    · exact fun p hp => hf p (List.mem_cons_of_mem _ hp)
    · exact fun p hp => hn p (List.mem_cons_of_mem _ hp)

/-- **C113 (packing).** For files that exist and are no directories, nor the archive, and if nothing goes wrong, `ZipFiles` succeeds; then the
archive has an entry for each file, in order, and nothing else has changed. -/
theorem C113_pack (cwd : Loc) (io : ZipIo) (enc : List Entry → Bytes) (fs : FS) (filename oldForm newForm : Bytes)
    (ps : List (Bytes × Bytes)) (hq : Quiet io oldForm newForm (ps.map (·.1))) (hf : ∀ p ∈ ps, fs (loc cwd p.1) = some (.file p.2))
    (hz : ∀ p ∈ ps, loc cwd p.1 ≠ loc cwd filename)
    (hn : ∀ p ∈ ps, (Strings.replaceAll p.1 oldForm newForm).getLast? ≠ some 47 ∧
      (Strings.replaceAll p.1 oldForm newForm).length ≤ 65535)
    (hc : fs (loc cwd filename).dropLast = some .dir) (hnd : fs (loc cwd filename) ≠ some .dir) :
    (zipFiles cwd io enc fs filename (ps.map (·.1)) oldForm newForm).2 = true ∧
    (zipFiles cwd io enc fs filename (ps.map (·.1)) oldForm newForm).1 (loc cwd filename) =
      some (.file (enc (ps.map (packed oldForm newForm)))) ∧
    ∀ x, x ≠ loc cwd filename → (zipFiles cwd io enc fs filename (ps.map (·.1)) oldForm newForm).1 x = fs x := by
  unfold zipFiles create
  rw [if_pos ⟨hc, hnd⟩]
  dsimp only
  rw [zipLoop_all cwd io _ oldForm newForm ps [] hq _ hn]
  · refine ⟨rfl, ?_, ?_⟩
    · simp [FS.set, hq.closes]
    · intro x hx
      simp [FS.set, hx]
  · intro p hp
    unfold FS.set
    rw [if_neg (hz p hp)]
    exact hf p hp

/-- **C113 (a failing copy).** If the copy of a file fails after `k` bytes, the call fails and leaves an archive behind: with the files before that one,
and with that one cut off, and without those after it. -/
theorem C113_cut (cwd : Loc) (io : ZipIo) (enc : List Entry → Bytes) (fs : FS) (filename oldForm newForm : Bytes)
    (ps : List (Bytes × Bytes)) (f c : Bytes) (k : Nat) (rest : List Bytes)
    (hq : Quiet io oldForm newForm (ps.map (·.1))) (hf : ∀ p ∈ ps, fs (loc cwd p.1) = some (.file p.2))
    (hz : ∀ p ∈ ps, loc cwd p.1 ≠ loc cwd filename)
    (hn : ∀ p ∈ ps, (Strings.replaceAll p.1 oldForm newForm).getLast? ≠ some 47 ∧
      (Strings.replaceAll p.1 oldForm newForm).length ≤ 65535)
    (hc : fs (loc cwd filename).dropLast = some .dir) (hnd : fs (loc cwd filename) ≠ some .dir)
    (h1 : io.openFails f = false) (h2 : io.headerFails (Strings.replaceAll f oldForm newForm) = false) (h3 : io.copyFails f = some k)
    (h4 : fs (loc cwd f) = some (.file c)) (h5 : loc cwd f ≠ loc cwd filename)
    (h6 : (Strings.replaceAll f oldForm newForm).getLast? ≠ some 47) (h7 : (Strings.replaceAll f oldForm newForm).length ≤ 65535) :
    (zipFiles cwd io enc fs filename (ps.map (·.1) ++ f :: rest) oldForm newForm).2 = false ∧
    (zipFiles cwd io enc fs filename (ps.map (·.1) ++ f :: rest) oldForm newForm).1 (loc cwd filename) =
      some (.file (enc (ps.map (packed oldForm newForm) ++ [packed oldForm newForm (f, c.take k)]))) := by
  unfold zipFiles create
  rw [if_pos ⟨hc, hnd⟩]
  dsimp only
  have hs : ∀ x, x ≠ loc cwd filename → (fs.set (loc cwd filename) (some (.file []))) x = fs x := by
    intro x hx
    unfold FS.set
    rw [if_neg hx]
  generalize fs.set (loc cwd filename) (some (.file [])) = fs' at hs
  have key : ∀ a, zipLoop cwd io fs' oldForm newForm (ps.map (·.1) ++ f :: rest) a =
      (a ++ (ps.map (packed oldForm newForm) ++ [packed oldForm newForm (f, c.take k)]), false) := by
    clear hc hnd
    induction ps with
    | nil =>
      intro a
      rw [List.map_nil, List.nil_append, zipLoop, hs _ h5, h4]
      dsimp only
      rw [h1, h2, h3, if_neg (by simp), if_neg (by simp; omega),
        if_neg (show ¬ (Strings.replaceAll f oldForm newForm).getLast? = some slash from h6)]
      rfl
    | cons p ps ih =>
      intro a
      rw [List.map_cons, List.cons_append, zipLoop, hs _ (hz p List.mem_cons_self), hf p List.mem_cons_self]
      dsimp only
      have h1 := hn p List.mem_cons_self
      rw [hq.opens p.1 (by simp), hq.headers p.1 (by simp), hq.copies p.1 (by simp)]
      rw [if_neg (by simp), if_neg (by simp; omega),
        if_neg (show ¬ (Strings.replaceAll p.1 oldForm newForm).getLast? = some slash from h1.1)]
      dsimp only
      rw [ih]
      · simp [packed]
      · exact ⟨fun f hf => hq.opens f (by simp at hf ⊢; exact Or.inr hf), fun f hf => hq.headers f (by simp at hf ⊢; exact Or.inr hf),
          fun f hf => hq.copies f (by simp at hf ⊢; exact Or.inr hf), hq.closes⟩
      · exact fun p hp => hf p (List.mem_cons_of_mem _ hp)
      · exact fun p hp => hz p (List.mem_cons_of_mem _ hp)
      · exact fun p hp => hn p (List.mem_cons_of_mem _ hp)
  rw [key]
  refine ⟨rfl, ?_⟩
  simp [FS.set, hq.closes]

/-- Archives of readable files, as `ZipFiles` makes them. -/
def Good (es : List Entry) : Prop :=
  ∀ e ∈ es, e.isDir = false ∧ e.openErr = false ∧ e.copyErr = false ∧ e.name.getLast? ≠ some 47 ∧ e.name.length ≤ 65535

/-- **C113 (partial: round trip).** Packing files and unpacking them elsewhere restores their contents under the new names. Missing: new
names that collide, names that do not end in a name, directories, and errors of closing the archive; see the refutations. -/
theorem C113_roundtrip_partial (cwd : Loc) (io : ZipIo) (enc : List Entry → Bytes) (dec : Bytes → Option (List Entry))
    (hlaw : ∀ es, Good es → dec (enc es) = some es) (fs : FS) (filename oldForm newForm dest : Bytes)
    (ps : List (Bytes × Bytes)) (hq : Quiet io oldForm newForm (ps.map (·.1))) (hf : ∀ p ∈ ps, fs (loc cwd p.1) = some (.file p.2))
    (hz : ∀ p ∈ ps, loc cwd p.1 ≠ loc cwd filename)
    (hn : ∀ p ∈ ps, (Strings.replaceAll p.1 oldForm newForm).length ≤ 65535 ∧ Named (packed oldForm newForm p))
    (hc : fs (loc cwd filename).dropLast = some .dir) (hnd : fs (loc cwd filename) ≠ some .dir)
    (hp : ps.Pairwise (fun p q => ¬ target cwd dest (packed oldForm newForm p) <+: target cwd dest (packed oldForm newForm q) ∧
      ¬ target cwd dest (packed oldForm newForm q) <+: target cwd dest (packed oldForm newForm p)))
    (hr : ∀ p ∈ ps, Room fs (target cwd dest (packed oldForm newForm p)) ∧
      ¬ loc cwd filename <+: target cwd dest (packed oldForm newForm p)) :
    let fs1 := (zipFiles cwd io enc fs filename (ps.map (·.1)) oldForm newForm).1
    let r := unzip cwd dec fs1 filename dest
    r.2 = some (ps.map (fun p => joinPath dest (Strings.replaceAll p.1 oldForm newForm))) ∧
    ∀ p ∈ ps, r.1 (loc cwd (joinPath dest (Strings.replaceAll p.1 oldForm newForm))) = some (.file p.2) := by
  intro fs1 r
  have hn' : ∀ p ∈ ps, (Strings.replaceAll p.1 oldForm newForm).getLast? ≠ some 47 ∧
      (Strings.replaceAll p.1 oldForm newForm).length ≤ 65535 := by
    intro p hp
    obtain ⟨h1, e, h2, h3⟩ := hn p hp
    refine ⟨fun h => ?_, h1⟩
    obtain ⟨a, ha⟩ := List.getLast?_eq_some_iff.1 h
    have h4 : elems (Strings.replaceAll p.1 oldForm newForm) = elems a ++ [[]] := by
      rw [ha, elems_slash]
      rfl
    change (elems (Strings.replaceAll p.1 oldForm newForm)).getLast? = some e at h2
    rw [h4] at h2
    simp at h2
    exact h3.2.1 h2
  obtain ⟨-, h2, h3⟩ := C113_pack cwd io enc fs filename oldForm newForm ps hq hf hz hn' hc hnd
  have hgood : Good (ps.map (packed oldForm newForm)) := by
    intro e he
    obtain ⟨p, hp, rfl⟩ := List.mem_map.1 he
    exact ⟨rfl, rfl, rfl, (hn' p hp).1, (hn' p hp).2⟩
  have hdec := hlaw _ hgood
  have hroom : ∀ e ∈ ps.map (packed oldForm newForm), Room fs1 (target cwd dest e) ∧ target cwd dest e ≠ loc cwd filename := by
    intro e he
    obtain ⟨p, hp, rfl⟩ := List.mem_map.1 he
    obtain ⟨⟨h4, h5⟩, h6⟩ := hr p hp
    have h7 : target cwd dest (packed oldForm newForm p) ≠ loc cwd filename := fun h => h6 (by rw [h])
    refine ⟨⟨?_, ?_⟩, h7⟩
    · intro q hq
      have : q ≠ loc cwd filename := fun h => h6 (h ▸ hq.trans (List.dropLast_prefix _))
      show isFile ((zipFiles cwd io enc fs filename (ps.map (·.1)) oldForm newForm).1 q) = false
      rw [h3 q this]
      exact h4 q hq
    · show (zipFiles cwd io enc fs filename (ps.map (·.1)) oldForm newForm).1 _ ≠ _
      rw [h3 _ h7]
      exact h5
  have hok := C114_success cwd dec fs1 filename dest _ _ h2 hdec
    (fun e he => by
      obtain ⟨p, hp, rfl⟩ := List.mem_map.1 he
      exact ⟨rfl, rfl, rfl, (hn p hp).2⟩)
    (by rw [List.pairwise_map]; exact hp) hroom
  obtain ⟨res, hres⟩ := Option.ne_none_iff_exists'.1 hok
  obtain ⟨hps, hw⟩ := C114_written cwd dec fs1 filename dest _ _ res h2 hdec hres
  refine ⟨?_, ?_⟩
  · show (unzip cwd dec fs1 filename dest).2 = _
    rw [hres, hps]
    simp [packed, Function.comp_def]
  · intro p hpm
    obtain ⟨pre, post, rfl⟩ := List.append_of_mem hpm
    refine hw (pre.map (packed oldForm newForm)) (packed oldForm newForm p) (post.map (packed oldForm newForm)) (by simp) rfl ?_
    intro e he _ ht
    obtain ⟨q, hqm, rfl⟩ := List.mem_map.1 he
    have := (List.pairwise_cons.1 (List.pairwise_append.1 hp).2.1).1 q hqm
    exact this.1 (by rw [ht])

/-- **C113 (names).** A prefix that does not occur again is replaced. -/
theorem C113_name (oldForm newForm rest : Bytes) (ho : oldForm ≠ []) (hr : Strings.contains rest oldForm = false) :
    Strings.replaceAll (oldForm ++ rest) oldForm newForm = newForm ++ rest := by
  unfold Strings.replaceAll
  by_cases he : oldForm = newForm
  · rw [if_pos he, he]
  · rw [if_neg he, if_neg ho]
    unfold Strings.split
    rw [if_neg ho]
    have h0 : Strings.index oldForm (oldForm ++ rest) = some 0 := by
      cases oldForm with
      | nil => exact absurd rfl ho
      | cons c o =>
        rw [List.cons_append, Strings.index, if_pos]
        rw [← List.cons_append, List.isPrefixOf_iff_prefix]
        exact List.prefix_append _ _
    have hn : Strings.index oldForm rest = none := by
      unfold Strings.contains at hr
      cases h : Strings.index oldForm rest with
      | none => rfl
      | some i => rw [h] at hr; cases hr
    have hlen : (oldForm ++ rest).length = (oldForm.length - 1 + rest.length) + 1 := by
      have := List.length_pos_iff.2 ho
      rw [List.length_append]
      omega
    rw [hlen, Strings.splitFuel, h0]
    dsimp only
    have hd : (oldForm ++ rest).drop (0 + oldForm.length) = rest := by simp
    rw [hd]
    have hs : ∀ n, Strings.splitFuel oldForm n rest = [rest] := by
      intro n
      cases n with
      | zero => rfl
      | succ n => rw [Strings.splitFuel, hn]
    rw [hs]
    simp [Strings.join]

theorem zipLoop_success (cwd : Loc) (io : ZipIo) (fs : FS) (oldForm newForm : Bytes) (files : List Bytes) (a : List Entry)
    (h : (zipLoop cwd io fs oldForm newForm files a).2 = true) :
    ∃ es, (zipLoop cwd io fs oldForm newForm files a).1 = a ++ es ∧
      List.Forall₂ (fun file e => fs (loc cwd file) = some (.file e.content) ∧ e.name = Strings.replaceAll file oldForm newForm) files es := by
  induction files generalizing a with
  | nil => exact ⟨[], by simp [zipLoop], .nil⟩
  | cons f files ih =>
    rw [zipLoop] at h ⊢
    cases hf : fs (loc cwd f) with
    | none => rw [hf] at h; cases h
    | some node =>
      rw [hf] at h
      dsimp only at h ⊢
      by_cases h1 : io.openFails f = true
      · rw [if_pos h1] at h; cases h
      rw [if_neg h1] at h ⊢
      by_cases h2 : io.headerFails (Strings.replaceAll f oldForm newForm) = true ∨ 65535 < (Strings.replaceAll f oldForm newForm).length
      · rw [if_pos h2] at h; cases h
      rw [if_neg h2] at h ⊢
      cases node with
      | dir => cases h
      | file c =>
        dsimp only at h ⊢
        by_cases h3 : (Strings.replaceAll f oldForm newForm).getLast? = some slash
        · rw [if_pos h3] at h ⊢
          by_cases h4 : c = []
          · rw [if_pos h4] at h ⊢
            obtain ⟨es, h5, h6⟩ := ih _ h
            exact ⟨_ :: es, by rw [h5, List.append_assoc, List.singleton_append], .cons ⟨by rw [hf, h4], rfl⟩ h6⟩
          · rw [if_neg h4] at h; cases h
        · rw [if_neg h3] at h ⊢
          cases h7 : io.copyFails f with
          | some k => rw [h7] at h; cases h
          | none =>
            rw [h7] at h
            dsimp only at h ⊢
            obtain ⟨es, h5, h6⟩ := ih _ h
            exact ⟨_ :: es, by rw [h5, List.append_assoc, List.singleton_append], .cons ⟨hf, rfl⟩ h6⟩

/-- **C113 (success means complete).** If `ZipFiles` reports success and the archive could be closed, every file (other than the archive) is a
file and is in the archive, in order, with all of its content. -/
theorem C113_complete (cwd : Loc) (io : ZipIo) (enc : List Entry → Bytes) (fs : FS) (filename oldForm newForm : Bytes) (files : List Bytes)
    (hz : ∀ f ∈ files, loc cwd f ≠ loc cwd filename) (hcl : io.closeFails = none)
    (h : (zipFiles cwd io enc fs filename files oldForm newForm).2 = true) :
    ∃ es, (zipFiles cwd io enc fs filename files oldForm newForm).1 (loc cwd filename) = some (.file (enc es)) ∧
      List.Forall₂ (fun file e => fs (loc cwd file) = some (.file e.content) ∧ e.name = Strings.replaceAll file oldForm newForm) files es := by
  unfold zipFiles at h ⊢
  cases hc : create fs (loc cwd filename) with
  | none => rw [hc] at h; cases h
  | some fs1 =>
    rw [hc] at h
    dsimp only at h ⊢
    obtain ⟨es, h1, h2⟩ := zipLoop_success _ _ _ _ _ _ _ h
    refine ⟨es, ?_, ?_⟩
    · rw [h1, hcl]
      simp [FS.set]
    · have hx : ∀ x, x ≠ loc cwd filename → fs1 x = fs x := by
        intro x hx
        unfold create at hc
        split at hc
        · injection hc with hc
          rw [← hc]
          simp [FS.set, hx]
        · cases hc
      clear h h1
      induction h2 with
      | nil => exact .nil
      | cons hd _ ih =>
        refine .cons ⟨?_, hd.2⟩ (ih (fun f hf => hz f (List.mem_cons_of_mem _ hf)))
        rw [← hx _ (hz _ List.mem_cons_self)]
        exact hd.1

/-- **C114 (no archive).** Without a file, or with one that is no archive, `Unzip` fails and changes nothing. -/
theorem C114_unreadable (cwd : Loc) (dec : Bytes → Option (List Entry)) (fs : FS) (zipFile dest : Bytes)
    (h : ∀ b, fs (loc cwd zipFile) = some (.file b) → dec b = none) : unzip cwd dec fs zipFile dest = (fs, none) := by
  unfold unzip
  cases hf : fs (loc cwd zipFile) with
  | none => rfl
  | some n =>
    cases n with
    | dir => rfl
    | file b =>
      dsimp only
      rw [h b hf]

theorem explode_ascii (s : Bytes) (h : Ascii s) (n : Nat) (hn : s.length ≤ n) : Strings.explode n s = s.map (fun c => [c]) := by
  induction s generalizing n with
  | nil => cases n <;> rfl
  | cons c s ih =>
    cases n with
    | zero => simp at hn
    | succ n =>
      have hc : c < 128 := h c (by simp)
      have hd : decode1 (c :: s) = (c, 1) := by
        unfold decode1
        simp [hc]
      rw [Strings.explode]
      rw [hd]
      simp only [List.take_succ_cons, List.take_zero, List.drop_succ_cons, List.drop_zero, List.map_cons]
      rw [ih (fun d hd => h d (by simp [hd])) n (by simpa using hn)]
      intro h; cases h

/-- **C113 (names, nothing to replace).** With an empty pattern the replacement is put before and behind every character. -/
theorem C113_name_empty (name newForm : Bytes) (h : Ascii name) (hn : newForm ≠ []) :
    Strings.replaceAll name [] newForm = newForm ++ name.flatMap (fun c => c :: newForm) := by
  unfold Strings.replaceAll
  rw [if_neg (fun h => hn h.symm), if_pos rfl, explode_ascii name h _ (Nat.le_refl _), List.flatMap_map]
  rfl

/-- A run in which nothing goes wrong. -/
def quiet : ZipIo := ⟨fun _ => false, fun _ => false, fun _ => none, none⟩

/-- Two files `d/a` and `d/d/a`. -/
def twoFiles : FS := fun x =>
  if x = [] ∨ x = [lit "d"] ∨ x = [lit "d", lit "d"] ∨ x = [lit "out"] then some .dir
  else if x = [lit "d", lit "a"] then some (.file (lit "1"))
  else if x = [lit "d", lit "d", lit "a"] then some (.file (lit "2"))
  else none

/-- **C113 (does not hold: names).** The replacement is done everywhere and not only at the beginning, so different files get the same name:
both calls succeed, and one of the two files is lost. -/
theorem C113_collision_refuted (enc : List Entry → Bytes) (dec : Bytes → Option (List Entry))
    (hlaw : ∀ es, Good es → dec (enc es) = some es) :
    let z := zipFiles [] quiet enc twoFiles (lit "z") [lit "d/a", lit "d/d/a"] (lit "d/") []
    let r := unzip [] dec z.1 (lit "z") (lit "out")
    z.2 = true ∧ r.2 = some [lit "out/a", lit "out/a"] ∧ r.1 [lit "out", lit "a"] = some (.file (lit "2")) ∧
    ∀ x, r.1 x = some (.file (lit "1")) → x = [lit "d", lit "a"] ∨ x = [lit "z"] := by
  intro z r
  have hpack := C113_pack [] quiet enc twoFiles (lit "z") (lit "d/") [] [(lit "d/a", lit "1"), (lit "d/d/a", lit "2")]
    ⟨fun _ _ => rfl, fun _ _ => rfl, fun _ _ => rfl, rfl⟩ (by decide +kernel) (by decide +kernel) (by decide +kernel) (by decide +kernel)
    (by decide +kernel)
  have hes : [(lit "d/a", lit "1"), (lit "d/d/a", lit "2")].map (packed (lit "d/") []) =
      [⟨lit "a", false, lit "1", false, false⟩, ⟨lit "a", false, lit "2", false, false⟩] := by decide +kernel
  rw [hes] at hpack
  obtain ⟨h1, h2, h3⟩ := hpack
  refine ⟨h1, ?_⟩
  have hdec : dec (enc [⟨lit "a", false, lit "1", false, false⟩, ⟨lit "a", false, lit "2", false, false⟩]) =
      some [⟨lit "a", false, lit "1", false, false⟩, ⟨lit "a", false, lit "2", false, false⟩] := by
    apply hlaw
    unfold Good
    decide +kernel
  have hz : loc [] (lit "z") = [lit "z"] := by decide +kernel
  have h2' : z.1 [lit "z"] = some (.file (enc [⟨lit "a", false, lit "1", false, false⟩, ⟨lit "a", false, lit "2", false, false⟩])) := h2
  have h3' : ∀ x, x ≠ [lit "z"] → z.1 x = twoFiles x := h3
  generalize enc [⟨lit "a", false, lit "1", false, false⟩, ⟨lit "a", false, lit "2", false, false⟩] = B at hdec h2'
  have hr : r = unzipLoop [] [lit "z"] B (lit "out") [⟨lit "a", false, lit "1", false, false⟩, ⟨lit "a", false, lit "2", false, false⟩] []
      z.1 := by
    show unzip [] dec z.1 (lit "z") (lit "out") = _
    unfold unzip
    rw [hz, h2']
    dsimp only
    rw [hdec]
  have ht : ∀ c, target [] (lit "out") ⟨lit "a", false, c, false, false⟩ = [lit "out", lit "a"] := by
    intro c
    show loc [] (joinPath (lit "out") (lit "a")) = _
    decide +kernel
  have hnamed : ∀ c, Named ⟨lit "a", false, c, false, false⟩ := fun c => ⟨lit "a", by
      show (elems (lit "a")).getLast? = _
      decide +kernel, by unfold Name; decide +kernel⟩
  have hjoin : joinPath (lit "out") (lit "a") = lit "out/a" := by decide +kernel
  have hpre : ∀ p, p <+: [lit "out"] → p = [] ∨ p = [lit "out"] := by
    intro p hp
    cases p with
    | nil => exact Or.inl rfl
    | cons c p =>
      right
      obtain ⟨t, ht⟩ := hp
      simp at ht
      simp [ht]
  obtain ⟨fs1, hl1, hs1⟩ := unzipLoop_file [] [lit "z"] B (lit "out") ⟨lit "a", false, lit "1", false, false⟩
    [⟨lit "a", false, lit "2", false, false⟩] [] z.1 h2' rfl rfl rfl (hnamed _)
    ⟨by
      rw [ht]
      intro p hp
      rcases hpre p hp with rfl | rfl
      · rw [h3' _ (by decide +kernel)]; decide +kernel
      · rw [h3' _ (by decide +kernel)]; decide +kernel,
     by rw [ht, h3' _ (by decide +kernel)]; decide +kernel⟩ (by rw [ht]; decide +kernel)
  rw [ht] at hs1
  have hs1' : ∀ x, x ≠ [lit "out", lit "a"] → x ≠ [lit "z"] → fs1 x = twoFiles x := by
    intro x hx hxz
    rw [hs1, if_neg hx, h3' x hxz]
    split
    · rename_i h
      rcases hpre x h.1 with rfl | rfl
      · exact absurd h.2 (by decide +kernel)
      · exact absurd h.2 (by decide +kernel)
    · rfl
  have hz1 : fs1 [lit "z"] = some (.file B) := by
    rw [hs1, if_neg (by decide +kernel), h2']
    simp
  obtain ⟨fs2, hl2, hs2⟩ := unzipLoop_file [] [lit "z"] B (lit "out") ⟨lit "a", false, lit "2", false, false⟩
    [] ([] ++ [joinPath (lit "out") (lit "a")]) fs1 hz1 rfl rfl rfl (hnamed _)
    ⟨by
      rw [ht]
      intro p hp
      rcases hpre p hp with rfl | rfl
      · rw [hs1' _ (by decide +kernel) (by decide +kernel)]; decide +kernel
      · rw [hs1' _ (by decide +kernel) (by decide +kernel)]; decide +kernel,
     by rw [ht, hs1, if_pos rfl]; simp⟩ (by rw [ht]; decide +kernel)
  rw [ht] at hs2
  rw [hr, hl1]
  dsimp only at hl2 ⊢
  rw [hl2, hjoin]
  refine ⟨rfl, ?_, ?_⟩
  · show fs2 _ = _
    rw [hs2, if_pos rfl]
  · intro x hx
    change fs2 x = _ at hx
    rw [hs2] at hx
    by_cases h0 : x = [lit "out", lit "a"]
    · rw [if_pos h0] at hx
      exact absurd hx (by decide +kernel)
    · rw [if_neg h0] at hx
      split at hx
      · cases hx
      · by_cases h5 : x = [lit "z"]
        · exact Or.inr h5
        · rw [hs1' x h0 h5] at hx
          unfold twoFiles at hx
          left
          split at hx
          · cases hx
          split at hx
          · assumption
          split at hx
          · exact absurd hx (by decide +kernel)
          · cases hx

/-- **C113 (does not hold: closing).** An error of closing the archive, which writes its directory, is not reported. -/
theorem C113_close_refuted (cwd : Loc) (io : ZipIo) (enc : List Entry → Bytes) (fs : FS) (filename oldForm newForm : Bytes)
    (files : List Bytes) (junk : Bytes) (hok : (zipFiles cwd io enc fs filename files oldForm newForm).2 = true) :
    (zipFiles cwd { io with closeFails := some junk } enc fs filename files oldForm newForm).2 = true ∧
    (zipFiles cwd { io with closeFails := some junk } enc fs filename files oldForm newForm).1 (loc cwd filename) = some (.file junk) := by
  have hl : ∀ fs a, zipLoop cwd { io with closeFails := some junk } fs oldForm newForm files a = zipLoop cwd io fs oldForm newForm files a := by
    intro fs a
    clear hok
    induction files generalizing a with
    | nil => rfl
    | cons f files ih =>
      have : ∀ a, zipLoop cwd { io with closeFails := some junk } fs oldForm newForm files a = zipLoop cwd io fs oldForm newForm files a := ih
      simp only [zipLoop, this]
  unfold zipFiles at hok ⊢
  cases hc : create fs (loc cwd filename) with
  | none => rw [hc] at hok; cases hok
  | some fs1 =>
    rw [hc] at hok
    dsimp only at hok ⊢
    rw [hl]
    exact ⟨hok, by simp [FS.set]⟩

/-- **C113 (directories).** A directory cannot be packed: the call fails. -/
theorem C113_directory (cwd : Loc) (io : ZipIo) (enc : List Entry → Bytes) (fs : FS) (filename oldForm newForm d : Bytes)
    (files : List Bytes) (hd : d ∈ files) (hdir : fs (loc cwd d) = some .dir) :
    (zipFiles cwd io enc fs filename files oldForm newForm).2 = false := by
  have hl : ∀ (fs : FS) a, fs (loc cwd d) = some .dir → (zipLoop cwd io fs oldForm newForm files a).2 = false := by
    intro fs a hdir
    induction files generalizing a with
    | nil => cases hd
    | cons f files ih =>
      rw [zipLoop]
      rcases List.mem_cons.1 hd with rfl | hd
      · rw [hdir]
        dsimp only
        split
        · rfl
        split
        · rfl
        · rfl
      · have := ih hd
        dsimp only
        repeat' split
        all_goals first | rfl | exact this _
  unfold zipFiles
  cases hc : create fs (loc cwd filename) with
  | none => rfl
  | some fs1 =>
    dsimp only
    apply hl
    rw [create_spec _ _ _ hc]
    unfold FS.set
    split
    · rename_i h
      rw [h] at hdir
      unfold create at hc
      rw [if_neg (fun h => h.2 hdir)] at hc
      cases hc
    · exact hdir

/-- A pair of functions that meets the law: numbers for archives. -/
def toTuple (e : Entry) : List Nat × Bool × List Nat × Bool × Bool := (e.name, e.isDir, e.content, e.openErr, e.copyErr)

def ofTuple (t : List Nat × Bool × List Nat × Bool × Bool) : Entry := ⟨t.1, t.2.1, t.2.2.1, t.2.2.2.1, t.2.2.2.2⟩

example : ∃ (enc : List Entry → Bytes) (dec : Bytes → Option (List Entry)), ∀ es, Good es → dec (enc es) = some es := by
  refine ⟨fun es => [Encodable.encode (es.map toTuple)],
    fun b => (Encodable.decode (α := List (List Nat × Bool × List Nat × Bool × Bool)) (b.headD 0)).map (List.map ofTuple), ?_⟩
  intro es _
  simp only [List.headD_cons, Encodable.encodek, Option.map_some, List.map_map]
  congr 1
  have : ofTuple ∘ toTuple = id := rfl
  rw [this, List.map_id]

/-- A case of the round trip: `d/a` and `d/d/a` packed without replacement and unpacked to `out`. -/
example (enc : List Entry → Bytes) (dec : Bytes → Option (List Entry)) (hlaw : ∀ es, Good es → dec (enc es) = some es) :
    let fs1 := (zipFiles [] quiet enc twoFiles (lit "z") [lit "d/a", lit "d/d/a"] [] []).1
    (unzip [] dec fs1 (lit "z") (lit "out")).1 [lit "out", lit "d", lit "a"] = some (.file (lit "1")) := by
  have ht1 : target [] (lit "out") (packed [] [] (lit "d/a", lit "1")) = [lit "out", lit "d", lit "a"] := by decide +kernel
  have ht2 : target [] (lit "out") (packed [] [] (lit "d/d/a", lit "2")) = [lit "out", lit "d", lit "d", lit "a"] := by decide +kernel
  have hroom : ∀ l : Loc, (∀ i ≤ l.dropLast.length, isFile (twoFiles (l.dropLast.take i)) = false) → twoFiles l ≠ some .dir → Room twoFiles l := by
    intro l h1 h2
    refine ⟨?_, h2⟩
    intro p hp
    have := h1 p.length hp.length_le
    rwa [← List.prefix_iff_eq_take.1 hp] at this
  have := C113_roundtrip_partial [] quiet enc dec hlaw twoFiles (lit "z") [] [] (lit "out") [(lit "d/a", lit "1"), (lit "d/d/a", lit "2")]
    ⟨fun _ _ => rfl, fun _ _ => rfl, fun _ _ => rfl, rfl⟩ (by decide +kernel) (by decide +kernel)
    (by
      intro p hp
      simp only [List.mem_cons, List.not_mem_nil, or_false] at hp
      rcases hp with rfl | rfl
      · exact ⟨by decide +kernel, lit "a", by decide +kernel, by unfold Name; decide +kernel⟩
      · exact ⟨by decide +kernel, lit "a", by decide +kernel, by unfold Name; decide +kernel⟩)
    (by decide +kernel) (by decide +kernel)
    (by decide +kernel)
    (by
      intro p hp
      simp only [List.mem_cons, List.not_mem_nil, or_false] at hp
      rcases hp with rfl | rfl
      · rw [ht1]
        exact ⟨hroom _ (by decide +kernel) (by decide +kernel), by decide +kernel⟩
      · rw [ht2]
        exact ⟨hroom _ (by decide +kernel) (by decide +kernel), by decide +kernel⟩)
  exact this.2 (lit "d/a", lit "1") (by simp)

end Verif.Zip
