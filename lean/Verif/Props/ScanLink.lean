import Verif.Model.ScanLink
import Verif.Props.UnzipLink
import Verif.Props.Scan

/-!
# Scanning where there are symbolic links
-/

namespace Verif.FsLink

open Spec.Walk Spec.Path Utf8
open Paths hiding Name

/-- Something that is no directory: a file or a link. -/
def NonDir (n : Option Node) : Prop := n ≠ none ∧ n ≠ some .dir

instance (n : Option Node) : Decidable (NonDir n) := inferInstanceAs (Decidable (n ≠ none ∧ n ≠ some .dir))

/-- The answers of `ReadDir` agree with the file system. -/
def Faithful (fs : FS) (readDir : Loc → Option (List (Bytes × Bool))) : Prop :=
  ∀ l infos, readDir l = some infos → (infos.map (·.1)).Nodup ∧
    ∀ n b, (n, b) ∈ infos ↔ if b then fs (l ++ [n]) = some .dir else NonDir (fs (l ++ [n]))

/-- The same with links as files. -/
def flat (fs : FS) : Fs.FS := fun l =>
  match fs l with
  | none => none
  | some .dir => some .dir
  | some (.file c) => some (.file c)
  | some (.link t) => some (.file t)

theorem flat_dir (fs : FS) (l : Loc) : flat fs l = some .dir ↔ fs l = some .dir := by
  unfold flat
  cases fs l with
  | none => simp
  | some n => cases n <;> simp

theorem flat_none (fs : FS) (l : Loc) : flat fs l = none ↔ fs l = none := by
  unfold flat
  cases fs l with
  | none => simp
  | some n => cases n <;> simp

theorem flat_file (fs : FS) (l : Loc) : Fs.isFile (flat fs l) = true ↔ NonDir (fs l) := by
  unfold flat NonDir
  cases fs l with
  | none => simp [Fs.isFile]
  | some n => cases n <;> simp [Fs.isFile]

theorem flat_sound {fs : FS} (hs : Sane fs) (hn : ∀ l e, fs (l ++ [e]) ≠ none → Paths.Name e) : Fs.Sound (flat fs) := by
  refine ⟨(flat_dir _ _).2 hs.root, fun l n h => (flat_dir _ _).2 (hs.inDir l n (fun h' => h ((flat_none _ _).2 h'))), fun l n h => ?_⟩
  exact hn l n (fun h' => h ((flat_none _ _).2 h'))

/-- The path of an entry that is no link. -/
theorem child_leads {fs : FS} {cwd : Loc} {dir : Bytes} {D : Loc} (h : PathLeads fs cwd dir D) (hD : fs D = some .dir) {n : Bytes}
    (hn : Paths.Name n) {m : Node} (hm : fs (D ++ [n]) = some m) (hl : ∀ t, m ≠ .link t) : PathLeads fs cwd (dir ++ lit "/" ++ n) (D ++ [n]) := by
  obtain ⟨h0, k, hk, h⟩ := h
  rw [show lit "/" = [47] by decide]
  refine ⟨by simp, k, hk, ?_⟩
  have hh : (dir ++ [47] ++ n).head? = dir.head? := by
    cases dir with
    | nil => exact absurd rfl h0
    | cons c d => rfl
  rw [hh, List.append_assoc, List.singleton_append, elems_slash, elems_free n hn.1]
  exact leads_append h (.down hD ⟨hn.2.1, hn.2.2.1, hn.2.2.2⟩ hm hl (.here _ (by rw [hm]; simp)))

theorem scan_spec {fs : FS} (hs : Sane fs) (hpl : ∀ l e, fs (l ++ [e]) ≠ none → Paths.Name e) {cwd : Loc} (hc : fs cwd = some .dir)
    {readDir : Loc → Option (List (Bytes × Bool))} (hf : Faithful fs readDir) (fuel : Nat) (dir : Bytes) (hlast : dir.getLast? ≠ some 47) (D : Loc)
    (hdir : PathLeads fs cwd dir D) (hD : fs D = some .dir) (hdepth : ∀ rel, fuel ≤ rel.length → fs (D ++ rel) = none) :
    ∃ r, scanDir fs cwd readDir fuel dir = .ok r ∧ (r = none ↔ ∃ rel, fs (D ++ rel) = some .dir ∧ readDir (D ++ rel) = none) ∧
      ∀ files, r = some files → Fs.Lists (flat fs) dir D files := by
  have hsnd := flat_sound hs hpl
  induction fuel generalizing dir D with
  | zero =>
    have := hdepth [] (Nat.le_refl 0)
    rw [List.append_nil, hD] at this
    cases this
  | succ fuel ih =>
    rw [scanDir, Fs.trim_id dir hlast, (resolve_found hs hc dir D).2 hdir]
    dsimp only
    cases hr : readDir D with
    | none =>
      refine ⟨none, rfl, ⟨fun _ => ⟨[], by rw [List.append_nil]; exact hD, by rw [List.append_nil]; exact hr⟩, fun _ => rfl⟩, fun files h => by cases h⟩
    | some infos =>
      dsimp only
      obtain ⟨hnd, hmem⟩ := hf _ infos hr
      have hsub : ∀ n, (n, true) ∈ infos → fs (D ++ [n]) = some .dir := fun n hn => by simpa using (hmem n true).1 hn
      have hrec : ∀ n, (n, true) ∈ infos → ∃ r, scanDir fs cwd readDir fuel (dir ++ lit "/" ++ n) = .ok r ∧
          (r = none ↔ ∃ rel, fs (D ++ [n] ++ rel) = some .dir ∧ readDir (D ++ [n] ++ rel) = none) ∧
          ∀ files, r = some files → Fs.Lists (flat fs) (dir ++ lit "/" ++ n) (D ++ [n]) files := by
        intro n hn
        have hnD := hsub n hn
        have hpn := hpl D n (by rw [hnD]; simp)
        refine ih (dir ++ lit "/" ++ n) (Fs.child_path cwd dir n hdir.1 hpn).2.2 (D ++ [n]) (child_leads hdir hD hpn hnD (by simp)) hnD ?_
        intro rel hrel
        rw [List.append_assoc]
        exact hdepth ([n] ++ rel) (by simp; omega)
      obtain ⟨r, h1, h2, h3⟩ := Fs.scanLoop_spec (flat fs) hsnd (scanDir fs cwd readDir fuel) dir D infos hnd
        (fun n b h => by
          have := (hmem n b).1 h
          cases b with
          | true => simpa using (flat_dir fs _).2 (by simpa using this)
          | false => simpa using (flat_file fs _).2 (by simpa using this))
        (fun n hn => by
          obtain ⟨r, r1, -, r3⟩ := hrec n hn
          exact ⟨r, r1, r3⟩) []
      refine ⟨r, h1, ?_, ?_⟩
      · rw [h2]
        constructor
        · rintro ⟨n, hn, ha⟩
          obtain ⟨r, r1, r2, -⟩ := hrec n hn
          rw [ha, Except.ok.injEq] at r1
          obtain ⟨rel, q1, q2⟩ := r2.1 r1.symm
          rw [List.append_assoc] at q1 q2
          exact ⟨[n] ++ rel, q1, q2⟩
        · rintro ⟨rel, hd, hx⟩
          cases rel with
          | nil => rw [List.append_nil, hr] at hx; cases hx
          | cons n rel =>
            have hn : fs (D ++ [n]) = some .dir := by
              by_cases hr : rel = []
              · rw [hr] at hd; exact hd
              · refine sane_below hs hr ?_
                rw [List.append_assoc, List.singleton_append, hd]
                simp
            have hin : (n, true) ∈ infos := (hmem n true).2 (by simpa using hn)
            obtain ⟨r, r1, r2, -⟩ := hrec n hin
            refine ⟨n, hin, ?_⟩
            rw [r1, r2.2 ⟨rel, by rw [List.append_assoc]; exact hd, by rw [List.append_assoc]; exact hx⟩]
      · intro files hfl
        obtain ⟨more, e1, e2, e3⟩ := h3 files hfl
        rw [List.nil_append] at e1
        subst e1
        refine ⟨e2, fun q => ?_⟩
        rw [e3]
        constructor
        · rintro ⟨n, b, rel, -, h4, h5⟩
          exact ⟨n :: rel, h4, h5⟩
        · rintro ⟨rel, h4, h5⟩
          cases rel with
          | nil => rw [List.append_nil, (flat_dir fs D).2 hD] at h4; cases h4
          | cons n rel =>
            by_cases hr : rel = []
            · subst hr
              exact ⟨n, false, [], (hmem n false).2 (by simpa using (flat_file fs _).1 h4), h4, h5⟩
            · have hn : fs (D ++ [n]) = some .dir := by
                refine sane_below hs hr ?_
                rw [List.append_assoc, List.singleton_append]
                exact ((flat_file fs _).1 h4).1
              exact ⟨n, true, rel, (hmem n true).2 (by simpa using hn), h4, h5⟩

/-! ## C159: `ScanDir` -/

/-- **C159.** Let `dir` lead to the directory `D`, over links or not, and let `depth` bound how deep real directories are nested below `D`. Then
`ScanDir` of `dir` and of `dir/` terminates, whatever links there are; it fails exactly if some directory below cannot be read; else it lists
each file and each link below `D` once, as `dir` followed by the names, and nothing from behind a link. -/
theorem C159_scan {fs : FS} (hs : Sane fs) (hpl : ∀ l e, fs (l ++ [e]) ≠ none → Paths.Name e) {cwd : Loc} (hc : fs cwd = some .dir)
    {readDir : Loc → Option (List (Bytes × Bool))} (hf : Faithful fs readDir) (dir : Bytes) (hlast : dir.getLast? ≠ some 47) {D : Loc}
    (hdir : PathLeads fs cwd dir D) (hD : fs D = some .dir) (depth : Nat) (hdepth : ∀ rel, depth ≤ rel.length → fs (D ++ rel) = none) :
    ∃ r, scanDir fs cwd readDir depth dir = .ok r ∧ scanDir fs cwd readDir depth (dir ++ lit "/") = .ok r ∧
      (r = none ↔ ∃ rel, fs (D ++ rel) = some .dir ∧ readDir (D ++ rel) = none) ∧
      ∀ files, r = some files → files.Nodup ∧
        ∀ q, q ∈ files ↔ ∃ rel, (fs (D ++ rel) ≠ none ∧ fs (D ++ rel) ≠ some .dir) ∧ q = dir ++ rel.flatMap (fun n => 47 :: n) := by
  obtain ⟨r, h1, h2, h3⟩ := scan_spec hs hpl hc hf depth dir hlast D hdir hD hdepth
  refine ⟨r, h1, ?_, h2, fun files hfl => ?_⟩
  · cases depth with
    | zero => exact h1
    | succ d =>
      rw [scanDir] at h1 ⊢
      have ht : Strings.trimSuffix (dir ++ lit "/") (lit "/") = dir := by
        unfold Strings.trimSuffix
        rw [if_pos (by rw [List.isSuffixOf_iff_suffix]; exact List.suffix_append _ _)]
        simp
      rw [ht]
      rw [Fs.trim_id dir hlast] at h1
      exact h1
  · obtain ⟨l1, l2⟩ := h3 files hfl
    refine ⟨l1, fun q => ?_⟩
    rw [l2]
    constructor
    · rintro ⟨rel, a, b⟩; exact ⟨rel, (flat_file fs _).1 a, b⟩
    · rintro ⟨rel, a, b⟩; exact ⟨rel, (flat_file fs _).2 a, b⟩

/-- What `ReadDir` answers for `trap`. -/
def trapDir : Loc → Option (List (Bytes × Bool)) := fun l =>
  if l = [lit "d"] then some [(lit "l", false)]
  else if l = [lit "e"] then some [(lit "p", false)]
  else none

/-- What `ReadDir` answers for the example. -/
def linksDir : Loc → Option (List (Bytes × Bool)) := fun l =>
  if l = [lit "w"] then some [(lit "a", false), (lit "b", false), (lit "d", true), (lit "f", false), (lit "gone", false), (lit "l", false)]
  else if l = [lit "w", lit "d"] then some [(lit "e", true), (lit "f", false)]
  else if l = [lit "w", lit "d", lit "e"] then some []
  else none

theorem trap_faithful : Faithful trap trapDir := by
  intro l infos h
  unfold trapDir at h
  split at h
  · next hl =>
    cases h; subst hl
    refine ⟨by decide +kernel, fun n b => ?_⟩
    by_cases hn : n = lit "l"
    · subst hn; cases b <;> decide +kernel
    · have : trap ([lit "d"] ++ [n]) = none := by simp [trap, hn, show lit "d" ≠ lit "e" by decide +kernel, show lit "e" ≠ lit "d" by decide +kernel]
      rw [this]; cases b <;> simp [NonDir, hn]
  · split at h
    · next hl =>
      cases h; subst hl
      refine ⟨by decide +kernel, fun n b => ?_⟩
      by_cases hn : n = lit "p"
      · subst hn; cases b <;> decide +kernel
      · have : trap ([lit "e"] ++ [n]) = none := by simp [trap, hn, show lit "d" ≠ lit "e" by decide +kernel, show lit "e" ≠ lit "d" by decide +kernel]
        rw [this]; cases b <;> simp [NonDir, hn]
    · cases h

theorem links_faithful : Faithful links linksDir := by
  intro l infos h
  unfold linksDir at h
  split at h
  · next hl =>
    cases h; subst hl
    refine ⟨by decide +kernel, fun n b => ?_⟩
    by_cases h1 : n = lit "a"
    · subst h1; cases b <;> decide +kernel
    by_cases h2 : n = lit "b"
    · subst h2; cases b <;> decide +kernel
    by_cases h3 : n = lit "d"
    · subst h3; cases b <;> decide +kernel
    by_cases h4 : n = lit "f"
    · subst h4; cases b <;> decide +kernel
    by_cases h5 : n = lit "gone"
    · subst h5; cases b <;> decide +kernel
    by_cases h6 : n = lit "l"
    · subst h6; cases b <;> decide +kernel
    have : links ([lit "w"] ++ [n]) = none := by simp [links, h1, h2, h3, h4, h5, h6]
    rw [this]; cases b <;> simp [NonDir, h1, h2, h3, h4, h5, h6]
  · split at h
    · next hl =>
      cases h; subst hl
      refine ⟨by decide +kernel, fun n b => ?_⟩
      by_cases h1 : n = lit "e"
      · subst h1; cases b <;> decide +kernel
      by_cases h2 : n = lit "f"
      · subst h2; cases b <;> decide +kernel
      have : links ([lit "w", lit "d"] ++ [n]) = none := by simp [links, h1, h2]
      rw [this]; cases b <;> simp [NonDir, h1, h2]
    · split at h
      · next hl =>
        cases h; subst hl
        refine ⟨by decide +kernel, fun n b => ?_⟩
        have : links ([lit "w", lit "d", lit "e"] ++ [n]) = none := by simp [links]
        rw [this]; cases b <;> simp [NonDir]
      · cases h

/-- **C159 (does not hold: what is listed can be read).** Dangling links, links that point at each other and links to directories are listed as
files. -/
theorem C159_read_refuted : Faithful links linksDir ∧
    scanDir links [] linksDir 4 (lit "w") = .ok (some [lit "w/a", lit "w/b", lit "w/d/f", lit "w/f", lit "w/gone", lit "w/l"]) ∧
    readFile links [] (lit "w/a") = .error .loop ∧ readFile links [] (lit "w/gone") = .error .noEnt ∧ readFile links [] (lit "w/l") = .error .isDir :=
  ⟨links_faithful, rfl, rfl, rfl, rfl⟩

/-- **C159 (does not hold: every file that can be reached through the directory is listed).** A directory behind a link is not entered. -/
theorem C159_behind_refuted : Faithful trap trapDir ∧
    ∃ files, scanDir trap [] trapDir 3 (lit "d") = .ok (some files) ∧ lit "d/l/p" ∉ files ∧
    readFile trap [] (lit "d/l/p") = .ok (lit "root") :=
  ⟨trap_faithful, [lit "d/l"], rfl, by decide +kernel, rfl⟩

/-- Scanning a directory behind a link: the links and files of that directory are listed under the name of the link. -/
example : scanDir links [lit "w"] linksDir 3 (lit "l/../") = .ok (some [lit "l/../f"]) := rfl

end Verif.FsLink
