import Verif.Model.Files
import Verif.Proof.Upload
import Mathlib.Tactic.NormNum
import Mathlib.Data.List.Induction

/-!
# C88, C94, C95, C104–C107: copying, moving, creating and looking at files (help/utils/files.go, csv.go)
-/

namespace Verif.Fs

open Utf8 Spec.Path

/-- A sound file system: what exists lies in a directory and has a plain name; the root is a directory. -/
structure Sound (fs : FS) : Prop where
  root : fs [] = some .dir
  parent : ∀ l n, fs (l ++ [n]) ≠ none → fs l = some .dir
  plain : ∀ l n, fs (l ++ [n]) ≠ none → Plain n

/-- All above something that exists are directories. -/
theorem Sound.above {fs : FS} (h : Sound fs) (l r : Loc) (hr : r ≠ []) (hx : fs (l ++ r) ≠ none) : fs l = some .dir := by
  induction r using List.reverseRecOn with
  | nil => exact absurd rfl hr
  | append_singleton r n ih =>
    rw [← List.append_assoc] at hx
    have hp := h.parent _ _ hx
    by_cases hr : r = []
    · rw [hr, List.append_nil] at hp; exact hp
    · exact ih hr (by rw [hp]; simp)

theorem bare_sound : Sound (fun x => if x = [] then some .dir else none) :=
  ⟨rfl, fun l n h => absurd (if_neg (by simp)) h, fun l n h => absurd (if_neg (by simp)) h⟩

/-! ## C88 -/

/-- **C88 (what happens).** A successful copy writes the source over the beginning of the target: what the target had beyond that length
stays. Nothing else changes. -/
theorem C88_copy_exact (fs : FS) (dst src : Loc) (c old : Bytes) (hs : fs src = some (.file c)) (hd : fs dst = some (.file old))
    (wrote : Nat) (hw : c.length ≤ wrote) :
    (copyFile fs dst src wrote).2 = some c.length ∧
    (copyFile fs dst src wrote).1 dst = some (.file (c ++ old.drop c.length)) ∧
    ∀ x, x ≠ dst → (copyFile fs dst src wrote).1 x = fs x := by
  unfold copyFile openKeep content
  rw [hs]
  dsimp only
  rw [hd]
  dsimp only
  rw [List.take_of_length_le hw, hd]
  refine ⟨rfl, ?_, ?_⟩
  · simp [FS.set]
  · intro x hx
    simp [FS.set, hx]

/-- **C88 (partial).** If the target does not exist or is not longer than the source, a successful copy makes it the same. Missing:
longer targets, see below. -/
theorem C88_copied_partial (fs : FS) (dst src : Loc) (c : Bytes) (hs : fs src = some (.file c))
    (hlen : (content fs dst).length ≤ c.length) (wrote : Nat) (hok : (copyFile fs dst src wrote).2 = some c.length) :
    (copyFile fs dst src wrote).1 dst = some (.file c) := by
  have hdrop : (content fs dst).drop c.length = [] := List.drop_eq_nil_of_le hlen
  unfold copyFile at hok ⊢
  rw [hs] at hok ⊢
  dsimp only at hok ⊢
  cases ho : openKeep fs dst with
  | none => rw [ho] at hok; cases hok
  | some fs2 =>
    rw [ho] at hok
    dsimp only at hok ⊢
    rw [Option.some.injEq, List.length_take] at hok
    have hw : c.length ≤ wrote := by omega
    rw [List.take_of_length_le hw]
    have hcont : content fs2 dst = content fs dst := by
      unfold openKeep at ho
      split at ho
      · cases ho
      · rw [Option.some.injEq] at ho; rw [ho]
      · rename_i hn
        split at ho
        · rw [Option.some.injEq] at ho
          unfold content
          rw [← ho, hn]
          simp [FS.set]
        · cases ho
    simp [FS.set, hcont, hdrop]

/-- **C88 (refuted).** A longer target keeps its tail, and success is reported. -/
theorem C88_copied_refuted :
    ∃ (fs : FS) (dst src : Loc), fs src = some (.file (lit "new")) ∧ fs dst = some (.file (lit "old content")) ∧
      (copyFile fs dst src 3).2 = some 3 ∧ (copyFile fs dst src 3).1 dst = some (.file (lit "new content")) :=
  ⟨fun x => if x = [lit "a"] then some (.file (lit "new")) else if x = [lit "b"] then some (.file (lit "old content")) else
    if x = [] then some .dir else none, [lit "b"], [lit "a"], by decide +kernel⟩

/-- Copying does not change the source (if it is another file). -/
theorem C88_source_kept (fs : FS) (dst src : Loc) (wrote : Nat) (hne : src ≠ dst) : (copyFile fs dst src wrote).1 src = fs src := by
  have hopen : ∀ fs2, openKeep fs dst = some fs2 → fs2 src = fs src := by
    intro fs2 ho
    unfold openKeep at ho
    split at ho
    · cases ho
    · rw [Option.some.injEq] at ho; rw [ho]
    · split at ho
      · rw [Option.some.injEq] at ho; rw [← ho]; simp [FS.set, hne]
      · cases ho
  unfold copyFile
  split
  · split
    · rfl
    · rename_i fs2 ho
      simp [FS.set, hne, hopen fs2 ho]
  · cases ho : openKeep fs dst with
    | none => rfl
    | some fs2 => exact hopen fs2 ho
  · rfl

/-! ## C94 -/

/-- **C94 (refuted).** `FormatByte` gives the same for all sizes: what `%.2f` makes of 32, followed by ` B`. -/
theorem C94_format_byte_refuted (fmt2 : Rat → Bytes) (size : Int) : formatByte fmt2 size = fmt2 32 ++ lit " B" := by
  unfold formatByte scaleLoop
  dsimp only
  rw [if_neg (by norm_num), List.append_assoc]
  congr 1

/-! ## C95 -/

/-- **C95 (refuted).** The row written does not depend on the argument, and success is reported even if nothing can be written. -/
theorem C95_row_refuted (fs : FS) (l : Loc) (row1 row2 : List Bytes) (wrote : Nat) :
    writeCsv fs l row1 wrote = writeCsv fs l row2 wrote := rfl

/-- **C95 (what happens).** The same fixed line is appended to what was there. -/
theorem C95_write_exact (fs : FS) (l : Loc) (row : List Bytes) (old : Bytes) (hf : fs l = some (.file old)) (wrote : Nat) (hw : 15 ≤ wrote) :
    (writeCsv fs l row wrote).2 = true ∧
    (writeCsv fs l row wrote).1 l = some (.file (old ++ (lit "1,2,3,4,\"5,6\"" ++ [13, 10]))) ∧
    ∀ x, x ≠ l → (writeCsv fs l row wrote).1 x = fs x := by
  have hrow : csvRow [lit "1", lit "2", lit "3", lit "4", lit "5,6"] = lit "1,2,3,4,\"5,6\"" ++ [13, 10] := by decide +kernel
  unfold writeCsv openKeep
  rw [hf]
  dsimp only
  have hlen : (lit "1,2,3,4,\"5,6\"" ++ [13, 10]).length = 15 := by decide +kernel
  rw [hrow, List.take_of_length_le (by omega)]
  refine ⟨rfl, ?_, ?_⟩
  · simp [appendTo, FS.set, content, hf]
  · intro x hx
    simp [appendTo, FS.set, hx]

/-- **C95 (partial).** Whatever happens, what was there stays (a beginning of the file), and other files stay as they are. Missing: the
row, see above. -/
theorem C95_kept_partial (fs : FS) (l : Loc) (row : List Bytes) (old : Bytes) (hf : fs l = some (.file old)) (wrote : Nat) :
    ∃ more, (writeCsv fs l row wrote).1 l = some (.file (old ++ more)) ∧ ∀ x, x ≠ l → (writeCsv fs l row wrote).1 x = fs x := by
  unfold writeCsv openKeep
  rw [hf]
  dsimp only
  refine ⟨(csvRow [lit "1", lit "2", lit "3", lit "4", lit "5,6"]).take wrote, ?_, ?_⟩
  · simp only [appendTo, FS.set, content, hf, if_true]
  · intro x hx
    simp [appendTo, FS.set, hx]

/-! ## C104 -/

/-- Only directories above `l`, and no file there. -/
def Free (fs : FS) (l : Loc) : Prop := ∀ p, p <+: l → isFile (fs p) = false

theorem mkdirAll_iff (fs : FS) (l : Loc) : mkdirAll fs l = none ↔ ¬ Free fs l := by
  constructor
  · intro h hf
    rw [mkdirAll_some fs l hf] at h
    cases h
  · intro h
    unfold mkdirAll
    rw [if_pos]
    rw [List.any_eq_true]
    unfold Free at h
    simp only [not_forall] at h
    obtain ⟨p, hp, hx⟩ := h
    refine ⟨p.length, ?_, ?_⟩
    · rw [List.mem_range]
      have := hp.length_le
      omega
    · obtain ⟨r, rfl⟩ := hp
      rw [List.take_left]
      simpa using hx

theorem stat_notDir (fs : FS) (l : Loc) (h : stat fs l = .notDir) : ¬ Free fs l := by
  unfold stat at h
  split at h
  · cases h
  · split at h
    · rename_i ha
      rw [List.any_eq_true] at ha
      obtain ⟨i, -, hi⟩ := ha
      intro hf
      rw [hf _ (List.take_prefix i l)] at hi
      cases hi
    · cases h

theorem stat_ok (fs : FS) (l : Loc) (n : Node) : stat fs l = .ok n ↔ fs l = some n := by
  unfold stat
  cases h : fs l with
  | none =>
    dsimp only
    split <;> simp
  | some m => simp

theorem stat_notExist (fs : FS) (l : Loc) (h : stat fs l = .notExist) : fs l = none := by
  unfold stat at h
  split at h
  · cases h
  · assumption

/-- **C104.** If `CreateDir` succeeds, all the directories exist; whether or not it does, what existed is unchanged, and what is new is
a directory on the way to one of them. -/
theorem C104_create_dir (fs : FS) (ls : List Loc) :
    ((createDir fs ls).2 = true → ∀ l ∈ ls, (createDir fs ls).1 l = some .dir) ∧
    (∀ x, fs x ≠ none → (createDir fs ls).1 x = fs x) ∧
    (∀ x, fs x = none → (createDir fs ls).1 x ≠ none → (createDir fs ls).1 x = some .dir ∧ ∃ l ∈ ls, x <+: l) := by
  induction ls generalizing fs with
  | nil => exact ⟨by simp, fun _ _ => rfl, fun x h h' => absurd h h'⟩
  | cons v vs ih =>
    rw [createDir]
    unfold pathExists
    cases hst : stat fs v with
    | ok n =>
      rw [stat_ok] at hst
      cases n with
      | dir =>
        dsimp only
        obtain ⟨i1, i2, i3⟩ := ih fs
        refine ⟨?_, i2, ?_⟩
        · intro hs l hl
          rcases List.mem_cons.1 hl with rfl | hl
          · rw [i2 l (by rw [hst]; simp), hst]
          · exact i1 hs l hl
        · intro x h1 h2
          obtain ⟨a, l, hl, hp⟩ := i3 x h1 h2
          exact ⟨a, l, List.mem_cons_of_mem _ hl, hp⟩
      | file c =>
        dsimp only
        exact ⟨by simp, fun _ _ => rfl, fun x h h' => absurd h h'⟩
    | notDir =>
      dsimp only
      exact ⟨by simp, fun _ _ => rfl, fun x h h' => absurd h h'⟩
    | notExist =>
      dsimp only
      have hv := stat_notExist fs v hst
      cases hm : mkdirAll fs v with
      | none =>
        dsimp only
        exact ⟨by simp, fun _ _ => rfl, fun x h h' => absurd h h'⟩
      | some fs1 =>
        dsimp only
        have hfree : Free fs v := by
          by_cases hfr : Free fs v
          · exact hfr
          · rw [(mkdirAll_iff fs v).2 hfr] at hm; cases hm
        have hfs1 : ∀ x, fs1 x = if x <+: v ∧ fs x = none then some .dir else fs x := by
          rw [mkdirAll_some fs v hfree, Option.some.injEq] at hm
          intro x
          rw [← hm]
        obtain ⟨i1, i2, i3⟩ := ih fs1
        have hkeep : ∀ x, fs x ≠ none → fs1 x = fs x := fun x hx => by rw [hfs1, if_neg (fun h => hx h.2)]
        have hv1 : fs1 v = some .dir := by rw [hfs1, if_pos ⟨List.prefix_refl _, hv⟩]
        refine ⟨?_, ?_, ?_⟩
        · intro hs l hl
          rcases List.mem_cons.1 hl with rfl | hl
          · rw [i2 l (by rw [hv1]; simp), hv1]
          · exact i1 hs l hl
        · intro x hx
          rw [i2 x (by rw [hkeep x hx]; exact hx), hkeep x hx]
        · intro x h1 h2
          by_cases hx : x <+: v
          · have h3 : fs1 x = some .dir := by rw [hfs1, if_pos ⟨hx, h1⟩]
            exact ⟨by rw [i2 x (by rw [h3]; simp), h3], v, List.mem_cons_self, hx⟩
          · obtain ⟨a, l, hl, hp⟩ := i3 x (by rw [hfs1, if_neg (fun h => hx h.1)]; exact h1) h2
            exact ⟨a, l, List.mem_cons_of_mem _ hl, hp⟩

/-- **C104.** In a sound file system, `CreateDir` of one directory fails exactly if a file is there or on the way. -/
theorem C104_fails_iff (fs : FS) (hs : Sound fs) (l : Loc) : (createDir fs [l]).2 = false ↔ ¬ Free fs l := by
  rw [createDir]
  unfold pathExists
  cases hst : stat fs l with
  | ok n =>
    rw [stat_ok] at hst
    cases n with
    | dir =>
      dsimp only
      rw [createDir]
      constructor
      · simp
      · intro h
        exfalso
        apply h
        rintro p ⟨r, rfl⟩
        by_cases hr : r = []
        · rw [hr, List.append_nil] at hst; rw [hst]; rfl
        · rw [hs.above p r hr (by rw [hst]; simp)]; rfl
    | file c =>
      dsimp only
      refine ⟨fun _ hf => ?_, fun _ => rfl⟩
      have := hf l (List.prefix_refl _)
      rw [hst] at this
      cases this
  | notDir =>
    dsimp only
    exact ⟨fun _ => stat_notDir fs l hst, fun _ => rfl⟩
  | notExist =>
    dsimp only
    cases hm : mkdirAll fs l with
    | none => exact ⟨fun _ => (mkdirAll_iff fs l).1 hm, fun _ => rfl⟩
    | some fs1 =>
      dsimp only
      rw [createDir]
      constructor
      · simp
      · intro h
        rw [(mkdirAll_iff fs l).2 h] at hm
        cases hm

/-- A file in the way: the first directory is created, the second fails. -/
example : (createDir (fun x => if x = [] then some .dir else if x = [lit "f"] then some (.file []) else none)
    [[lit "a", lit "b"], [lit "f", lit "c"]]).2 = false := by decide +kernel

/-! ## C105 -/

/-- **C105 (partial).** If `FileMove` with a non-empty target succeeds, what was at and below the source is now at and below the target,
and no longer at the source; a file at the target is replaced; nothing else that existed changes. Missing: the empty target, see below. -/
theorem C105_moved_partial (cwd : Loc) (fs : FS) (hs : Sound fs) (src dst : Bytes) (hd : dst ≠ [])
    (hok : (fileMove cwd fs src dst).2 = true) :
    fs (loc cwd src) ≠ none ∧
    (∀ rel, (fileMove cwd fs src dst).1 (loc cwd dst ++ rel) = fs (loc cwd src ++ rel)) ∧
    (loc cwd src ≠ loc cwd dst → ∀ rel, (fileMove cwd fs src dst).1 (loc cwd src ++ rel) = none) ∧
    (∀ x, fs x ≠ none → ¬ loc cwd src <+: x → ¬ loc cwd dst <+: x → (fileMove cwd fs src dst).1 x = fs x) := by
  generalize hS : loc cwd src = s
  generalize hD : loc cwd dst = d
  unfold fileMove at hok ⊢
  rw [if_neg hd] at hok ⊢
  rw [hS, hD] at hok ⊢
  dsimp only at hok ⊢
  -- the file system with the directory
  have hpre : ∀ fs1, ensureDir fs d.dropLast = some fs1 →
      ∀ x, fs1 x = fs x ∨ (fs x = none ∧ fs1 x = some .dir ∧ x <+: d.dropLast) := by
    intro fs1 h x
    have hmk : mkdirAll fs d.dropLast = some fs1 → fs1 x = fs x ∨ (fs x = none ∧ fs1 x = some .dir ∧ x <+: d.dropLast) := by
      intro h
      unfold mkdirAll at h
      split at h
      · cases h
      · rw [Option.some.injEq] at h
        rw [← h]
        by_cases hx : x <+: d.dropLast ∧ fs x = none
        · exact Or.inr ⟨hx.2, if_pos hx, hx.1⟩
        · exact Or.inl (if_neg hx)
    unfold ensureDir at h
    split at h
    · rw [Option.some.injEq] at h; exact Or.inl (by rw [h])
    · exact hmk h
  cases hfs1 : ensureDir fs d.dropLast with
  | none => rw [hfs1] at hok; cases hok
  | some fs1 =>
    rw [hfs1] at hok
    have hx1 := hpre fs1 hfs1
    dsimp only at hok ⊢
    cases hr : rename fs1 s d with
    | none => rw [hr] at hok; cases hok
    | some fs2 =>
      dsimp only
      unfold rename at hr
      split at hr
      · cases hr
      rename_i hnd
      split at hr
      · cases hr
      rename_i hsrc
      have hdp : ¬ d <+: d.dropLast ∨ d = [] := by
        by_cases hd0 : d = []
        · exact Or.inr hd0
        · left
          intro hp
          have := hp.length_le
          have hl : 0 < d.length := List.length_pos_iff.2 hd0
          rw [List.length_dropLast] at this
          omega
      have hd0 : d ≠ [] := by
        rintro rfl
        apply hnd
        rcases hx1 [] with h | h
        · rw [h]; exact hs.root
        · exact h.2.1
      have hdd : ∀ r, ¬ (d ++ r) <+: d.dropLast := by
        intro r hp
        have := hp.length_le
        have hl : 0 < d.length := List.length_pos_iff.2 hd0
        rw [List.length_dropLast, List.length_append] at this
        omega
      split at hr
      · rename_i hsd
        subst hsd
        rw [Option.some.injEq] at hr
        subst hr
        refine ⟨?_, ?_, fun h => absurd rfl h, ?_⟩
        · rcases hx1 s with h | h
          · rw [← h]; exact hsrc
          · exact absurd h.2.2 (by have := hdd []; rwa [List.append_nil] at this)
        · intro rel
          rcases hx1 (s ++ rel) with h | h
          · exact h
          · exact absurd h.2.2 (hdd rel)
        · intro x hx _ _
          rcases hx1 x with h | h
          · exact h
          · exact absurd h.1 hx
      rename_i hsd
      split at hr
      · cases hr
      rename_i hsp
      split at hr
      · cases hr
      split at hr
      · cases hr
      rw [Option.some.injEq] at hr
      subst hr
      -- the source and all below are not among the new directories
      have hsx : ∀ rel, fs1 (s ++ rel) = fs (s ++ rel) := by
        intro rel
        rcases hx1 (s ++ rel) with h | h
        · exact h
        · exfalso
          apply hsp
          have h1 : s <+: s ++ rel := List.prefix_append _ _
          exact (h1.trans h.2.2).trans (List.dropLast_prefix d)
      have hsne : fs s ≠ none := by
        have := hsx []
        rw [List.append_nil] at this
        rw [← this]
        exact hsrc
      -- the target is not above the source
      have hds : ¬ d <+: s := by
        rintro ⟨r, hr⟩
        by_cases hr0 : r = []
        · subst hr0; rw [List.append_nil] at hr; exact hsd hr.symm
        · have h1 := hs.above d r hr0 (by rw [hr]; exact hsne)
          rcases hx1 d with h | h
          · rw [h1] at h; exact hnd h
          · exact hnd h.2.1
      have hnot : ∀ rel, ¬ d <+: s ++ rel := by
        intro rel hp
        rcases List.prefix_or_prefix_of_prefix hp (List.prefix_append s rel) with h | h
        · exact hds h
        · exact hsp h
      refine ⟨hsne, ?_, ?_, ?_⟩
      · intro rel
        dsimp only
        rw [if_pos (List.prefix_append _ _), List.drop_left, hsx]
      · intro _ rel
        dsimp only
        rw [if_neg (hnot rel), if_pos (List.prefix_append _ _)]
      · intro x hx h1 h2
        dsimp only
        rw [if_neg h2, if_neg h1]
        rcases hx1 x with h | h
        · exact h
        · exact absurd h.1 hx

/-- **C105.** If `FileMove` fails, nothing that existed changes. -/
theorem C105_failure_keeps (cwd : Loc) (fs : FS) (src dst : Bytes) (hok : (fileMove cwd fs src dst).2 = false) (x : Loc) (hx : fs x ≠ none) :
    (fileMove cwd fs src dst).1 x = fs x := by
  unfold fileMove at hok ⊢
  split at hok
  · cases hok
  rename_i hd
  rw [if_neg hd]
  dsimp only at hok ⊢
  split at hok
  · rfl
  · rename_i fs1 h
    have h1 : fs1 x = fs x := by
      unfold ensureDir at h
      split at h
      · rw [Option.some.injEq] at h; rw [h]
      · unfold mkdirAll at h
        split at h
        · cases h
        · rw [Option.some.injEq] at h
          rw [← h]
          exact if_neg (fun hh => hx hh.2)
    cases hr : rename fs1 (loc cwd src) (loc cwd dst) with
    | none => exact h1
    | some fs2 => rw [hr] at hok; cases hok

/-- What `ensureDir` does if no file is in the way, and if one is. -/
theorem ensureDir_cases (fs : FS) (hs : Sound fs) (p : Loc) :
    (∀ q, q <+: p → isFile (fs q) = false) ∧ (∃ fs1, ensureDir fs p = some fs1 ∧ fs1 p = some .dir ∧ ∀ x, ¬ x <+: p → fs1 x = fs x) ∨
    (∃ q, q <+: p ∧ isFile (fs q) = true) ∧ (ensureDir fs p = none ∨ ensureDir fs p = some fs ∧ isFile (fs p) = true) := by
  have hany : (List.range (p.length + 1)).any (fun i => isFile (fs (p.take i))) = true ↔ ∃ q, q <+: p ∧ isFile (fs q) = true := by
    rw [List.any_eq_true]
    constructor
    · rintro ⟨i, -, hi⟩; exact ⟨_, List.take_prefix i p, hi⟩
    · rintro ⟨q, hq, hf⟩
      refine ⟨q.length, List.mem_range.2 (Nat.lt_succ_of_le hq.length_le), ?_⟩
      rw [← List.prefix_iff_eq_take.1 hq]
      exact hf
  cases hp : fs p with
  | some n =>
    have hst : ensureDir fs p = some fs := by
      unfold ensureDir
      rw [(stat_ok fs p n).2 hp]
    cases n with
    | dir =>
      left
      refine ⟨?_, fs, hst, hp, fun _ _ => rfl⟩
      rintro q ⟨r, rfl⟩
      by_cases hr : r = []
      · subst hr; rw [List.append_nil] at hp; rw [hp]; rfl
      · rw [hs.above q r hr (by rw [hp]; simp)]; rfl
    | file c => exact Or.inr ⟨⟨p, List.prefix_refl _, by rw [hp]; rfl⟩, Or.inr ⟨hst, rfl⟩⟩
  | none =>
    have hst : ensureDir fs p = mkdirAll fs p := by
      unfold ensureDir
      split
      · rename_i n h
        rw [(stat_ok fs p n).1 h] at hp
        cases hp
      · rfl
    by_cases hf : ∃ q, q <+: p ∧ isFile (fs q) = true
    · right
      refine ⟨hf, Or.inl ?_⟩
      rw [hst, mkdirAll, if_pos (hany.2 hf)]
    · left
      refine ⟨fun q hq => by
        cases h : isFile (fs q) with
        | false => rfl
        | true => exact absurd ⟨q, hq, h⟩ hf, _, by rw [hst, mkdirAll, if_neg (fun h => hf (hany.1 h))], ?_, ?_⟩
      · exact if_pos ⟨List.prefix_refl _, hp⟩
      · intro x hx
        exact if_neg (fun h => hx h.1)

/-- **C105.** Exactly when `FileMove` succeeds: the source exists, the target is no directory and has no file above it, the target is not below the source, and a
directory does not replace a file. -/
theorem C105_success_iff (cwd : Loc) (fs : FS) (hs : Sound fs) (src dst : Bytes) (hd : dst ≠ []) :
    (fileMove cwd fs src dst).2 = true ↔
      fs (loc cwd src) ≠ none ∧ fs (loc cwd dst) ≠ some .dir ∧
      (∀ q, q <+: loc cwd dst → q ≠ loc cwd dst → isFile (fs q) = false) ∧
      (loc cwd src = loc cwd dst ∨ ¬ loc cwd src <+: loc cwd dst ∧ (fs (loc cwd src) = some .dir → fs (loc cwd dst) = none)) := by
  generalize hS : loc cwd src = s
  generalize hD : loc cwd dst = d
  unfold fileMove
  rw [if_neg hd, hS, hD]
  dsimp only
  by_cases hd0 : d = []
  · subst hd0
    constructor
    · intro h
      rcases ensureDir_cases fs hs [] with ⟨-, fs1, h1, h2, -⟩ | ⟨⟨q, hq, hf⟩, -⟩
      · rw [List.dropLast_nil, h1] at h
        dsimp only at h
        rw [rename, if_pos h2] at h
        cases h
      · rw [List.prefix_nil.1 hq, hs.root] at hf
        cases hf
    · rintro ⟨-, h, -⟩
      exact absurd hs.root h
  have hlen : 0 < d.length := List.length_pos_iff.2 hd0
  have hpre : ∀ q, q <+: d.dropLast ↔ q <+: d ∧ q ≠ d := by
    intro q
    constructor
    · intro h
      refine ⟨h.trans (List.dropLast_prefix d), ?_⟩
      rintro rfl
      have := h.length_le
      rw [List.length_dropLast] at this
      omega
    · rintro ⟨h, hne⟩
      refine List.prefix_of_prefix_length_le h (List.dropLast_prefix d) ?_
      rw [List.length_dropLast]
      have h1 := h.length_le
      have h2 : q.length ≠ d.length := fun he => hne (h.eq_of_length he)
      omega
  rcases ensureDir_cases fs hs d.dropLast with ⟨hno, fs1, h1, h2, h3⟩ | ⟨⟨q, hq, hf⟩, h1⟩
  · have hnf : ∀ q, q <+: d → q ≠ d → isFile (fs q) = false := fun q h h' => hno q ((hpre q).2 ⟨h, h'⟩)
    have hd1 : fs1 d = fs d := h3 d (fun h => ((hpre d).1 h).2 rfl)
    rw [h1]
    dsimp only
    refine Iff.trans (b := rename fs1 s d ≠ none) ?_ ?_
    · cases rename fs1 s d <;> simp
    unfold rename
    rw [hd1]
    by_cases hsd : s = d
    · subst hsd
      rw [hd1]
      by_cases a : fs s = some .dir
      · simp [a]
      · by_cases b : fs s = none
        · simp [b]
        · rw [if_neg a, if_neg b, if_pos rfl]
          exact ⟨fun _ => ⟨b, a, hnf, Or.inl rfl⟩, fun _ => by simp⟩
    · by_cases hsp : s <+: d
      · constructor
        · intro h
          exfalso
          apply h
          rw [if_neg hsd, if_pos hsp]
          split
          · rfl
          · split <;> rfl
        · rintro ⟨-, -, -, h | h⟩
          · exact absurd h hsd
          · exact absurd hsp h.1
      · have hs1 : fs1 s = fs s := h3 s (fun h => hsp ((hpre s).1 h).1)
        have h2' : ¬ fs1 d.dropLast ≠ some .dir := fun h => h h2
        rw [hs1, if_neg hsd, if_neg hsp, if_neg h2']
        by_cases a : fs d = some .dir
        · simp [a]
        · by_cases b : fs s = none
          · simp [b, a]
          · rw [if_neg a, if_neg b]
            by_cases e : fs s = some .dir ∧ fs d ≠ none
            · rw [if_pos e]
              constructor
              · intro h; exact absurd rfl h
              · rintro ⟨-, -, -, h | h⟩
                · exact absurd h hsd
                · exact absurd (h.2 e.1) e.2
            · rw [if_neg e]
              refine ⟨fun _ => ⟨b, a, hnf, Or.inr ⟨hsp, fun h => ?_⟩⟩, fun _ => by simp⟩
              by_contra hc
              exact e ⟨h, hc⟩
  · constructor
    · intro h
      exfalso
      rcases h1 with h1 | ⟨h1, h2⟩
      · rw [h1] at h; cases h
      · rw [h1] at h
        dsimp only at h
        have hnd : fs d.dropLast ≠ some .dir := by
          intro hc; rw [hc] at h2; cases h2
        have hr : rename fs s d = none ∨ s = d ∧ fs s ≠ none := by
          unfold rename
          by_cases a : fs d = some .dir
          · simp [a]
          · by_cases b : fs s = none
            · simp [b]
            · by_cases c : s = d
              · exact Or.inr ⟨c, b⟩
              · left
                rw [if_neg a, if_neg b, if_neg c, if_pos hnd]
                split <;> rfl
        rcases hr with hr | ⟨rfl, hr⟩
        · rw [hr] at h; cases h
        · apply hnd
          have hx : s = s.dropLast ++ [s.getLast hd0] := (List.dropLast_append_getLast hd0).symm
          rw [hx] at hr
          exact hs.parent _ _ hr
    · rintro ⟨-, -, h, -⟩
      have := h q ((hpre q).1 hq).1 ((hpre q).1 hq).2
      rw [hf] at this
      cases this

/-- **C105 (refuted).** With an empty target, success is reported and nothing is moved. -/
theorem C105_empty_refuted (cwd : Loc) (fs : FS) (src : Bytes) : fileMove cwd fs src [] = (fs, true) := rfl

/-- A move into a directory that does not exist yet. -/
example : (fileMove [] (fun x => if x = [] then some .dir else if x = [lit "f"] then some (.file (lit "x")) else none) (lit "f")
    (lit "a/b/g")).2 = true ∧
    (fileMove [] (fun x => if x = [] then some .dir else if x = [lit "f"] then some (.file (lit "x")) else none) (lit "f")
    (lit "a/b/g")).1 [lit "a", lit "b", lit "g"] = some (.file (lit "x")) := by decide +kernel

/-- A directory does not replace a file. -/
example : (fileMove [] (fun x => if x = [] ∨ x = [lit "d"] then some .dir else if x = [lit "f"] then some (.file (lit "x")) else none) (lit "d")
    (lit "f")).2 = false := by decide +kernel

/-! ## C106, C107 -/

/-- **C106 (what happens).** `FileExist` is true exactly if there is a file at the path, or a file on the way and nothing at the path. -/
theorem C106_file_exist_exact (fs : FS) (hs : Sound fs) (l : Loc) :
    fileExist fs l = true ↔ isFile (fs l) = true ∨ ∃ p, p <+: l ∧ p ≠ l ∧ isFile (fs p) = true := by
  unfold fileExist
  have habove : ∀ n, fs l = some n → ¬ ∃ p, p <+: l ∧ p ≠ l ∧ isFile (fs p) = true := by
    rintro n hn ⟨p, ⟨r, rfl⟩, hne, hf⟩
    have hr : r ≠ [] := fun h => hne (by rw [h, List.append_nil])
    rw [hs.above p r hr (by rw [hn]; simp)] at hf
    cases hf
  cases hst : stat fs l with
  | ok n =>
    have hn := (stat_ok fs l n).1 hst
    dsimp only
    rw [decide_eq_true_eq, hn]
    cases n with
    | dir =>
      constructor
      · intro h; exact absurd rfl h
      · rintro (h | h)
        · cases h
        · exact absurd h (habove _ hn)
    | file c => exact ⟨fun _ => Or.inl rfl, fun _ => by simp⟩
  | notDir =>
    refine ⟨fun _ => Or.inr ?_, fun _ => rfl⟩
    unfold stat at hst
    split at hst
    · cases hst
    · split at hst
      · rename_i hnone ha
        rw [List.any_eq_true] at ha
        obtain ⟨i, hi, hf⟩ := ha
        rw [List.mem_range] at hi
        refine ⟨l.take i, List.take_prefix i l, ?_, hf⟩
        intro he
        have := congrArg List.length he
        rw [List.length_take] at this
        omega
      · cases hst
  | notExist =>
    refine ⟨fun h => (Bool.false_ne_true h).elim, ?_⟩
    rintro (h | ⟨p, ⟨r, rfl⟩, hne, hf⟩)
    · rw [stat_notExist fs l hst] at h; cases h
    · exfalso
      unfold stat at hst
      rw [stat_notExist fs _ (by unfold stat; exact hst)] at hst
      dsimp only at hst
      split at hst
      · cases hst
      · rename_i ha
        apply ha
        rw [List.any_eq_true]
        refine ⟨p.length, ?_, by rw [List.take_left]; exact hf⟩
        rw [List.mem_range, List.length_append]
        have : r ≠ [] := fun h => hne (by rw [h, List.append_nil])
        have := List.length_pos_iff.2 this
        omega

/-- **C106 (refuted).** `FileExist` (and `FileIsExisted`) say that `f/x` exists if `f` is a file. -/
theorem C106_file_exist_refuted :
    ∃ (fs : FS) (l : Loc), Sound fs ∧ fs l = none ∧ fileExist fs l = true ∧ fileIsExisted fs l = true := by
  refine ⟨fun x => if x = [] then some .dir else if x = [lit "f"] then some (.file []) else none, [lit "f", lit "x"], ?_, by decide +kernel⟩
  refine ⟨rfl, ?_, ?_⟩
  · intro l n h
    rw [if_neg (by simp)] at h
    split at h
    · rename_i he
      have : l = [] := by
        have := congrArg List.length he
        simp at this
        exact this
      rw [if_pos this]
    · exact absurd rfl h
  · intro l n h
    rw [if_neg (by simp)] at h
    split at h
    · rename_i he
      have hl : l = [] := by
        have := congrArg List.length he
        simp at this
        exact this
      subst hl
      simp only [List.nil_append, List.cons.injEq, and_true] at he
      subst he
      unfold Plain Paths.Name
      decide +kernel
    · exact absurd rfl h

/-- **C106 (partial).** If there is no file on the way, `FileExist` is true exactly for files, and `FileIsExisted` exactly for what
exists. Missing: paths through files, see above. -/
theorem C106_file_exist_partial (fs : FS) (l : Loc) (hfree : ∀ p, p <+: l → p ≠ l → isFile (fs p) = false) :
    (fileExist fs l = true ↔ isFile (fs l) = true) ∧ (fileIsExisted fs l = true ↔ fs l ≠ none) := by
  have hst : stat fs l ≠ .notDir := by
    intro hst
    unfold stat at hst
    split at hst
    · cases hst
    · split at hst
      · rename_i hnone ha
        rw [List.any_eq_true] at ha
        obtain ⟨i, hi, hf⟩ := ha
        rw [List.mem_range] at hi
        rw [hfree _ (List.take_prefix i l)] at hf
        · cases hf
        · intro he
          have := congrArg List.length he
          rw [List.length_take] at this
          omega
      · cases hst
  unfold fileExist fileIsExisted
  cases h : stat fs l with
  | ok n =>
    rw [stat_ok] at h
    rw [h]
    cases n <;> simp [isFile]
  | notDir => exact absurd h hst
  | notExist =>
    rw [stat_notExist fs l h]
    simp [isFile]

/-- **C107.** `IsDir` is true exactly for directories. -/
theorem C107_is_dir (fs : FS) (l : Loc) : isDirectory fs l = true ↔ fs l = some .dir := by
  unfold isDirectory
  cases h : stat fs l with
  | ok n =>
    rw [stat_ok] at h
    rw [h]
    cases n <;> simp
  | notDir =>
    refine ⟨fun h => (Bool.false_ne_true h).elim, fun hd => ?_⟩
    rw [(stat_ok fs l .dir).2 hd] at h
    cases h
  | notExist =>
    rw [stat_notExist fs l h]
    simp

/-- **C107 (partial).** For paths at which there is something, `IsFile` is true exactly for files. Missing: other paths, see below. -/
theorem C107_is_file_partial (fs : FS) (l : Loc) (h : fs l ≠ none) : isFilePath fs l = true ↔ isFile (fs l) = true := by
  unfold isFilePath
  rw [Bool.not_eq_true', ← Bool.not_eq_true, C107_is_dir]
  cases hn : fs l with
  | none => exact absurd hn h
  | some n => cases n <;> simp [isFile]

/-- **C107 (refuted).** `IsFile` is true wherever there is nothing. -/
theorem C107_is_file_refuted (fs : FS) (l : Loc) (h : fs l = none) : isFilePath fs l = true := by
  unfold isFilePath
  rw [Bool.not_eq_true', ← Bool.not_eq_true, C107_is_dir, h]
  simp

end Verif.Fs
