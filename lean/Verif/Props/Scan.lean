import Verif.Props.Files
import Mathlib.Data.List.Nodup

/-!
# C89: `ScanDir` lists every file once (help/utils/files.go:174-193)
-/

namespace Verif.Fs

open Utf8 Spec.Path

/-- The answers of `ReadDir` agree with the file system: the names of a directory, each once, and whether it is a directory. (`ReadDir`
may fail, but only directories can be read.) -/
def Faithful (fs : FS) (readDir : Loc → Option (List (Bytes × Bool))) : Prop :=
  ∀ l infos, readDir l = some infos → fs l = some .dir ∧ (infos.map (·.1)).Nodup ∧
    ∀ n b, (n, b) ∈ infos ↔ if b then fs (l ++ [n]) = some .dir else isFile (fs (l ++ [n])) = true

/-- The path of what lies at `rel` below directory `dir`. -/
def below (dir : Bytes) (rel : Loc) : Bytes := dir ++ rel.flatMap (fun n => 47 :: n)

/-! ## Paths -/

theorem below_inj (dir : Bytes) (a b : Loc) (ha : ∀ n ∈ a, 47 ∉ n) (hb : ∀ n ∈ b, 47 ∉ n) (h : below dir a = below dir b) : a = b := by
  replace h := List.append_cancel_left h
  have key : ∀ (m n u v : Bytes), 47 ∉ m → 47 ∉ n → (u = [] ∨ ∃ u', u = 47 :: u') → (v = [] ∨ ∃ v', v = 47 :: v') →
      m ++ u = n ++ v → m = n ∧ u = v := by
    intro m
    induction m with
    | nil =>
      intro n u v _ hn hu hv h
      cases n with
      | nil => exact ⟨rfl, h⟩
      | cons c n =>
        rw [List.nil_append] at h
        rcases hu with hu | ⟨u', hu⟩
        · rw [hu] at h; cases h
        · rw [hu, List.cons_append, List.cons.injEq] at h
          exact absurd (by rw [h.1]; exact List.mem_cons_self) hn
    | cons c m ih =>
      intro n u v hm hn hu hv h
      cases n with
      | nil =>
        rw [List.nil_append] at h
        rcases hv with hv | ⟨v', hv⟩
        · rw [hv] at h; cases h
        · rw [hv, List.cons_append, List.cons.injEq] at h
          exact absurd (by rw [← h.1]; exact List.mem_cons_self) hm
      | cons d n =>
        rw [List.cons_append, List.cons_append, List.cons.injEq] at h
        obtain ⟨h1, h2⟩ := ih n u v (fun h => hm (List.mem_cons_of_mem _ h)) (fun h => hn (List.mem_cons_of_mem _ h)) hu hv h.2
        exact ⟨by rw [h.1, h1], h2⟩
  have hshape : ∀ a : Loc, a.flatMap (fun n => 47 :: n) = [] ∨ ∃ u, a.flatMap (fun n => 47 :: n) = 47 :: u := by
    intro a
    cases a with
    | nil => exact Or.inl rfl
    | cons m a => exact Or.inr ⟨m ++ a.flatMap (fun n => 47 :: n), rfl⟩
  induction a generalizing b with
  | nil =>
    cases b with
    | nil => rfl
    | cons n b => cases h
  | cons m a ih =>
    cases b with
    | nil => cases h
    | cons n b =>
      rw [List.flatMap_cons, List.flatMap_cons, List.cons_append, List.cons_append, List.cons.injEq] at h
      obtain ⟨h1, h2⟩ := key m n _ _ (ha m List.mem_cons_self) (hb n List.mem_cons_self) (hshape a) (hshape b) h.2
      rw [h1, ih b (fun x hx => ha x (List.mem_cons_of_mem _ hx)) (fun x hx => hb x (List.mem_cons_of_mem _ hx)) h2]

theorem trim_id (s : Bytes) (h : s.getLast? ≠ some 47) : Strings.trimSuffix s (lit "/") = s := by
  unfold Strings.trimSuffix
  rw [if_neg]
  rw [List.isSuffixOf_iff_suffix, show lit "/" = [47] by decide]
  rintro ⟨t, rfl⟩
  exact h (by simp)

/-! ## The recursion -/

/-- What a scan of directory `dir` at `l` should give: the files below, each once. -/
def Lists (fs : FS) (dir : Bytes) (l : Loc) (files : List Bytes) : Prop :=
  files.Nodup ∧ ∀ q, q ∈ files ↔ ∃ rel, isFile (fs (l ++ rel)) = true ∧ q = below dir rel

/-- Every directory at or below `l` can be read. -/
def Readable (fs : FS) (readDir : Loc → Option (List (Bytes × Bool))) (l : Loc) : Prop :=
  ∀ rel, fs (l ++ rel) = some .dir → readDir (l ++ rel) ≠ none

theorem Sound.names {fs : FS} (h : Sound fs) (l rel : Loc) (hx : fs (l ++ rel) ≠ none) : ∀ n ∈ rel, Plain n := by
  induction rel using List.reverseRecOn with
  | nil => simp
  | append_singleton r n ih =>
    rw [← List.append_assoc] at hx
    intro m hm
    rcases List.mem_append.1 hm with hm | hm
    · exact ih (by rw [h.parent _ _ hx]; simp) m hm
    · rw [List.mem_singleton] at hm
      rw [hm]
      exact h.plain _ _ hx

theorem below_cons (dir : Bytes) (n : Bytes) (rel : Loc) : below dir (n :: rel) = below (dir ++ lit "/" ++ n) rel := by
  unfold below
  rw [show lit "/" = [47] by decide]
  simp

/-- What the loop adds for the names still to come. -/
theorem scanLoop_spec (fs : FS) (hs : Sound fs) (again : Bytes → Go (Option (List Bytes))) (dir : Bytes) (l : Loc)
    (infos : List (Bytes × Bool)) (hnd : (infos.map (·.1)).Nodup)
    (hmem : ∀ n b, (n, b) ∈ infos → if b then fs (l ++ [n]) = some .dir else isFile (fs (l ++ [n])) = true)
    (hag : ∀ n, (n, true) ∈ infos → ∃ r, again (dir ++ lit "/" ++ n) = .ok r ∧
      ∀ files, r = some files → Lists fs (dir ++ lit "/" ++ n) (l ++ [n]) files)
    (acc : List Bytes) :
    ∃ r, scanLoop again dir infos acc = .ok r ∧
      (r = none ↔ ∃ n, (n, true) ∈ infos ∧ again (dir ++ lit "/" ++ n) = .ok none) ∧
      ∀ files, r = some files → ∃ more, files = acc ++ more ∧ more.Nodup ∧
        ∀ q, q ∈ more ↔ ∃ n b rel, (n, b) ∈ infos ∧ isFile (fs (l ++ n :: rel)) = true ∧ q = below dir (n :: rel) := by
  induction infos generalizing acc with
  | nil =>
    refine ⟨some acc, rfl, by simp, ?_⟩
    intro files hf
    rw [Option.some.injEq] at hf
    exact ⟨[], by simp [hf], by simp, by simp⟩
  | cons x infos ih =>
    obtain ⟨n, b⟩ := x
    rw [List.map_cons, List.nodup_cons] at hnd
    have hih := ih hnd.2 (fun n b h => hmem n b (List.mem_cons_of_mem _ h)) (fun n h => hag n (List.mem_cons_of_mem _ h))
    -- a file below this name is not below another
    have hdisj : ∀ (q : Bytes) rel1, isFile (fs (l ++ n :: rel1)) = true → q = below dir (n :: rel1) →
        ¬ ∃ m b rel, (m, b) ∈ infos ∧ isFile (fs (l ++ m :: rel)) = true ∧ q = below dir (m :: rel) := by
      rintro q rel1 h1 h2 ⟨m, b, rel, hm, h3, h4⟩
      have hne1 : fs (l ++ n :: rel1) ≠ none := by intro h; rw [h] at h1; cases h1
      have hne2 : fs (l ++ m :: rel) ≠ none := by intro h; rw [h] at h3; cases h3
      have := below_inj dir (n :: rel1) (m :: rel) (fun x hx => (hs.names l _ hne1 x hx).1) (fun x hx => (hs.names l _ hne2 x hx).1)
        (by rw [← h2, h4])
      rw [List.cons.injEq] at this
      apply hnd.1
      rw [this.1]
      exact List.mem_map.2 ⟨(m, b), hm, rfl⟩
    cases b with
    | false =>
      rw [scanLoop]
      obtain ⟨r, h1, h2, h3⟩ := hih (acc ++ [dir ++ lit "/" ++ n])
      have hfile : isFile (fs (l ++ [n])) = true := by
        have := hmem n false List.mem_cons_self
        simpa using this
      have hb : below dir [n] = dir ++ lit "/" ++ n := by rw [below_cons]; simp [below]
      refine ⟨r, h1, ?_, ?_⟩
      · rw [h2]
        constructor
        · rintro ⟨m, hm, ha⟩; exact ⟨m, List.mem_cons_of_mem _ hm, ha⟩
        · rintro ⟨m, hm, ha⟩
          rcases List.mem_cons.1 hm with he | hm
          · cases he
          · exact ⟨m, hm, ha⟩
      · intro files hf
        obtain ⟨more, e1, e2, e3⟩ := h3 files hf
        refine ⟨(dir ++ lit "/" ++ n) :: more, by rw [e1]; simp, ?_, ?_⟩
        · rw [List.nodup_cons]
          refine ⟨?_, e2⟩
          rw [e3]
          exact hdisj _ [] hfile hb.symm
        · intro q
          rw [List.mem_cons, e3]
          constructor
          · rintro (rfl | ⟨m, b, rel, hm, h4, h5⟩)
            · exact ⟨n, false, [], List.mem_cons_self, hfile, hb.symm⟩
            · exact ⟨m, b, rel, List.mem_cons_of_mem _ hm, h4, h5⟩
          · rintro ⟨m, b, rel, hm, h4, h5⟩
            rcases List.mem_cons.1 hm with he | hm
            · rw [Prod.mk.injEq] at he
              obtain ⟨rfl, rfl⟩ := he
              left
              have hrel : rel = [] := by
                by_cases hr : rel = []
                · exact hr
                · have hab := hs.above (l ++ [m]) rel hr (by
                    rw [List.append_assoc]
                    intro h
                    rw [show [m] ++ rel = m :: rel from rfl] at h
                    rw [h] at h4
                    cases h4)
                  rw [hab] at hfile
                  cases hfile
              rw [h5, hrel, hb]
            · exact Or.inr ⟨m, b, rel, hm, h4, h5⟩
    | true =>
      rw [scanLoop]
      obtain ⟨ra, ha1, ha2⟩ := hag n List.mem_cons_self
      rw [ha1, Go.bind_ok]
      cases ra with
      | none =>
        refine ⟨none, rfl, ⟨fun _ => ⟨n, List.mem_cons_self, ha1⟩, fun _ => rfl⟩, fun files hf => by cases hf⟩
      | some item =>
        dsimp only
        obtain ⟨i1, i2⟩ := ha2 item rfl
        obtain ⟨r, h1, h2, h3⟩ := hih (acc ++ item)
        refine ⟨r, h1, ?_, ?_⟩
        · rw [h2]
          constructor
          · rintro ⟨m, hm, ha⟩; exact ⟨m, List.mem_cons_of_mem _ hm, ha⟩
          · rintro ⟨m, hm, ha⟩
            rcases List.mem_cons.1 hm with he | hm
            · rw [Prod.mk.injEq] at he
              rw [he.1, ha1] at ha
              cases ha
            · exact ⟨m, hm, ha⟩
        · intro files hf
          obtain ⟨more, e1, e2, e3⟩ := h3 files hf
          have hitem : ∀ q, q ∈ item ↔ ∃ rel, isFile (fs (l ++ n :: rel)) = true ∧ q = below dir (n :: rel) := by
            intro q
            rw [i2]
            constructor
            · rintro ⟨rel, h4, h5⟩
              rw [List.append_assoc] at h4
              exact ⟨rel, h4, by rw [below_cons]; exact h5⟩
            · rintro ⟨rel, h4, h5⟩
              refine ⟨rel, ?_, by rw [below_cons] at h5; exact h5⟩
              rw [List.append_assoc]
              exact h4
          refine ⟨item ++ more, by rw [e1]; simp, ?_, ?_⟩
          · rw [List.nodup_append]
            refine ⟨i1, e2, ?_⟩
            intro q hq q' hq' hqq
            subst hqq
            obtain ⟨rel, h4, h5⟩ := (hitem q).1 hq
            exact hdisj q rel h4 h5 ((e3 q).1 hq')
          · intro q
            rw [List.mem_append, e3, hitem]
            constructor
            · rintro (⟨rel, h4, h5⟩ | ⟨m, b, rel, hm, h4, h5⟩)
              · exact ⟨n, true, rel, List.mem_cons_self, h4, h5⟩
              · exact ⟨m, b, rel, List.mem_cons_of_mem _ hm, h4, h5⟩
            · rintro ⟨m, b, rel, hm, h4, h5⟩
              rcases List.mem_cons.1 hm with he | hm
              · rw [Prod.mk.injEq] at he
                left
                rw [he.1] at h4 h5
                exact ⟨rel, h4, h5⟩
              · exact Or.inr ⟨m, b, rel, hm, h4, h5⟩

/-- The path of a child. -/
theorem child_path (cwd : Loc) (dir n : Bytes) (hd : dir ≠ []) (hn : Plain n) :
    loc cwd (dir ++ lit "/" ++ n) = loc cwd dir ++ [n] ∧ (dir ++ lit "/" ++ n) ≠ [] ∧ (dir ++ lit "/" ++ n).getLast? ≠ some 47 := by
  rw [show lit "/" = [47] by decide]
  refine ⟨?_, by simp, ?_⟩
  · rw [Paths.loc_slash cwd dir n hd, Paths.elems_free n hn.1]
    exact Paths.step_name _ _ hn
  · intro h
    rw [List.getLast?_append_of_ne_nil _ hn.2.1] at h
    exact hn.1 (List.mem_of_getLast? h)

theorem scanDir_spec (cwd : Loc) (fs : FS) (hs : Sound fs) (readDir : Loc → Option (List (Bytes × Bool))) (hf : Faithful fs readDir)
    (fuel : Nat) (dir : Bytes) (hne : dir ≠ []) (hlast : dir.getLast? ≠ some 47)
    (hdepth : ∀ rel, fuel ≤ rel.length → fs (loc cwd dir ++ rel) = none) (hdir : fs (loc cwd dir) = some .dir) :
    ∃ r, scanDir cwd readDir fuel dir = .ok r ∧
      (r = none ↔ ¬ Readable fs readDir (loc cwd dir)) ∧
      ∀ files, r = some files → Lists fs dir (loc cwd dir) files := by
  induction fuel generalizing dir with
  | zero =>
    have := hdepth [] (Nat.le_refl 0)
    rw [List.append_nil, hdir] at this
    cases this
  | succ fuel ih =>
    rw [scanDir, trim_id dir hlast, if_neg hne]
    cases hr : readDir (loc cwd dir) with
    | none =>
      refine ⟨none, rfl, ⟨fun _ h => ?_, fun _ => rfl⟩, fun files h => by cases h⟩
      exact h [] (by rw [List.append_nil]; exact hdir) (by rw [List.append_nil]; exact hr)
    | some infos =>
      dsimp only
      obtain ⟨-, hnd, hmem⟩ := hf _ infos hr
      have hsub : ∀ n, (n, true) ∈ infos → fs (loc cwd dir ++ [n]) = some .dir := by
        intro n hn
        have := (hmem n true).1 hn
        simpa using this
      have hrec : ∀ n, (n, true) ∈ infos → ∃ r, scanDir cwd readDir fuel (dir ++ lit "/" ++ n) = .ok r ∧
          (r = none ↔ ¬ Readable fs readDir (loc cwd dir ++ [n])) ∧
          ∀ files, r = some files → Lists fs (dir ++ lit "/" ++ n) (loc cwd dir ++ [n]) files := by
        intro n hn
        have hnd := hsub n hn
        obtain ⟨c1, c2, c3⟩ := child_path cwd dir n hne (hs.plain _ n (by rw [hnd]; simp))
        have := ih (dir ++ lit "/" ++ n) c2 c3 (by
          intro rel hrel
          rw [c1, List.append_assoc]
          exact hdepth ([n] ++ rel) (by simp; omega)) (by rw [c1]; exact hnd)
        rw [c1] at this
        exact this
      obtain ⟨r, h1, h2, h3⟩ := scanLoop_spec fs hs (scanDir cwd readDir fuel) dir (loc cwd dir) infos hnd
        (fun n b h => (hmem n b).1 h) (fun n hn => by
          obtain ⟨r, r1, -, r3⟩ := hrec n hn
          exact ⟨r, r1, r3⟩) []
      refine ⟨r, h1, ?_, ?_⟩
      · rw [h2]
        constructor
        · rintro ⟨n, hn, ha⟩ hread
          obtain ⟨r, r1, r2, -⟩ := hrec n hn
          rw [ha, Except.ok.injEq] at r1
          refine r2.1 r1.symm ?_
          intro rel hrel
          rw [List.append_assoc] at hrel ⊢
          exact hread _ hrel
        · intro hread
          unfold Readable at hread
          simp only [not_forall] at hread
          obtain ⟨rel, hd, hx⟩ := hread
          have hx : readDir (loc cwd dir ++ rel) = none := by
            cases h : readDir (loc cwd dir ++ rel) with
            | none => rfl
            | some i => exact absurd (by rw [h]; simp) hx
          cases rel with
          | nil => rw [List.append_nil, hr] at hx; cases hx
          | cons n rel =>
            have hn : fs (loc cwd dir ++ [n]) = some .dir := by
              by_cases hr : rel = []
              · rw [hr] at hd; exact hd
              · refine hs.above (loc cwd dir ++ [n]) rel hr ?_
                rw [List.append_assoc]
                show fs (loc cwd dir ++ n :: rel) ≠ none
                rw [hd]
                simp
            have hin : (n, true) ∈ infos := (hmem n true).2 (by simpa using hn)
            obtain ⟨r, r1, r2, -⟩ := hrec n hin
            refine ⟨n, hin, ?_⟩
            have : r = none := by
              rw [r2]
              intro hread
              have := hread rel (by rw [List.append_assoc]; exact hd)
              rw [List.append_assoc] at this
              exact this hx
            rw [r1, this]
      · intro files hf
        obtain ⟨more, e1, e2, e3⟩ := h3 files hf
        rw [List.nil_append] at e1
        subst e1
        refine ⟨e2, fun q => ?_⟩
        rw [e3]
        constructor
        · rintro ⟨n, b, rel, -, h4, h5⟩
          exact ⟨n :: rel, h4, h5⟩
        · rintro ⟨rel, h4, h5⟩
          cases rel with
          | nil => rw [List.append_nil, hdir] at h4; cases h4
          | cons n rel =>
            by_cases hr : rel = []
            · subst hr
              exact ⟨n, false, [], (hmem n false).2 (by simpa using h4), h4, h5⟩
            · have hn : fs (loc cwd dir ++ [n]) = some .dir := by
                refine hs.above (loc cwd dir ++ [n]) rel hr ?_
                rw [List.append_assoc]
                intro h
                rw [show [n] ++ rel = n :: rel from rfl] at h
                rw [h] at h4
                cases h4
              exact ⟨n, true, rel, (hmem n true).2 (by simpa using hn), h4, h5⟩

/-- **C89 (partial).** For every directory tree (of any size; `depth` bounds how deep it is) and a path `dir` that leads to a directory,
`ScanDir(dir)` and `ScanDir(dir/)` terminate; they fail exactly if some directory at or below cannot be read; otherwise they list each
file below exactly once, as the path of the directory followed by the names. Missing: the root directory, see below. -/
theorem C89_scan_partial (cwd : Loc) (fs : FS) (hs : Sound fs) (readDir : Loc → Option (List (Bytes × Bool))) (hf : Faithful fs readDir)
    (dir : Bytes) (hne : dir ≠ []) (hlast : dir.getLast? ≠ some 47) (hdir : fs (loc cwd dir) = some .dir)
    (depth : Nat) (hdepth : ∀ rel, depth ≤ rel.length → fs (loc cwd dir ++ rel) = none) :
    ∃ r, scanDir cwd readDir depth dir = .ok r ∧ scanDir cwd readDir depth (dir ++ lit "/") = .ok r ∧
      (r = none ↔ ∃ rel, fs (loc cwd dir ++ rel) = some .dir ∧ readDir (loc cwd dir ++ rel) = none) ∧
      ∀ files, r = some files → files.Nodup ∧
        ∀ q, q ∈ files ↔ ∃ rel, isFile (fs (loc cwd dir ++ rel)) = true ∧ q = dir ++ rel.flatMap (fun n => 47 :: n) := by
  obtain ⟨r, h1, h2, h3⟩ := scanDir_spec cwd fs hs readDir hf depth dir hne hlast hdepth hdir
  refine ⟨r, h1, ?_, ?_, h3⟩
  · cases depth with
    | zero => exact h1
    | succ d =>
      rw [scanDir] at h1 ⊢
      have ht : Strings.trimSuffix (dir ++ lit "/") (lit "/") = dir := by
        unfold Strings.trimSuffix
        rw [if_pos (by rw [List.isSuffixOf_iff_suffix]; exact List.suffix_append _ _)]
        simp
      rw [ht]
      rw [trim_id dir hlast] at h1
      exact h1
  · rw [h2]
    unfold Readable
    simp only [not_forall, not_not, exists_prop, ne_eq]

/-- **C89 (refuted).** The root directory cannot be scanned: the path becomes empty. -/
theorem C89_root_refuted (cwd : Loc) (readDir : Loc → Option (List (Bytes × Bool))) (depth : Nat) :
    scanDir cwd readDir (depth + 1) (lit "/") = .ok none := by
  rw [scanDir]
  rw [show Strings.trimSuffix (lit "/") (lit "/") = [] by decide +kernel, if_pos rfl]
  rfl

/-! ## A concrete case -/

/-- `/d` with a file `x`, a directory `e` with a file `y`, and an empty directory `z`. -/
def small : FS := fun l =>
  if l = [] ∨ l = [lit "d"] ∨ l = [lit "d", lit "e"] ∨ l = [lit "d", lit "z"] then some .dir
  else if l = [lit "d", lit "x"] ∨ l = [lit "d", lit "e", lit "y"] then some (.file [])
  else none

def smallDir : Loc → Option (List (Bytes × Bool)) := fun l =>
  if l = [lit "d"] then some [(lit "e", true), (lit "x", false), (lit "z", true)]
  else if l = [lit "d", lit "e"] then some [(lit "y", false)]
  else if l = [lit "d", lit "z"] then some []
  else none

theorem small_cases (l : Loc) (n : Bytes) (h : small (l ++ [n]) ≠ none) :
    (l = [] ∧ n = lit "d") ∨ (l = [lit "d"] ∧ n = lit "e") ∨ (l = [lit "d"] ∧ n = lit "z") ∨ (l = [lit "d"] ∧ n = lit "x") ∨
    (l = [lit "d", lit "e"] ∧ n = lit "y") := by
  have key : ∀ (r : Loc) (m : Bytes), l ++ [n] = r ++ [m] → l = r ∧ n = m := by
    intro r m he
    obtain ⟨h1, h2⟩ := List.append_inj' he rfl
    exact ⟨h1, by simpa using h2⟩
  unfold small at h
  split at h
  · rename_i hh
    rcases hh with hh | hh | hh | hh
    · exact absurd hh (by simp)
    · exact Or.inl (key [] _ hh)
    · exact Or.inr (Or.inl (key [lit "d"] _ hh))
    · exact Or.inr (Or.inr (Or.inl (key [lit "d"] _ hh)))
  · split at h
    · rename_i hh
      rcases hh with hh | hh
      · exact Or.inr (Or.inr (Or.inr (Or.inl (key [lit "d"] _ hh))))
      · exact Or.inr (Or.inr (Or.inr (Or.inr (key [lit "d", lit "e"] _ hh))))
    · exact absurd rfl h

/-- The hypotheses hold. -/
example : Sound small ∧ Faithful small smallDir ∧ small (loc [] (lit "d")) = some .dir ∧
    ∀ rel, 4 ≤ rel.length → small (loc [] (lit "d") ++ rel) = none := by
  refine ⟨⟨by decide +kernel, ?_, ?_⟩, ?_, by decide +kernel, ?_⟩
  · intro l n h
    rcases small_cases l n h with ⟨rfl, rfl⟩ | ⟨rfl, rfl⟩ | ⟨rfl, rfl⟩ | ⟨rfl, rfl⟩ | ⟨rfl, rfl⟩ <;> decide +kernel
  · intro l n h
    unfold Plain Paths.Name
    rcases small_cases l n h with ⟨rfl, rfl⟩ | ⟨rfl, rfl⟩ | ⟨rfl, rfl⟩ | ⟨rfl, rfl⟩ | ⟨rfl, rfl⟩ <;> decide +kernel
  · intro l infos h
    have hback : ∀ n b, (if b = true then small (l ++ [n]) = some .dir else isFile (small (l ++ [n])) = true) → small (l ++ [n]) ≠ none := by
      intro n b hb hx
      rw [hx] at hb
      cases b <;> simp [isFile] at hb
    unfold smallDir at h
    split at h
    · rename_i hl
      subst hl
      rw [Option.some.injEq] at h
      subst h
      refine ⟨by decide +kernel, by decide +kernel, fun n b => ⟨fun h => ?_, fun h => ?_⟩⟩
      · simp only [List.mem_cons, Prod.mk.injEq, List.not_mem_nil, or_false] at h
        rcases h with ⟨rfl, rfl⟩ | ⟨rfl, rfl⟩ | ⟨rfl, rfl⟩ <;> decide +kernel
      · rcases small_cases _ n (hback n b h) with ⟨hl, rfl⟩ | ⟨hl, rfl⟩ | ⟨hl, rfl⟩ | ⟨hl, rfl⟩ | ⟨hl, rfl⟩ <;>
          revert hl h <;> cases b <;> decide +kernel
    · split at h
      · rename_i hl
        subst hl
        rw [Option.some.injEq] at h
        subst h
        refine ⟨by decide +kernel, by decide +kernel, fun n b => ⟨fun h => ?_, fun h => ?_⟩⟩
        · simp only [List.mem_cons, Prod.mk.injEq, List.not_mem_nil, or_false] at h
          obtain ⟨rfl, rfl⟩ := h
          decide +kernel
        · rcases small_cases _ n (hback n b h) with ⟨hl, rfl⟩ | ⟨hl, rfl⟩ | ⟨hl, rfl⟩ | ⟨hl, rfl⟩ | ⟨hl, rfl⟩ <;>
            revert hl h <;> cases b <;> decide +kernel
      · split at h
        · rename_i hl
          subst hl
          rw [Option.some.injEq] at h
          subst h
          refine ⟨by decide +kernel, by decide +kernel, fun n b => ⟨fun h => ?_, fun h => ?_⟩⟩
          · cases h
          · rcases small_cases _ n (hback n b h) with ⟨hl, rfl⟩ | ⟨hl, rfl⟩ | ⟨hl, rfl⟩ | ⟨hl, rfl⟩ | ⟨hl, rfl⟩ <;>
              revert hl h <;> cases b <;> decide +kernel
        · cases h
  · intro rel hrel
    rw [show loc [] (lit "d") = [lit "d"] by decide +kernel]
    unfold small
    have hl : ∀ x : Loc, x.length ≤ 3 → [lit "d"] ++ rel ≠ x := by
      rintro x hx rfl
      simp at hx
      omega
    rw [if_neg, if_neg]
    · rintro (h | h)
      · exact hl _ (by simp) h
      · exact hl _ (by simp) h
    · rintro (h | h | h | h)
      · exact hl _ (by simp) h
      · exact hl _ (by simp) h
      · exact hl _ (by simp) h
      · exact hl _ (by simp) h

example : scanDir [] smallDir 4 (lit "d/") = .ok (some [lit "d/e/y", lit "d/x"]) := by rfl

end Verif.Fs
