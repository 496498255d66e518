import Verif.Proof.FsLink
import Verif.Proof.Paths
import Verif.Props.FsLink

/-!
# Removing and copying where there are symbolic links
-/

namespace Verif.FsLink

open Spec.Walk Spec.Path Utf8
open Paths hiding Name

/-! ## C155: removing -/

theorem elems_slashes (j : Nat) : elems (List.replicate j 47) = List.replicate (j + 1) [] := by
  induction j with
  | zero => rfl
  | succ j ih =>
    have := elems_append [] (List.replicate j 47) (by simp)
    rw [List.replicate_succ, List.replicate_succ (n := j + 1), ← ih]
    exact this

theorem elems_trailing (e : Bytes) (he : 47 ∉ e) (j : Nat) : elems (e ++ List.replicate j 47) = e :: List.replicate j [] := by
  cases j with
  | zero => rw [List.replicate_zero, List.append_nil, elems_free e he, List.replicate_zero]
  | succ j => rw [List.replicate_succ, elems_append e _ he, elems_slashes]

theorem stripped (a : List Bytes) (e : Bytes) (he : e ≠ []) (j : Nat) :
    ((a ++ e :: List.replicate j []).reverse.dropWhile (· = [])).reverse = a ++ [e] := by
  rw [List.reverse_append, List.reverse_cons, List.reverse_replicate, List.append_assoc, List.dropWhile_append_of_pos (by
    intro b hb
    rw [(List.mem_replicate.1 hb).2]
    simp)]
  rw [List.singleton_append, List.dropWhile_cons_of_neg (by simpa using he), List.reverse_cons, List.reverse_reverse]

theorem removed {fs : FS} (hs : Sane fs) {cwd : Loc} {p : Bytes} (hp : p ≠ []) {a : List Bytes} {d : Loc} {k : Nat}
    (h : Leads fs k (start cwd p) a d) (hk : k ≤ 40) (hd : fs d = some .dir) {e : Bytes} (he : Name e) {j : Nat}
    (hel : elems p = a ++ e :: List.replicate j []) :
    (delFile fs cwd p).2 = true ∧ ∀ x, (d ++ [e] <+: x → (delFile fs cwd p).1 x = none) ∧ (¬ d ++ [e] <+: x → (delFile fs cwd p).1 x = fs x) := by
  have hlast : ¬ (elems p).getLast? = some dot := by
    rw [hel]
    cases j with
    | zero =>
      rw [List.replicate_zero, List.getLast?_concat]
      intro h
      injection h with h
      exact he.2.1 h
    | succ j =>
      rw [List.replicate_succ', ← List.cons_append, ← List.append_assoc, List.getLast?_concat]
      intro h
      cases h
  unfold delFile removeAll
  rw [if_neg hp, if_neg hlast, hel, stripped a e he.1, walk_last h hd he 40 hk]
  by_cases hn : fs (d ++ [e]) = none
  · rw [if_pos hn]
    refine ⟨rfl, fun x => ⟨fun hx => ?_, fun _ => rfl⟩⟩
    obtain ⟨r, rfl⟩ := hx
    by_cases hr : r = []
    · rw [hr, List.append_nil]; exact hn
    · cases hy : fs (d ++ [e] ++ r) with
      | none => exact hy
      | some m =>
        have := sane_below hs hr (by rw [hy]; simp)
        rw [hn] at this
        cases this
  · rw [if_neg hn]
    refine ⟨rfl, fun x => ⟨fun hx => ?_, fun hx => ?_⟩⟩
    · exact if_pos hx
    · exact if_neg hx

/-- **C155.** If `q` leads to the directory `d`, `DeLFile` of `q/e` (and of `q/e/`, and so on) succeeds, and removes the entry `e` of `d` with all
below. Nothing else changes: not what a link leads to, not what lies elsewhere. -/
theorem C155_deleted {fs : FS} (hs : Sane fs) {cwd : Loc} {q : Bytes} {d : Loc} (hq : PathLeads fs cwd q d) (hd : fs d = some .dir)
    {e : Bytes} (he : Name e) (he' : 47 ∉ e) (j : Nat) :
    (delFile fs cwd (q ++ [47] ++ e ++ List.replicate j 47)).2 = true ∧
    ∀ x, (d ++ [e] <+: x → (delFile fs cwd (q ++ [47] ++ e ++ List.replicate j 47)).1 x = none) ∧
      (¬ d ++ [e] <+: x → (delFile fs cwd (q ++ [47] ++ e ++ List.replicate j 47)).1 x = fs x) := by
  obtain ⟨hq0, k, hk, h⟩ := hq
  refine removed hs (by simp) (a := elems q) (k := k) ?_ hk hd he (j := j) ?_
  · unfold start
    have : (q ++ [47] ++ e ++ List.replicate j 47).head? = q.head? := by
      cases q with
      | nil => exact absurd rfl hq0
      | cons c q => rfl
    rw [this]
    exact h
  · rw [List.append_assoc, List.append_assoc, List.singleton_append, elems_slash, elems_trailing e he']

/-- **C155 (a name alone).** -/
theorem C155_name {fs : FS} (hs : Sane fs) {cwd : Loc} (hc : fs cwd = some .dir) {e : Bytes} (he : Name e) (he' : 47 ∉ e) (j : Nat) :
    (delFile fs cwd (e ++ List.replicate j 47)).2 = true ∧
    ∀ x, (cwd ++ [e] <+: x → (delFile fs cwd (e ++ List.replicate j 47)).1 x = none) ∧
      (¬ cwd ++ [e] <+: x → (delFile fs cwd (e ++ List.replicate j 47)).1 x = fs x) := by
  refine removed hs (by simp [he.1]) (a := []) (k := 0) ?_ (by omega) hc he (j := j) (elems_trailing e he' j)
  have : start cwd (e ++ List.replicate j 47) = cwd := by
    unfold start
    rw [if_neg]
    cases e with
    | nil => exact absurd rfl he.1
    | cons c e =>
      rw [List.cons_append, List.head?_cons]
      intro h
      injection h with h
      exact he' (by rw [h]; exact List.mem_cons_self)
  rw [this]
  exact .here _ (by rw [hc]; simp)

/-- **C155 (a link).** If the entry is a link, the link goes, and that is all: whatever it leads to is as before. -/
theorem C155_link {fs : FS} (hs : Sane fs) {cwd : Loc} {q : Bytes} {d : Loc} (hq : PathLeads fs cwd q d) (hd : fs d = some .dir)
    {e : Bytes} (he : Name e) (he' : 47 ∉ e) (j : Nat) {t : Bytes} (ht : fs (d ++ [e]) = some (.link t)) (x : Loc) :
    (delFile fs cwd (q ++ [47] ++ e ++ List.replicate j 47)).1 x = if x = d ++ [e] then none else fs x := by
  obtain ⟨h1, h2⟩ := (C155_deleted hs hq hd he he' j).2 x
  by_cases hx : x = d ++ [e]
  · rw [if_pos hx]
    exact h1 (by rw [hx]; exact List.prefix_refl _)
  · rw [if_neg hx]
    by_cases hp : d ++ [e] <+: x
    · rw [h1 hp]
      obtain ⟨r, rfl⟩ := hp
      have hr : r ≠ [] := fun hr => hx (by rw [hr, List.append_nil])
      cases hy : fs (d ++ [e] ++ r) with
      | none => rfl
      | some m =>
        have := sane_below hs hr (by rw [hy]; simp)
        rw [ht] at this
        cases this
    · exact h2 hp

/-- **C155 (failure).** If `DeLFile` reports an error, nothing has changed. -/
theorem C155_failure (fs : FS) (cwd : Loc) (p : Bytes) (h : (delFile fs cwd p).2 = false) : (delFile fs cwd p).1 = fs := by
  unfold delFile removeAll at h ⊢
  split at h
  · cases h
  · rename_i h1
    rw [if_neg h1]
    split at h
    · rename_i h2
      rw [if_pos h2]
    · rename_i h2
      rw [if_neg h2]
      split at h <;> rename_i hw
      · cases h
      · cases h
      · cases h
      · rfl

/-- **C155 (does not hold: the file that the text names is removed).** `l/../f` removes another file. -/
theorem C155_text_refuted : loc [lit "w"] (lit "l/../f") = [lit "w", lit "f"] ∧ (delFile links [lit "w"] (lit "l/../f")).2 = true ∧
    (delFile links [lit "w"] (lit "l/../f")).1 [lit "w", lit "f"] = some (.file (lit "one")) ∧
    (delFile links [lit "w"] (lit "l/../f")).1 [lit "w", lit "d", lit "f"] = none := by
  decide +kernel

/-- **C155 (does not hold: success means that the path is gone).** A path that goes through something missing is reported as removed, though its
text names a file that is there. -/
theorem C155_missing_refuted : delFile links [lit "w"] (lit "x/../f") = (links, true) := rfl

example : (delFile links [] (lit "/w/gone")).1 [lit "w", lit "gone"] = none ∧ (delFile links [lit "w"] (lit "l//")).1 [lit "w", lit "l"] = none ∧
    (delFile links [lit "w"] (lit "l//")).1 [lit "w", lit "d", lit "e"] = some .dir ∧ (delFile links [lit "w"] (lit "f/x")).2 = false ∧
    (delFile links [lit "w"] (lit "a/x")).2 = false ∧ (delFile links [lit "w"] (lit "d/.")).2 = false ∧
    (delFile links [lit "w"] (lit "d")).1 [lit "w", lit "d", lit "f"] = none := by decide +kernel

/-- `w/l` leads to a directory; an entry of it. -/
example : PathLeads links [] (lit "w/l/..") [lit "w", lit "d"] ∧ Name (lit "f") ∧ 47 ∉ lit "f" :=
  ⟨(resolve_found links_sane (by decide +kernel) _ _).1 (by decide +kernel), by unfold Name; decide +kernel, by decide +kernel⟩

/-! ## C156: copying -/

theorem read_iff {fs : FS} (hs : Sane fs) {cwd : Loc} (hc : fs cwd = some .dir) (p : Bytes) (c : Bytes) :
    readFile fs cwd p = .ok c ↔ ∃ x, PathLeads fs cwd p x ∧ fs x = some (.file c) := by
  rw [← C152_stat hs hc]
  unfold readFile
  cases h : stat fs cwd p with
  | error e => simp
  | ok n => cases n <;> simp

/-- **C156.** If `CopyFile` succeeds, the source led to a file, the target leads to a file afterwards, whose content begins with that of the
source; what the target was longer stays behind it. Nothing else changes. -/
theorem C156_copy {fs : FS} (hs : Sane fs) {cwd : Loc} (hc : fs cwd = some .dir) {dst src : Bytes} (h : (copyFile fs cwd dst src).2 = true) :
    ∃ x c l, PathLeads fs cwd src x ∧ fs x = some (.file c) ∧ PathLeads (copyFile fs cwd dst src).1 cwd dst l ∧
      (copyFile fs cwd dst src).1 l = some (.file (c ++ (content fs l).drop c.length)) ∧
      (∀ y, y ≠ l → (copyFile fs cwd dst src).1 y = fs y) ∧ Sane (copyFile fs cwd dst src).1 := by
  unfold copyFile at h ⊢
  cases hst : stat fs cwd src with
  | error e => rw [hst] at h; cases h
  | ok n =>
    rw [hst] at h
    dsimp only at h ⊢
    cases ho : openLoc fs cwd dst with
    | error e => rw [ho] at h; cases h
    | ok l =>
      rw [ho] at h
      cases n with
      | file c =>
        dsimp only
        obtain ⟨x, hx, hf⟩ := (C152_stat hs hc src _).1 hst
        obtain ⟨-, h1, -, h3⟩ := open_write hs hc ho (c ++ (content fs l).drop c.length)
        exact ⟨x, c, l, hx, hf, h3, set_self _ _ _, fun y hy => set_other _ _ _ hy, h1⟩
      | dir => cases h
      | link t => cases h

/-- **C156 (a new target).** If the target leads nowhere, or to a file not longer than the source, reading the target gives the content of the source
afterwards. -/
theorem C156_fresh {fs : FS} (hs : Sane fs) {cwd : Loc} (hc : fs cwd = some .dir) {dst src : Bytes} (h : (copyFile fs cwd dst src).2 = true)
    {c : Bytes} (hsrc : readFile fs cwd src = .ok c) (hdst : ∀ c', readFile fs cwd dst = .ok c' → c'.length ≤ c.length) :
    readFile (copyFile fs cwd dst src).1 cwd dst = .ok c := by
  obtain ⟨x, hx, hf⟩ := (read_iff hs hc src c).1 hsrc
  have hst : stat fs cwd src = .ok (.file c) := (C152_stat hs hc _ _).2 ⟨x, hx, hf⟩
  unfold copyFile at h ⊢
  rw [hst] at h ⊢
  dsimp only at h ⊢
  cases ho : openLoc fs cwd dst with
  | error e => rw [ho] at h; cases h
  | ok l =>
    dsimp only
    obtain ⟨h0, h1, h2, h3⟩ := open_write hs hc ho (c ++ (content fs l).drop c.length)
    refine (read_iff h1 h2 dst c).2 ⟨l, h3, ?_⟩
    rw [set_self]
    have : (content fs l).drop c.length = [] := by
      rcases h0 with ⟨c0, h0⟩ | ⟨h0, -⟩
      · have hlead : PathLeads fs cwd dst l := by
          unfold openLoc at ho
          cases hr : resolve fs true cwd dst with
          | found y =>
            rw [hr] at ho
            dsimp only at ho
            split at ho
            · cases ho
            · injection ho with ho
              rw [← ho]
              exact (resolve_found hs hc dst y).1 hr
          | missing d e =>
            exfalso
            rw [hr] at ho
            injection ho with ho
            have hr' := hr
            unfold resolve at hr'
            by_cases hp : dst = []
            · rw [if_pos hp] at hr'; cases hr'
            · rw [if_neg hp] at hr'
              have hg := (walk_good hs true 40 _ (elems dst) (sane_start hs hc dst)).1
              rw [hr'] at hg
              have := hg.2.2
              rw [ho, h0] at this
              cases this
          | err e => rw [hr] at ho; cases ho
          | link d t r => rw [hr] at ho; cases ho
        unfold content
        rw [h0]
        exact List.drop_eq_nil_of_le (hdst c0 ((read_iff hs hc dst c0).2 ⟨l, hlead, h0⟩))
      · unfold content
        rw [h0]
        exact List.drop_nil
    rw [this, List.append_nil]

/-- **C156 (onto itself).** Copying a file onto itself, under whatever names, changes nothing. -/
theorem C156_self {fs : FS} (hs : Sane fs) {cwd : Loc} (hc : fs cwd = some .dir) {dst src : Bytes} {x : Loc} {c : Bytes}
    (h1 : PathLeads fs cwd src x) (h2 : PathLeads fs cwd dst x) (hf : fs x = some (.file c)) : copyFile fs cwd dst src = (fs, true) := by
  have hst : stat fs cwd src = .ok (.file c) := (C152_stat hs hc _ _).2 ⟨x, h1, hf⟩
  have ho : openLoc fs cwd dst = .ok x := by
    unfold openLoc
    rw [(resolve_found hs hc dst x).2 h2]
    dsimp only
    rw [if_neg (by rw [hf]; simp)]
  unfold copyFile
  rw [hst]
  dsimp only
  rw [ho]
  dsimp only
  congr 1
  funext y
  by_cases hy : y = x
  · rw [hy, set_self, hf]
    unfold content
    rw [hf]
    dsimp only
    rw [List.drop_length, List.append_nil]
  · exact set_other _ _ _ hy

/-- **C156 (success).** `CopyFile` succeeds exactly if the source leads to a file and the target can be opened. -/
theorem C156_success {fs : FS} (hs : Sane fs) {cwd : Loc} (hc : fs cwd = some .dir) (dst src : Bytes) :
    (copyFile fs cwd dst src).2 = true ↔ (∃ c, readFile fs cwd src = .ok c) ∧ ∃ l, openLoc fs cwd dst = .ok l := by
  unfold copyFile readFile
  cases stat fs cwd src with
  | error e => simp
  | ok n => cases openLoc fs cwd dst with
    | error e => simp
    | ok l => cases n <;> simp

/-- **C156 (failure).** If `CopyFile` fails, nothing has changed but that an empty file may have been made. -/
theorem C156_failure {fs : FS} (hs : Sane fs) {cwd : Loc} (hc : fs cwd = some .dir) {dst src : Bytes} (h : (copyFile fs cwd dst src).2 = false) (y : Loc) :
    (copyFile fs cwd dst src).1 y = fs y ∨ (fs y = none ∧ (copyFile fs cwd dst src).1 y = some (.file [])) := by
  unfold copyFile at h ⊢
  cases hst : stat fs cwd src with
  | error e => exact Or.inl rfl
  | ok n =>
    rw [hst] at h
    dsimp only at h ⊢
    cases ho : openLoc fs cwd dst with
    | error e => exact Or.inl rfl
    | ok l =>
      rw [ho] at h
      have key : (fs.set l (some (.file (content fs l)))) y = fs y ∨ (fs y = none ∧ (fs.set l (some (.file (content fs l)))) y = some (.file [])) := by
        by_cases hy : y = l
        · rw [hy, set_self]
          rcases (open_write hs hc ho []).1 with ⟨c0, h0⟩ | ⟨h0, -⟩
          · left; unfold content; rw [h0]
          · right; unfold content; rw [h0]; exact ⟨rfl, rfl⟩
        · exact Or.inl (set_other _ _ _ hy)
      cases n with
      | file c => cases h
      | dir => exact key
      | link t => exact key

/-- **C156 (does not hold: the copy is a file of its own).** If the target is a link, what it leads to is overwritten; if that does not exist,
it is made, though `FileIsExisted` said that there is nothing at the target. -/
theorem C156_dangling_refuted : fileIsExisted links [lit "w"] (lit "gone") = false ∧ (copyFile links [lit "w"] (lit "gone") (lit "f")).2 = true ∧
    (copyFile links [lit "w"] (lit "gone") (lit "f")).1 [lit "w", lit "gone"] = some (.link (lit "nowhere")) ∧
    (copyFile links [lit "w"] (lit "gone") (lit "f")).1 [lit "w", lit "nowhere"] = some (.file (lit "one")) := by
  decide +kernel

/-- **C156 (does not hold: a failing copy leaves no trace).** Copying a directory makes an empty file. -/
theorem C156_empty_refuted : (copyFile links [lit "w"] (lit "new") (lit "d")).2 = false ∧
    (copyFile links [lit "w"] (lit "new") (lit "d")).1 [lit "w", lit "new"] = some (.file []) := by
  decide +kernel

example : readFile (copyFile links [lit "w"] (lit "l/../f") (lit "f")).1 [lit "w"] (lit "d/f") = .ok (lit "one") := rfl

end Verif.FsLink
