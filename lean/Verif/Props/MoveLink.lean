import Verif.Proof.UnzipLink
import Verif.Props.FsLink2
import Verif.Props.UnzipLink

/-!
# Moving where there are symbolic links
-/

namespace Verif.FsLink

open Spec.Walk Spec.Path Utf8 Strings
open Paths hiding Name

/-- `Abs` gives a clean absolute path. -/
theorem abs_text (cwd : Loc) (p : Bytes) : ∃ K, absPath cwd p = text true K ∧ Kept true K.reverse := by
  unfold absPath
  split
  · rename_i h
    have hk := kept_of p
    refine ⟨keptOf p, ?_, ?_⟩
    · rw [clean_text, h]
    · rw [h] at hk; exact hk
  · unfold joinPath
    rw [if_pos (by simp)]
    have h : isAbs (slash :: join [slash] cwd ++ [slash] ++ p) = true := rfl
    have hk := kept_of (slash :: join [slash] cwd ++ [slash] ++ p)
    refine ⟨keptOf (slash :: join [slash] cwd ++ [slash] ++ p), ?_, ?_⟩
    · rw [clean_text, h]
    · rw [h] at hk; exact hk

theorem entry_resolve {fs : FS} {cwd : Loc} {p : Bytes} {x : Loc} (h : EntryAt fs cwd p x) :
    (fs x = none → ∃ d e, resolve fs false cwd p = .missing d e ∧ x = d ++ [e]) ∧ (fs x ≠ none → resolve fs false cwd p = .found x) := by
  obtain ⟨a, e, d, k, h1, h2, h3, h4, h5, rfl⟩ := h
  have hp : p ≠ [] := by
    rintro rfl
    have : a ++ [e] = [] ++ [[]] := h1.symm
    exact h2.1 (by simpa using (List.append_inj' this rfl).2)
  have := walk_last h4 h5 h2 40 h3
  unfold resolve
  rw [if_neg hp, h1]
  change walk fs false 40 (start cwd p) (a ++ [e]) = _ at this
  rw [this]
  exact ⟨fun h => ⟨d, e, if_pos h, rfl⟩, fun h => if_neg h⟩

/-- The directory of an absolute clean path whose entry has a place. -/
theorem entry_dir {fs : FS} (hs : Sane fs) {cwd : Loc} (hc : fs cwd = some .dir) {p : Bytes} {x : Loc} (h : EntryAt fs cwd (absPath cwd p) x) :
    stat fs cwd (dirOf (absPath cwd p)) = .ok .dir := by
  obtain ⟨K, hK, hkept⟩ := abs_text cwd p
  obtain ⟨a, e, d, k, h1, h2, h3, h4, h5, rfl⟩ := h
  rw [hK] at h1 h4 ⊢
  have hns := kept_no_slash hkept
  rw [elems_text true K hns] at h1
  rcases List.eq_nil_or_concat K with rfl | ⟨K', e', rfl⟩
  · exfalso
    have : a ++ [e] = [[]] ++ [[]] := h1.symm
    exact h2.1 (by simpa using (List.append_inj' this rfl).2)
  · rw [List.concat_eq_append] at h1 hns hkept h4 ⊢
    rw [split_text true K' [e'] (by simp)] at h1
    obtain ⟨ha, -⟩ := List.append_inj' h1 rfl
    rw [List.reverse_append] at hkept
    have hk' : Kept true K'.reverse := kept_tail hkept
    have hns' := kept_no_slash hk'
    rw [dir_text true K' e' (hns e' (by simp)).1 hk', C152_stat hs hc]
    refine ⟨d, ⟨text_ne _ _ hns', k, h3, ?_⟩, h5⟩
    change Leads fs k (start cwd (text true K')) _ _
    change Leads fs k (start cwd (text true (K' ++ [e']))) _ _ at h4
    rw [start_text _ _ _ hns] at h4
    rw [start_text _ _ _ hns', elems_text _ _ hns', if_pos rfl, leads_text hs.root]
    rw [if_pos rfl] at h4
    rw [← ha] at h4
    cases h4 with
    | stay _ _ h => exact h
    | down _ he _ _ _ => exact absurd rfl he.1
    | follow _ he _ _ => exact absurd rfl he.1

/-- The walk before the last name. -/
theorem go_before (fs : FS) (l : Loc) (a : List Bytes) (e : Bytes) :
    go fs false l (a ++ [e]) = match go fs true l a with
      | .found d => go fs false d [e]
      | .missing _ _ => .err .noEnt
      | .err x => .err x
      | .link d t r => .link d t (r ++ [e]) := by
  induction a generalizing l with
  | nil => rfl
  | cons b a ih =>
    rw [List.cons_append]
    by_cases hl : fs l = some .dir
    · by_cases h1 : b = [] ∨ b = dot
      · rw [go_stay _ _ _ _ _ hl h1, go_stay _ _ _ _ _ hl h1]
        exact ih l
      · by_cases h2 : b = dotdot
        · rw [h2, go_up _ _ _ _ hl, go_up _ _ _ _ hl]
          exact ih _
        · have hb := (name_iff b).2 ⟨h1, h2⟩
          rw [go_name _ _ _ _ _ hl hb, go_name _ _ _ _ _ hl hb]
          cases hx : fs (l ++ [b]) with
          | none =>
            dsimp only
            rw [if_neg (by simp)]
            by_cases h : a = []
            · rw [if_pos h]
            · rw [if_neg h]
          | some m =>
            cases m with
            | dir => exact ih _
            | file c => exact ih _
            | link t =>
              dsimp only
              rw [if_neg (by simp), if_neg (by simp)]
    · rw [go_notDir _ _ _ _ _ hl, go_notDir _ _ _ _ _ hl]

theorem walk_before (fs : FS) (n : Nat) (l : Loc) (a : List Bytes) (e : Bytes) (he : Name e) :
    walk fs false n l (a ++ [e]) = match walk fs true n l a with
      | .found d => go fs false d [e]
      | .missing _ _ => .err .noEnt
      | .err x => .err x
      | .link d t r => .link d t (r ++ [e]) := by
  have hlast : ∀ d x t r, go fs false d [e] ≠ .link x t r := by
    intro d x t r
    by_cases hd : fs d = some .dir
    · rw [go_name _ _ _ _ _ hd he]
      cases hx : fs (d ++ [e]) with
      | none => simp
      | some m => cases m <;> simp [go]
    · rw [go_notDir _ _ _ _ _ hd]; simp
  induction n generalizing l a with
  | zero =>
    rw [walk_eq, walk_eq fs true, go_before]
    cases hw : go fs true l a with
    | found d =>
      dsimp only
      cases hg : go fs false d [e] with
      | link x t r => exact absurd hg (hlast d x t r)
      | _ => rfl
    | _ => rfl
  | succ n ih =>
    rw [walk_eq, walk_eq fs true, go_before]
    cases hw : go fs true l a with
    | found d =>
      dsimp only
      cases hg : go fs false d [e] with
      | link x t r => exact absurd hg (hlast d x t r)
      | _ => rfl
    | link d t r =>
      dsimp only
      rw [← List.append_assoc]
      exact ih _ _
    | _ => rfl

/-- Where an absolute path is found not following the last element, that is the entry it names; or it is the root. -/
theorem resolve_entry {fs : FS} (hs : Sane fs) {cwd : Loc} (p : Bytes) {x : Loc}
    (h : resolve fs false cwd (absPath cwd p) = .found x ∨ ∃ d e, resolve fs false cwd (absPath cwd p) = .missing d e ∧ x = d ++ [e]) :
    (x = [] ∧ absPath cwd p = [47]) ∨ EntryAt fs cwd (absPath cwd p) x := by
  obtain ⟨K, hK, hkept⟩ := abs_text cwd p
  have hns := kept_no_slash hkept
  rw [hK] at h ⊢
  unfold resolve at h
  rw [if_neg (text_ne _ _ hns)] at h
  rcases List.eq_nil_or_concat K with rfl | ⟨K', e, rfl⟩
  · left
    have : walk fs false 40 (start cwd (text true [])) (elems (text true [])) = .found [] := by
      refine walk_found ?_ (by simp)
      rw [start_text _ _ _ hns, elems_text _ _ hns, if_pos rfl]
      change go fs false [] [[], []] = _
      rw [go_stay _ _ _ _ _ hs.root (Or.inl rfl), go_stay _ _ _ _ _ hs.root (Or.inl rfl)]
      rfl
    rw [this] at h
    rcases h with h | ⟨d, e, h, -⟩
    · cases h; exact ⟨rfl, rfl⟩
    · cases h
  · right
    rw [List.concat_eq_append] at h hns hkept ⊢
    have he : Name e := by
      obtain ⟨names, ups, h1, h2, h3⟩ := hkept
      have h3 := h3 rfl
      subst h3
      have : e ∈ names := by
        have : e ∈ (K' ++ [e]).reverse := by simp
        rw [h1] at this
        simpa using this
      exact ⟨(h2 e this).2.1, (h2 e this).2.2.1, (h2 e this).2.2.2⟩
    have hel := elems_text true (K' ++ [e]) hns
    rw [split_text true K' [e] (by simp)] at hel
    rw [hel, walk_before _ _ _ _ _ he] at h
    have hst : fs (start cwd (text true (K' ++ [e]))) = some .dir := by rw [start_text _ _ _ hns, if_pos rfl]; exact hs.root
    cases hw : walk fs true 40 (start cwd (text true (K' ++ [e]))) ((if true = true then [[]] else []) ++ K') with
    | found d =>
      rw [hw] at h
      dsimp only at h
      obtain ⟨k, hk, hl⟩ := walk_leads hs 40 _ _ hst hw
      by_cases hd : fs d = some .dir
      · refine ⟨_, e, d, k, hel, he, hk, hl, hd, ?_⟩
        rw [go_name _ _ _ _ _ hd he] at h
        cases hx : fs (d ++ [e]) with
        | none =>
          rw [hx] at h
          rcases h with h | ⟨d', e', h, h'⟩
          · cases h
          · cases h; exact h'
        | some m =>
          rw [hx] at h
          rcases h with h | ⟨d', e', h, h'⟩
          · cases m <;> (cases h; rfl)
          · cases m <;> cases h
      · rw [go_notDir _ _ _ _ _ hd] at h
        rcases h with h | ⟨_, _, h, -⟩ <;> cases h
    | missing d e => rw [hw] at h; rcases h with h | ⟨_, _, h, -⟩ <;> cases h
    | err e => rw [hw] at h; rcases h with h | ⟨_, _, h, -⟩ <;> cases h
    | link d t r => rw [hw] at h; rcases h with h | ⟨_, _, h, -⟩ <;> cases h

/-- What `rename` does. -/
def moved (fs : FS) (s d : Loc) : FS := fun x => if d <+: x then fs (s ++ x.drop d.length) else if s <+: x then none else fs x

theorem rename_cases (fs : FS) (cwd : Loc) (src dst : Bytes) :
    (rename fs cwd src dst).1 = fs ∨
    ∃ s d, resolve fs false cwd src = .found s ∧ (resolve fs false cwd dst = .found d ∨ ∃ d' e, resolve fs false cwd dst = .missing d' e ∧ d = d' ++ [e]) ∧
      s ≠ d ∧ ¬ s <+: d ∧ fs d ≠ some .dir ∧ (fs s = some .dir → fs d = none) ∧ rename fs cwd src dst = (moved fs s d, true) := by
  unfold rename
  cases hs : resolve fs false cwd src with
  | found s =>
    dsimp only
    have key : ∀ d, (resolve fs false cwd dst = .found d ∨ ∃ d' e, resolve fs false cwd dst = .missing d' e ∧ d = d' ++ [e]) →
        (if fs d = some .dir ∧ (src = dst ∨ s ≠ d) then (fs, false)
          else if s = d then (fs, true)
          else if s <+: d then (fs, false)
          else if fs s = some .dir ∧ fs d ≠ none then (fs, false)
          else (moved fs s d, true)).1 = fs ∨
        ∃ s' d', Way.found s = .found s' ∧ (resolve fs false cwd dst = .found d' ∨ ∃ d1 e, resolve fs false cwd dst = .missing d1 e ∧ d' = d1 ++ [e]) ∧
          s' ≠ d' ∧ ¬ s' <+: d' ∧ fs d' ≠ some .dir ∧ (fs s' = some .dir → fs d' = none) ∧
          (if fs d = some .dir ∧ (src = dst ∨ s ≠ d) then (fs, false)
          else if s = d then (fs, true)
          else if s <+: d then (fs, false)
          else if fs s = some .dir ∧ fs d ≠ none then (fs, false)
          else (moved fs s d, true)) = (moved fs s' d', true) := by
      intro d hd
      by_cases h1 : fs d = some .dir ∧ (src = dst ∨ s ≠ d)
      · rw [if_pos h1]; exact Or.inl rfl
      · rw [if_neg h1]
        by_cases h2 : s = d
        · rw [if_pos h2]; exact Or.inl rfl
        · rw [if_neg h2]
          by_cases h3 : s <+: d
          · rw [if_pos h3]; exact Or.inl rfl
          · rw [if_neg h3]
            by_cases h4 : fs s = some .dir ∧ fs d ≠ none
            · rw [if_pos h4]; exact Or.inl rfl
            · rw [if_neg h4]
              refine Or.inr ⟨s, d, rfl, hd, h2, h3, fun h => h1 ⟨h, Or.inr h2⟩, fun h => ?_, rfl⟩
              cases hn : fs d with
              | none => rfl
              | some n => exact absurd ⟨h, by rw [hn]; simp⟩ h4
    cases hd : resolve fs false cwd dst with
    | found d => rw [hd] at key; exact key d (Or.inl rfl)
    | missing d e => rw [hd] at key; exact key (d ++ [e]) (Or.inr ⟨d, e, rfl, rfl⟩)
    | err e => exact Or.inl rfl
    | link d t r => exact Or.inl rfl
  | missing d e => exact Or.inl rfl
  | err e => exact Or.inl rfl
  | link d t r => exact Or.inl rfl

/-! ## C158: `FileMove` -/

/-- **C158 (what changes).** Whatever happens, `FileMove` first adds directories at most; then either nothing more changes, or it reports success and
the entry `s` that the source names, made absolute, is at `d`, which the target names, with all below, and no longer at `s`; everything else is as before. -/
theorem C158_changes {fs : FS} (hs : Sane fs) {cwd : Loc} (hc : fs cwd = some .dir) (src dst : Bytes) :
    ∃ fs1 : FS, Sane fs1 ∧ (∀ x, fs x ≠ none → fs1 x = fs x) ∧ (∀ x, fs x = none → fs1 x = none ∨ fs1 x = some .dir) ∧
      ((fileMove fs cwd src dst).1 = fs1 ∨
        ((fileMove fs cwd src dst).2 = true ∧ ∃ s d, EntryAt fs1 cwd (absPath cwd src) s ∧ EntryAt fs1 cwd (absPath cwd dst) d ∧ fs1 s ≠ none ∧ ¬ s <+: d ∧ fs1 d ≠ some .dir ∧
          ∀ x, (¬ s <+: x → ¬ d <+: x → (fileMove fs cwd src dst).1 x = fs1 x) ∧ (s <+: x → ¬ d <+: x → (fileMove fs cwd src dst).1 x = none) ∧
            (∀ r, (fileMove fs cwd src dst).1 (d ++ r) = fs1 (s ++ r)))) := by
  have hren : ∀ fs1 : FS, Sane fs1 → (∀ x, fs x ≠ none → fs1 x = fs x) → (∀ x, fs x = none → fs1 x = none ∨ fs1 x = some .dir) →
      fileMove fs cwd src dst = rename fs1 cwd (absPath cwd src) (absPath cwd dst) →
      ∃ fs1 : FS, Sane fs1 ∧ (∀ x, fs x ≠ none → fs1 x = fs x) ∧ (∀ x, fs x = none → fs1 x = none ∨ fs1 x = some .dir) ∧
      ((fileMove fs cwd src dst).1 = fs1 ∨
        ((fileMove fs cwd src dst).2 = true ∧ ∃ s d, EntryAt fs1 cwd (absPath cwd src) s ∧ EntryAt fs1 cwd (absPath cwd dst) d ∧ fs1 s ≠ none ∧ ¬ s <+: d ∧ fs1 d ≠ some .dir ∧
          ∀ x, (¬ s <+: x → ¬ d <+: x → (fileMove fs cwd src dst).1 x = fs1 x) ∧ (s <+: x → ¬ d <+: x → (fileMove fs cwd src dst).1 x = none) ∧
            (∀ r, (fileMove fs cwd src dst).1 (d ++ r) = fs1 (s ++ r)))) := by
    intro fs1 h1 h2 h3 h4
    refine ⟨fs1, h1, h2, h3, ?_⟩
    rw [h4]
    rcases rename_cases fs1 cwd (absPath cwd src) (absPath cwd dst) with h | ⟨s, d, r1, r2, r3, r4, r5, r6, r7⟩
    · exact Or.inl h
    · right
      rw [r7]
      have es : EntryAt fs1 cwd (absPath cwd src) s := by
        rcases resolve_entry h1 src (Or.inl r1) with ⟨h, -⟩ | h
        · exact absurd (by rw [h]; exact List.nil_prefix) r4
        · exact h
      have ed : EntryAt fs1 cwd (absPath cwd dst) d := by
        rcases resolve_entry h1 dst r2 with ⟨h, -⟩ | h
        · exact absurd (by rw [h]; exact h1.root) r5
        · exact h
      refine ⟨rfl, s, d, es, ed, ?_, r4, r5, fun x => ⟨fun a b => ?_, fun a b => ?_, fun r => ?_⟩⟩
      · unfold resolve at r1
        split at r1
        · cases r1
        · have := (walk_good h1 false 40 _ (elems (absPath cwd src)) (sane_start h1 (ext_dir h2 hc) (absPath cwd src))).1
          rw [r1] at this
          exact this.1
      · change moved fs1 s d x = _
        unfold moved
        rw [if_neg b, if_neg a]
      · change moved fs1 s d x = _
        unfold moved
        rw [if_neg b, if_pos a]
      · change moved fs1 s d (d ++ r) = _
        unfold moved
        rw [if_pos (List.prefix_append _ _), List.drop_left]
  have hno : ∀ fs1 : FS, Sane fs1 → (∀ x, fs x ≠ none → fs1 x = fs x) → (∀ x, fs x = none → fs1 x = none ∨ fs1 x = some .dir) →
      (fileMove fs cwd src dst).1 = fs1 →
      ∃ fs1 : FS, Sane fs1 ∧ (∀ x, fs x ≠ none → fs1 x = fs x) ∧ (∀ x, fs x = none → fs1 x = none ∨ fs1 x = some .dir) ∧
      ((fileMove fs cwd src dst).1 = fs1 ∨
        ((fileMove fs cwd src dst).2 = true ∧ ∃ s d, EntryAt fs1 cwd (absPath cwd src) s ∧ EntryAt fs1 cwd (absPath cwd dst) d ∧ fs1 s ≠ none ∧ ¬ s <+: d ∧ fs1 d ≠ some .dir ∧
          ∀ x, (¬ s <+: x → ¬ d <+: x → (fileMove fs cwd src dst).1 x = fs1 x) ∧ (s <+: x → ¬ d <+: x → (fileMove fs cwd src dst).1 x = none) ∧
            (∀ r, (fileMove fs cwd src dst).1 (d ++ r) = fs1 (s ++ r)))) :=
    fun fs1 h1 h2 h3 h4 => ⟨fs1, h1, h2, h3, Or.inl h4⟩
  by_cases hd : dst = []
  · exact hno fs hs (fun _ _ => rfl) (fun _ h => Or.inl h) (by unfold fileMove; rw [if_pos hd])
  · obtain ⟨m1, m2, m3⟩ := mkdirAll_facts hs hc (dirOf (absPath cwd dst))
    cases hst : stat fs cwd (dirOf (absPath cwd dst)) with
    | ok n =>
      refine hren fs hs (fun _ _ => rfl) (fun _ h => Or.inl h) ?_
      unfold fileMove
      rw [if_neg hd]
      dsimp only
      rw [hst]
    | error e =>
      cases hb : (mkdirAll fs cwd (dirOf (absPath cwd dst))).2 with
      | false =>
        refine hno _ m1 m2 m3 ?_
        unfold fileMove
        rw [if_neg hd]
        dsimp only
        rw [hst]
        dsimp only
        rw [if_pos hb]
      | true =>
        have hdir := (C154_mkdir hs hc (dirOf (absPath cwd dst))).2.2.2 hb
        unfold mkDir at hdir
        have hst2 : ∃ n, stat (mkdirAll fs cwd (dirOf (absPath cwd dst))).1 cwd (dirOf (absPath cwd dst)) = .ok n := by
          unfold isDirectory at hdir
          cases h : stat (mkdirAll fs cwd (dirOf (absPath cwd dst))).1 cwd (dirOf (absPath cwd dst)) with
          | ok n => exact ⟨n, rfl⟩
          | error e => rw [h] at hdir; cases hdir
        obtain ⟨n, hst2⟩ := hst2
        refine hren _ m1 m2 m3 ?_
        unfold fileMove
        rw [if_neg hd]
        dsimp only
        rw [hst]
        dsimp only
        rw [if_neg (by rw [hb]; simp), hst2]

theorem rename_success {fs : FS} {cwd : Loc} {src dst : Bytes} (h : (rename fs cwd src dst).2 = true) :
    ∃ s d, resolve fs false cwd src = .found s ∧ (resolve fs false cwd dst = .found d ∨ ∃ d' e, resolve fs false cwd dst = .missing d' e ∧ d = d' ++ [e]) ∧
      (fs d = some .dir → src ≠ dst ∧ s = d) ∧ (s = d ∨ ¬ s <+: d) ∧ ∀ r, (rename fs cwd src dst).1 (d ++ r) = fs (s ++ r) := by
  rcases rename_cases fs cwd src dst with h' | ⟨s, d, r1, r2, r3, r4, r5, r6, r7⟩
  · unfold rename at h h' ⊢
    cases hs : resolve fs false cwd src with
    | found s =>
      rw [hs] at h h'
      dsimp only at h h' ⊢
      have key : ∀ d, (resolve fs false cwd dst = .found d ∨ ∃ d' e, resolve fs false cwd dst = .missing d' e ∧ d = d' ++ [e]) →
          (if fs d = some .dir ∧ (src = dst ∨ s ≠ d) then (fs, false)
          else if s = d then (fs, true)
          else if s <+: d then (fs, false)
          else if fs s = some .dir ∧ fs d ≠ none then (fs, false)
          else (moved fs s d, true)).2 = true →
          ∃ s' d', Way.found s = .found s' ∧ (resolve fs false cwd dst = .found d' ∨ ∃ d1 e, resolve fs false cwd dst = .missing d1 e ∧ d' = d1 ++ [e]) ∧
          (fs d' = some .dir → src ≠ dst ∧ s' = d') ∧ (s' = d' ∨ ¬ s' <+: d') ∧ ∀ r, (if fs d = some .dir ∧ (src = dst ∨ s ≠ d) then (fs, false)
          else if s = d then (fs, true)
          else if s <+: d then (fs, false)
          else if fs s = some .dir ∧ fs d ≠ none then (fs, false)
          else (moved fs s d, true)).1 (d' ++ r) = fs (s' ++ r) := by
        intro d hd ht
        refine ⟨s, d, rfl, hd, ?_, ?_, fun r => ?_⟩
        · intro hdir
          by_cases h1 : fs d = some .dir ∧ (src = dst ∨ s ≠ d)
          · rw [if_pos h1] at ht
            cases ht
          · exact ⟨fun h => h1 ⟨hdir, Or.inl h⟩, Classical.byContradiction fun h => h1 ⟨hdir, Or.inr h⟩⟩
        · by_cases h1 : fs d = some .dir ∧ (src = dst ∨ s ≠ d)
          · rw [if_pos h1] at ht; cases ht
          · rw [if_neg h1] at ht
            by_cases h2 : s = d
            · exact Or.inl h2
            · rw [if_neg h2] at ht
              by_cases h3 : s <+: d
              · rw [if_pos h3] at ht; cases ht
              · exact Or.inr h3
        · by_cases h1 : fs d = some .dir ∧ (src = dst ∨ s ≠ d)
          · rw [if_pos h1] at ht; cases ht
          · rw [if_neg h1] at ht ⊢
            by_cases h2 : s = d
            · rw [if_pos h2, h2]
            · rw [if_neg h2] at ht ⊢
              by_cases h3 : s <+: d
              · rw [if_pos h3] at ht; cases ht
              · rw [if_neg h3] at ht ⊢
                by_cases h4 : fs s = some .dir ∧ fs d ≠ none
                · rw [if_pos h4] at ht; cases ht
                · rw [if_neg h4]
                  change moved fs s d (d ++ r) = _
                  unfold moved
                  rw [if_pos (List.prefix_append _ _), List.drop_left]
      cases hd : resolve fs false cwd dst with
      | found d => rw [hd] at key h; exact key d (Or.inl rfl) h
      | missing d e => rw [hd] at key h; exact key (d ++ [e]) (Or.inr ⟨d, e, rfl, rfl⟩) h
      | err e => rw [hd] at h; cases h
      | link d t r => rw [hd] at h; cases h
    | missing d e => rw [hs] at h; cases h
    | err e => rw [hs] at h; cases h
    | link d t r => rw [hs] at h; cases h
  · refine ⟨s, d, r1, r2, fun h => absurd h r5, Or.inr r4, fun r => ?_⟩
    rw [r7]
    change moved fs s d (d ++ r) = _
    unfold moved
    rw [if_pos (List.prefix_append _ _), List.drop_left]

/-- **C158 (success).** If `FileMove` succeeds and the target is not empty, both name entries, there was something at the source's, and all of it is at the
target's afterwards. -/
theorem C158_success {fs : FS} (hs : Sane fs) {cwd : Loc} (hc : fs cwd = some .dir) (src dst : Bytes) (hd : dst ≠ [])
    (h : (fileMove fs cwd src dst).2 = true) :
    ∃ fs1 : FS, Sane fs1 ∧ (∀ x, fs x ≠ none → fs1 x = fs x) ∧ (∀ x, fs x = none → fs1 x = none ∨ fs1 x = some .dir) ∧
      ∃ s d, EntryAt fs1 cwd (absPath cwd src) s ∧ EntryAt fs1 cwd (absPath cwd dst) d ∧ fs1 s ≠ none ∧
        ∀ r, (fileMove fs cwd src dst).1 (d ++ r) = fs1 (s ++ r) := by
  have hren : ∀ fs1 : FS, Sane fs1 → (∀ x, fs x ≠ none → fs1 x = fs x) → (∀ x, fs x = none → fs1 x = none ∨ fs1 x = some .dir) →
      fileMove fs cwd src dst = rename fs1 cwd (absPath cwd src) (absPath cwd dst) →
      ∃ fs1 : FS, Sane fs1 ∧ (∀ x, fs x ≠ none → fs1 x = fs x) ∧ (∀ x, fs x = none → fs1 x = none ∨ fs1 x = some .dir) ∧
        ∃ s d, EntryAt fs1 cwd (absPath cwd src) s ∧ EntryAt fs1 cwd (absPath cwd dst) d ∧ fs1 s ≠ none ∧
          ∀ r, (fileMove fs cwd src dst).1 (d ++ r) = fs1 (s ++ r) := by
    intro fs1 h1 h2 h3 h4
    rw [h4] at h
    obtain ⟨s, d, r1, r2, r3, r5, r4⟩ := rename_success h
    have hn : fs1 s ≠ none := by
      unfold resolve at r1
      split at r1
      · cases r1
      · have := (walk_good h1 false 40 _ (elems (absPath cwd src)) (sane_start h1 (ext_dir h2 hc) (absPath cwd src))).1
        rw [r1] at this
        exact this.1
    have noRoot : ∀ {p : Bytes} {x : Loc}, EntryAt fs1 cwd p x → x ≠ [] := by
      rintro p x ⟨a, b, d', k, -, -, -, -, -, e6⟩
      rw [e6]; simp
    have es : EntryAt fs1 cwd (absPath cwd src) s := by
      rcases resolve_entry h1 src (Or.inl r1) with ⟨h5, h6⟩ | h5
      · exfalso
        rcases r5 with r5 | r5
        · rcases resolve_entry h1 dst r2 with ⟨h7, h8⟩ | h7
          · exact (r3 (by rw [h7]; exact h1.root)).1 (by rw [h6, h8])
          · exact noRoot h7 (by rw [← r5, h5])
        · exact r5 (by rw [h5]; exact List.nil_prefix)
      · exact h5
    have ed : EntryAt fs1 cwd (absPath cwd dst) d := by
      rcases resolve_entry h1 dst r2 with ⟨h5, -⟩ | h5
      · exact absurd (by rw [(r3 (by rw [h5]; exact h1.root)).2, h5]) (noRoot es)
      · exact h5
    exact ⟨fs1, h1, h2, h3, s, d, es, ed, hn, fun r => by rw [h4]; exact r4 r⟩
  obtain ⟨m1, m2, m3⟩ := mkdirAll_facts hs hc (dirOf (absPath cwd dst))
  cases hst : stat fs cwd (dirOf (absPath cwd dst)) with
  | ok n =>
    refine hren fs hs (fun _ _ => rfl) (fun _ h => Or.inl h) ?_
    unfold fileMove
    rw [if_neg hd]
    dsimp only
    rw [hst]
  | error e =>
    cases hb : (mkdirAll fs cwd (dirOf (absPath cwd dst))).2 with
    | false =>
      exfalso
      unfold fileMove at h
      rw [if_neg hd] at h
      dsimp only at h
      rw [hst] at h
      dsimp only at h
      rw [if_pos hb] at h
      cases h
    | true =>
      have hdir := (C154_mkdir hs hc (dirOf (absPath cwd dst))).2.2.2 hb
      unfold mkDir at hdir
      have hst2 : ∃ n, stat (mkdirAll fs cwd (dirOf (absPath cwd dst))).1 cwd (dirOf (absPath cwd dst)) = .ok n := by
        unfold isDirectory at hdir
        cases h : stat (mkdirAll fs cwd (dirOf (absPath cwd dst))).1 cwd (dirOf (absPath cwd dst)) with
        | ok n => exact ⟨n, rfl⟩
        | error e => rw [h] at hdir; cases hdir
      obtain ⟨n, hst2⟩ := hst2
      refine hren _ m1 m2 m3 ?_
      unfold fileMove
      rw [if_neg hd]
      dsimp only
      rw [hst]
      dsimp only
      rw [if_neg (by rw [hb]; simp), hst2]

/-- **C158 (failure).** If `FileMove` fails, at most directories have been added. -/
theorem C158_failure {fs : FS} (hs : Sane fs) {cwd : Loc} (hc : fs cwd = some .dir) (src dst : Bytes) (h : (fileMove fs cwd src dst).2 = false) (x : Loc) :
    (fileMove fs cwd src dst).1 x = fs x ∨ (fs x = none ∧ (fileMove fs cwd src dst).1 x = some .dir) := by
  obtain ⟨fs1, h1, h2, h3, h4 | ⟨h4, -⟩⟩ := C158_changes hs hc src dst
  · rw [h4]
    cases hx : fs x with
    | none => rcases h3 x hx with h | h
              · exact Or.inl h
              · exact Or.inr ⟨rfl, h⟩
    | some n => exact Or.inl (by rw [h2 x (by rw [hx]; simp), hx])
  · rw [h] at h4; cases h4

/-- Paths to directories do not depend on files. -/
theorem leads_dirs {fs fs' : FS} (h1 : ∀ x, fs x = some .dir → fs' x = some .dir) (h2 : ∀ x t, fs x = some (.link t) → fs' x = some (.link t))
    {k : Nat} {l : Loc} {a : List Bytes} {y : Loc} (h : Leads fs k l a y) (hy : fs y = some .dir) : Leads fs' k l a y := by
  induction h with
  | here l hl => exact .here l (by rw [h1 l hy]; simp)
  | stay hl he _ ih => exact .stay (h1 _ hl) he (ih hy)
  | up hl _ ih => exact .up (h1 _ hl) (ih hy)
  | @down k l e es x n hl he hn hd hr ih =>
    cases n with
    | dir => exact .down (h1 _ hl) he (h1 _ hn) (by simp) (ih hy)
    | link t => exact absurd rfl (hd t)
    | file c =>
      exfalso
      cases hr with
      | here => rw [hn] at hy; cases hy
      | stay hl' => rw [hn] at hl'; cases hl'
      | up hl' => rw [hn] at hl'; cases hl'
      | down hl' => rw [hn] at hl'; cases hl'
      | follow hl' => rw [hn] at hl'; cases hl'
  | follow hl he hn _ ih => exact .follow (h1 _ hl) he (h2 _ _ hn) (ih hy)

/-- **C158 (a file).** Let the source, made absolute, name the entry `s`, which is a file, and the target, made absolute, an entry `d` in a directory
that exists, where there is nothing or a file. Then `FileMove` succeeds, the target can be read and gives the content, there is nothing at `s`
any more (unless `s` is `d`), and nothing else changes. -/
theorem C158_file {fs : FS} (hs : Sane fs) {cwd : Loc} (hc : fs cwd = some .dir) {src dst : Bytes} (hd0 : dst ≠ []) {s d : Loc} {c : Bytes}
    (hsrc : EntryAt fs cwd (absPath cwd src) s) (hf : fs s = some (.file c)) (hdst : EntryAt fs cwd (absPath cwd dst) d)
    (hfree : fs d = none ∨ ∃ c', fs d = some (.file c')) :
    (fileMove fs cwd src dst).2 = true ∧ readFile (fileMove fs cwd src dst).1 cwd (absPath cwd dst) = .ok c ∧
    (s ≠ d → (fileMove fs cwd src dst).1 s = none) ∧ ∀ x, x ≠ s → x ≠ d → (fileMove fs cwd src dst).1 x = fs x := by
  have hmove : fileMove fs cwd src dst = rename fs cwd (absPath cwd src) (absPath cwd dst) := by
    unfold fileMove
    rw [if_neg hd0]
    dsimp only
    rw [entry_dir hs hc hdst]
  have hrs := (entry_resolve hsrc).2 (by rw [hf]; simp)
  have hnd : ¬ fs d = some .dir := by
    rcases hfree with h | ⟨c', h⟩ <;> rw [h] <;> simp
  have below : ∀ y : Loc, (∀ z, fs y ≠ some z ∨ z ≠ .dir) → ∀ r, r ≠ [] → fs (y ++ r) = none := by
    intro y hy r hr
    cases hx : fs (y ++ r) with
    | none => rfl
    | some n =>
      have := sane_below hs hr (by rw [hx]; simp)
      rcases hy .dir with h | h
      · exact absurd this h
      · exact absurd rfl h
  have hsb := below s (fun z => by rw [hf]; by_cases hz : z = .dir <;> simp [hz])
  have hdb := below d (fun z => by by_cases hz : z = .dir <;> simp [hz, hnd])
  have hren : rename fs cwd (absPath cwd src) (absPath cwd dst) = (if s = d then (fs, true) else (moved fs s d, true)) := by
    have core : (if fs d = some .dir ∧ (absPath cwd src = absPath cwd dst ∨ s ≠ d) then (fs, false)
      else if s = d then (fs, true)
      else if s <+: d then (fs, false)
      else if fs s = some .dir ∧ fs d ≠ none then (fs, false)
      else (moved fs s d, true)) = (if s = d then (fs, true) else (moved fs s d, true)) := by
      rw [if_neg (fun h => hnd h.1)]
      by_cases hsd : s = d
      · rw [if_pos hsd, if_pos hsd]
      · rw [if_neg hsd, if_neg hsd, if_neg, if_neg (fun h => by rw [hf] at h; cases h.1)]
        · rintro ⟨r, hr⟩
          obtain ⟨a, e, dd, k, -, -, -, -, hdd, he⟩ := hdst
          have hr0 : r ≠ [] := fun h => hsd (by rw [← hr, h, List.append_nil])
          rcases List.eq_nil_or_concat r with h | ⟨r', e', rfl⟩
          · exact hr0 h
          · rw [List.concat_eq_append, ← List.append_assoc, he] at hr
            have := (List.append_inj' hr rfl).1
            rw [← this] at hdd
            by_cases h' : r' = []
            · rw [h', List.append_nil, hf] at hdd; cases hdd
            · rw [hsb r' h'] at hdd; cases hdd
    unfold rename
    rw [hrs]
    by_cases hn : fs d = none
    · obtain ⟨d', e, h1, h2⟩ := (entry_resolve hdst).1 hn
      rw [h1]
      rw [h2] at core ⊢
      exact core
    · rw [(entry_resolve hdst).2 hn]
      exact core
  rw [hmove, hren]
  have hchg : ∀ x, s ≠ d → moved fs s d x = if x = d then some (.file c) else if x = s then none else fs x := by
    intro x hsd
    unfold moved
    by_cases hxd : x = d
    · rw [if_pos hxd, if_pos (by rw [hxd]; exact List.prefix_refl _), hxd, List.drop_length, List.append_nil, hf]
    · rw [if_neg hxd]
      by_cases hp : d <+: x
      · obtain ⟨r, rfl⟩ := hp
        have hr : r ≠ [] := fun h => hxd (by rw [h, List.append_nil])
        rw [if_pos (List.prefix_append _ _), List.drop_left, hsb r hr, hdb r hr]
        split <;> rfl
      · rw [if_neg hp]
        by_cases hxs : x = s
        · rw [if_pos hxs, if_pos (by rw [hxs]; exact List.prefix_refl _)]
        · rw [if_neg hxs]
          by_cases hq : s <+: x
          · obtain ⟨r, rfl⟩ := hq
            rw [if_pos (List.prefix_append _ _), hsb r (fun h => hxs (by rw [h, List.append_nil]))]
          · rw [if_neg hq]
  by_cases hsd : s = d
  · rw [if_pos hsd]
    refine ⟨rfl, ?_, fun h => absurd hsd h, fun x _ _ => rfl⟩
    rw [read_iff hs hc]
    obtain ⟨a, e, dd, k, h1, h2, h3, h4, h5, h6⟩ := hdst
    refine ⟨d, ⟨?_, k, h3, ?_⟩, by rw [← hsd]; exact hf⟩
    · obtain ⟨K, hK, hkept⟩ := abs_text cwd dst
      rw [hK]
      exact text_ne _ _ (kept_no_slash hkept)
    · rw [h1]
      have hfd : fs (dd ++ [e]) = some (.file c) := by rw [← h6, ← hsd]; exact hf
      have := leads_append h4 (.down h5 h2 hfd (by simp) (.here _ (by rw [hfd]; simp)))
      rw [← h6] at this
      exact this
  · rw [if_neg hsd]
    have hdirs : ∀ x, fs x = some .dir → moved fs s d x = some .dir := by
      intro x hx
      rw [hchg x hsd, if_neg (fun h => hnd (by rw [← h]; exact hx)), if_neg (fun h => by rw [h, hf] at hx; cases hx), hx]
    have hlinks : ∀ x t, fs x = some (.link t) → moved fs s d x = some (.link t) := by
      intro x t hx
      rw [hchg x hsd, if_neg (fun h => by rcases hfree with h' | ⟨c', h'⟩ <;> rw [h, h'] at hx <;> cases hx),
        if_neg (fun h => by rw [h, hf] at hx; cases hx), hx]
    obtain ⟨a, e, dd, k, h1, h2, h3, h4, h5, h6⟩ := hdst
    have hs' : Sane (moved fs s d) := by
      refine ⟨hdirs _ hs.root, fun l e' hne => ?_⟩
      rw [hchg _ hsd] at hne
      by_cases hx : l ++ [e'] = d
      · rw [h6] at hx
        rw [(List.append_inj' hx rfl).1]
        exact hdirs _ h5
      · rw [if_neg hx] at hne
        by_cases hx' : l ++ [e'] = s
        · rw [if_pos hx'] at hne; exact absurd rfl hne
        · rw [if_neg hx'] at hne
          exact hdirs _ (hs.inDir l e' hne)
    refine ⟨rfl, ?_, fun _ => ?_, fun x hxs hxd => ?_⟩
    · change readFile (moved fs s d) cwd _ = _
      rw [read_iff hs' (hdirs _ hc)]
      have hfd : moved fs s d d = some (.file c) := by rw [hchg _ hsd, if_pos rfl]
      refine ⟨d, ⟨?_, k, h3, ?_⟩, hfd⟩
      · obtain ⟨K, hK, hkept⟩ := abs_text cwd dst
        rw [hK]
        exact text_ne _ _ (kept_no_slash hkept)
      · rw [h1]
        have hfd' : moved fs s d (dd ++ [e]) = some (.file c) := by rw [← h6]; exact hfd
        have := leads_append (leads_dirs hdirs hlinks h4 h5) (.down (hdirs _ h5) h2 hfd' (by simp) (.here _ (by rw [hfd']; simp)))
        rw [← h6] at this
        exact this
    · change moved fs s d s = none
      rw [hchg _ hsd, if_neg hsd, if_pos rfl]
    · change moved fs s d x = fs x
      rw [hchg _ hsd, if_neg hxd, if_neg hxs]

/-- **C158 (does not hold: what the source leads to is moved).** `FileMove` makes the paths absolute as text, while the other helpers walk them: `l/../f`
reads as one file, but another one is moved. -/
theorem C158_text_refuted : readFile links [lit "w"] (lit "l/../f") = .ok (lit "two") ∧ (fileMove links [lit "w"] (lit "l/../f") (lit "new")).2 = true ∧
    (fileMove links [lit "w"] (lit "l/../f") (lit "new")).1 [lit "w", lit "new"] = some (.file (lit "one")) ∧
    (fileMove links [lit "w"] (lit "l/../f") (lit "new")).1 [lit "w", lit "d", lit "f"] = some (.file (lit "two")) := by
  refine ⟨rfl, ?_, ?_, ?_⟩ <;> decide +kernel

/-- **C158 (does not hold: success means moved).** Without a target nothing is moved, and no error reported. -/
theorem C158_empty_refuted (fs : FS) (cwd : Loc) (src : Bytes) : fileMove fs cwd src [] = (fs, true) := rfl

/-- **C158 (does not hold: a link moved leads where it led).** A link whose target is relative leads elsewhere from another directory. -/
theorem C158_link_refuted : isDirectory links [lit "w"] (lit "l") = true ∧ (fileMove links [lit "w"] (lit "l") (lit "d/l")).2 = true ∧
    isDirectory (fileMove links [lit "w"] (lit "l") (lit "d/l")).1 [lit "w"] (lit "d/l") = false ∧
    fileIsExisted (fileMove links [lit "w"] (lit "l") (lit "d/l")).1 [lit "w"] (lit "d/l") = false := by
  decide +kernel

/-- **C158 (does not hold: the target replaced is the file that the target leads to).** A link at the target is replaced, so what it led to keeps its
content. -/
theorem C158_target_refuted : (fileMove links [lit "w"] (lit "f") (lit "gone")).2 = true ∧
    (fileMove links [lit "w"] (lit "f") (lit "gone")).1 [lit "w", lit "gone"] = some (.file (lit "one")) ∧
    (fileMove links [lit "w"] (lit "f") (lit "gone")).1 [lit "w", lit "nowhere"] = none := by
  decide +kernel

/-- A source and a target behind a link. -/
example : EntryAt links [lit "w"] (absPath [lit "w"] (lit "f")) [lit "w", lit "f"] ∧
    EntryAt links [lit "w"] (absPath [lit "w"] (lit "l/g")) [lit "w", lit "d", lit "e", lit "g"] ∧ links [lit "w", lit "d", lit "e", lit "g"] = none := by
  have h1 : elems (absPath [lit "w"] (lit "f")) = [[], lit "w"] ++ [lit "f"] := by decide +kernel
  have h2 : elems (absPath [lit "w"] (lit "l/g")) = [[], lit "w", lit "l"] ++ [lit "g"] := by decide +kernel
  have hn : ∀ e : Bytes, e = lit "w" ∨ e = lit "f" ∨ e = lit "g" ∨ e = lit "l" ∨ e = lit "d" ∨ e = lit "e" → Name e := by
    intro e he
    unfold Name
    rcases he with rfl | rfl | rfl | rfl | rfl | rfl <;> decide +kernel
  have hw : ∀ k es x, Leads links k [lit "w"] es x → Leads links k [] ([] :: lit "w" :: es) x := fun k es x h =>
    .stay (by decide +kernel) (Or.inl rfl) (.down (n := .dir) (by decide +kernel) (hn _ (by simp)) (by decide +kernel) (by simp) h)
  refine ⟨⟨_, _, [lit "w"], 0, h1, hn _ (by simp), by omega, ?_, by decide +kernel, rfl⟩,
    ⟨_, _, [lit "w", lit "d", lit "e"], 1, h2, hn _ (by simp), by omega, ?_, by decide +kernel, rfl⟩, by decide +kernel⟩
  · rw [if_pos (by decide +kernel)]
    exact hw 0 [] _ (.here _ (by decide +kernel))
  · rw [if_pos (by decide +kernel)]
    refine hw 1 [lit "l"] _ (.follow (t := lit "d/e") (by decide +kernel) (hn _ (by simp)) (by decide +kernel) ?_)
    rw [show elems (lit "d/e") = [lit "d", lit "e"] from by decide +kernel, if_neg (by decide +kernel)]
    exact .down (n := .dir) (by decide +kernel) (hn _ (by simp)) (by decide +kernel) (by simp)
      (.down (n := .dir) (by decide +kernel) (hn _ (by simp)) (by decide +kernel) (by simp) (.here _ (by decide +kernel)))

end Verif.FsLink
