import Verif.Model.Zip
import Verif.Proof.Paths
import Verif.Proof.Upload
import Mathlib.Data.List.Induction

/-!
# Lemmas for archives: where the parts of a path lead, and what one entry does to a file system
-/

namespace Verif.Paths

open Strings Spec.Path

theorem last_slash (p : Bytes) (h : 47 ∈ p) : ∃ a b, p = a ++ 47 :: b ∧ 47 ∉ b := by
  obtain ⟨l, d, hl, he⟩ := mem_split 47 p.reverse (by simpa using h)
  refine ⟨d.reverse, l.reverse, ?_, by simpa using hl⟩
  have := congrArg List.reverse he
  simpa using this

/-- The directory of a path whose last element is a name. -/
theorem loc_dirOf (cwd : List Bytes) (p e : Bytes) (hl : (elems p).getLast? = some e) (hn : Name e) :
    loc cwd p = loc cwd (dirOf p) ++ [e] := by
  unfold dirOf
  rw [loc_clean, show slash = 47 from rfl]
  by_cases h : 47 ∈ p
  · obtain ⟨a, b, rfl, hb⟩ := last_slash p h
    have hpre : ((a ++ 47 :: b).reverse.dropWhile (· != 47)).reverse = a ++ [47] := by
      have h1 : (a ++ 47 :: b).reverse = b.reverse ++ (47 :: a.reverse) := by simp
      rw [h1, List.dropWhile_append_of_pos]
      · simp
      · intro x hx
        have : x ≠ 47 := by rintro rfl; exact hb (by simpa using hx)
        simpa using this
    rw [hpre]
    rw [elems_slash, elems_free b hb] at hl
    have hbe : b = e := by simpa using hl
    subst hbe
    have hh : (a ++ 47 :: b).head? = (a ++ [47]).head? := by cases a <;> rfl
    unfold loc
    rw [hh, elems_slash, elems_slash, elems_free b hb, List.foldl_append, List.foldl_append]
    simp only [List.foldl_cons, List.foldl_nil]
    rw [step_name _ _ hn]
    rfl
  · have hpre : (p.reverse.dropWhile (· != 47)).reverse = [] := by
      have h1 : ∀ x ∈ p.reverse, (x != 47) = true := by
        intro x hx
        have : x ≠ 47 := by rintro rfl; exact h (by simpa using hx)
        simpa using this
      rw [List.reverse_eq_nil_iff]
      simpa using List.dropWhile_append_of_pos (l₂ := []) h1
    rw [hpre]
    rw [elems_free p h] at hl
    have hbe : p = e := by simpa using hl
    subst hbe
    have hh : ¬ p.head? = some 47 := fun hc => h (List.mem_of_head? hc)
    unfold loc
    rw [if_neg hh, elems_free p h]
    simp only [List.foldl_cons, List.foldl_nil]
    rw [step_name _ _ hn]
    rfl

theorem elems_clean_last (q e : Bytes) (hl : (elems q).getLast? = some e) (hn : Name e) : (elems (clean q)).getLast? = some e := by
  obtain ⟨es, hes⟩ := List.getLast?_eq_some_iff.1 hl
  unfold clean
  rw [show slash = 47 from rfl, split_elems]
  dsimp only
  have hk : ∀ rooted : Bool, (rooted = true → (0:Nat) = 0) →
      Kept rooted ((elems q).foldl (cleanStep rooted) []) ∧
      ∃ st, (elems q).foldl (cleanStep rooted) [] = e :: st := by
    intro rooted _
    constructor
    · have hno := elems_no_slash q
      generalize elems q = l at hno
      have : ∀ (l : List Bytes) (st : List Bytes), (∀ e ∈ l, 47 ∉ e) → Kept rooted st → Kept rooted (l.foldl (cleanStep rooted) st) := by
        intro l
        induction l with
        | nil => intro st _ h; exact h
        | cons a l ih =>
          intro st h hk
          exact ih _ (fun e he => h e (List.mem_cons_of_mem _ he)) (kept_step rooted st a hk (h a List.mem_cons_self))
      exact this l [] hno ⟨[], 0, rfl, by simp, by simp⟩
    · rw [hes, List.foldl_append]
      refine ⟨es.foldl (cleanStep rooted) [], ?_⟩
      have h1 : ∀ st, cleanStep rooted st e = e :: st := by
        intro st
        unfold cleanStep
        rw [if_neg (by rintro (h | h); exacts [hn.2.1 h, hn.2.2.1 h]), if_neg hn.2.2.2]
      rw [List.foldl_cons, List.foldl_nil, h1]
  have hno : ∀ rooted : Bool, ∀ x ∈ ((elems q).foldl (cleanStep rooted) []).reverse, 47 ∉ x := by
    intro rooted x hx
    obtain ⟨⟨names, ups, he, h1, -⟩, -⟩ := hk rooted (fun _ => rfl)
    rw [List.mem_reverse, he, List.mem_append] at hx
    rcases hx with hx | hx
    · exact (h1 x hx).1
    · rw [(List.mem_replicate.1 hx).2]; decide
  obtain ⟨-, st, hst⟩ := hk (isAbs q) (fun _ => rfl)
  have hne : ((elems q).foldl (cleanStep (isAbs q)) []).reverse ≠ [] := by rw [hst]; simp
  split
  · rw [show ∀ s : Bytes, (47 :: s) = [] ++ 47 :: s from fun _ => rfl, elems_append [] _ (by simp), elems_join _ hne (hno _), hst,
      List.reverse_cons, ← List.cons_append, List.getLast?_append]
    rfl
  · first
    | rw [if_neg hne, elems_join _ hne (hno _), hst, List.reverse_cons, List.getLast?_append]
    | rw [elems_join _ hne (hno _), hst, List.reverse_cons, List.getLast?_append]
    rfl

theorem joinPath_last (d n e : Bytes) (hl : (elems n).getLast? = some e) (hn : Name e) : (elems (joinPath d n)).getLast? = some e := by
  have hne : n ≠ [] := by
    rintro rfl
    simp [elems] at hl
    exact hn.2.1 hl
  unfold joinPath
  by_cases hd : d = []
  · rw [if_neg (by simpa using hd), if_pos hne]
    exact elems_clean_last n e hl hn
  · rw [if_pos hd]
    apply elems_clean_last _ e _ hn
    rw [List.append_assoc, show slash = 47 from rfl, List.singleton_append, elems_slash, List.getLast?_append, hl]
    rfl

end Verif.Paths

namespace Verif.Zip

open Fs Paths Spec.Path

theorem mkdirAll_spec (fs fs1 : FS) (l : Loc) (h : mkdirAll fs l = some fs1) (x : Loc) :
    fs1 x = if x <+: l ∧ fs x = none then some .dir else fs x := by
  unfold mkdirAll at h
  split at h
  · cases h
  · injection h with h
    rw [← h]

theorem create_spec (fs fs1 : FS) (l : Loc) (h : create fs l = some fs1) : fs1 = fs.set l (some (.file [])) := by
  unfold create at h
  split at h
  · injection h with h
    exact h.symm
  · cases h

/-- Where an entry goes. -/
def target (cwd : Loc) (dest : Bytes) (f : Entry) : Loc := loc cwd (joinPath dest f.name)

/-- The directory that is made for an entry. -/
def folder (cwd : Loc) (dest : Bytes) (f : Entry) : Loc :=
  if f.isDir then loc cwd (joinPath dest f.name) else loc cwd (dirOf (joinPath dest f.name))

/-- What one entry can do to a file system. -/
structure Did (cwd : Loc) (dest : Bytes) (f : Entry) (fs fs1 : FS) : Prop where
  kept : ∀ x, fs x ≠ none → (f.isDir = false → target cwd dest f ≠ x) → fs1 x = fs x
  made : ∀ x, fs x = none → fs1 x ≠ none → (f.isDir = false ∧ target cwd dest f = x) ∨ (fs1 x = some .dir ∧ x <+: folder cwd dest f)

theorem Did.refl (cwd : Loc) (dest : Bytes) (f : Entry) (fs : FS) : Did cwd dest f fs fs :=
  ⟨fun _ _ _ => rfl, fun _ h h' => absurd h h'⟩

/-- The loop after its first entry: it stops with an error, or goes on. -/
theorem unzipLoop_cons (cwd zip : Loc) (bytes dest : Bytes) (f : Entry) (es : List Entry) (paths : List Bytes) (fs : FS) :
    ∃ fs1, Did cwd dest f fs fs1 ∧
      (unzipLoop cwd zip bytes dest (f :: es) paths fs = (fs1, none) ∨
       ((f.isDir = false → fs1 (target cwd dest f) = some (.file f.content)) ∧
        unzipLoop cwd zip bytes dest (f :: es) paths fs = unzipLoop cwd zip bytes dest es (paths ++ [joinPath dest f.name]) fs1)) := by
  rw [unzipLoop]
  dsimp only
  cases hd : f.isDir with
  | true =>
    refine ⟨(mkdirAll fs (loc cwd (joinPath dest f.name))).getD fs, ?_, Or.inr ⟨by simp, by simp⟩⟩
    cases hm : mkdirAll fs (loc cwd (joinPath dest f.name)) with
    | none => exact Did.refl ..
    | some fs1 =>
      have hs := mkdirAll_spec _ _ _ hm
      simp only [Option.getD_some]
      constructor
      · intro x hx _
        rw [hs x, if_neg (fun h => hx h.2)]
      · intro x hx hx1
        right
        rw [hs x] at hx1 ⊢
        unfold folder
        rw [hd, if_pos rfl]
        by_cases hp : x <+: loc cwd (joinPath dest f.name) ∧ fs x = none
        · rw [if_pos hp]; exact ⟨rfl, hp.1⟩
        · rw [if_neg hp] at hx1; exact absurd hx hx1
  | false =>
    simp only [Bool.false_eq_true, if_false]
    cases hm : mkdirAll fs (loc cwd (dirOf (joinPath dest f.name))) with
    | none => exact ⟨fs, Did.refl .., Or.inl rfl⟩
    | some fs1 =>
      have hs := mkdirAll_spec _ _ _ hm
      have hfold : folder cwd dest f = loc cwd (dirOf (joinPath dest f.name)) := by unfold folder; simp [hd]
      have d1 : Did cwd dest f fs fs1 := by
        constructor
        · intro x hx _
          rw [hs x, if_neg (fun h => hx h.2)]
        · intro x hx hx1
          right
          rw [hs x] at hx1 ⊢
          rw [hfold]
          by_cases hp : x <+: loc cwd (dirOf (joinPath dest f.name)) ∧ fs x = none
          · rw [if_pos hp]; exact ⟨rfl, hp.1⟩
          · rw [if_neg hp] at hx1; exact absurd hx hx1
      have dset : ∀ c, Did cwd dest f fs (fs1.set (target cwd dest f) (some (.file c))) := by
        intro c
        constructor
        · intro x hx hne
          have := hne hd
          unfold FS.set
          rw [if_neg (fun h => this h.symm)]
          exact d1.kept x hx hne
        · intro x hx hx1
          by_cases hxt : target cwd dest f = x
          · exact Or.inl ⟨hd, hxt⟩
          · unfold FS.set at hx1 ⊢
            rw [if_neg (fun h => hxt h.symm)] at hx1 ⊢
            exact d1.made x hx hx1
      dsimp only
      split
      · exact ⟨fs1, d1, Or.inl rfl⟩
      cases hc : create fs1 (loc cwd (joinPath dest f.name)) with
      | none => exact ⟨fs1, d1, Or.inl rfl⟩
      | some fs2 =>
        have h2 := create_spec _ _ _ hc
        dsimp only
        split
        · refine ⟨fs2, ?_, Or.inl rfl⟩
          rw [h2]
          exact dset []
        have h3 : fs2.set (loc cwd (joinPath dest f.name)) (some (.file f.content)) = fs1.set (target cwd dest f) (some (.file f.content)) := by
          rw [h2]
          funext x
          unfold FS.set target
          split <;> rfl
        rw [h3]
        split
        · exact ⟨_, dset _, Or.inl rfl⟩
        · exact ⟨_, dset _, Or.inr ⟨fun _ => by simp [FS.set], rfl⟩⟩

end Verif.Zip
