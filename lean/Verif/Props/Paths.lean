import Verif.Proof.Paths
import Mathlib.Tactic.ByContra

/-!
# C85, C86: paths
-/

namespace Verif.Paths

open Utf8 Strings Spec.Path

/-- `filepath.Clean` does not change where a path leads, and `filepath.Join` walks along both arguments. -/
theorem C85_clean (cwd : List Bytes) (p : Bytes) : loc cwd (clean p) = loc cwd p := loc_clean cwd p

theorem C85_join (cwd : List Bytes) (d p : Bytes) (hd : d ≠ []) :
    loc cwd (joinPath d p) = (elems p).foldl step (loc cwd d) := by
  unfold joinPath
  rw [if_pos hd, loc_clean, show slash = 47 from rfl, loc_slash cwd d p hd]

theorem isAbs_iff (p : Bytes) : isAbs p = true ↔ p.head? = some 47 := by
  unfold isAbs hasPrefix slash
  cases p with
  | nil => simp
  | cons c p =>
    simp only [List.isPrefixOf, List.head?_cons, Option.some.injEq, Bool.and_true, beq_iff_eq]
    exact eq_comm

/-- `IsMaliciousPath` in terms of the string. -/
theorem C85_iff (p : Bytes) : isMaliciousPath p = true ↔ p.head? = some 47 ∨ [46, 46] <:+: p := by
  unfold isMaliciousPath
  rw [Bool.or_eq_true, isAbs_iff, contains_iff]
  rfl

theorem no_dotdot (p : Bytes) (h : isMaliciousPath p = false) : dotdot ∉ elems p := by
  intro hm
  have := elems_infix p dotdot hm
  rw [(C85_iff p).2 (Or.inr this)] at h
  cases h

/-- A path that is not malicious stays inside every directory it is joined to, from every current directory. -/
theorem C85_inside (p : Bytes) (h : isMaliciousPath p = false) (cwd : List Bytes) (d : Bytes) : Inside cwd d (joinPath d p) := by
  apply inside_join cwd d p (no_dotdot p h)
  rintro -
  intro hp
  rw [(C85_iff p).2 (Or.inl hp)] at h
  cases h

/-- Also when it is appended to the directory by hand. -/
theorem C85_inside_concat (p : Bytes) (h : isMaliciousPath p = false) (cwd : List Bytes) (d : Bytes) (hd : d ≠ []) :
    Inside cwd d (d ++ [47] ++ p) := by
  unfold Inside
  rw [loc_slash cwd d p hd]
  exact walk_down _ (no_dotdot p h) _

/-- The check is needed: a path of one `..` leads out of every directory but the root. -/
theorem C85_needed (cwd : List Bytes) (d : Bytes) (hd : d ≠ []) (hr : loc cwd d ≠ []) :
    isMaliciousPath (lit "..") = true ∧ ¬ Inside cwd d (joinPath d (lit "..")) := by
  refine ⟨by decide, ?_⟩
  unfold Inside
  rw [C85_join cwd d _ hd]
  rw [show elems (lit "..") = [[46, 46]] by decide]
  intro h
  have hs : List.foldl step (loc cwd d) [[46, 46]] = (loc cwd d).dropLast := by
    simp [step]
  rw [hs] at h
  have h1 := h.length_le
  have h2 := List.length_pos_iff.2 hr
  rw [List.length_dropLast] at h1
  omega

/-- It refuses more than needed: `a..b` is a plain name. -/
theorem C85_strict : isMaliciousPath (lit "a..b") = true ∧ ∀ cwd d, Inside cwd d (joinPath d (lit "a..b")) := by
  refine ⟨by decide, fun cwd d => inside_join cwd d _ (by decide) (fun _ => by decide)⟩

example : isMaliciousPath (lit "img/./a.png") = false ∧ joinPath (lit "/srv/../data") (lit "img/./a.png") = lit "/data/img/a.png" := by
  decide +kernel

/-! ## C86 -/

/-- Where an operation of an entry goes; the directory of a file is made on the way to it. -/
def Op.target : Op → Option Bytes
  | .mkdir p => some p
  | .parent _ => none
  | .write p _ => some p

theorem unzipLoop_targets (os : Os) (dest : Bytes) (fs : List Entry) (paths : List Bytes) (ops : List Op) :
    ∀ o ∈ (unzipLoop os dest fs paths ops).2, o ∈ ops ∨ ∀ t, o.target = some t → ∃ f ∈ fs, t = joinPath dest f.name := by
  induction fs generalizing paths ops with
  | nil => exact fun o ho => Or.inl ho
  | cons f fs ih =>
    intro o ho
    unfold unzipLoop at ho
    dsimp only at ho
    have hnew : ∀ ops' : List Op, (∀ o ∈ ops', ∀ t, o.target = some t → t = joinPath dest f.name) →
        ∀ paths', o ∈ (unzipLoop os dest fs paths' (ops ++ ops')).2 →
        o ∈ ops ∨ ∀ t, o.target = some t → ∃ f' ∈ f :: fs, t = joinPath dest f'.name := by
      intro ops' h paths' ho
      rcases ih paths' (ops ++ ops') o ho with h1 | h1
      · rcases List.mem_append.1 h1 with h1 | h1
        · exact Or.inl h1
        · exact Or.inr fun t ht => ⟨f, List.mem_cons_self, h o h1 t ht⟩
      · right
        intro t ht
        obtain ⟨f', hf', he⟩ := h1 t ht
        exact ⟨f', List.mem_cons_of_mem _ hf', he⟩
    have hstop : ∀ ops' : List Op, (∀ o ∈ ops', ∀ t, o.target = some t → t = joinPath dest f.name) → o ∈ ops ++ ops' →
        o ∈ ops ∨ ∀ t, o.target = some t → ∃ f' ∈ f :: fs, t = joinPath dest f'.name := by
      intro ops' h ho
      rcases List.mem_append.1 ho with h1 | h1
      · exact Or.inl h1
      · exact Or.inr fun t ht => ⟨f, List.mem_cons_self, h o h1 t ht⟩
    have hp : ∀ o ∈ [Op.parent (dirOf (joinPath dest f.name))], ∀ t, o.target = some t → t = joinPath dest f.name := by
      intro o ho t ht
      rw [List.mem_singleton] at ho
      subst ho
      cases ht
    split at ho
    · refine hnew [.mkdir _] ?_ _ ho
      intro o ho t ht
      rw [List.mem_singleton] at ho
      subst ho
      exact (Option.some.inj ht).symm
    split at ho
    · exact hstop _ hp ho
    split at ho
    · exact hstop _ hp ho
    split at ho
    · exact hstop _ hp ho
    rw [List.append_assoc] at ho
    have hw : ∀ o ∈ [Op.parent (dirOf (joinPath dest f.name))] ++ [Op.write (joinPath dest f.name) f.content],
        ∀ t, o.target = some t → t = joinPath dest f.name := by
      intro o ho t ht
      rcases List.mem_append.1 ho with ho | ho
      · exact hp o ho t ht
      · rw [List.mem_singleton] at ho
        subst ho
        exact (Option.some.inj ht).symm
    split at ho
    · exact hstop _ hw ho
    · exact hnew _ hw _ ho

/-- Every path an entry is written to is the destination joined with the name of the entry. -/
theorem C86_targets (os : Os) (dest : Bytes) (fs : List Entry) :
    ∀ o ∈ (unzip os dest fs).2, ∀ t, o.target = some t → ∃ f ∈ fs, t = joinPath dest f.name := by
  intro o ho
  rcases unzipLoop_targets os dest fs [] [] o ho with h | h
  · cases h
  · exact h

/-- If no name is malicious, everything is written inside the destination, whether `Unzip` succeeds or not.

Missing for the full claim: archives with malicious names, for which it fails (`C86_refuted`). -/
theorem C86_partial (os : Os) (dest : Bytes) (fs : List Entry) (h : ∀ f ∈ fs, isMaliciousPath f.name = false) (cwd : List Bytes) :
    ∀ o ∈ (unzip os dest fs).2, ∀ t, o.target = some t → Inside cwd dest t := by
  intro o ho t ht
  obtain ⟨f, hf, rfl⟩ := C86_targets os dest fs o ho t ht
  exact C85_inside f.name (h f hf) cwd dest

/-- More exactly, no `..` as an element of a name suffices (an absolute name is taken relative to a destination that is
not empty). -/
theorem C86_elements_partial (os : Os) (dest : Bytes) (hd : dest ≠ []) (fs : List Entry) (h : ∀ f ∈ fs, [46, 46] ∉ elems f.name)
    (cwd : List Bytes) : ∀ o ∈ (unzip os dest fs).2, ∀ t, o.target = some t → Inside cwd dest t := by
  intro o ho t ht
  obtain ⟨f, hf, rfl⟩ := C86_targets os dest fs o ho t ht
  exact inside_join cwd dest f.name (h f hf) (fun h' => absurd h' hd)

/-- The archive with one file `../evil`: `Unzip` succeeds and has written outside the destination. -/
theorem C86_refuted : ∃ (os : Os) (dest : Bytes) (fs : List Entry) (cwd : List Bytes) (t content : Bytes),
    unzip os dest fs = (some [t], [.parent (lit "/srv"), .write t content]) ∧ t = lit "/srv/evil" ∧ ¬ Inside cwd dest t := by
  refine ⟨⟨fun _ => false, fun _ => false⟩, lit "/srv/up", [⟨lit "../evil", false, lit "x", false, false⟩], [],
    lit "/srv/evil", lit "x", by decide +kernel, rfl, ?_⟩
  unfold Inside
  decide +kernel

/-- The operations of one entry when nothing fails. -/
def entryOps (dest : Bytes) (f : Entry) : List Op :=
  if f.isDir then [.mkdir (joinPath dest f.name)]
  else [.parent (dirOf (joinPath dest f.name)), .write (joinPath dest f.name) f.content]

/-- An entry that fails. -/
def entryFails (os : Os) (dest : Bytes) (f : Entry) : Prop :=
  f.isDir = false ∧
    (os.mkdirFails (dirOf (joinPath dest f.name)) = true ∨ f.openErr = true ∨ os.createFails (joinPath dest f.name) = true ∨ f.copyErr = true)

theorem unzipLoop_cons (os : Os) (dest : Bytes) (f : Entry) (fs : List Entry) (paths : List Bytes) (ops : List Op) :
    (¬ entryFails os dest f → unzipLoop os dest (f :: fs) paths ops =
      unzipLoop os dest fs (paths ++ [joinPath dest f.name]) (ops ++ entryOps dest f)) ∧
    (entryFails os dest f → (unzipLoop os dest (f :: fs) paths ops).1 = none) := by
  unfold entryFails entryOps
  rw [unzipLoop]
  dsimp only
  cases f.isDir <;> cases os.mkdirFails (dirOf (joinPath dest f.name)) <;> cases f.openErr <;>
    cases os.createFails (joinPath dest f.name) <;> cases f.copyErr <;> simp

theorem unzipLoop_result (os : Os) (dest : Bytes) (fs : List Entry) (paths : List Bytes) (ops : List Op) :
    ((∀ f ∈ fs, ¬ entryFails os dest f) → unzipLoop os dest fs paths ops =
      (some (paths ++ fs.map (fun f => joinPath dest f.name)), ops ++ (fs.map (entryOps dest)).flatten)) ∧
    ((∃ f ∈ fs, entryFails os dest f) → (unzipLoop os dest fs paths ops).1 = none) := by
  induction fs generalizing paths ops with
  | nil => exact ⟨fun _ => by simp [unzipLoop], by simp⟩
  | cons f fs ih =>
    obtain ⟨h1, h2⟩ := unzipLoop_cons os dest f fs paths ops
    constructor
    · intro h
      rw [h1 (h f List.mem_cons_self), (ih _ _).1 (fun x hx => h x (List.mem_cons_of_mem _ hx))]
      simp
    · rintro ⟨x, hx, hf⟩
      by_cases hff : entryFails os dest f
      · exact h2 hff
      · rw [h1 hff]
        rcases List.mem_cons.1 hx with rfl | hx
        · exact absurd hf hff
        · exact (ih _ _).2 ⟨x, hx, hf⟩

/-- `Unzip` succeeds exactly if no file entry fails; then it has written every entry in order and returns their paths. -/
theorem C86_all_written (os : Os) (dest : Bytes) (fs : List Entry) :
    ((unzip os dest fs).1.isSome ↔ ∀ f ∈ fs, ¬ entryFails os dest f) ∧
    ((unzip os dest fs).1.isSome → unzip os dest fs = (some (fs.map (fun f => joinPath dest f.name)), (fs.map (entryOps dest)).flatten)) := by
  obtain ⟨h1, h2⟩ := unzipLoop_result os dest fs [] []
  have h3 : (unzip os dest fs).1.isSome → ∀ f ∈ fs, ¬ entryFails os dest f := by
    intro h f hf hff
    unfold unzip at h
    rw [h2 ⟨f, hf, hff⟩] at h
    cases h
  refine ⟨⟨h3, fun h => ?_⟩, fun h => ?_⟩
  · unfold unzip
    rw [h1 h]
    rfl
  · have := h1 (h3 h)
    simpa [unzip] using this

end Verif.Paths
