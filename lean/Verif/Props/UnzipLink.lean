import Verif.Proof.UnzipLink
import Verif.Props.FsLink2

/-!
# Unpacking where there are symbolic links
-/

namespace Verif.FsLink

open Spec.Walk Spec.Path Utf8 Strings
open Paths hiding Name

theorem kept_tail {r : Bool} {e : Bytes} {s : List Bytes} (h : Kept r (e :: s)) : Kept r s := by
  obtain ⟨names, ups, h1, h2, h3⟩ := h
  cases names with
  | nil =>
    cases ups with
    | zero => cases h1
    | succ n =>
      rw [List.nil_append, List.replicate_succ] at h1
      injection h1 with _ h1
      exact ⟨[], n, by rw [h1]; rfl, by simp, fun hr => absurd (h3 hr) (by omega)⟩
  | cons a names =>
    injection h1 with _ h1
    exact ⟨names, ups, h1, fun x hx => h2 x (List.mem_cons_of_mem _ hx), h3⟩

/-- The elements of a clean path that goes on with names. -/
theorem split_text (r : Bool) (K ns : List Bytes) (hns : ns ≠ []) : textElems r (K ++ ns) = ((if r then [[]] else []) ++ K) ++ ns := by
  have h0 : ¬ K ++ ns = [] := by simp [hns]
  unfold textElems
  rw [if_neg h0, List.append_assoc]

theorem leads_pre {fs : FS} {k : Nat} {l x : Loc} (hl : fs l = some .dir) (r : Bool) {K : List Bytes} (h : Leads fs k l K x) :
    Leads fs k l ((if r then [[]] else []) ++ K) x := by
  cases r with
  | true => exact .stay hl (Or.inl rfl) h
  | false => exact h

/-- `MkdirAll` of a path that leads somewhere changes nothing. -/
theorem mkdirAllR_lead {fs : FS} {l y : Loc} {k : Nat} (hk : k ≤ 40) {a : List Bytes} (h : Leads fs k l a y) : (mkdirAllR fs l a.reverse).1 = fs := by
  cases har : a.reverse with
  | nil => rfl
  | cons e r => rw [mkdirAllR, ← har, List.reverse_reverse, leads_walk h 40 hk]

section
variable {fs : FS} {cwd D : Loc} {r : Bool} {K : List Bytes} {k : Nat}

theorem mkdirAll_inside (hs : Sane fs) (hc : fs cwd = some .dir) (hk : k ≤ 40) (hL : Leads fs k (if r then [] else cwd) K D) (hno : NoLinks fs D)
    (hK : ∀ e ∈ K, 47 ∉ e ∧ e ≠ []) (ns : List Bytes) (hns : ∀ e ∈ ns, Name e ∧ 47 ∉ e) (x : Loc) (hx : ¬ D <+: x) :
    (mkdirAll fs cwd (text r (K ++ ns))).1 x = fs x := by
  have hall : ∀ e ∈ K ++ ns, 47 ∉ e ∧ e ≠ [] := by
    intro e he
    rcases List.mem_append.1 he with he | he
    · exact hK e he
    · exact ⟨(hns e he).2, (hns e he).1.1⟩
  have hl : fs (if r then [] else cwd) = some .dir := by
    cases r
    · exact hc
    · exact hs.root
  unfold mkdirAll
  rw [if_neg (text_ne r _ hall), start_text cwd r _ hall, elems_text r _ hall]
  by_cases h0 : ns = []
  · subst h0
    rw [List.append_nil, mkdirAllR_lead hk ((leads_text hl r K).2 hL)]
  · rw [split_text r K ns h0, List.reverse_append]
    exact mkdirAllR_inside hs hl hk (leads_pre hl r hL) hno ns.reverse (fun e he => (hns e (List.mem_reverse.1 he)).1) x hx

theorem open_inside (hs : Sane fs) (hc : fs cwd = some .dir) (hk : k ≤ 40) (hL : Leads fs k (if r then [] else cwd) K D) (hno : NoLinks fs D)
    (hK : ∀ e ∈ K, 47 ∉ e ∧ e ≠ []) (ns : List Bytes) (hns : ∀ e ∈ ns, Name e ∧ 47 ∉ e) {l : Loc}
    (h : openLoc fs cwd (text r (K ++ ns)) = .ok l) : D <+: l := by
  have hall : ∀ e ∈ K ++ ns, 47 ∉ e ∧ e ≠ [] := by
    intro e he
    rcases List.mem_append.1 he with he | he
    · exact hK e he
    · exact ⟨(hns e he).2, (hns e he).1.1⟩
  have hl : fs (if r then [] else cwd) = some .dir := by
    cases r
    · exact hc
    · exact hs.root
  have hw : resolve fs true cwd (text r (K ++ ns)) = go fs true D ns := by
    unfold resolve
    rw [if_neg (text_ne r _ hall), start_text cwd r _ hall, elems_text r _ hall]
    by_cases h0 : ns = []
    · subst h0
      rw [List.append_nil]
      exact leads_walk ((leads_text hl r K).2 hL) 40 hk
    · rw [split_text r K ns h0]
      exact walk_through (leads_pre hl r hL) hno true (fun e he => (hns e he).1) (Or.inr rfl) 40 hk
  obtain ⟨g1, g2, -⟩ := go_names hno true ns (fun e he => (hns e he).1) D (List.prefix_refl _)
  unfold openLoc at h
  rw [hw] at h
  cases hg : go fs true D ns with
  | found y =>
    rw [hg] at h
    dsimp only at h
    split at h
    · cases h
    · injection h with h
      rw [← h]
      exact g1 y hg
  | missing d e =>
    rw [hg] at h
    injection h with h
    rw [← h]
    exact (g2 d e hg).trans (List.prefix_append _ _)
  | err e => rw [hg] at h; cases h
  | link d t q => rw [hg] at h; cases h

theorem parent_inside (hs : Sane fs) (hc : fs cwd = some .dir) (hk : k ≤ 40) (hL : Leads fs k (if r then [] else cwd) K D) (hno : NoLinks fs D)
    (hK : Kept r K.reverse) (ns : List Bytes) (hns : ∀ e ∈ ns, Name e ∧ 47 ∉ e) (x : Loc) (hx : ¬ D <+: x) :
    (mkdirAll fs cwd (dirOf (text r (K ++ ns)))).1 x = fs x := by
  have hK' := kept_no_slash hK
  rcases List.eq_nil_or_concat ns with rfl | ⟨ns', e, rfl⟩
  · rw [List.append_nil]
    rcases List.eq_nil_or_concat K with rfl | ⟨K', e, rfl⟩
    · have : dirOf (text r []) = text r ([] ++ []) := by cases r <;> rfl
      rw [this]
      exact mkdirAll_inside hs hc hk hL hno hK' [] (by simp) x hx
    · rw [List.concat_eq_append] at hK hL hK' ⊢
      rw [List.reverse_append] at hK
      have hk' : Kept r K'.reverse := kept_tail hK
      rw [dir_text r K' e (hK' e (by simp)).1 hk']
      obtain ⟨k', y, hkk, hy, hyd⟩ := leads_prefix hL K' [e] rfl (by simp)
      have hall := kept_no_slash hk'
      have hl : fs (if r then [] else cwd) = some .dir := by
        cases r
        · exact hc
        · exact hs.root
      unfold mkdirAll
      rw [if_neg (text_ne r _ hall), start_text cwd r _ hall, elems_text r _ hall]
      rw [mkdirAllR_lead (by omega : k' ≤ 40) ((leads_text hl r K').2 hy)]
  · rw [List.concat_eq_append] at hns ⊢
    have hkept : Kept r (K ++ ns').reverse := by
      obtain ⟨names, ups, h1, h2, h3⟩ := hK
      refine ⟨ns'.reverse ++ names, ups, by rw [List.reverse_append, h1, List.append_assoc], ?_, h3⟩
      intro e' he'
      rcases List.mem_append.1 he' with he' | he'
      · obtain ⟨n1, n2⟩ := hns e' (by simp [List.mem_reverse.1 he'])
        exact ⟨n2, n1.1, n1.2.1, n1.2.2⟩
      · exact h2 e' he'
    rw [← List.append_assoc, dir_text r (K ++ ns') e (hns e (by simp)).2 hkept]
    exact mkdirAll_inside hs hc hk hL hno hK' ns' (fun e' he' => hns e' (by simp [he'])) x hx

end

theorem mkdirAll_facts {fs : FS} (hs : Sane fs) {cwd : Loc} (hc : fs cwd = some .dir) (p : Bytes) :
    Sane (mkdirAll fs cwd p).1 ∧ Ext fs (mkdirAll fs cwd p).1 ∧
    (∀ x, fs x = none → (mkdirAll fs cwd p).1 x = none ∨ (mkdirAll fs cwd p).1 x = some .dir) := by
  obtain ⟨h1, h2, h3, -⟩ := C154_mkdir hs hc p
  exact ⟨h1, h2, h3⟩

theorem mkdirAll_link {fs : FS} (hs : Sane fs) {cwd : Loc} (hc : fs cwd = some .dir) (p : Bytes) (x : Loc) (t : Bytes) :
    (mkdirAll fs cwd p).1 x = some (.link t) ↔ fs x = some (.link t) := by
  obtain ⟨-, h2, h3⟩ := mkdirAll_facts hs hc p
  constructor
  · intro h
    cases hf : fs x with
    | none => rcases h3 x hf with h' | h' <;> rw [h'] at h <;> cases h
    | some n => rw [h2 x (by rw [hf]; simp), hf] at h; exact h
  · intro h
    rw [h2 x (by rw [h]; simp), h]

/-- A file written where `open` says. -/
theorem write_facts {fs : FS} (hs : Sane fs) {cwd : Loc} (hc : fs cwd = some .dir) {p : Bytes} {l : Loc} (h : openLoc fs cwd p = .ok l) (c : Bytes) :
    Sane (fs.set l (some (.file c))) ∧ (fs.set l (some (.file c))) cwd = some .dir ∧ Grow fs (fs.set l (some (.file c))) ∧
    ∀ x t, (fs.set l (some (.file c))) x = some (.link t) ↔ fs x = some (.link t) := by
  obtain ⟨h0, h1, h2, -⟩ := open_write hs hc h c
  refine ⟨h1, h2, ?_, fun x t => ?_⟩
  · rcases h0 with ⟨c0, h0⟩ | ⟨h0, -⟩
    · exact grow_like (set_like h0)
    · refine grow_ext (fun x hx => set_other _ _ _ (fun hxl => hx (hxl ▸ h0)))
  · by_cases hx : x = l
    · rw [hx, set_self]
      rcases h0 with ⟨c0, h0⟩ | ⟨h0, -⟩ <;> rw [h0] <;> simp
    · rw [set_other _ _ _ hx]

/-! ## C157: `Unzip` -/

/-- **C157 (no links are made).** `Unzip` makes no link and removes none, whatever is in the archive; directories stay, files stay files. So an
archive cannot prepare a way out of the target directory for a later entry. -/
theorem C157_links {cwd : Loc} (dest : Bytes) (es : List Entry) {fs : FS} (hs : Sane fs) (hc : fs cwd = some .dir) :
    Sane (unzipLoop cwd dest es fs).1 ∧ Grow fs (unzipLoop cwd dest es fs).1 ∧
    ∀ x t, (unzipLoop cwd dest es fs).1 x = some (.link t) ↔ fs x = some (.link t) := by
  induction es generalizing fs with
  | nil => exact ⟨hs, grow_refl _, fun _ _ => Iff.rfl⟩
  | cons f es ih =>
    rw [unzipLoop]
    dsimp only
    split
    · obtain ⟨m1, m2, -⟩ := mkdirAll_facts hs hc (joinPath dest f.name)
      obtain ⟨i1, i2, i3⟩ := ih m1 (ext_dir m2 hc)
      exact ⟨i1, grow_trans (grow_ext m2) i2, fun x t => (i3 x t).trans (mkdirAll_link hs hc _ x t)⟩
    · obtain ⟨m1, m2, -⟩ := mkdirAll_facts hs hc (dirOf (joinPath dest f.name))
      have m3 := fun x t => mkdirAll_link hs hc (dirOf (joinPath dest f.name)) x t
      split
      · exact ⟨m1, grow_ext m2, m3⟩
      · cases ho : openLoc (mkdirAll fs cwd (dirOf (joinPath dest f.name))).1 cwd (joinPath dest f.name) with
        | error e => exact ⟨m1, grow_ext m2, m3⟩
        | ok l =>
          obtain ⟨w1, w2, w3, w4⟩ := write_facts m1 (ext_dir m2 hc) ho f.content
          obtain ⟨i1, i2, i3⟩ := ih w1 w2
          exact ⟨i1, grow_trans (grow_trans (grow_ext m2) w3) i2, fun x t => ((i3 x t).trans (w4 x t)).trans (m3 x t)⟩

/-- **C157.** Let the target (not empty, cleaned) lead to the directory `D`, however many links are on the way, with no link at or below `D`, and
no name with an element `..`. Then nothing outside `D` changes, whether `Unzip` succeeds or fails. -/
theorem C157_inside_partial {cwd : Loc} {dest : Bytes} (hd : dest ≠ []) (es : List Entry) (hes : ∀ f ∈ es, [46, 46] ∉ elems f.name) {fs : FS}
    (hs : Sane fs) (hc : fs cwd = some .dir) {D : Loc} (hD : PathLeads fs cwd (clean dest) D) (hno : ∀ x t, D <+: x → fs x ≠ some (.link t))
    (x : Loc) (hx : ¬ D <+: x) : (unzipLoop cwd dest es fs).1 x = fs x := by
  have hkept := kept_of dest
  have hns := kept_no_slash hkept
  have hL : ∃ k, k ≤ 40 ∧ Leads fs k (if isAbs dest then [] else cwd) (keptOf dest) D := by
    obtain ⟨-, k, hk, h⟩ := hD
    refine ⟨k, hk, ?_⟩
    change Leads fs k (start cwd (clean dest)) _ _ at h
    rw [clean_text, start_text _ _ _ hns, elems_text _ _ hns] at h
    refine (leads_text ?_ _ _).1 h
    cases isAbs dest
    · exact hc
    · exact hs.root
  obtain ⟨k, hk, hL⟩ := hL
  clear hD
  induction es generalizing fs with
  | nil => rfl
  | cons f es ih =>
    have hf := hes f List.mem_cons_self
    have hes' : ∀ f ∈ es, [46, 46] ∉ elems f.name := fun g hg => hes g (List.mem_cons_of_mem _ hg)
    rw [unzipLoop, join_text dest f.name hd hf]
    dsimp only
    have hnm := names_name f.name hf
    split
    · obtain ⟨m1, m2, -⟩ := mkdirAll_facts hs hc (text (isAbs dest) (keptOf dest ++ namesOf f.name))
      rw [ih hes' m1 (ext_dir m2 hc) (fun y t hy h => hno y t hy ((mkdirAll_link hs hc _ y t).1 h)) (leads_grow (grow_ext m2) hL)]
      exact mkdirAll_inside hs hc hk hL hno hns _ hnm x hx
    · obtain ⟨m1, m2, -⟩ := mkdirAll_facts hs hc (dirOf (text (isAbs dest) (keptOf dest ++ namesOf f.name)))
      have m3 := parent_inside hs hc hk hL hno hkept _ hnm x hx
      split
      · exact m3
      · cases ho : openLoc (mkdirAll fs cwd (dirOf (text (isAbs dest) (keptOf dest ++ namesOf f.name)))).1 cwd
          (text (isAbs dest) (keptOf dest ++ namesOf f.name)) with
        | error e => exact m3
        | ok l =>
          have hno' : NoLinks (mkdirAll fs cwd (dirOf (text (isAbs dest) (keptOf dest ++ namesOf f.name)))).1 D :=
            fun y t hy h => hno y t hy ((mkdirAll_link hs hc _ y t).1 h)
          have hL' := leads_grow (grow_ext m2) hL
          have hin := open_inside m1 (ext_dir m2 hc) hk hL' hno' hns _ hnm ho
          obtain ⟨w1, w2, w3, w4⟩ := write_facts m1 (ext_dir m2 hc) ho f.content
          dsimp only
          rw [ih hes' w1 w2 (fun y t hy h => hno' y t hy ((w4 y t).1 h)) (leads_grow w3 hL')]
          exact (set_other _ _ _ (fun hxl => hx (by rw [hxl]; exact hin))).trans m3

/-- **C157 (the last file).** If all entries are unpacked and the last is a file, reading the path made from its name gives its content, links or
not. -/
theorem C157_last {cwd : Loc} (dest : Bytes) (es : List Entry) (f : Entry) (hf : f.isDir = false) {fs : FS} (hs : Sane fs) (hc : fs cwd = some .dir)
    (h : (unzipLoop cwd dest (es ++ [f]) fs).2 = true) : readFile (unzipLoop cwd dest (es ++ [f]) fs).1 cwd (joinPath dest f.name) = .ok f.content := by
  induction es generalizing fs with
  | nil =>
    rw [List.nil_append, unzipLoop] at h ⊢
    dsimp only at h ⊢
    rw [if_neg (by rw [hf]; simp)] at h ⊢
    obtain ⟨m1, m2, -⟩ := mkdirAll_facts hs hc (dirOf (joinPath dest f.name))
    split at h
    · cases h
    · rename_i hb
      rw [if_neg hb]
      cases ho : openLoc (mkdirAll fs cwd (dirOf (joinPath dest f.name))).1 cwd (joinPath dest f.name) with
      | error e => rw [ho] at h; cases h
      | ok l =>
        obtain ⟨-, w1, w2, w3⟩ := open_write m1 (ext_dir m2 hc) ho f.content
        exact (read_iff w1 w2 _ _).2 ⟨l, w3, set_self _ _ _⟩
  | cons g es ih =>
    rw [List.cons_append, unzipLoop] at h ⊢
    dsimp only at h ⊢
    by_cases hg : g.isDir = true
    · rw [if_pos hg] at h ⊢
      obtain ⟨m1, m2, -⟩ := mkdirAll_facts hs hc (joinPath dest g.name)
      exact ih m1 (ext_dir m2 hc) h
    · rw [if_neg hg] at h ⊢
      obtain ⟨m1, m2, -⟩ := mkdirAll_facts hs hc (dirOf (joinPath dest g.name))
      split at h
      · cases h
      · rename_i hb
        rw [if_neg hb]
        cases ho : openLoc (mkdirAll fs cwd (dirOf (joinPath dest g.name))).1 cwd (joinPath dest g.name) with
        | error e => rw [ho] at h; cases h
        | ok l =>
          rw [ho] at h
          obtain ⟨w1, w2, -⟩ := write_facts m1 (ext_dir m2 hc) ho g.content
          exact ih w1 w2 h

/-- A directory with a link out of it. -/
def trap : FS := fun x =>
  if x = [] ∨ x = [lit "d"] ∨ x = [lit "e"] then some .dir
  else if x = [lit "d", lit "l"] then some (.link (lit "/e"))
  else if x = [lit "e", lit "p"] then some (.file (lit "root"))
  else none

/-- **C157 (does not hold: a harmless name stays inside).** If there is a link in the target directory, an entry whose name has no `..` (and that
`IsMaliciousPath` lets pass) overwrites a file outside. -/
theorem C157_refuted : isMaliciousPath (lit "l/p") = false ∧ PathLeads trap [] (lit "/d") [lit "d"] ∧
    (unzipLoop [] (lit "/d") [⟨lit "l/p", false, lit "evil", false, false⟩] trap).2 = true ∧
    (unzipLoop [] (lit "/d") [⟨lit "l/p", false, lit "evil", false, false⟩] trap).1 [lit "e", lit "p"] = some (.file (lit "evil")) := by
  refine ⟨by decide +kernel, ⟨by decide +kernel, 0, by omega, ?_⟩, by decide +kernel, by decide +kernel⟩
  have : elems (lit "/d") = [[], lit "d"] := by decide +kernel
  rw [this, if_pos (by decide +kernel)]
  exact .stay (by decide +kernel) (Or.inl rfl) (.down (n := .dir) (by decide +kernel) ⟨by decide +kernel, by decide +kernel, by decide +kernel⟩ (by decide +kernel) (by simp)
    (.here _ (by decide +kernel)))

/-- **C157 (does not hold: the target is where its text leads).** The target is cleaned as text first, so with a link in it the files land in another
directory than the one to which it leads. -/
theorem C157_dest_refuted : PathLeads links [lit "w"] (lit "l/..") [lit "w", lit "d"] ∧
    (unzipLoop [lit "w"] (lit "l/..") [⟨lit "new", false, lit "x", false, false⟩] links).2 = true ∧
    (unzipLoop [lit "w"] (lit "l/..") [⟨lit "new", false, lit "x", false, false⟩] links).1 [lit "w", lit "new"] = some (.file (lit "x")) ∧
    (unzipLoop [lit "w"] (lit "l/..") [⟨lit "new", false, lit "x", false, false⟩] links).1 [lit "w", lit "d", lit "new"] = none := by
  refine ⟨(resolve_found links_sane (by decide +kernel) _ _).1 (by decide +kernel), by decide +kernel, by decide +kernel, by decide +kernel⟩

/-- A target behind a link, with no link at or below it; two entries. -/
example : PathLeads links [lit "w"] (clean (lit "l/")) [lit "w", lit "d", lit "e"] ∧
    (unzipLoop [lit "w"] (lit "l/") [⟨lit "a/", true, [], false, false⟩, ⟨lit "a/b", false, lit "x", false, false⟩] links).2 = true ∧
    (unzipLoop [lit "w"] (lit "l/") [⟨lit "a/", true, [], false, false⟩, ⟨lit "a/b", false, lit "x", false, false⟩] links).1
      [lit "w", lit "d", lit "e", lit "a", lit "b"] = some (.file (lit "x")) :=
  ⟨(resolve_found links_sane (by decide +kernel) _ _).1 (by decide +kernel), by decide +kernel, by decide +kernel⟩

end Verif.FsLink
