import Verif.Proof.FsLink

/-!
# Properties of the file helpers with symbolic links
-/

namespace Verif.FsLink

open Spec.Walk Spec.Path Paths Utf8

/-! ## C152: where paths lead -/

/-- **C152.** `Stat` gives the node of the place to which the path leads (over at most 40 links), and an error if there is none. -/
theorem C152_stat {fs : FS} (hs : Sane fs) {cwd : Loc} (hc : fs cwd = some .dir) (p : Bytes) (n : Node) :
    stat fs cwd p = .ok n ↔ ∃ x, PathLeads fs cwd p x ∧ fs x = some n := by
  unfold stat
  constructor
  · intro h
    cases hw : resolve fs true cwd p with
    | found x =>
      rw [hw] at h
      dsimp only [nodeOf] at h
      refine ⟨x, (resolve_found hs hc p x).1 hw, ?_⟩
      cases hx : fs x with
      | none => rw [hx] at h; cases h
      | some m => rw [hx] at h; cases h; rfl
    | missing d e => rw [hw] at h; cases h
    | err e => rw [hw] at h; cases h
    | link d t r => rw [hw] at h; cases h
  · rintro ⟨x, h, hx⟩
    rw [(resolve_found hs hc p x).2 h]
    dsimp only [nodeOf]
    rw [hx]

/-- **C152 (one place).** -/
theorem C152_unique {fs : FS} {cwd : Loc} {p : Bytes} {x y : Loc} (h1 : PathLeads fs cwd p x) (h2 : PathLeads fs cwd p y) : x = y :=
  leads_unique h1 h2

/-- **C152 (never a link).** What `Stat` finds is no link. -/
theorem C152_nolink {fs : FS} (hs : Sane fs) {cwd : Loc} (hc : fs cwd = some .dir) {p : Bytes} {x : Loc} (h : PathLeads fs cwd p x) :
    fs x ≠ none ∧ ∀ t, fs x ≠ some (.link t) := by
  have hr := (resolve_found hs hc p x).2 h
  unfold resolve at hr
  rw [if_neg h.1] at hr
  have := (walk_good hs true 40 _ (elems p) (sane_start hs hc p)).1
  rw [hr] at this
  exact ⟨this.1, this.2 rfl⟩

theorem walk_lexical {fs : FS} (hno : ∀ l t, fs l ≠ some (.link t)) (f : Bool) (n : Nat) (l : Loc) (es : List Bytes) :
    walk fs f n l es = go fs f l es := by
  have := (go_lexical hno f l es).2.2
  rw [walk_eq]
  cases hw : go fs f l es with
  | link d t r => exact absurd hw (this d t r)
  | _ => rfl

/-- **C152 (without links).** If there are no links, a path leads nowhere but to the place that its text names, and a file made by it is
there too. So what is proved for places (Model/Fs) holds for paths. -/
theorem C152_lexical {fs : FS} (hs : Sane fs) (hno : ∀ l t, fs l ≠ some (.link t)) {cwd : Loc} (hc : fs cwd = some .dir) (p : Bytes) :
    (∀ x, PathLeads fs cwd p x → x = loc cwd p) ∧ (∀ x, openLoc fs cwd p = .ok x → x = loc cwd p) := by
  have h1 : ∀ x, PathLeads fs cwd p x → x = loc cwd p := by
    intro x h
    have hr := (resolve_found hs hc p x).2 h
    unfold resolve at hr
    rw [if_neg h.1, walk_lexical hno] at hr
    exact (go_lexical hno true _ _).1 x hr
  refine ⟨h1, fun x h => ?_⟩
  unfold openLoc at h
  cases hw : resolve fs true cwd p with
  | found y =>
    rw [hw] at h
    dsimp only at h
    split at h
    · cases h
    · injection h with h
      rw [← h]
      exact h1 y ((resolve_found hs hc p y).1 hw)
  | missing d e =>
    rw [hw] at h
    injection h with h
    rw [← h]
    unfold resolve at hw
    by_cases hp : p = []
    · rw [if_pos hp] at hw; cases hw
    · rw [if_neg hp, walk_lexical hno] at hw
      exact (go_lexical hno true _ _).2.1 d e hw
  | err e => rw [hw] at h; cases h
  | link d t r => rw [hw] at h; cases h

/-- The places in which the elements are looked up. -/
def Through (fs : FS) (l : Loc) (es : List Bytes) : Prop := ∀ a e b, es = a ++ e :: b → fs (a.foldl step l) = some .dir

/-- **C152 (without links, exactly).** If there are no links, a path leads to the place that its text names if and only if there is
something, and every element is looked up in a directory that exists. -/
theorem C152_exact {fs : FS} (hs : Sane fs) (hno : ∀ l t, fs l ≠ some (.link t)) {cwd : Loc} (hc : fs cwd = some .dir) (p : Bytes) (hp : p ≠ []) :
    PathLeads fs cwd p (loc cwd p) ↔ fs (loc cwd p) ≠ none ∧ Through fs (start cwd p) (elems p) := by
  have key : ∀ (es : List Bytes) (l : Loc), fs l ≠ none →
      (go fs true l es = .found (es.foldl step l) ↔ fs (es.foldl step l) ≠ none ∧ Through fs l es) := by
    intro es
    induction es with
    | nil =>
      intro l hl
      exact ⟨fun _ => ⟨hl, fun a e b h => by cases a <;> cases h⟩, fun _ => rfl⟩
    | cons e es ih =>
      intro l hl
      rw [List.foldl_cons]
      have hth : ∀ l', step l e = l' → (Through fs l (e :: es) ↔ fs l = some .dir ∧ Through fs l' es) := by
        intro l' hl'
        constructor
        · intro h
          refine ⟨h [] e es rfl, fun a e' b hab => ?_⟩
          have := h (e :: a) e' b (by rw [hab]; rfl)
          rw [List.foldl_cons, hl'] at this
          exact this
        · rintro ⟨h1, h2⟩ a e' b hab
          cases a with
          | nil => exact h1
          | cons c a =>
            injection hab with hc' hab
            rw [List.foldl_cons, ← hc', hl']
            exact h2 a e' b hab
      by_cases hd : fs l = some .dir
      · rcases elem_cases e with he | rfl | he
        · have hst : step l e = l := by
            unfold step
            rcases he with rfl | rfl
            · rw [if_pos rfl]
            · rw [if_neg (by decide), if_pos (by decide)]
          rw [go_stay fs true l e es hd he, hth _ hst, hst, ih l hl]
          exact ⟨fun h => ⟨h.1, hd, h.2⟩, fun h => ⟨h.1, h.2.2⟩⟩
        · have hst : step l dotdot = l.dropLast := by
            unfold step
            rw [if_neg (by decide), if_neg (by decide), if_pos (by decide)]
          rw [go_up fs true l es hd, hth _ hst, hst, ih _ (by rw [sane_up hs hd]; simp)]
          exact ⟨fun h => ⟨h.1, hd, h.2⟩, fun h => ⟨h.1, h.2.2⟩⟩
        · have hst : step l e = l ++ [e] := by
            unfold step
            rw [if_neg he.1, if_neg he.2.1, if_neg he.2.2]
          rw [go_name fs true l e es hd he, hth _ hst, hst]
          cases hx : fs (l ++ [e]) with
          | none =>
            dsimp only
            constructor
            · intro h
              split at h <;> cases h
            · rintro ⟨h1, -, h2⟩
              exfalso
              cases es with
              | nil => exact h1 hx
              | cons e' es =>
                have := h2 [] e' es rfl
                rw [List.foldl_nil, hx] at this
                cases this
          | some n =>
            have hne : fs (l ++ [e]) ≠ none := by rw [hx]; simp
            cases n with
            | link t => exact absurd hx (hno _ t)
            | dir => rw [ih _ hne]; exact ⟨fun h => ⟨h.1, hd, h.2⟩, fun h => ⟨h.1, h.2.2⟩⟩
            | file c => rw [ih _ hne]; exact ⟨fun h => ⟨h.1, hd, h.2⟩, fun h => ⟨h.1, h.2.2⟩⟩
      · rw [go_notDir fs true l e es hd]
        constructor
        · intro h; cases h
        · rintro ⟨-, h⟩
          exact absurd (h [] e es rfl) hd
  have hstart := sane_start hs hc p
  rw [← resolve_found hs hc]
  unfold resolve
  rw [if_neg hp, walk_lexical hno]
  exact key (elems p) (start cwd p) (by rw [hstart]; simp)

/-- A directory `d` with a file, a link `l` to it, a dangling link, two links that point at each other. -/
def links : FS := fun x =>
  if x = [] ∨ x = [lit "w"] ∨ x = [lit "w", lit "d"] ∨ x = [lit "w", lit "d", lit "e"] then some .dir
  else if x = [lit "w", lit "f"] then some (.file (lit "one"))
  else if x = [lit "w", lit "d", lit "f"] then some (.file (lit "two"))
  else if x = [lit "w", lit "l"] then some (.link (lit "d/e"))
  else if x = [lit "w", lit "gone"] then some (.link (lit "nowhere"))
  else if x = [lit "w", lit "a"] then some (.link (lit "b"))
  else if x = [lit "w", lit "b"] then some (.link (lit "/w/a"))
  else none

theorem links_sane : Sane links := by
  refine ⟨by decide +kernel, ?_⟩
  intro l e h
  unfold links at h ⊢
  have key : ∀ (a : Loc) (y : Bytes), l ++ [e] = a ++ [y] → l = a := fun a y h => (List.append_inj' h rfl).1
  have kw := key [] (lit "w")
  have kd := key [lit "w"] (lit "d")
  have ke := key [lit "w", lit "d"] (lit "e")
  have kf := key [lit "w"] (lit "f")
  have kg := key [lit "w", lit "d"] (lit "f")
  have kl := key [lit "w"] (lit "l")
  have ko := key [lit "w"] (lit "gone")
  have ka := key [lit "w"] (lit "a")
  have kb := key [lit "w"] (lit "b")
  have k0 : l ++ [e] ≠ [] := by simp
  rw [List.nil_append] at kw
  have : l = [] ∨ l = [lit "w"] ∨ l = [lit "w", lit "d"] := by
    split at h
    · rename_i h'
      rcases h' with h' | h' | h' | h'
      · exact absurd h' k0
      · exact Or.inl (kw h')
      · exact Or.inr (Or.inl (kd h'))
      · exact Or.inr (Or.inr (ke h'))
    · split at h
      · rename_i h'; exact Or.inr (Or.inl (kf h'))
      · split at h
        · rename_i h'; exact Or.inr (Or.inr (kg h'))
        · split at h
          · rename_i h'; exact Or.inr (Or.inl (kl h'))
          · split at h
            · rename_i h'; exact Or.inr (Or.inl (ko h'))
            · split at h
              · rename_i h'; exact Or.inr (Or.inl (ka h'))
              · split at h
                · rename_i h'; exact Or.inr (Or.inl (kb h'))
                · exact absurd rfl h
  rw [if_pos]
  rcases this with h | h | h
  · exact Or.inl h
  · exact Or.inr (Or.inl h)
  · exact Or.inr (Or.inr (Or.inl h))

/-- **C152 (does not hold: with links the text says nothing).** `l/../f` names the file `f` of the working directory by its text, but leads to
another one. -/
theorem C152_text_refuted : PathLeads links [lit "w"] (lit "l/../f") [lit "w", lit "d", lit "f"] ∧ loc [lit "w"] (lit "l/../f") = [lit "w", lit "f"] := by
  refine ⟨(resolve_found links_sane (by decide +kernel) _ _).1 (by decide +kernel), by decide +kernel⟩

/-- **C152 (does not hold: what the text names can be reached).** The file `f` is there, but neither `x/../f`, since there is no `x`, nor `f/`
leads to it. -/
theorem C152_reach_refuted : links (loc [lit "w"] (lit "x/../f")) = some (.file (lit "one")) ∧ stat links [lit "w"] (lit "x/../f") = .error .noEnt ∧
    stat links [lit "w"] (lit "f/") = .error .notDir := by
  refine ⟨by decide +kernel, ?_, ?_⟩ <;> rfl

/-- A place behind a link. -/
example : PathLeads links [] (lit "w/l/..") [lit "w", lit "d"] := (resolve_found links_sane (by decide +kernel) _ _).1 (by decide +kernel)

/-! ## C153: looking at a path -/

/-- **C153 (`IsDir`).** It holds exactly if the path leads to a directory. -/
theorem C153_isdir {fs : FS} (hs : Sane fs) {cwd : Loc} (hc : fs cwd = some .dir) (p : Bytes) :
    isDirectory fs cwd p = true ↔ ∃ x, PathLeads fs cwd p x ∧ fs x = some .dir := by
  rw [← C152_stat hs hc]
  unfold isDirectory
  cases h : stat fs cwd p with
  | error e => exact ⟨fun h => (by cases h), fun h => (by cases h)⟩
  | ok n => exact ⟨fun h => by rw [of_decide_eq_true h], fun h => by injection h with h; exact decide_eq_true h⟩

/-- **C153 (`PathExists`).** There is a directory, or nothing, or an error. -/
theorem C153_pathexists (fs : FS) (cwd : Loc) (p : Bytes) :
    (pathExists fs cwd p = (true, true) ↔ isDirectory fs cwd p = true) ∧
    (pathExists fs cwd p = (false, true) ↔ fileIsExisted fs cwd p = false) ∧
    ((pathExists fs cwd p).1 = true → (pathExists fs cwd p).2 = true) := by
  unfold pathExists isDirectory fileIsExisted
  cases h : stat fs cwd p with
  | error e => cases e <;> decide
  | ok n => cases n <;> simp

/-- **C153 (`FileIsExisted`).** If the path leads anywhere it answers yes. -/
theorem C153_existed {fs : FS} (hs : Sane fs) {cwd : Loc} (hc : fs cwd = some .dir) (p : Bytes) (x : Loc) (h : PathLeads fs cwd p x) :
    fileIsExisted fs cwd p = true := by
  obtain ⟨h1, -⟩ := C152_nolink hs hc h
  cases hx : fs x with
  | none => exact absurd hx h1
  | some n =>
    unfold fileIsExisted
    rw [(C152_stat hs hc p n).2 ⟨x, h, hx⟩]

/-- The two ways to look. -/
theorem lstat_stat (fs : FS) (cwd : Loc) (p : Bytes) :
    (∀ e, lstat fs cwd p = .error e → (∀ x, resolve fs false cwd p ≠ .found x) → stat fs cwd p = .error e) ∧
    (∀ n, lstat fs cwd p = .ok n → (∀ t, n ≠ .link t) → stat fs cwd p = .ok n) := by
  unfold lstat stat resolve
  by_cases hp : p = []
  · rw [if_pos hp, if_pos hp]
    exact ⟨fun e h _ => h, fun n h _ => h⟩
  · rw [if_neg hp, if_neg hp]
    obtain ⟨w1, w2, w3⟩ := walk_follow (fs := fs) 40 (start cwd p) (elems p)
    cases hw : walk fs false 40 (start cwd p) (elems p) with
    | found x =>
      refine ⟨fun e _ h => absurd rfl (h x), fun n h hn => ?_⟩
      dsimp only [nodeOf] at h
      cases hx : fs x with
      | none => rw [hx] at h; cases h
      | some m =>
        rw [hx] at h
        injection h with h
        subst h
        rw [w1 x hw (fun t ht => by rw [hx] at ht; injection ht with ht; exact hn t ht)]
        dsimp only [nodeOf]
        rw [hx]
    | missing d e => rw [w2 d e hw]; exact ⟨fun e h _ => h, fun n h _ => h⟩
    | err e => rw [w3 e hw]; exact ⟨fun e h _ => h, fun n h _ => h⟩
    | link d t r => exact absurd hw (by
        have key : ∀ n l es, walk fs false n l es ≠ .link d t r := by
          intro n
          induction n with
          | zero =>
            intro l es h
            rw [walk_eq] at h
            cases hg : go fs false l es <;> rw [hg] at h <;> cases h
          | succ n ih =>
            intro l es h
            rw [walk_eq] at h
            cases hg : go fs false l es with
            | link d' t' r' => rw [hg] at h; exact ih _ _ h
            | _ => rw [hg] at h; cases h
        exact key _ _ _)

theorem lstat_found {fs : FS} (hs : Sane fs) {cwd : Loc} (hc : fs cwd = some .dir) (p : Bytes) (e : Err) (h : lstat fs cwd p = .error e) (x : Loc) :
    resolve fs false cwd p ≠ .found x := by
  intro hx
  unfold lstat at h
  rw [hx] at h
  unfold resolve at hx
  by_cases hp : p = []
  · rw [if_pos hp] at hx; cases hx
  · rw [if_neg hp] at hx
    have := (walk_good hs false 40 _ (elems p) (sane_start hs hc p)).1
    rw [hx] at this
    dsimp only [nodeOf] at h
    cases hy : fs x with
    | none => exact this.1 hy
    | some n => rw [hy] at h; cases h

/-- **C153 (`FileExist` and `FileIsExisted`).** `FileExist` alone says yes exactly for links that lead nowhere; `FileIsExisted` alone says yes
exactly for directories that are not behind a link. -/
theorem C153_compare {fs : FS} (hs : Sane fs) {cwd : Loc} (hc : fs cwd = some .dir) (p : Bytes) :
    ((fileExist fs cwd p = true ∧ fileIsExisted fs cwd p = false) ↔ (∃ t, lstat fs cwd p = .ok (.link t)) ∧ stat fs cwd p = .error .noEnt) ∧
    ((fileExist fs cwd p = false ∧ fileIsExisted fs cwd p = true) ↔ lstat fs cwd p = .ok .dir) := by
  obtain ⟨l1, l2⟩ := lstat_stat fs cwd p
  have l3 := fun e h => l1 e h (lstat_found hs hc p e h)
  unfold fileExist fileIsExisted
  cases hl : lstat fs cwd p with
  | error e =>
    rw [l3 e hl]
    cases e <;> simp
  | ok n =>
    cases n with
    | dir => rw [l2 .dir hl (by simp)]; simp
    | file c => rw [l2 (.file c) hl (by simp)]; simp
    | link t =>
      cases hst : stat fs cwd p with
      | ok m => simp
      | error e => cases e <;> simp

/-- **C153 (does not hold: the two agree on what is no directory).** For a dangling link `FileExist` says yes and `FileIsExisted` says no. -/
theorem C153_dangling_refuted : fileExist links [lit "w"] (lit "gone") = true ∧ fileIsExisted links [lit "w"] (lit "gone") = false ∧
    isDirectory links [lit "w"] (lit "gone") = false := by decide +kernel

/-- **C153 (does not hold: what exists can be read).** For two links that point at each other `FileExist`, `FileIsExisted` and `IsFile` say yes,
though the path leads nowhere. -/
theorem C153_loop_refuted : fileExist links [lit "w"] (lit "a") = true ∧ fileIsExisted links [lit "w"] (lit "a") = true ∧
    isFilePath links [lit "w"] (lit "a") = true ∧ (∀ x, ¬ PathLeads links [lit "w"] (lit "a") x) ∧
    readFile links [lit "w"] (lit "a") = .error .loop := by
  refine ⟨by decide +kernel, by decide +kernel, by decide +kernel, fun x h => ?_, rfl⟩
  have := (resolve_found links_sane (by decide +kernel) _ _).2 h
  rw [show resolve links true [lit "w"] (lit "a") = .err .loop from by decide +kernel] at this
  cases this

/-! ## C154: making directories -/

/-- **C154.** `MkDir` leaves what existed as it was, links included, and adds nothing but directories. If it reports success, the path leads to
a directory. -/
theorem C154_mkdir {fs : FS} (hs : Sane fs) {cwd : Loc} (hc : fs cwd = some .dir) (p : Bytes) :
    Sane (mkDir fs cwd p).1 ∧ (∀ x, fs x ≠ none → (mkDir fs cwd p).1 x = fs x) ∧
    (∀ x, fs x = none → (mkDir fs cwd p).1 x = none ∨ (mkDir fs cwd p).1 x = some .dir) ∧
    ((mkDir fs cwd p).2 = true → isDirectory (mkDir fs cwd p).1 cwd p = true) := by
  unfold mkDir mkdirAll
  by_cases hp : p = []
  · rw [if_pos hp]
    exact ⟨hs, fun _ _ => rfl, fun _ h => Or.inl h, fun h => by cases h⟩
  · rw [if_neg hp]
    obtain ⟨s1, s2, s3, s4⟩ := mkdirAllR_spec hs (sane_start hs hc p) (elems p).reverse
    refine ⟨s1, s2, s3, fun h => ?_⟩
    obtain ⟨x, hx, hd⟩ := s4 h
    rw [C153_isdir s1 (ext_dir s2 hc)]
    refine ⟨x, ?_, hd⟩
    rw [← resolve_found s1 (ext_dir s2 hc)]
    unfold resolve
    rw [if_neg hp, ← hx, List.reverse_reverse]

/-- **C154 (nothing to do).** If the path leads to a directory already, nothing changes, and success is reported. -/
theorem C154_already {fs : FS} (hs : Sane fs) {cwd : Loc} (hc : fs cwd = some .dir) (p : Bytes) (h : isDirectory fs cwd p = true) :
    mkDir fs cwd p = (fs, true) := by
  obtain ⟨x, hx, hd⟩ := (C153_isdir hs hc p).1 h
  have hr := (resolve_found hs hc p x).2 hx
  unfold resolve at hr
  rw [if_neg hx.1] at hr
  unfold mkDir mkdirAll
  rw [if_neg hx.1]
  cases hre : (elems p).reverse with
  | nil =>
    rw [List.reverse_eq_nil_iff.1 hre] at hr
    rw [walk_found (w := .found (start cwd p)) rfl (by simp)] at hr
    injection hr with hr
    rw [mkdirAllR, hr, hd]
    rfl
  | cons e r =>
    rw [mkdirAllR, ← hre, List.reverse_reverse, hr]
    dsimp only
    rw [hd]
    rfl

theorem isdir_ext {fs fs' : FS} (hs : Sane fs) (hs' : Sane fs') (hx : Ext fs fs') {cwd : Loc} (hc : fs cwd = some .dir) (p : Bytes)
    (h : isDirectory fs cwd p = true) : isDirectory fs' cwd p = true := by
  have hc' := ext_dir hx hc
  obtain ⟨x, hl, hd⟩ := (C153_isdir hs hc p).1 h
  rw [C153_isdir hs' hc']
  refine ⟨x, ?_, ext_dir hx hd⟩
  rw [← resolve_found hs hc] at hl
  rw [← resolve_found hs' hc']
  unfold resolve at hl ⊢
  by_cases hp : p = []
  · rw [if_pos hp] at hl; cases hl
  · rw [if_neg hp] at hl ⊢
    exact (walk_ext hx true 40 _ _).1 x hl

/-- **C154 (`CreateDir`).** It leaves what existed as it was and adds nothing but directories; if it reports success, all the paths lead to
directories. -/
theorem C154_createdir {fs : FS} (hs : Sane fs) {cwd : Loc} (hc : fs cwd = some .dir) (dirs : List Bytes) :
    Sane (createDir fs cwd dirs).1 ∧ (∀ x, fs x ≠ none → (createDir fs cwd dirs).1 x = fs x) ∧
    (∀ x, fs x = none → (createDir fs cwd dirs).1 x = none ∨ (createDir fs cwd dirs).1 x = some .dir) ∧
    ((createDir fs cwd dirs).2 = true → ∀ p ∈ dirs, isDirectory (createDir fs cwd dirs).1 cwd p = true) := by
  induction dirs generalizing fs with
  | nil => exact ⟨hs, fun _ _ => rfl, fun _ h => Or.inl h, fun _ p h => by cases h⟩
  | cons v vs ih =>
    rw [createDir]
    rcases hpe : pathExists fs cwd v with ⟨a, b⟩
    cases b with
    | false => exact ⟨hs, fun _ _ => rfl, fun _ h => Or.inl h, fun h => by cases a <;> cases h⟩
    | true =>
      cases a with
      | true =>
        obtain ⟨i1, i2, i3, i4⟩ := ih hs hc
        refine ⟨i1, i2, i3, fun h p hp => ?_⟩
        rcases List.mem_cons.1 hp with rfl | hp
        · exact isdir_ext hs i1 i2 hc _ ((C153_pathexists fs cwd p).1.1 hpe)
        · exact i4 h p hp
      | false =>
        dsimp only
        obtain ⟨s1, s2, s3, s4⟩ := C154_mkdir hs hc v
        unfold mkDir at s1 s2 s3 s4
        cases hb : (mkdirAll fs cwd v).2 with
        | false => exact ⟨s1, s2, s3, fun h => by cases h⟩
        | true =>
          rw [if_pos rfl]
          obtain ⟨i1, i2, i3, i4⟩ := ih s1 (ext_dir s2 hc)
          refine ⟨i1, fun x hx => ?_, fun x hx => ?_, fun h p hp => ?_⟩
          · rw [i2 x (by rw [s2 x hx]; exact hx), s2 x hx]
          · rcases s3 x hx with h | h
            · exact i3 x h
            · right
              rw [i2 x (by rw [h]; simp), h]
          · rcases List.mem_cons.1 hp with rfl | hp
            · exact isdir_ext s1 i1 i2 (ext_dir s2 hc) _ (s4 hb)
            · exact i4 h p hp

/-- **C154 (`CreateDir` on what is there).** Directories that exist are left alone, and success is reported; so a second call after a successful one
succeeds and changes nothing. -/
theorem C154_createdir_again {fs : FS} {cwd : Loc} {dirs : List Bytes} (h : ∀ p ∈ dirs, isDirectory fs cwd p = true) : createDir fs cwd dirs = (fs, true) := by
  induction dirs with
  | nil => rfl
  | cons v vs ih =>
    rw [createDir, (C153_pathexists fs cwd v).1.2 (h v (List.mem_cons_self ..))]
    exact ih fun p hp => h p (List.mem_cons_of_mem _ hp)

theorem go_append {fs : FS} (hno : ∀ l t, fs l ≠ some (.link t)) (f : Bool) (l : Loc) (a b : List Bytes) {y : Loc} (h : go fs f l a = .found y) :
    go fs f l (a ++ b) = go fs f y b := by
  induction a generalizing l with
  | nil => cases h; rfl
  | cons e a ih =>
    rw [List.cons_append]
    by_cases hd : fs l = some .dir
    · rcases elem_cases e with he | rfl | he
      · rw [go_stay fs f l e _ hd he] at h ⊢
        exact ih l h
      · rw [go_up fs f l _ hd] at h ⊢
        exact ih _ h
      · rw [go_name fs f l e _ hd he] at h ⊢
        cases hx : fs (l ++ [e]) with
        | none => rw [hx] at h; dsimp only at h; split at h <;> cases h
        | some n =>
          rw [hx] at h
          cases n with
          | link t => exact absurd hx (hno _ t)
          | dir => exact ih _ h
          | file c => exact ih _ h
    · rw [go_notDir fs f l e a hd] at h
      cases h

/-- **C154 (success).** Without links, `MkDir` succeeds for a path (not empty) unless a file is where the path wants to pass or to end. -/
theorem C154_success {fs : FS} (hs : Sane fs) (hno : ∀ l t, fs l ≠ some (.link t)) {cwd : Loc} (hc : fs cwd = some .dir) (p : Bytes) (hp : p ≠ [])
    (hfile : ∀ a, a <+: elems p → ∀ c, fs (a.foldl step (start cwd p)) ≠ some (.file c)) : (mkDir fs cwd p).2 = true := by
  unfold mkDir mkdirAll
  rw [if_neg hp]
  have key : ∀ (r : List Bytes) (l : Loc), fs l = some .dir → (∀ a, a <+: r.reverse → ∀ c, fs (a.foldl step l) ≠ some (.file c)) →
      (mkdirAllR fs l r).2 = true := by
    intro r l hl
    induction r with
    | nil => intro _; rw [mkdirAllR, hl]; rfl
    | cons e r ih =>
      intro hf
      have hf' : ∀ a, a <+: r.reverse → ∀ c, fs (a.foldl step l) ≠ some (.file c) := by
        intro a ha
        exact hf a (ha.trans (by rw [List.reverse_cons]; exact List.prefix_append _ _))
      rw [mkdirAllR]
      obtain ⟨g1, g2⟩ := walk_good hs true 40 l (e :: r).reverse hl
      have hrest : (if e = [] then mkdirAllR fs l r
          else
            let parent := if r = [] ∨ r = [[]] then (fs, true) else mkdirAllR fs l r
            if parent.2 = false then (parent.1, false)
            else
              match mkdir parent.1 l (e :: r).reverse with
              | .ok fs => (fs, true)
              | .error _ => (parent.1, atDir parent.1 (walk parent.1 false 40 l (e :: r).reverse))).2 = true := by
        by_cases he : e = []
        · rw [if_pos he]
          exact ih hf'
        · rw [if_neg he]
          have hP : ∃ P : FS × Bool, P = (if r = [] ∨ r = [[]] then (fs, true) else mkdirAllR fs l r) ∧ P.2 = true ∧ Sane P.1 ∧ Ext fs P.1 ∧
              (∀ x, fs x = none → P.1 x = none ∨ P.1 x = some .dir) ∧ ∃ y, walk P.1 true 40 l r.reverse = .found y ∧ P.1 y = some .dir := by
            refine ⟨_, rfl, ?_⟩
            by_cases hr : r = [] ∨ r = [[]]
            · rw [if_pos hr]
              refine ⟨rfl, hs, fun _ _ => rfl, fun _ h => Or.inl h, l, ?_, hl⟩
              rcases hr with rfl | rfl
              · exact walk_found rfl (by simp)
              · exact walk_found (by rw [show ([[]] : List Bytes).reverse = [[]] from rfl, go_stay fs true l [] [] hl (Or.inl rfl)]; rfl) (by simp)
            · rw [if_neg hr]
              obtain ⟨s1, s2, s3, s4⟩ := mkdirAllR_spec hs hl r
              exact ⟨ih hf', s1, s2, s3, s4 (ih hf')⟩
          obtain ⟨P, hPe, p0, p1, p2, p3, y, hy, hyd⟩ := hP
          rw [← hPe]
          dsimp only
          rw [if_neg (by rw [p0]; simp)]
          have hno' : ∀ l t, P.1 l ≠ some (.link t) := by
            intro x t hx
            cases hfx : fs x with
            | none => rcases p3 x hfx with h | h <;> rw [h] at hx <;> cases hx
            | some n => rw [p2 x (by rw [hfx]; simp)] at hx; exact hno x t hx
          rw [walk_lexical hno'] at hy
          have hyl := (go_lexical hno' true l r.reverse).1 y hy
          have hy2 : go P.1 false l r.reverse = .found y := by
            have : ∀ (es : List Bytes) (l : Loc), go P.1 false l es = go P.1 true l es := by
              intro es l
              obtain ⟨f1, f2, f3, f4⟩ := go_follow (fs := P.1) l es
              cases hg : go P.1 false l es with
              | found x => exact (f1 x hg (hno' x)).symm
              | link d t r' => exact (f2 _ _ _ hg).symm
              | missing d e' => exact (f3 _ _ hg).symm
              | err e' => exact (f4 _ hg).symm
            rw [this]
            exact hy
          have hgo : go P.1 false l (e :: r).reverse = go P.1 false y [e] := by
            rw [List.reverse_cons]
            exact go_append hno' false l _ [e] hy2
          unfold mkdir
          rw [walk_lexical hno', hgo]
          rcases elem_cases e with h | rfl | h
          · rw [go_stay _ _ _ _ _ hyd h, go_nil]
            dsimp only [atDir, nodeOf]
            rw [hyd]
          · rw [go_up _ _ _ _ hyd, go_nil]
            dsimp only [atDir, nodeOf]
            rw [sane_up p1 hyd]
          · rw [go_name _ _ _ _ _ hyd h]
            cases hx : P.1 (y ++ [e]) with
            | none => rfl
            | some n =>
              cases n with
              | dir => dsimp only [go_nil, atDir, nodeOf]; rw [hx]
              | link t => exact absurd hx (hno' _ t)
              | file c =>
                exfalso
                have hfx : fs (y ++ [e]) = some (.file c) := by
                  cases hfx : fs (y ++ [e]) with
                  | none => rcases p3 _ hfx with h | h <;> rw [h] at hx <;> cases hx
                  | some n => rw [← hx, p2 _ (by rw [hfx]; simp), hfx]
                refine hf (e :: r).reverse (List.prefix_refl _) c ?_
                rw [List.reverse_cons, List.foldl_append, ← hyl, List.foldl_cons, List.foldl_nil]
                unfold step
                rw [if_neg h.1, if_neg h.2.1, if_neg h.2.2]
                exact hfx
      cases hw : walk fs true 40 l (e :: r).reverse with
      | found x =>
        dsimp only
        rw [hw] at g1
        have hx : x = (e :: r).reverse.foldl step l := by
          rw [walk_lexical hno] at hw
          exact (go_lexical hno true l _).1 x hw
        cases hn : fs x with
        | none => exact absurd hn g1.1
        | some n =>
          cases n with
          | dir => rfl
          | link t => exact absurd hn (hno _ t)
          | file c => exact absurd (hx ▸ hn) (hf _ (List.prefix_refl _) c)
      | missing d e' => exact hrest
      | err e' => exact hrest
      | link d t r' => exact hrest
  exact key _ _ (sane_start hs hc p) (by rw [List.reverse_reverse]; exact hfile)

/-- **C154 (does not hold: a path that does not exist can be made).** `PathExists` says there is nothing, without an error, but `CreateDir` fails:
there is a dangling link. -/
theorem C154_dangling_refuted : pathExists links [lit "w"] (lit "gone") = (false, true) ∧ (createDir links [lit "w"] [lit "gone"]).2 = false := by
  decide +kernel

/-- Behind a link a directory is made in the place to which the link leads. -/
example : (mkDir links [lit "w"] (lit "l/new/x")).2 = true ∧ (mkDir links [lit "w"] (lit "l/new/x")).1 [lit "w", lit "d", lit "e", lit "new", lit "x"] = some .dir := by
  decide +kernel

end Verif.FsLink
