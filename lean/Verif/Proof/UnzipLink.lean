import Verif.Proof.FsLink
import Verif.Proof.Paths
import Verif.Props.Sys
import Verif.Props.Paths

/-!
# Facts about unpacking with symbolic links (Model/FsLink)
-/

namespace Verif.FsLink

open Spec.Walk Spec.Path Utf8 Strings
open Paths hiding Name

/-! ## Growing -/

/-- Directories and links stay, files stay files. -/
def Grow (fs fs' : FS) : Prop :=
  ∀ x, (fs x = some .dir → fs' x = some .dir) ∧ (∀ t, fs x = some (.link t) → fs' x = some (.link t)) ∧
    (∀ c, fs x = some (.file c) → ∃ c', fs' x = some (.file c'))

theorem grow_refl (fs : FS) : Grow fs fs := fun _ => ⟨id, fun _ => id, fun c h => ⟨c, h⟩⟩

theorem grow_trans {a b c : FS} (h : Grow a b) (h' : Grow b c) : Grow a c := by
  intro x
  refine ⟨fun hx => (h' x).1 ((h x).1 hx), fun t hx => (h' x).2.1 t ((h x).2.1 t hx), fun y hx => ?_⟩
  obtain ⟨y', hy⟩ := (h x).2.2 y hx
  exact (h' x).2.2 y' hy

theorem grow_ext {fs fs' : FS} (h : Ext fs fs') : Grow fs fs' := by
  intro x
  refine ⟨fun hx => ext_dir h hx, fun t hx => ?_, fun c hx => ⟨c, ?_⟩⟩
  · rw [h x (by rw [hx]; simp), hx]
  · rw [h x (by rw [hx]; simp), hx]

theorem grow_like {fs fs' : FS} (h : Like fs fs') : Grow fs fs' := by
  intro x
  rcases h x with hx | ⟨c, c', hx, hx'⟩
  · rw [hx]
    exact ⟨id, fun _ => id, fun c h => ⟨c, h⟩⟩
  · rw [hx, hx']
    exact ⟨fun h => (by cases h), fun t h => (by cases h), fun _ _ => ⟨c', rfl⟩⟩

theorem leads_grow {fs fs' : FS} (hg : Grow fs fs') {k : Nat} {l : Loc} {es : List Bytes} {x : Loc} (h : Leads fs k l es x) : Leads fs' k l es x := by
  induction h with
  | here l hl =>
    refine .here l ?_
    cases hx : fs l with
    | none => exact absurd hx hl
    | some n =>
      cases n with
      | dir => rw [(hg l).1 hx]; simp
      | link t => rw [(hg l).2.1 t hx]; simp
      | file c => obtain ⟨c', h⟩ := (hg l).2.2 c hx; rw [h]; simp
  | stay hl he _ ih => exact .stay ((hg _).1 hl) he ih
  | up hl _ ih => exact .up ((hg _).1 hl) ih
  | @down k l e es x n hl he hn hd _ ih =>
    cases n with
    | dir => exact .down ((hg _).1 hl) he ((hg _).1 hn) (by simp) ih
    | link t => exact absurd rfl (hd t)
    | file c =>
      obtain ⟨c', h⟩ := (hg _).2.2 c hn
      exact .down ((hg _).1 hl) he h (by simp) ih
  | follow hl he hn _ ih => exact .follow ((hg _).1 hl) he ((hg _).2.1 _ hn) ih

/-- The first part of a path that leads somewhere leads to a directory. -/
theorem leads_prefix {fs : FS} {k : Nat} {l : Loc} {es : List Bytes} {x : Loc} (h : Leads fs k l es x) :
    ∀ a b, es = a ++ b → b ≠ [] → ∃ k' y, k' ≤ k ∧ Leads fs k' l a y ∧ fs y = some .dir := by
  induction h with
  | here l hl =>
    intro a b h hb
    cases a with
    | nil => exact absurd h.symm hb
    | cons c a => cases h
  | @stay k l e es x hl he _ ih =>
    intro a b h hb
    cases a with
    | nil => exact ⟨0, l, Nat.zero_le _, .here l (by rw [hl]; simp), hl⟩
    | cons c a =>
      injection h with h1 h2
      obtain ⟨k', y, hk, h3, h4⟩ := ih a b h2 hb
      rw [← h1]
      exact ⟨k', y, hk, .stay hl he h3, h4⟩
  | @up k l es x hl _ ih =>
    intro a b h hb
    cases a with
    | nil => exact ⟨0, l, Nat.zero_le _, .here l (by rw [hl]; simp), hl⟩
    | cons c a =>
      injection h with h1 h2
      obtain ⟨k', y, hk, h3, h4⟩ := ih a b h2 hb
      rw [← h1]
      exact ⟨k', y, hk, .up hl h3, h4⟩
  | @down k l e es x n hl he hn hd _ ih =>
    intro a b h hb
    cases a with
    | nil => exact ⟨0, l, Nat.zero_le _, .here l (by rw [hl]; simp), hl⟩
    | cons c a =>
      injection h with h1 h2
      obtain ⟨k', y, hk, h3, h4⟩ := ih a b h2 hb
      rw [← h1]
      exact ⟨k', y, hk, .down hl he hn hd h3, h4⟩
  | @follow k l e es x t hl he hn _ ih =>
    intro a b h hb
    cases a with
    | nil => exact ⟨0, l, Nat.zero_le _, .here l (by rw [hl]; simp), hl⟩
    | cons c a =>
      injection h with h1 h2
      obtain ⟨k', y, hk, h3, h4⟩ := ih (elems t ++ a) b (by rw [h2, List.append_assoc]; rfl) hb
      rw [← h1]
      exact ⟨k' + 1, y, by omega, .follow hl he hn h3, h4⟩

/-! ## Below a directory without links -/

/-- There are no links at or below `D`. -/
def NoLinks (fs : FS) (D : Loc) : Prop := ∀ x t, D <+: x → fs x ≠ some (.link t)

theorem go_names {fs : FS} {D : Loc} (hno : NoLinks fs D) (f : Bool) (b : List Bytes) (hb : ∀ e ∈ b, Name e) (l : Loc) (hl : D <+: l) :
    (∀ x, go fs f l b = .found x → D <+: x) ∧ (∀ d e, go fs f l b = .missing d e → D <+: d) ∧ (∀ d t r, go fs f l b ≠ .link d t r) := by
  induction b generalizing l with
  | nil => exact ⟨fun x h => by cases h; exact hl, fun d e h => (by cases h), fun d t r h => (by cases h)⟩
  | cons e b ih =>
    by_cases hd : fs l = some .dir
    · rw [go_name fs f l e b hd (hb e List.mem_cons_self)]
      have hl' : D <+: l ++ [e] := hl.trans (List.prefix_append _ _)
      have hrec := ih (fun x hx => hb x (List.mem_cons_of_mem _ hx)) (l ++ [e]) hl'
      cases hx : fs (l ++ [e]) with
      | none =>
        dsimp only
        split
        · exact ⟨fun x h => (by cases h), fun d e h => by cases h; exact hl, fun d t r h => (by cases h)⟩
        · exact ⟨fun x h => (by cases h), fun d e h => (by cases h), fun d t r h => (by cases h)⟩
      | some n =>
        cases n with
        | link t => exact absurd hx (hno _ t hl')
        | dir => exact hrec
        | file c => exact hrec
    · rw [go_notDir fs f l e b hd]
      exact ⟨fun x h => (by cases h), fun d e h => (by cases h), fun d t r h => (by cases h)⟩

/-- Names after a path that leads to `D` are looked up from `D`. -/
theorem walk_through {fs : FS} {k : Nat} {l D : Loc} {a : List Bytes} (h : Leads fs k l a D) (hno : NoLinks fs D) (f : Bool) {b : List Bytes}
    (hb : ∀ e ∈ b, Name e) (hbf : b ≠ [] ∨ f = true) : ∀ n, k ≤ n → walk fs f n l (a ++ b) = go fs f D b := by
  induction h with
  | here l hl =>
    intro n _
    rw [List.nil_append]
    exact walk_found rfl (go_names hno f b hb l (List.prefix_refl _)).2.2
  | stay hl he' _ ih =>
    intro n hn
    rw [List.cons_append, walk_eq, go_stay _ _ _ _ _ hl he', ← walk_eq]
    exact ih hno n hn
  | up hl _ ih =>
    intro n hn
    rw [List.cons_append, walk_eq, show ([46, 46] : Bytes) = dotdot from rfl, go_up _ _ _ _ hl, ← walk_eq]
    exact ih hno n hn
  | @down k l e' es x m hl he' hm hnl _ ih =>
    intro n hn
    have : go fs f l (e' :: (es ++ b)) = go fs f (l ++ [e']) (es ++ b) := by
      rw [go_name _ _ _ _ _ hl he', hm]
      cases m with
      | link t => exact absurd rfl (hnl t)
      | _ => rfl
    rw [List.cons_append, walk_eq, this, ← walk_eq]
    exact ih hno n hn
  | @follow k l e' es x t hl he' hm _ ih =>
    intro n hn
    have : go fs f l (e' :: (es ++ b)) = .link l t (es ++ b) := by
      rw [go_name _ _ _ _ _ hl he', hm]
      dsimp only
      rw [if_neg]
      rintro ⟨h1, h2⟩
      rcases hbf with hb' | hb'
      · exact hb' (List.append_eq_nil_iff.1 h1).2
      · rw [h2] at hb'; cases hb'
    rw [List.cons_append, walk_eq, this]
    cases n with
    | zero => omega
    | succ n =>
      have := ih hno n (by omega)
      rw [List.append_assoc] at this
      exact this

theorem nolinks_mkdir {fs : FS} (hs : Sane fs) {l : Loc} (hl : fs l = some .dir) (r : List Bytes) {D : Loc} (hno : NoLinks fs D) :
    NoLinks (mkdirAllR fs l r).1 D := by
  obtain ⟨-, s2, s3, -⟩ := mkdirAllR_spec hs hl r
  intro x t hx h
  cases hf : fs x with
  | none => rcases s3 x hf with h' | h' <;> rw [h'] at h <;> cases h
  | some n => rw [s2 x (by rw [hf]; simp)] at h; exact hno x t hx h

/-- `MkdirAll` below `D` changes nothing outside. -/
theorem mkdirAllR_inside {fs : FS} (hs : Sane fs) {l D : Loc} (hl : fs l = some .dir) {k : Nat} (hk : k ≤ 40) {a : List Bytes} (h : Leads fs k l a D)
    (hno : NoLinks fs D) (b : List Bytes) (hb : ∀ e ∈ b, Name e) (x : Loc) (hx : ¬ D <+: x) : (mkdirAllR fs l (b ++ a.reverse)).1 x = fs x := by
  induction b with
  | nil =>
    rw [List.nil_append]
    cases har : a.reverse with
    | nil => rfl
    | cons e r =>
      rw [mkdirAllR, ← har, List.reverse_reverse, leads_walk h 40 hk]
  | cons e b ih =>
    have hbn : ∀ e ∈ b, Name e := fun y hy => hb y (List.mem_cons_of_mem _ hy)
    have he := hb e List.mem_cons_self
    have hrev : (e :: (b ++ a.reverse)).reverse = a ++ (e :: b).reverse := by simp
    have hnames : ∀ y ∈ (e :: b).reverse, Name y := fun y hy => hb y (List.mem_reverse.1 hy)
    rw [List.cons_append, mkdirAllR]
    have hrest : (if e = [] then mkdirAllR fs l (b ++ a.reverse)
          else
            let parent := if (b ++ a.reverse) = [] ∨ (b ++ a.reverse) = [[]] then (fs, true) else mkdirAllR fs l (b ++ a.reverse)
            if parent.2 = false then (parent.1, false)
            else
              match mkdir parent.1 l (e :: (b ++ a.reverse)).reverse with
              | .ok fs => (fs, true)
              | .error _ => (parent.1, atDir parent.1 (walk parent.1 false 40 l (e :: (b ++ a.reverse)).reverse))).1 x = fs x := by
      rw [if_neg he.1]
      have hP : ∃ P : FS × Bool, P = (if (b ++ a.reverse) = [] ∨ (b ++ a.reverse) = [[]] then (fs, true) else mkdirAllR fs l (b ++ a.reverse)) ∧
          P.1 x = fs x ∧ NoLinks P.1 D ∧ Ext fs P.1 := by
        refine ⟨_, rfl, ?_⟩
        split
        · exact ⟨rfl, hno, fun _ _ => rfl⟩
        · exact ⟨ih hbn, nolinks_mkdir hs hl _ hno, (mkdirAllR_spec hs hl _).2.1⟩
      obtain ⟨P, hPe, p1, p2, p3⟩ := hP
      rw [← hPe]
      dsimp only
      split
      · exact p1
      · have hw := walk_through (leads_grow (grow_ext p3) h) p2 false hnames (Or.inl (by simp)) 40 hk
        unfold mkdir
        rw [hrev, hw]
        have hin := (go_names p2 false _ hnames D (List.prefix_refl _)).2.1
        cases hg : go P.1 false D (e :: b).reverse with
        | missing d e' =>
          dsimp only
          rw [set_other]
          · exact p1
          · rintro rfl
            exact hx ((hin d e' hg).trans (List.prefix_append _ _))
        | found y => exact p1
        | err e' => exact p1
        | link d t r => exact p1
    cases hw : walk fs true 40 l (e :: (b ++ a.reverse)).reverse with
    | found y => rfl
    | missing d e' => exact hrest
    | err e' => exact hrest
    | link d t r => exact hrest

/-! ## The text of the paths -/

/-- What `Clean` keeps of a path. -/
def keptOf (p : Bytes) : List Bytes := ((elems p).foldl (cleanStep (isAbs p)) []).reverse

/-- The text of a clean path. -/
def text (rooted : Bool) (kept : List Bytes) : Bytes := if rooted then 47 :: join [47] kept else if kept = [] then dot else join [47] kept

theorem clean_text (p : Bytes) : clean p = text (isAbs p) (keptOf p) := by
  unfold clean text keptOf
  rw [show slash = 47 from rfl, split_elems]

theorem kept_of (p : Bytes) : Kept (isAbs p) (keptOf p).reverse := by
  unfold keptOf
  rw [List.reverse_reverse]
  exact (walk_fold (isAbs p) [] (fun _ => rfl) (elems p) [] (elems_no_slash p) ⟨[], 0, rfl, by simp, by simp⟩).1

/-- An element is kept if it is a name. -/
def isName (e : Bytes) : Bool := decide (e ≠ [] ∧ e ≠ dot)

theorem fold_names (r : Bool) (es : List Bytes) (h : dotdot ∉ es) (stack : List Bytes) :
    es.foldl (cleanStep r) stack = (es.filter isName).reverse ++ stack := by
  induction es generalizing stack with
  | nil => rfl
  | cons e es ih =>
    simp only [List.mem_cons, not_or] at h
    rw [List.foldl_cons, ih h.2]
    unfold cleanStep
    by_cases h1 : e = [] ∨ e = dot
    · rw [if_pos h1, List.filter_cons_of_neg]
      unfold isName
      rcases h1 with h1 | h1 <;> simp [h1]
    · rw [if_neg h1, if_neg (fun h' => h.1 h'.symm), List.filter_cons_of_pos, List.reverse_cons, List.append_assoc, List.singleton_append]
      simp only [not_or] at h1
      unfold isName
      exact decide_eq_true h1

/-- The names of a path without `..`. -/
def namesOf (p : Bytes) : List Bytes := (elems p).filter isName

theorem names_name (p : Bytes) (h : dotdot ∉ elems p) : ∀ e ∈ namesOf p, Name e ∧ 47 ∉ e := by
  intro e he
  obtain ⟨h1, h2⟩ := List.mem_filter.1 he
  have h2 := of_decide_eq_true h2
  exact ⟨⟨h2.1, h2.2, fun h' => h (by rw [show dotdot = [46, 46] from rfl, ← h']; exact h1)⟩, elems_no_slash p e h1⟩

theorem isAbs_cons (p q : Bytes) (hp : p ≠ []) : isAbs (p ++ q) = isAbs p := by
  cases p with
  | nil => exact absurd rfl hp
  | cons c p => rfl

theorem join_text (dest name : Bytes) (hd : dest ≠ []) (h : dotdot ∉ elems name) :
    joinPath dest name = text (isAbs dest) (keptOf dest ++ namesOf name) := by
  unfold joinPath
  rw [if_pos hd, clean_text]
  have ha : isAbs (dest ++ [slash] ++ name) = isAbs dest := by
    rw [List.append_assoc]
    exact isAbs_cons dest _ hd
  rw [ha]
  congr 1
  unfold keptOf
  rw [ha, List.append_assoc, show [slash] ++ name = 47 :: name from rfl, elems_slash, List.foldl_append, fold_names _ _ h, List.reverse_append,
    List.reverse_reverse]
  rfl

/-- Cleaning what is kept keeps it. -/
theorem kept_again (r : Bool) (names : List Bytes) (ups : Nat) (hn : ∀ e ∈ names, Paths.Name e) (hu : r = true → ups = 0) :
    (List.replicate ups dotdot ++ names).foldl (cleanStep r) [] = names.reverse ++ List.replicate ups dotdot := by
  rw [List.foldl_append]
  have h1 : ∀ ups, (r = true → ups = 0) → (List.replicate ups dotdot).foldl (cleanStep r) [] = List.replicate ups dotdot := by
    intro ups
    induction ups with
    | zero => intro _; rfl
    | succ ups ih =>
      intro hu
      cases r with
      | true => exact absurd (hu rfl) (by omega)
      | false =>
        rw [List.replicate_succ', List.foldl_append, ih (fun h => by cases h), List.foldl_cons, List.foldl_nil]
        unfold cleanStep
        rw [if_neg (by decide), if_pos rfl]
        cases ups with
        | zero => rfl
        | succ ups =>
          rw [List.replicate_succ]
          dsimp only
          rw [if_pos rfl, ← List.replicate_succ, ← List.replicate_succ, ← List.replicate_succ']
  rw [h1 ups hu, fold_names]
  · congr 2
    rw [List.filter_eq_self]
    intro e he
    unfold isName
    exact decide_eq_true ⟨(hn e he).2.1, (hn e he).2.2.1⟩
  · intro h
    exact (hn _ h).2.2.2 rfl

theorem fold_kept (r : Bool) (K : List Bytes) (h : Kept r K.reverse) : K.foldl (cleanStep r) [] = K.reverse := by
  obtain ⟨names, ups, h1, h2, h3⟩ := h
  have hK : K = List.replicate ups dotdot ++ names.reverse := by
    rw [← List.reverse_reverse K, h1, List.reverse_append, List.reverse_replicate]
  rw [h1, hK, kept_again r _ ups (fun e he => h2 e (List.mem_reverse.1 he)) h3, List.reverse_reverse]

theorem kept_no_slash {r : Bool} {K : List Bytes} (h : Kept r K.reverse) : ∀ e ∈ K, 47 ∉ e ∧ e ≠ [] := by
  obtain ⟨names, ups, h1, h2, -⟩ := h
  intro e he
  have : e ∈ K.reverse := List.mem_reverse.2 he
  rw [h1] at this
  rcases List.mem_append.1 this with h | h
  · exact ⟨(h2 e h).1, (h2 e h).2.1⟩
  · rw [(List.mem_replicate.1 h).2]; decide

/-- The directory of a clean path. -/
theorem dir_text (r : Bool) (K : List Bytes) (e : Bytes) (he : 47 ∉ e) (hK : Kept r K.reverse) : dirOf (text r (K ++ [e])) = text r K := by
  have hns := kept_no_slash hK
  have hjoin : ∀ (K : List Bytes), join [47] (K ++ [e]) = (if K = [] then [] else join [47] K ++ [47]) ++ e := by
    intro K
    induction K with
    | nil => simp [join]
    | cons a K ih =>
      cases K with
      | nil => simp [join]
      | cons b K =>
        have : join [47] (a :: ((b :: K) ++ [e])) = a ++ [47] ++ join [47] ((b :: K) ++ [e]) := by simp [join]
        rw [List.cons_append, this, ih]
        simp [join]
  have htext : text r (K ++ [e]) = ((if r then [47] else []) ++ (if K = [] then [] else join [47] K ++ [47])) ++ e := by
    unfold text
    cases r with
    | true => rw [if_pos rfl, if_pos rfl, hjoin]; rfl
    | false => rw [if_neg (by simp), if_neg (by simp), if_neg (by simp), hjoin]; rfl
  rw [htext, Sys.dirOf_eq _ _ he]
  · rw [clean_text]
    by_cases h0 : K = []
    · subst h0
      cases r <;> rfl
    · rw [if_neg h0]
      have hel : elems (join [47] K ++ [47]) = K ++ [[]] := by
        rw [show ([47] : Bytes) = 47 :: [] from rfl, elems_slash, elems_join K h0 (fun e he => (hns e he).1)]
        rfl
      cases r with
      | true =>
        rw [if_pos rfl]
        have ha : isAbs ([47] ++ (join [47] K ++ [47])) = true := rfl
        have hk : keptOf ([47] ++ (join [47] K ++ [47])) = K := by
          unfold keptOf
          rw [ha, show [47] ++ (join [47] K ++ [47]) = [] ++ 47 :: (join [47] K ++ [47]) from rfl, elems_append [] _ (by simp), hel,
            List.foldl_cons, List.foldl_append]
          have h1 : cleanStep true [] ([] : Bytes) = [] := rfl
          rw [h1, fold_kept true K hK]
          change (cleanStep true K.reverse []).reverse = K
          unfold cleanStep
          rw [if_pos (Or.inl rfl), List.reverse_reverse]
        rw [ha, hk]
      | false =>
        rw [if_neg (by simp), List.nil_append]
        have ha : isAbs (join [47] K ++ [47]) = false := by
          cases hb : isAbs (join [47] K ++ [47]) with
          | false => rfl
          | true =>
            exfalso
            have hh := (isAbs_iff _).1 hb
            have hne : join [47] K ≠ [] := by
              intro hj
              have := elems_join K h0 (fun e he => (hns e he).1)
              rw [hj] at this
              have hm : ([] : Bytes) ∈ K := by rw [← this]; exact List.mem_cons_self
              exact (hns _ hm).2 rfl
            apply join_head K hns
            cases hj : join [47] K with
            | nil => exact absurd hj hne
            | cons c s => rw [hj] at hh; exact hh
        have hk : keptOf (join [47] K ++ [47]) = K := by
          unfold keptOf
          rw [ha, hel, List.foldl_append, fold_kept false K hK]
          change (cleanStep false K.reverse []).reverse = K
          unfold cleanStep
          rw [if_pos (Or.inl rfl), List.reverse_reverse]
        rw [ha, hk]
  · by_cases h0 : K = []
    · subst h0
      cases r
      · exact Or.inl rfl
      · exact Or.inr rfl
    · rw [if_neg h0, ← List.append_assoc]
      exact Or.inr (List.getLast?_concat)

theorem text_ne (r : Bool) (K : List Bytes) (h : ∀ e ∈ K, 47 ∉ e ∧ e ≠ []) : text r K ≠ [] := by
  unfold text
  cases r with
  | true => simp
  | false =>
    rw [if_neg (by simp)]
    split
    · decide
    · rename_i h0
      intro hj
      have := elems_join K h0 (fun e he => (h e he).1)
      rw [hj] at this
      have hm : ([] : Bytes) ∈ K := by rw [← this]; exact List.mem_cons_self
      exact (h _ hm).2 rfl

/-- The elements of a clean path. -/
def textElems (r : Bool) (K : List Bytes) : List Bytes := (if r then [[]] else []) ++ (if K = [] then [if r then [] else dot] else K)

theorem elems_text (r : Bool) (K : List Bytes) (h : ∀ e ∈ K, 47 ∉ e ∧ e ≠ []) : elems (text r K) = textElems r K := by
  unfold text textElems
  cases r with
  | true =>
    rw [if_pos rfl, if_pos rfl, if_pos rfl, show (47 :: join [47] K) = [] ++ 47 :: join [47] K from rfl, elems_append [] _ (by simp)]
    by_cases h0 : K = []
    · subst h0; rfl
    · rw [if_neg h0, elems_join K h0 (fun e he => (h e he).1)]
      rfl
  | false =>
    by_cases h0 : K = []
    · subst h0; rfl
    · change elems (if K = [] then dot else join [47] K) = [] ++ (if K = [] then [dot] else K)
      rw [if_neg h0, if_neg h0, elems_join K h0 (fun e he => (h e he).1), List.nil_append]

theorem start_text (cwd : Loc) (r : Bool) (K : List Bytes) (h : ∀ e ∈ K, 47 ∉ e ∧ e ≠ []) : start cwd (text r K) = if r then [] else cwd := by
  unfold start text
  cases r with
  | true => rfl
  | false =>
    change (if (if K = [] then dot else join [47] K).head? = some 47 then [] else cwd) = cwd
    rw [if_neg]
    split
    · decide
    · exact join_head K h

theorem leads_text {fs : FS} {k : Nat} {l x : Loc} (hl : fs l = some .dir) (r : Bool) (K : List Bytes) :
    Leads fs k l (textElems r K) x ↔ Leads fs k l K x := by
  have hst : ∀ e es, (e = [] ∨ e = [46]) → (Leads fs k l (e :: es) x ↔ Leads fs k l es x) := by
    intro e es he
    constructor
    · intro h
      cases h with
      | stay _ _ h => exact h
      | up _ h => rcases he with he | he <;> exact absurd he (by decide)
      | down _ he' _ _ _ => exact absurd he (fun h' => h'.elim he'.1 he'.2.1)
      | follow _ he' _ _ => exact absurd he (fun h' => h'.elim he'.1 he'.2.1)
    · intro h
      exact .stay hl he h
  unfold textElems
  have h2 : Leads fs k l (if K = [] then [if r then [] else dot] else K) x ↔ Leads fs k l K x := by
    by_cases h0 : K = []
    · rw [if_pos h0, h0]
      exact hst _ _ (by cases r; exact Or.inr rfl; exact Or.inl rfl)
    · rw [if_neg h0]
  cases r with
  | true =>
    rw [if_pos rfl]
    exact (hst [] _ (Or.inl rfl)).trans h2
  | false =>
    rw [if_neg (by simp), List.nil_append]
    exact h2

end Verif.FsLink
