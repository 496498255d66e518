import Verif.Spec.Walk

/-!
# Facts about walking (Model/FsLink)
-/

namespace Verif.FsLink

open Spec.Walk Spec.Path Paths

theorem name_iff (e : Bytes) : Name e ↔ ¬ (e = [] ∨ e = dot) ∧ ¬ e = dotdot := by
  unfold Name dot dotdot
  constructor
  · rintro ⟨a, b, c⟩
    exact ⟨fun h => h.elim a b, c⟩
  · rintro ⟨a, b⟩
    exact ⟨fun h => a (Or.inl h), fun h => a (Or.inr h), b⟩

theorem go_nil (fs : FS) (f : Bool) (l : Loc) : go fs f l [] = .found l := rfl

theorem go_notDir (fs : FS) (f : Bool) (l : Loc) (e : Bytes) (es : List Bytes) (h : fs l ≠ some .dir) :
    go fs f l (e :: es) = .err .notDir := by
  rw [go, if_pos h]

theorem go_stay (fs : FS) (f : Bool) (l : Loc) (e : Bytes) (es : List Bytes) (h : fs l = some .dir) (he : e = [] ∨ e = dot) :
    go fs f l (e :: es) = go fs f l es := by
  rw [go, if_neg (fun hn => hn h), if_pos he]

theorem go_up (fs : FS) (f : Bool) (l : Loc) (es : List Bytes) (h : fs l = some .dir) :
    go fs f l (dotdot :: es) = go fs f l.dropLast es := by
  rw [go, if_neg (fun hn => hn h), if_neg (by decide), if_pos rfl]

theorem go_name (fs : FS) (f : Bool) (l : Loc) (e : Bytes) (es : List Bytes) (h : fs l = some .dir) (he : Name e) :
    go fs f l (e :: es) = match fs (l ++ [e]) with
      | none => if es = [] then .missing l e else .err .noEnt
      | some (.link t) => if es = [] ∧ f = false then .found (l ++ [e]) else .link l t es
      | some _ => go fs f (l ++ [e]) es := by
  rw [go, if_neg (fun hn => hn h), if_neg ((name_iff e).1 he).1, if_neg ((name_iff e).1 he).2]
  rfl

theorem sane_up {fs : FS} (hs : Sane fs) {l : Loc} (h : fs l = some .dir) : fs l.dropLast = some .dir := by
  rcases List.eq_nil_or_concat l with rfl | ⟨a, e, rfl⟩
  · exact hs.root
  · rw [List.concat_eq_append] at h ⊢
    rw [List.dropLast_concat]
    exact hs.inDir a e (by rw [h]; simp)

theorem sane_start {fs : FS} (hs : Sane fs) {l : Loc} (h : fs l = some .dir) (p : Bytes) : fs (start l p) = some .dir := by
  unfold start
  split
  · exact hs.root
  · exact h

/-- Case analysis of an element. -/
theorem elem_cases (e : Bytes) : (e = [] ∨ e = dot) ∨ e = dotdot ∨ Name e := by
  by_cases h1 : e = [] ∨ e = dot
  · exact Or.inl h1
  · by_cases h2 : e = dotdot
    · exact Or.inr (Or.inl h2)
    · exact Or.inr (Or.inr ((name_iff e).2 ⟨h1, h2⟩))

/-- What a walk without following ends at. -/
def Good (fs : FS) (f : Bool) : Way → Prop
  | .found x => fs x ≠ none ∧ (f = true → ∀ t, fs x ≠ some (.link t))
  | .missing d e => fs d = some .dir ∧ Name e ∧ fs (d ++ [e]) = none
  | .err _ => True
  | .link d _ _ => fs d = some .dir

theorem go_good {fs : FS} (hs : Sane fs) (f : Bool) (l : Loc) (es : List Bytes) (hl : fs l ≠ none) (hn : ∀ t, fs l ≠ some (.link t)) :
    Good fs f (go fs f l es) := by
  induction es generalizing l with
  | nil => exact ⟨hl, fun _ => hn⟩
  | cons e es ih =>
    by_cases hd : fs l = some .dir
    · rcases elem_cases e with he | rfl | he
      · rw [go_stay fs f l e es hd he]
        exact ih l hl hn
      · rw [go_up fs f l es hd]
        have := sane_up hs hd
        exact ih _ (by rw [this]; simp) (by rw [this]; simp)
      · rw [go_name fs f l e es hd he]
        cases hx : fs (l ++ [e]) with
        | none =>
          dsimp only
          split
          · exact ⟨hd, he, hx⟩
          · trivial
        | some n =>
          cases n with
          | dir => exact ih _ (by rw [hx]; simp) (by rw [hx]; simp)
          | file c => exact ih _ (by rw [hx]; simp) (by rw [hx]; simp)
          | link t =>
            dsimp only
            split
            · rename_i h
              exact ⟨by rw [hx]; simp, fun hf => by rw [h.2] at hf; cases hf⟩
            · exact hd
    · rw [go_notDir fs f l e es hd]
      trivial

theorem walk_eq (fs : FS) (f : Bool) (n : Nat) (l : Loc) (es : List Bytes) :
    walk fs f n l es = match go fs f l es with
      | .link d t rest => (match n with
        | 0 => .err .loop
        | n + 1 => walk fs f n (start d t) (elems t ++ rest))
      | w => w := by
  cases n <;> (rw [walk]; cases go fs f l es <;> rfl)

theorem walk_found {fs : FS} {f : Bool} {n : Nat} {l : Loc} {es : List Bytes} {w : Way} (h : go fs f l es = w)
    (hw : ∀ d t r, w ≠ .link d t r) : walk fs f n l es = w := by
  rw [walk_eq, h]
  cases w with
  | link d t r => exact absurd rfl (hw d t r)
  | _ => rfl

theorem walk_good {fs : FS} (hs : Sane fs) (f : Bool) (n : Nat) (l : Loc) (es : List Bytes) (hl : fs l = some .dir) :
    Good fs f (walk fs f n l es) ∧ ∀ d t r, walk fs f n l es ≠ .link d t r := by
  induction n generalizing l es with
  | zero =>
    have hg := go_good hs f l es (by rw [hl]; simp) (by rw [hl]; simp)
    rw [walk_eq]
    cases hw : go fs f l es with
    | link d t r => exact ⟨trivial, by intros; simp⟩
    | _ => rw [hw] at hg; exact ⟨hg, by intros; simp⟩
  | succ n ih =>
    have hg := go_good hs f l es (by rw [hl]; simp) (by rw [hl]; simp)
    rw [walk_eq]
    cases hw : go fs f l es with
    | link d t r =>
      rw [hw] at hg
      exact ih _ _ (sane_start hs hg t)
    | _ => rw [hw] at hg; exact ⟨hg, by intros; simp⟩

/-! ## The walk and the relation -/

/-- A walk that ends at the end of the elements, without a link. -/
theorem go_leads {fs : FS} (l : Loc) (es : List Bytes) (hl : fs l ≠ none) {x : Loc} (h : go fs true l es = .found x) (hs : Sane fs) :
    Leads fs 0 l es x := by
  induction es generalizing l with
  | nil =>
    rw [go_nil] at h
    injection h with h
    subst h
    exact .here _ hl
  | cons e es ih =>
    by_cases hd : fs l = some .dir
    · rcases elem_cases e with he | rfl | he
      · rw [go_stay fs true l e es hd he] at h
        exact .stay hd he (ih l hl h)
      · rw [go_up fs true l es hd] at h
        exact .up hd (ih _ (by rw [sane_up hs hd]; simp) h)
      · rw [go_name fs true l e es hd he] at h
        cases hx : fs (l ++ [e]) with
        | none => rw [hx] at h; dsimp only at h; split at h <;> cases h
        | some n =>
          rw [hx] at h
          cases n with
          | dir => exact .down hd he hx (by simp) (ih _ (by rw [hx]; simp) h)
          | file c => exact .down hd he hx (by simp) (ih _ (by rw [hx]; simp) h)
          | link t => dsimp only at h; rw [if_neg (by simp)] at h; cases h
    · rw [go_notDir fs true l e es hd] at h
      cases h

/-- A walk up to a link, which is followed. -/
theorem go_link_leads {fs : FS} (l : Loc) (es : List Bytes) {d : Loc} {t : Bytes} {rest : List Bytes} (h : go fs true l es = .link d t rest)
    {k : Nat} {x : Loc} (hx : Leads fs k (start d t) (elems t ++ rest) x) : Leads fs (k + 1) l es x := by
  induction es generalizing l with
  | nil => cases h
  | cons e es ih =>
    by_cases hd : fs l = some .dir
    · rcases elem_cases e with he | rfl | he
      · rw [go_stay fs true l e es hd he] at h
        exact .stay hd he (ih l h)
      · rw [go_up fs true l es hd] at h
        exact .up hd (ih _ h)
      · rw [go_name fs true l e es hd he] at h
        cases hy : fs (l ++ [e]) with
        | none => rw [hy] at h; dsimp only at h; split at h <;> cases h
        | some n =>
          rw [hy] at h
          cases n with
          | dir => exact .down hd he hy (by simp) (ih _ h)
          | file c => exact .down hd he hy (by simp) (ih _ h)
          | link t' =>
            dsimp only at h
            rw [if_neg (by simp)] at h
            cases h
            exact .follow hd he hy hx
    · rw [go_notDir fs true l e es hd] at h
      cases h

theorem walk_leads {fs : FS} (hs : Sane fs) (n : Nat) (l : Loc) (es : List Bytes) (hl : fs l = some .dir) {x : Loc}
    (h : walk fs true n l es = .found x) : ∃ k, k ≤ n ∧ Leads fs k l es x := by
  induction n generalizing l es with
  | zero =>
    rw [walk_eq] at h
    cases hw : go fs true l es with
    | link d t r => rw [hw] at h; cases h
    | found y =>
      rw [hw] at h
      cases h
      exact ⟨0, Nat.le_refl _, go_leads l es (by rw [hl]; simp) hw hs⟩
    | missing d e => rw [hw] at h; cases h
    | err e => rw [hw] at h; cases h
  | succ n ih =>
    have hg := go_good hs true l es (by rw [hl]; simp) (by rw [hl]; simp)
    rw [walk_eq] at h
    cases hw : go fs true l es with
    | link d t r =>
      rw [hw] at h hg
      obtain ⟨k, hk, hx⟩ := ih _ _ (sane_start hs hg t) h
      exact ⟨k + 1, by omega, go_link_leads l es hw hx⟩
    | found y =>
      rw [hw] at h
      cases h
      exact ⟨0, Nat.zero_le _, go_leads l es (by rw [hl]; simp) hw hs⟩
    | missing d e => rw [hw] at h; cases h
    | err e => rw [hw] at h; cases h

/-- What the relation allows, the walk finds. -/
theorem leads_walk {fs : FS} {k : Nat} {l : Loc} {es : List Bytes} {x : Loc} (h : Leads fs k l es x) :
    ∀ n, k ≤ n → walk fs true n l es = .found x := by
  induction h with
  | here l hl => intro n _; exact walk_found rfl (by simp)
  | stay hl he h ih =>
    intro n hn
    rw [walk_eq, go_stay _ _ _ _ _ hl he, ← walk_eq]
    exact ih n hn
  | up hl h ih =>
    intro n hn
    rw [walk_eq, show ([46, 46] : Bytes) = dotdot from rfl, go_up _ _ _ _ hl, ← walk_eq]
    exact ih n hn
  | @down k l e es x m hl he hm hd h ih =>
    intro n hn
    have : go fs true l (e :: es) = go fs true (l ++ [e]) es := by
      rw [go_name _ _ _ _ _ hl he, hm]
      cases m with
      | link t => exact absurd rfl (hd t)
      | _ => rfl
    rw [walk_eq, this, ← walk_eq]
    exact ih n hn
  | @follow k l e es x t hl he hm h ih =>
    intro n hn
    have : go fs true l (e :: es) = .link l t es := by
      rw [go_name _ _ _ _ _ hl he, hm]
      dsimp only
      rw [if_neg (by simp)]
    rw [walk_eq, this]
    cases n with
    | zero => omega
    | succ n => exact ih n (by omega)

theorem resolve_found {fs : FS} (hs : Sane fs) {cwd : Loc} (hc : fs cwd = some .dir) (p : Bytes) (x : Loc) :
    resolve fs true cwd p = .found x ↔ PathLeads fs cwd p x := by
  unfold resolve PathLeads
  by_cases hp : p = []
  · rw [if_pos hp]
    exact ⟨fun h => (by cases h), fun h => absurd hp h.1⟩
  · rw [if_neg hp]
    constructor
    · intro h
      exact ⟨hp, walk_leads hs 40 _ _ (sane_start hs hc p) h⟩
    · rintro ⟨_, k, hk, h⟩
      exact leads_walk h 40 hk

/-- A path leads to one place. -/
theorem leads_unique {fs : FS} {cwd : Loc} {p : Bytes} {x y : Loc} (h1 : PathLeads fs cwd p x) (h2 : PathLeads fs cwd p y) : x = y := by
  obtain ⟨_, k, hk, h1⟩ := h1
  obtain ⟨_, k', hk', h2⟩ := h2
  have e1 := leads_walk h1 40 hk
  have e2 := leads_walk h2 40 hk'
  rw [e1] at e2
  injection e2

/-! ## Without links -/

theorem go_lexical {fs : FS} (hno : ∀ l t, fs l ≠ some (.link t)) (f : Bool) (l : Loc) (es : List Bytes) :
    (∀ x, go fs f l es = .found x → x = es.foldl step l) ∧ (∀ d e, go fs f l es = .missing d e → d ++ [e] = es.foldl step l) ∧
      (∀ d t r, go fs f l es ≠ .link d t r) := by
  induction es generalizing l with
  | nil => exact ⟨fun x h => by injection h with h; exact h.symm, fun d e h => (by cases h), fun d t r h => (by cases h)⟩
  | cons e es ih =>
    rw [List.foldl_cons]
    by_cases hd : fs l = some .dir
    · rcases elem_cases e with he | rfl | he
      · rw [go_stay fs f l e es hd he]
        have : step l e = l := by
          unfold step
          rcases he with rfl | rfl
          · rw [if_pos rfl]
          · rw [if_neg (by decide), if_pos (by decide)]
        rw [this]
        exact ih l
      · rw [go_up fs f l es hd]
        have : step l dotdot = l.dropLast := by
          unfold step
          rw [if_neg (by decide), if_neg (by decide), if_pos (by decide)]
        rw [this]
        exact ih _
      · rw [go_name fs f l e es hd he]
        have : step l e = l ++ [e] := by
          unfold step
          rw [if_neg he.1, if_neg he.2.1, if_neg he.2.2]
        rw [this]
        cases hx : fs (l ++ [e]) with
        | none =>
          dsimp only
          by_cases hes : es = []
          · subst hes
            rw [if_pos rfl]
            exact ⟨fun x h => (by cases h), fun d e' h => by injection h with h1 h2; rw [← h1, ← h2]; rfl, fun d t r h => (by cases h)⟩
          · rw [if_neg hes]
            exact ⟨fun x h => (by cases h), fun d e' h => (by cases h), fun d t r h => (by cases h)⟩
        | some n =>
          cases n with
          | link t => exact absurd hx (hno _ t)
          | dir => exact ih _
          | file c => exact ih _
    · rw [go_notDir fs f l e es hd]
      exact ⟨fun x h => (by cases h), fun d e' h => (by cases h), fun d t r h => (by cases h)⟩

/-! ## More directories -/

/-- `fs'` has all that `fs` has. -/
def Ext (fs fs' : FS) : Prop := ∀ x, fs x ≠ none → fs' x = fs x

theorem ext_dir {fs fs' : FS} (h : Ext fs fs') {l : Loc} (hl : fs l = some .dir) : fs' l = some .dir := by
  rw [h l (by rw [hl]; simp), hl]

theorem go_ext {fs fs' : FS} (hx : Ext fs fs') (f : Bool) (l : Loc) (es : List Bytes) :
    (∀ x, go fs f l es = .found x → go fs' f l es = .found x) ∧
    (∀ d t r, go fs f l es = .link d t r → go fs' f l es = .link d t r) ∧
    (∀ d e m, go fs f l es = .missing d e → fs' (d ++ [e]) = some m → (∀ t, m ≠ .link t) → go fs' f l es = .found (d ++ [e])) ∧
    (∀ d e, go fs f l es = .missing d e → fs' (d ++ [e]) = none → go fs' f l es = .missing d e) := by
  induction es generalizing l with
  | nil => exact ⟨fun x h => h, fun d t r h => (by cases h), fun d e m h => (by cases h), fun d e h => (by cases h)⟩
  | cons e es ih =>
    by_cases hd : fs l = some .dir
    · have hd' := ext_dir hx hd
      rcases elem_cases e with he | rfl | he
      · rw [go_stay fs f l e es hd he, go_stay fs' f l e es hd' he]
        exact ih l
      · rw [go_up fs f l es hd, go_up fs' f l es hd']
        exact ih _
      · rw [go_name fs f l e es hd he, go_name fs' f l e es hd' he]
        cases hy : fs (l ++ [e]) with
        | none =>
          dsimp only
          by_cases hes : es = []
          · subst hes
            rw [if_pos rfl]
            refine ⟨fun x h => (by cases h), fun d t r h => (by cases h), fun d e' m h hm hl => ?_, fun d e' h hm => ?_⟩
            · injection h with h1 h2
              subst h1 h2
              rw [hm]
              cases m with
              | link t => exact absurd rfl (hl t)
              | _ => rfl
            · injection h with h1 h2
              subst h1 h2
              rw [hm]
          · rw [if_neg hes]
            exact ⟨fun x h => (by cases h), fun d t r h => (by cases h), fun d e' m h => (by cases h), fun d e' h => (by cases h)⟩
        | some n =>
          rw [hx _ (by rw [hy]; simp), hy]
          cases n with
          | dir => exact ih _
          | file c => exact ih _
          | link t =>
            dsimp only
            split
            · exact ⟨fun x h => h, fun d t r h => (by cases h), fun d e' m h => (by cases h), fun d e' h => (by cases h)⟩
            · exact ⟨fun x h => h, fun d t r h => h, fun d e' m h => (by cases h), fun d e' h => (by cases h)⟩
    · rw [go_notDir fs f l e es hd]
      exact ⟨fun x h => (by cases h), fun d t r h => (by cases h), fun d e' m h => (by cases h), fun d e' h => (by cases h)⟩

theorem walk_ext {fs fs' : FS} (hx : Ext fs fs') (f : Bool) (n : Nat) (l : Loc) (es : List Bytes) :
    (∀ x, walk fs f n l es = .found x → walk fs' f n l es = .found x) ∧
    (∀ d e m, walk fs f n l es = .missing d e → fs' (d ++ [e]) = some m → (∀ t, m ≠ .link t) → walk fs' f n l es = .found (d ++ [e])) ∧
    (∀ d e, walk fs f n l es = .missing d e → fs' (d ++ [e]) = none → walk fs' f n l es = .missing d e) := by
  induction n generalizing l es with
  | zero =>
    obtain ⟨g1, g2, g3, g4⟩ := go_ext hx f l es
    rw [walk_eq]
    cases hw : go fs f l es with
    | link d t r => exact ⟨fun x h => (by cases h), fun d e m h => (by cases h), fun d e h => (by cases h)⟩
    | found y =>
      exact ⟨fun x h => by cases h; exact walk_found (g1 _ hw) (by simp), fun d e m h => (by cases h), fun d e h => (by cases h)⟩
    | missing d' e' =>
      exact ⟨fun x h => (by cases h), fun d e m h hm hl => by cases h; exact walk_found (g3 _ _ m hw hm hl) (by simp),
        fun d e h hm => by cases h; exact walk_found (g4 _ _ hw hm) (by simp)⟩
    | err e => exact ⟨fun x h => (by cases h), fun d e m h => (by cases h), fun d e h => (by cases h)⟩
  | succ n ih =>
    obtain ⟨g1, g2, g3, g4⟩ := go_ext hx f l es
    rw [walk_eq]
    cases hw : go fs f l es with
    | link d t r =>
      rw [walk_eq fs', g2 _ _ _ hw]
      exact ih _ _
    | found y =>
      exact ⟨fun x h => by cases h; exact walk_found (g1 _ hw) (by simp), fun d e m h => (by cases h), fun d e h => (by cases h)⟩
    | missing d' e' =>
      exact ⟨fun x h => (by cases h), fun d e m h hm hl => by cases h; exact walk_found (g3 _ _ m hw hm hl) (by simp),
        fun d e h hm => by cases h; exact walk_found (g4 _ _ hw hm) (by simp)⟩
    | err e => exact ⟨fun x h => (by cases h), fun d e m h => (by cases h), fun d e h => (by cases h)⟩

/-! ## Following the last link or not -/

theorem go_follow {fs : FS} (l : Loc) (es : List Bytes) :
    (∀ x, go fs false l es = .found x → (∀ t, fs x ≠ some (.link t)) → go fs true l es = .found x) ∧
    (∀ d t r, go fs false l es = .link d t r → go fs true l es = .link d t r) ∧
    (∀ d e, go fs false l es = .missing d e → go fs true l es = .missing d e) ∧
    (∀ e, go fs false l es = .err e → go fs true l es = .err e) := by
  induction es generalizing l with
  | nil => exact ⟨fun x h _ => h, fun d t r h => (by cases h), fun d e h => (by cases h), fun e h => (by cases h)⟩
  | cons e es ih =>
    by_cases hd : fs l = some .dir
    · rcases elem_cases e with he | rfl | he
      · rw [go_stay fs _ l e es hd he, go_stay fs _ l e es hd he]
        exact ih l
      · rw [go_up fs _ l es hd, go_up fs _ l es hd]
        exact ih _
      · rw [go_name fs _ l e es hd he, go_name fs _ l e es hd he]
        cases hy : fs (l ++ [e]) with
        | none => exact ⟨fun x h _ => h, fun d t r h => h, fun d e h => h, fun e h => h⟩
        | some n =>
          cases n with
          | dir => exact ih _
          | file c => exact ih _
          | link t =>
            dsimp only
            by_cases hes : es = []
            · rw [if_pos ⟨hes, rfl⟩]
              refine ⟨fun x h hn => ?_, fun d t r h => (by cases h), fun d e h => (by cases h), fun e h => (by cases h)⟩
              cases h
              exact absurd hy (hn t)
            · rw [if_neg (fun h => hes h.1), if_neg (fun h => hes h.1)]
              exact ⟨fun x h _ => h, fun d t r h => h, fun d e h => h, fun e h => h⟩
    · rw [go_notDir fs _ l e es hd, go_notDir fs _ l e es hd]
      exact ⟨fun x h _ => h, fun d t r h => h, fun d e h => h, fun e h => h⟩

theorem walk_follow {fs : FS} (n : Nat) (l : Loc) (es : List Bytes) :
    (∀ x, walk fs false n l es = .found x → (∀ t, fs x ≠ some (.link t)) → walk fs true n l es = .found x) ∧
    (∀ d e, walk fs false n l es = .missing d e → walk fs true n l es = .missing d e) ∧
    (∀ e, walk fs false n l es = .err e → walk fs true n l es = .err e) := by
  induction n generalizing l es with
  | zero =>
    obtain ⟨g1, g2, g3, g4⟩ := go_follow (fs := fs) l es
    rw [walk_eq, walk_eq fs true]
    cases hw : go fs false l es with
    | link d t r => rw [g2 _ _ _ hw]; exact ⟨fun x h _ => h, fun d e h => h, fun e h => h⟩
    | found y => exact ⟨fun x h hn => by cases h; rw [g1 _ hw hn], fun d e h => (by cases h), fun e h => (by cases h)⟩
    | missing d e => rw [g3 _ _ hw]; exact ⟨fun x h _ => h, fun d e h => h, fun e h => h⟩
    | err e => rw [g4 _ hw]; exact ⟨fun x h _ => h, fun d e h => h, fun e h => h⟩
  | succ n ih =>
    obtain ⟨g1, g2, g3, g4⟩ := go_follow (fs := fs) l es
    rw [walk_eq, walk_eq fs true]
    cases hw : go fs false l es with
    | link d t r => rw [g2 _ _ _ hw]; exact ih _ _
    | found y => exact ⟨fun x h hn => by cases h; rw [g1 _ hw hn], fun d e h => (by cases h), fun e h => (by cases h)⟩
    | missing d e => rw [g3 _ _ hw]; exact ⟨fun x h _ => h, fun d e h => h, fun e h => h⟩
    | err e => rw [g4 _ hw]; exact ⟨fun x h _ => h, fun d e h => h, fun e h => h⟩

/-! ## One path after another -/

theorem leads_append {fs : FS} {k k' : Nat} {l y x : Loc} {es es' : List Bytes} (h : Leads fs k l es y) (h' : Leads fs k' y es' x) :
    Leads fs (k + k') l (es ++ es') x := by
  induction h with
  | here l hl => rw [Nat.zero_add]; exact h'
  | stay hl he _ ih => exact .stay hl he (ih h')
  | up hl _ ih => exact .up hl (ih h')
  | down hl he hn hd _ ih => exact .down hl he hn hd (ih h')
  | @follow k l e es x t hl he hn _ ih =>
    have := ih h'
    rw [List.append_assoc] at this
    rw [Nat.add_right_comm]
    exact .follow hl he hn this

/-- A trailing slash after a directory. -/
theorem walk_slash {fs : FS} (hs : Sane fs) (n : Nat) (l : Loc) (es : List Bytes) (hl : fs l = some .dir) {x : Loc}
    (h : walk fs true n l es = .found x) (hx : fs x = some .dir) : walk fs true n l (es ++ [[]]) = .found x := by
  obtain ⟨k, hk, hL⟩ := walk_leads hs n l es hl h
  exact leads_walk (leads_append hL (.stay hx (Or.inl rfl) (.here x (by rw [hx]; simp)))) n hk

theorem sane_below {fs : FS} (hs : Sane fs) {l : Loc} {r : Loc} (hr : r ≠ []) (h : fs (l ++ r) ≠ none) : fs l = some .dir := by
  rw [← List.reverse_reverse r] at h hr
  generalize r.reverse = q at h hr
  induction q with
  | nil => exact absurd rfl hr
  | cons e q ih =>
    rw [List.reverse_cons, ← List.append_assoc] at h
    have hd := hs.inDir _ _ h
    by_cases hq : q = []
    · rw [hq, List.reverse_nil, List.append_nil] at hd
      exact hd
    · exact ih (by rw [hd]; simp) (fun h' => hq (List.reverse_eq_nil_iff.1 h'))

/-! ## Making directories -/

/-- A new directory. -/
theorem set_dir {fs : FS} (hs : Sane fs) {d : Loc} {e : Bytes} (hd : fs d = some .dir) (hn : fs (d ++ [e]) = none) :
    Sane (fs.set (d ++ [e]) (some .dir)) ∧ Ext fs (fs.set (d ++ [e]) (some .dir)) := by
  have hx : Ext fs (fs.set (d ++ [e]) (some .dir)) := by
    intro x h
    unfold FS.set
    rw [if_neg]
    rintro rfl
    exact h hn
  refine ⟨⟨ext_dir hx hs.root, ?_⟩, hx⟩
  intro l e' h
  unfold FS.set at h
  by_cases hl : l ++ [e'] = d ++ [e]
  · rw [(List.append_inj' hl rfl).1]
    exact ext_dir hx hd
  · rw [if_neg hl] at h
    exact ext_dir hx (hs.inDir l e' h)

/-- `MkdirAll` adds directories and nothing else; if it succeeds, the path leads to a directory. -/
theorem mkdirAllR_spec {fs : FS} (hs : Sane fs) {l : Loc} (hl : fs l = some .dir) (r : List Bytes) :
    Sane (mkdirAllR fs l r).1 ∧ Ext fs (mkdirAllR fs l r).1 ∧
    (∀ x, fs x = none → (mkdirAllR fs l r).1 x = none ∨ (mkdirAllR fs l r).1 x = some .dir) ∧
    ((mkdirAllR fs l r).2 = true → ∃ x, walk (mkdirAllR fs l r).1 true 40 l r.reverse = .found x ∧ (mkdirAllR fs l r).1 x = some .dir) := by
  induction r with
  | nil => exact ⟨hs, fun _ _ => rfl, fun _ h => Or.inl h, fun _ => ⟨l, walk_found rfl (by simp), hl⟩⟩
  | cons e r ih =>
    rw [mkdirAllR]
    have hgo : ∀ x, walk fs true 40 l (e :: r).reverse = .found x → Sane fs ∧ Ext fs fs ∧ (∀ x, fs x = none → fs x = none ∨ fs x = some .dir) ∧
        (decide (fs x = some .dir) = true → ∃ x, walk fs true 40 l (e :: r).reverse = .found x ∧ fs x = some .dir) := by
      intro x hx
      exact ⟨hs, fun _ _ => rfl, fun _ h => Or.inl h, fun h => ⟨x, hx, of_decide_eq_true h⟩⟩
    have hrest : ∀ R : FS × Bool, R = (if e = [] then mkdirAllR fs l r
      else
        let parent := if r = [] ∨ r = [[]] then (fs, true) else mkdirAllR fs l r
        if parent.2 = false then (parent.1, false)
        else
          match mkdir parent.1 l (e :: r).reverse with
          | .ok fs => (fs, true)
          | .error _ => (parent.1, atDir parent.1 (walk parent.1 false 40 l (e :: r).reverse))) →
        Sane R.1 ∧ Ext fs R.1 ∧ (∀ x, fs x = none → R.1 x = none ∨ R.1 x = some .dir) ∧
        (R.2 = true → ∃ x, walk R.1 true 40 l (e :: r).reverse = .found x ∧ R.1 x = some .dir) := by
      intro R hR
      by_cases he : e = []
      · rw [if_pos he] at hR
        obtain ⟨i1, i2, i3, i4⟩ := ih
        rw [hR]
        refine ⟨i1, i2, i3, fun h => ?_⟩
        obtain ⟨x, hx, hd⟩ := i4 h
        refine ⟨x, ?_, hd⟩
        rw [List.reverse_cons, he]
        exact walk_slash i1 40 l _ (ext_dir i2 hl) hx hd
      · rw [if_neg he] at hR
        have hp : ∃ P : FS × Bool, P = (if r = [] ∨ r = [[]] then (fs, true) else mkdirAllR fs l r) ∧ Sane P.1 ∧ Ext fs P.1 ∧
            (∀ x, fs x = none → P.1 x = none ∨ P.1 x = some .dir) := by
          refine ⟨_, rfl, ?_⟩
          split
          · exact ⟨hs, fun _ _ => rfl, fun _ h => Or.inl h⟩
          · exact ⟨ih.1, ih.2.1, ih.2.2.1⟩
        obtain ⟨P, hP, p1, p2, p3⟩ := hp
        rw [← hP] at hR
        dsimp only at hR
        have hPl := ext_dir p2 hl
        by_cases hb : P.2 = false
        · rw [if_pos hb] at hR
          rw [hR]
          exact ⟨p1, p2, p3, fun h => by cases h⟩
        · rw [if_neg hb] at hR
          obtain ⟨g1, g2⟩ := walk_good p1 false 40 l (e :: r).reverse hPl
          unfold mkdir at hR
          cases hw : walk P.1 false 40 l (e :: r).reverse with
          | missing d e' =>
            rw [hw] at hR g1
            dsimp only at hR
            rw [hR]
            obtain ⟨q1, q2⟩ := set_dir p1 g1.1 g1.2.2
            have hset : (P.1.set (d ++ [e']) (some .dir)) (d ++ [e']) = some .dir := by unfold FS.set; rw [if_pos rfl]
            refine ⟨q1, ?_, ?_, fun _ => ⟨d ++ [e'], ?_, hset⟩⟩
            · intro x hx
              have := p2 x hx
              rw [← this]
              exact q2 x (by rw [this]; exact hx)
            · intro x hx
              by_cases hxe : x = d ++ [e']
              · rw [hxe]; exact Or.inr hset
              · have : (P.1.set (d ++ [e']) (some .dir)) x = P.1 x := by unfold FS.set; rw [if_neg hxe]
                change (P.1.set (d ++ [e']) (some .dir)) x = none ∨ (P.1.set (d ++ [e']) (some .dir)) x = some .dir
                rw [this]
                exact p3 x hx
            · exact (walk_follow 40 l _).1 _ ((walk_ext q2 false 40 l _).2.1 d e' _ hw hset (by simp)) (fun t h => by cases hset.symm.trans h)
          | found x =>
            rw [hw] at hR
            dsimp only at hR
            rw [hR]
            refine ⟨p1, p2, p3, fun h => ⟨x, ?_, ?_⟩⟩
            · have hd : P.1 x = some .dir := by
                dsimp only [atDir, nodeOf] at h
                cases hx : P.1 x with
                | none => rw [hx] at h; cases h
                | some n => rw [hx] at h; cases n with
                  | dir => rfl
                  | _ => cases h
              exact (walk_follow 40 l _).1 x hw (by rw [hd]; simp)
            · dsimp only [atDir, nodeOf] at h
              cases hx : P.1 x with
              | none => rw [hx] at h; cases h
              | some n => rw [hx] at h; cases n with
                | dir => rfl
                | _ => cases h
          | err e' =>
            rw [hw] at hR
            dsimp only at hR
            rw [hR]
            exact ⟨p1, p2, p3, fun h => by cases h⟩
          | link d t r' => exact absurd hw (g2 d t r')
    cases hw : walk fs true 40 l (e :: r).reverse with
    | found x =>
      dsimp only
      exact hgo x hw
    | missing d e' => exact hrest _ rfl
    | err e' => exact hrest _ rfl
    | link d t r' => exact hrest _ rfl

/-! ## The last name -/

/-- The last name is looked up in the directory to which the rest leads, and not followed. -/
theorem walk_last {fs : FS} {k : Nat} {l d : Loc} {a : List Bytes} (h : Leads fs k l a d) (hd : fs d = some .dir) {e : Bytes} (he : Name e) :
    ∀ n, k ≤ n → walk fs false n l (a ++ [e]) = if fs (d ++ [e]) = none then .missing d e else .found (d ++ [e]) := by
  induction h with
  | here l hl =>
    intro n _
    refine walk_found ?_ (by intros; split <;> simp)
    rw [List.nil_append, go_name fs false l e [] hd he]
    cases hx : fs (l ++ [e]) with
    | none => rfl
    | some m => cases m <;> rfl
  | stay hl he' _ ih =>
    intro n hn
    rw [List.cons_append, walk_eq, go_stay _ _ _ _ _ hl he', ← walk_eq]
    exact ih hd n hn
  | up hl _ ih =>
    intro n hn
    rw [List.cons_append, walk_eq, show ([46, 46] : Bytes) = dotdot from rfl, go_up _ _ _ _ hl, ← walk_eq]
    exact ih hd n hn
  | @down k l e' es x m hl he' hm hnl _ ih =>
    intro n hn
    have : go fs false l (e' :: (es ++ [e])) = go fs false (l ++ [e']) (es ++ [e]) := by
      rw [go_name _ _ _ _ _ hl he', hm]
      cases m with
      | link t => exact absurd rfl (hnl t)
      | _ => rfl
    rw [List.cons_append, walk_eq, this, ← walk_eq]
    exact ih hd n hn
  | @follow k l e' es x t hl he' hm _ ih =>
    intro n hn
    have : go fs false l (e' :: (es ++ [e])) = .link l t (es ++ [e]) := by
      rw [go_name _ _ _ _ _ hl he', hm]
      dsimp only
      rw [if_neg (by simp)]
    rw [List.cons_append, walk_eq, this]
    cases n with
    | zero => omega
    | succ n =>
      have := ih hd n (by omega)
      rw [List.append_assoc] at this
      exact this

/-! ## Other contents -/

/-- The two have the same directories, the same links, and files in the same places. -/
def Like (fs fs' : FS) : Prop := ∀ x, fs' x = fs x ∨ ∃ c c', fs x = some (.file c) ∧ fs' x = some (.file c')

theorem like_dir {fs fs' : FS} (h : Like fs fs') (x : Loc) : fs' x = some .dir ↔ fs x = some .dir := by
  rcases h x with h | ⟨c, c', h, h'⟩
  · rw [h]
  · rw [h, h']; simp

theorem go_like {fs fs' : FS} (h : Like fs fs') (f : Bool) (l : Loc) (es : List Bytes) : go fs' f l es = go fs f l es := by
  induction es generalizing l with
  | nil => rfl
  | cons e es ih =>
    by_cases hd : fs l = some .dir
    · have hd' := (like_dir h l).2 hd
      rcases elem_cases e with he | rfl | he
      · rw [go_stay fs f l e es hd he, go_stay fs' f l e es hd' he]
        exact ih l
      · rw [go_up fs f l es hd, go_up fs' f l es hd']
        exact ih _
      · rw [go_name fs f l e es hd he, go_name fs' f l e es hd' he]
        rcases h (l ++ [e]) with hx | ⟨c, c', hx, hx'⟩
        · rw [hx, ih]
        · rw [hx, hx']
          exact ih _
    · rw [go_notDir fs f l e es hd, go_notDir fs' f l e es (fun h' => hd ((like_dir h l).1 h'))]

theorem walk_like {fs fs' : FS} (h : Like fs fs') (f : Bool) (n : Nat) (l : Loc) (es : List Bytes) : walk fs' f n l es = walk fs f n l es := by
  induction n generalizing l es with
  | zero =>
    rw [walk_eq, walk_eq fs, go_like h]
  | succ n ih =>
    rw [walk_eq, walk_eq fs, go_like h]
    cases hg : go fs f l es with
    | link d t r => exact ih _ _
    | _ => rfl

theorem sane_like {fs fs' : FS} (h : Like fs fs') (hs : Sane fs) : Sane fs' := by
  refine ⟨(like_dir h _).2 hs.root, fun l e hne => (like_dir h _).2 (hs.inDir l e ?_)⟩
  rcases h (l ++ [e]) with hx | ⟨c, c', hx, hx'⟩
  · rw [← hx]; exact hne
  · rw [hx]; simp

theorem set_self (fs : FS) (l : Loc) (n : Option Node) : fs.set l n l = n := by unfold FS.set; rw [if_pos rfl]

theorem set_other (fs : FS) (l : Loc) (n : Option Node) {x : Loc} (h : x ≠ l) : fs.set l n x = fs x := by unfold FS.set; rw [if_neg h]

/-- Anything new in a directory. -/
theorem set_new {fs : FS} (hs : Sane fs) {d : Loc} {e : Bytes} (hd : fs d = some .dir) (hn : fs (d ++ [e]) = none) (m : Node) :
    Sane (fs.set (d ++ [e]) (some m)) ∧ Ext fs (fs.set (d ++ [e]) (some m)) := by
  have hx : Ext fs (fs.set (d ++ [e]) (some m)) := by
    intro x h
    exact set_other _ _ _ (fun hxe => h (hxe ▸ hn))
  refine ⟨⟨ext_dir hx hs.root, ?_⟩, hx⟩
  intro l e' h
  by_cases hl : l ++ [e'] = d ++ [e]
  · rw [(List.append_inj' hl rfl).1]
    exact ext_dir hx hd
  · rw [set_other _ _ _ hl] at h
    exact ext_dir hx (hs.inDir l e' h)

theorem set_like {fs : FS} {l : Loc} {c c' : Bytes} (h : fs l = some (.file c)) : Like fs (fs.set l (some (.file c'))) := by
  intro x
  by_cases hx : x = l
  · subst hx
    exact Or.inr ⟨c, c', h, set_self _ _ _⟩
  · exact Or.inl (set_other _ _ _ hx)

/-- Writing a file at the place that `open` gives: the path leads there afterwards. -/
theorem open_write {fs : FS} (hs : Sane fs) {cwd : Loc} (hc : fs cwd = some .dir) {p : Bytes} {l : Loc} (h : openLoc fs cwd p = .ok l) (c : Bytes) :
    ((∃ c0, fs l = some (.file c0)) ∨ (fs l = none ∧ ∃ d e, l = d ++ [e] ∧ fs d = some .dir)) ∧
    Sane (fs.set l (some (.file c))) ∧ (fs.set l (some (.file c))) cwd = some .dir ∧ PathLeads (fs.set l (some (.file c))) cwd p l := by
  unfold openLoc at h
  have hst := sane_start hs hc p
  cases hr : resolve fs true cwd p with
  | found x =>
    rw [hr] at h
    dsimp only at h
    by_cases hx : fs x = some .dir
    · rw [if_pos hx] at h; cases h
    · rw [if_neg hx] at h
      injection h with h
      subst h
      have hfile : ∃ c0, fs x = some (.file c0) := by
        have hr' := hr
        unfold resolve at hr'
        by_cases hp : p = []
        · rw [if_pos hp] at hr'; cases hr'
        · rw [if_neg hp] at hr'
          have := (walk_good hs true 40 _ (elems p) hst).1
          rw [hr'] at this
          cases hn : fs x with
          | none => exact absurd hn this.1
          | some n =>
            cases n with
            | dir => exact absurd hn hx
            | file c0 => exact ⟨c0, rfl⟩
            | link t => exact absurd hn (this.2 rfl t)
      obtain ⟨c0, hf⟩ := hfile
      have hlike : Like fs (fs.set x (some (.file c))) := set_like hf
      have hs' := sane_like hlike hs
      have hc' := (like_dir hlike cwd).2 hc
      refine ⟨Or.inl ⟨c0, hf⟩, hs', hc', (resolve_found hs' hc' p x).1 ?_⟩
      rw [← hr]
      unfold resolve
      by_cases hp : p = []
      · rw [if_pos hp, if_pos hp]
      · rw [if_neg hp, if_neg hp, walk_like hlike]
  | missing d e =>
    rw [hr] at h
    injection h with h
    subst h
    have hr' := hr
    unfold resolve at hr'
    by_cases hp : p = []
    · rw [if_pos hp] at hr'; cases hr'
    · rw [if_neg hp] at hr'
      have hg := (walk_good hs true 40 _ (elems p) hst).1
      rw [hr'] at hg
      obtain ⟨hs', hx⟩ := set_new hs hg.1 hg.2.2 (.file c)
      have hc' := ext_dir hx hc
      refine ⟨Or.inr ⟨hg.2.2, d, e, rfl, hg.1⟩, hs', hc', (resolve_found hs' hc' p _).1 ?_⟩
      unfold resolve
      rw [if_neg hp]
      exact (walk_ext hx true 40 _ _).2.1 d e _ hr' (set_self _ _ _) (by simp)
  | err e => rw [hr] at h; cases h
  | link d t r => rw [hr] at h; cases h

end Verif.FsLink
