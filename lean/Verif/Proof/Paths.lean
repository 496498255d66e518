import Verif.Model.Paths
import Verif.Spec.Paths
import Verif.Proof.Strings

/-!
# `Clean` does not change where a path leads
-/

namespace Verif.Paths

open Strings Spec.Path

theorem elems_cons (c : Nat) (s : Bytes) :
    elems (c :: s) = if c = 47 then [] :: elems s else (match elems s with | [] => [[c]] | e :: es => (c :: e) :: es) := by
  have : elems s ≠ [] := by
    cases s with
    | nil => simp [elems]
    | cons a s =>
      rw [elems]
      split
      · simp
      · split <;> simp
  rw [elems]
  cases h : elems s with
  | nil => exact absurd h this
  | cons e es => rfl

theorem elems_free (l : Bytes) (h : 47 ∉ l) : elems l = [l] := by
  induction l with
  | nil => rfl
  | cons c l ih =>
    simp only [List.mem_cons, not_or] at h
    rw [elems_cons, if_neg (fun h' => h.1 h'.symm), ih h.2]

theorem elems_append (l s : Bytes) (h : 47 ∉ l) : elems (l ++ 47 :: s) = l :: elems s := by
  induction l with
  | nil => rw [List.nil_append, elems_cons, if_pos rfl]
  | cons c l ih =>
    simp only [List.mem_cons, not_or] at h
    rw [List.cons_append, elems_cons, if_neg (fun h' => h.1 h'.symm), ih h.2]

theorem elems_slash (a b : Bytes) : elems (a ++ 47 :: b) = elems a ++ elems b := by
  have : ∀ n (a : Bytes), a.length ≤ n → elems (a ++ 47 :: b) = elems a ++ elems b := by
    intro n
    induction n with
    | zero =>
      intro a ha
      rw [List.length_eq_zero_iff.1 (Nat.le_zero.1 ha)]
      rw [List.nil_append, elems_cons, if_pos rfl]
      rfl
    | succ n ih =>
      intro a ha
      by_cases h : 47 ∈ a
      · obtain ⟨l, d, hl, rfl⟩ := mem_split 47 a h
        rw [List.append_assoc, List.cons_append, elems_append l _ hl, elems_append l d hl, ih d (by
          rw [List.length_append, List.length_cons] at ha
          omega)]
        rfl
      · rw [elems_append a b h, elems_free a h]
        rfl
  exact this a.length a (Nat.le_refl _)

theorem split_elems (p : Bytes) : split p [47] = elems p := by
  have : ∀ n (p : Bytes), p.length ≤ n → split p [47] = elems p := by
    intro n
    induction n with
    | zero =>
      intro p hp
      rw [List.length_eq_zero_iff.1 (Nat.le_zero.1 hp)]
      rfl
    | succ n ih =>
      intro p hp
      by_cases h : 47 ∈ p
      · obtain ⟨l, d, hl, rfl⟩ := mem_split 47 p h
        rw [split_char 47 l d hl, elems_append l d hl, ih d (by
          rw [List.length_append, List.length_cons] at hp
          omega)]
      · rw [split_char_none 47 p h, elems_free p h]
  exact this p.length p (Nat.le_refl _)

theorem elems_no_slash (p : Bytes) : ∀ e ∈ elems p, 47 ∉ e := by
  have : ∀ n (p : Bytes), p.length ≤ n → ∀ e ∈ elems p, 47 ∉ e := by
    intro n
    induction n with
    | zero =>
      intro p hp e he
      rw [List.length_eq_zero_iff.1 (Nat.le_zero.1 hp)] at he
      simp only [elems, List.mem_singleton] at he
      rw [he]
      simp
    | succ n ih =>
      intro p hp e he
      by_cases h : 47 ∈ p
      · obtain ⟨l, d, hl, rfl⟩ := mem_split 47 p h
        rw [elems_append l d hl] at he
        rcases List.mem_cons.1 he with rfl | he
        · exact hl
        · exact ih d (by rw [List.length_append, List.length_cons] at hp; omega) e he
      · rw [elems_free p h, List.mem_singleton] at he
        rw [he]
        exact h
  exact this p.length p (Nat.le_refl _)

theorem elems_join (l : List Bytes) (hl : l ≠ []) (h : ∀ e ∈ l, 47 ∉ e) : elems (join [47] l) = l := by
  induction l with
  | nil => exact absurd rfl hl
  | cons a l ih =>
    cases l with
    | nil => exact elems_free a (h a List.mem_cons_self)
    | cons b l =>
      have : join [47] (a :: b :: l) = a ++ 47 :: join [47] (b :: l) := by simp [join]
      rw [this, elems_append a _ (h a List.mem_cons_self), ih (by simp) (fun e he => h e (List.mem_cons_of_mem _ he))]

/-! ## `Clean` -/

/-- A name: no separator, not empty, neither `.` nor `..`. -/
def Name (e : Bytes) : Prop := 47 ∉ e ∧ e ≠ [] ∧ e ≠ dot ∧ e ≠ dotdot

/-- What the elements kept look like: names, and below them (unless rooted) some `..`. -/
def Kept (rooted : Bool) (stack : List Bytes) : Prop :=
  ∃ names ups, stack = names ++ List.replicate ups dotdot ∧ (∀ e ∈ names, Name e) ∧ (rooted = true → ups = 0)

theorem kept_step (rooted : Bool) (stack : List Bytes) (e : Bytes) (h : Kept rooted stack) (he : 47 ∉ e) :
    Kept rooted (cleanStep rooted stack e) := by
  obtain ⟨names, ups, rfl, h1, h2⟩ := h
  unfold cleanStep
  split
  · exact ⟨names, ups, rfl, h1, h2⟩
  rename_i h3
  simp only [not_or] at h3
  split
  · cases names with
    | nil =>
      cases ups with
      | zero =>
        cases rooted with
        | true => exact ⟨[], 0, rfl, by simp, by simp⟩
        | false => exact ⟨[], 1, rfl, by simp, by simp⟩
      | succ ups =>
        rw [List.nil_append, List.replicate_succ]
        dsimp only
        rw [if_pos rfl]
        exact ⟨[], ups + 2, by simp [List.replicate_succ], by simp, fun h => absurd (h2 h) (by omega)⟩
    | cons n names =>
      rw [List.cons_append]
      dsimp only
      rw [if_neg (h1 n List.mem_cons_self).2.2.2]
      exact ⟨names, ups, rfl, fun e he => h1 e (List.mem_cons_of_mem _ he), h2⟩
  · rename_i h4
    refine ⟨e :: names, ups, rfl, ?_, h2⟩
    intro x hx
    rcases List.mem_cons.1 hx with rfl | hx
    · exact ⟨he, h3.1, h3.2, h4⟩
    · exact h1 x hx

theorem step_name (l : List Bytes) (e : Bytes) (h : Name e) : step l e = l ++ [e] := by
  unfold step
  rw [if_neg h.2.1, if_neg (show ¬ e = [46] from h.2.2.1), if_neg (show ¬ e = [46, 46] from h.2.2.2)]

/-- One element: the walk along what is kept leads where the walk along the elements leads. -/
theorem walk_step (rooted : Bool) (base : List Bytes) (hb : rooted = true → base = []) (stack : List Bytes) (e : Bytes)
    (h : Kept rooted stack) :
    (cleanStep rooted stack e).reverse.foldl step base = step (stack.reverse.foldl step base) e := by
  obtain ⟨names, ups, rfl, h1, h2⟩ := h
  unfold cleanStep
  by_cases h3 : e = [] ∨ e = dot
  · rw [if_pos h3]
    unfold step
    rcases h3 with h3 | h3
    · rw [if_pos h3]
    · rw [if_neg (by rw [h3]; decide), if_pos (show e = [46] from h3)]
  rw [if_neg h3]
  simp only [not_or] at h3
  by_cases h4 : e = dotdot
  · rw [if_pos h4]
    have hs : ∀ l, step l e = l.dropLast := by
      intro l
      unfold step
      rw [if_neg h3.1, if_neg (show ¬ e = [46] from h3.2), if_pos (show e = [46, 46] from h4)]
    rw [hs]
    have hdd : ∀ l, step l dotdot = l.dropLast := fun l => by rw [← h4, hs]
    cases names with
    | nil =>
      cases ups with
      | zero =>
        cases rooted with
        | true =>
          rw [hb rfl]
          rfl
        | false =>
          simp [hdd]
      | succ ups =>
        rw [List.nil_append, List.replicate_succ]
        dsimp only
        rw [if_pos rfl]
        rw [List.reverse_cons, List.foldl_append]
        simp [hdd]
    | cons n names =>
      rw [List.cons_append]
      dsimp only
      rw [if_neg (h1 n List.mem_cons_self).2.2.2]
      rw [List.reverse_cons, List.foldl_append, List.foldl_cons, List.foldl_nil, step_name _ n (h1 n List.mem_cons_self),
        List.dropLast_concat]
  · rw [if_neg h4, List.reverse_cons, List.foldl_append]
    rfl

theorem walk_fold (rooted : Bool) (base : List Bytes) (hb : rooted = true → base = []) (es : List Bytes) (stack : List Bytes)
    (hes : ∀ e ∈ es, 47 ∉ e) (h : Kept rooted stack) :
    Kept rooted (es.foldl (cleanStep rooted) stack) ∧
    (es.foldl (cleanStep rooted) stack).reverse.foldl step base = es.foldl step (stack.reverse.foldl step base) := by
  induction es generalizing stack with
  | nil => exact ⟨h, rfl⟩
  | cons e es ih =>
    have hk := kept_step rooted stack e h (hes e List.mem_cons_self)
    obtain ⟨h1, h2⟩ := ih (cleanStep rooted stack e) (fun x hx => hes x (List.mem_cons_of_mem _ hx)) hk
    refine ⟨h1, ?_⟩
    rw [List.foldl_cons, h2, walk_step rooted base hb stack e h, List.foldl_cons]

/-- The head of a joined list of names. -/
theorem join_head (l : List Bytes) (h : ∀ e ∈ l, 47 ∉ e ∧ e ≠ []) : (join [47] l).head? ≠ some 47 := by
  cases l with
  | nil => simp [join]
  | cons a l =>
    obtain ⟨h1, h2⟩ := h a List.mem_cons_self
    have : ∃ t, join [47] (a :: l) = a ++ t := by
      cases l with
      | nil => exact ⟨[], by simp [join]⟩
      | cons b l => exact ⟨[47] ++ join [47] (b :: l), by simp [join]⟩
    obtain ⟨t, ht⟩ := this
    rw [ht]
    cases a with
    | nil => exact absurd rfl h2
    | cons c a =>
      simp only [List.cons_append, List.head?_cons, ne_eq, Option.some.injEq]
      rintro rfl
      exact h1 List.mem_cons_self

/-- `Clean` does not change where a path leads. -/
theorem loc_clean (cwd : List Bytes) (p : Bytes) : loc cwd (clean p) = loc cwd p := by
  have habs : isAbs p = true ↔ p.head? = some 47 := by
    unfold isAbs hasPrefix slash
    cases p with
    | nil => simp
    | cons c p =>
      simp only [List.isPrefixOf, List.head?_cons, Option.some.injEq, Bool.and_true, beq_iff_eq]
      exact eq_comm
  unfold clean
  rw [show slash = 47 from rfl, split_elems]
  dsimp only
  cases hr : isAbs p with
  | true =>
    obtain ⟨⟨names, ups, hk, hn, hu⟩, hw⟩ := walk_fold true [] (fun _ => rfl) (elems p) [] (elems_no_slash p)
      ⟨[], 0, rfl, by simp, by simp⟩
    have hu0 : ups = 0 := hu rfl
    subst hu0
    simp only [List.replicate_zero, List.append_nil] at hk
    rw [if_pos rfl]
    unfold loc
    rw [if_pos (by simp), if_pos (habs.1 hr)]
    rw [show (List.foldl step [] (elems p)) = (List.foldl (cleanStep true) [] (elems p)).reverse.foldl step [] from hw.symm]
    rw [hk]
    rw [show (47 :: join [47] names.reverse) = [] ++ 47 :: join [47] names.reverse from rfl, elems_append [] _ (by simp)]
    by_cases h0 : names = []
    · subst h0; rfl
    · rw [elems_join _ (by simpa using h0) (fun e he => (hn e (List.mem_reverse.1 he)).1)]
      rfl
  | false =>
    obtain ⟨⟨names, ups, hk, hn, -⟩, hw⟩ := walk_fold false cwd (fun h => by cases h) (elems p) [] (elems_no_slash p)
      ⟨[], 0, rfl, by simp, by simp⟩
    have hp : ¬ p.head? = some 47 := fun h => by rw [habs.2 h] at hr; cases hr
    rw [if_neg (by simp)]
    have hall : ∀ e ∈ (List.foldl (cleanStep false) [] (elems p)).reverse, 47 ∉ e ∧ e ≠ [] := by
      intro e he
      rw [List.mem_reverse, hk] at he
      rcases List.mem_append.1 he with he | he
      · exact ⟨(hn e he).1, (hn e he).2.1⟩
      · rw [(List.mem_replicate.1 he).2]
        decide
    unfold loc
    rw [if_neg hp]
    rw [show (List.foldl step cwd (elems p)) = (List.foldl (cleanStep false) [] (elems p)).reverse.foldl step cwd from hw.symm]
    generalize (List.foldl (cleanStep false) [] (elems p)).reverse = kept at hall
    by_cases h0 : kept = []
    · subst h0; rfl
    · rw [if_neg h0, if_neg (join_head kept hall), elems_join kept h0 (fun e he => (hall e he).1)]

theorem loc_slash (cwd : List Bytes) (a b : Bytes) (ha : a ≠ []) :
    loc cwd (a ++ [47] ++ b) = (elems b).foldl step (loc cwd a) := by
  have hh : (a ++ [47] ++ b).head? = a.head? := by
    cases a with
    | nil => exact absurd rfl ha
    | cons c a => rfl
  unfold loc
  rw [hh, List.append_assoc, List.singleton_append, elems_slash, List.foldl_append]

/-- Elements that are not `..` only lead down. -/
theorem walk_down (es : List Bytes) (h : dotdot ∉ es) (l : List Bytes) : l <+: es.foldl step l := by
  induction es generalizing l with
  | nil => exact List.prefix_refl l
  | cons e es ih =>
    simp only [List.mem_cons, not_or] at h
    have h1 : l <+: step l e := by
      unfold step
      split
      · exact List.prefix_refl l
      split
      · exact List.prefix_refl l
      split
      · rename_i h'; exact absurd h'.symm h.1
      · exact List.prefix_append _ _
    exact h1.trans (ih h.2 (step l e))

theorem elems_infix (p : Bytes) : ∀ e ∈ elems p, e <:+: p := by
  have : ∀ n (p : Bytes), p.length ≤ n → ∀ e ∈ elems p, e <:+: p := by
    intro n
    induction n with
    | zero =>
      intro p hp e he
      rw [List.length_eq_zero_iff.1 (Nat.le_zero.1 hp)] at he ⊢
      simp only [elems, List.mem_singleton] at he
      rw [he]
      exact List.infix_refl _
    | succ n ih =>
      intro p hp e he
      by_cases h : 47 ∈ p
      · obtain ⟨l, d, hl, rfl⟩ := mem_split 47 p h
        rw [elems_append l d hl] at he
        rcases List.mem_cons.1 he with rfl | he
        · exact ⟨[], 47 :: d, by simp⟩
        · have := ih d (by rw [List.length_append, List.length_cons] at hp; omega) e he
          obtain ⟨x, y, hxy⟩ := this
          exact ⟨l ++ 47 :: x, y, by rw [← hxy]; simp⟩
      · rw [elems_free p h, List.mem_singleton] at he
        rw [he]
        exact List.infix_refl _
  exact this p.length p (Nat.le_refl _)

/-- Joining a path without `..` elements stays inside. -/
theorem inside_join (cwd : List Bytes) (d p : Bytes) (h : dotdot ∉ elems p) (hr : d = [] → p.head? ≠ some 47) :
    Inside cwd d (joinPath d p) := by
  unfold Inside joinPath
  by_cases hd : d = []
  · subst hd
    rw [if_neg (by simp)]
    have h0 : loc cwd [] = cwd := rfl
    by_cases hp : p = []
    · subst hp; exact List.prefix_refl _
    · rw [if_pos hp, loc_clean, h0]
      unfold loc
      rw [if_neg (hr rfl)]
      exact walk_down _ h _
  · rw [if_pos hd, loc_clean, show slash = 47 from rfl, loc_slash cwd d p hd]
    exact walk_down _ h _

end Verif.Paths
