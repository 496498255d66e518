import Verif.Model.Sys
import Verif.Proof.Paths
import Verif.Proof.Json

/-!
# C123–C125: `GetCurrentDir`, `ShellExec`, `Reload`
-/

namespace Verif.Sys

open Utf8 Paths Strings Spec.Path

/-! ## C123: GetCurrentDir -/

theorem isAbs_iff (p : Bytes) : isAbs p = true ↔ p.head? = some 47 := by
  unfold isAbs hasPrefix slash
  cases p with
  | nil => simp
  | cons c p =>
    simp only [List.isPrefixOf, List.head?_cons, Option.some.injEq, Bool.and_true, beq_iff_eq]
    exact eq_comm

/-- A cleaned absolute path is written from the place it leads to. -/
theorem clean_abs (p : Bytes) (h : p.head? = some 47) : clean p = 47 :: join [47] (loc [] p) := by
  obtain ⟨⟨names, ups, hk, hn, hu⟩, hw⟩ := walk_fold true [] (fun _ => rfl) (elems p) [] (elems_no_slash p)
    ⟨[], 0, rfl, by simp, by simp⟩
  have hu0 : ups = 0 := hu rfl
  subst hu0
  simp only [List.replicate_zero, List.append_nil] at hk
  have hfold : ∀ (l : List Bytes) (base : List Bytes), (∀ e ∈ l, Name e) → l.foldl step base = base ++ l := by
    intro l
    induction l with
    | nil => intro base _; simp
    | cons e l ih =>
      intro base hl
      rw [List.foldl_cons, step_name _ e (hl e List.mem_cons_self), ih _ (fun x hx => hl x (List.mem_cons_of_mem _ hx))]
      simp
  have hloc : loc [] p = names.reverse := by
    unfold loc
    rw [if_pos h, show List.foldl step [] (elems p) = _ from hw.symm, hk,
      hfold names.reverse [] (fun e he => hn e (List.mem_reverse.1 he)), List.nil_append]
  unfold clean
  rw [show slash = 47 from rfl, split_elems]
  dsimp only
  rw [(isAbs_iff p).2 h, if_pos rfl, hk, hloc]

theorem head_append (a b : Bytes) (h : a.head? = some 47) : (a ++ b).head? = some 47 := by
  cases a with
  | nil => cases h
  | cons c a => exact h

/-- The absolute path of `p`. -/
theorem absPath_eq (wd p : Bytes) (hwd : wd.head? = some 47) : absPath wd p = 47 :: join [47] (loc (loc [] wd) p) := by
  unfold absPath
  by_cases h : isAbs p = true
  · rw [if_pos h, clean_abs p ((isAbs_iff p).1 h)]
    unfold loc
    rw [if_pos ((isAbs_iff p).1 h), if_pos ((isAbs_iff p).1 h)]
  · have h' : ¬ p.head? = some 47 := fun hh => h ((isAbs_iff p).2 hh)
    have hne : wd ≠ [] := by rintro rfl; cases hwd
    rw [if_neg h]
    unfold joinPath
    rw [if_pos hne, show slash = 47 from rfl, clean_abs _ (head_append _ _ (head_append _ _ hwd)), loc_slash [] wd p hne]
    conv_rhs => unfold loc
    rw [if_neg h']
    rfl

theorem dirOf_eq (f name : Bytes) (hn : 47 ∉ name) (hf : f = [] ∨ f.getLast? = some 47) : dirOf (f ++ name) = clean f := by
  unfold dirOf
  rw [List.reverse_append, List.dropWhile_append_of_pos (by
    intro c hc
    rw [List.mem_reverse] at hc
    have : c ≠ slash := by rintro rfl; exact hn hc
    simpa using this)]
  have : f.reverse.dropWhile (· != slash) = f.reverse := by
    rcases hf with rfl | hf
    · rfl
    · rw [List.getLast?_eq_head?_reverse] at hf
      cases hr : f.reverse with
      | nil => rfl
      | cons c t =>
        rw [hr] at hf
        simp only [List.head?_cons, Option.some.injEq] at hf
        subst hf
        rfl
  rw [this, List.reverse_reverse]

theorem replace_char (a b : Nat) (hab : a ≠ b) (s : Bytes) :
    replaceAll s [a] [b] = s.map (fun c => if c = a then b else c) := by
  unfold replaceAll
  rw [if_neg (by simpa using hab), if_neg (by simp)]
  have : ∀ n (s : Bytes), s.length ≤ n → join [b] (split s [a]) = s.map (fun c => if c = a then b else c) := by
    intro n
    induction n with
    | zero =>
      intro s hs
      rw [List.length_eq_zero_iff.1 (Nat.le_zero.1 hs)]
      rfl
    | succ n ih =>
      intro s hs
      have hfree : ∀ l : Bytes, a ∉ l → l.map (fun c => if c = a then b else c) = l := by
        intro l hl
        conv_rhs => rw [← List.map_id l]
        apply List.map_congr_left
        intro c hc
        have : c ≠ a := by rintro rfl; exact hl hc
        simp [this]
      by_cases h : a ∈ s
      · obtain ⟨l, d, hl, rfl⟩ := mem_split a s h
        rw [split_char a l d hl]
        have ih' := ih d (by rw [List.length_append, List.length_cons] at hs; omega)
        cases hd : split d [a] with
        | nil => exact absurd hd (split_ne_nil d [a] (by simp))
        | cons x xs =>
          rw [hd] at ih'
          rw [show join [b] (l :: x :: xs) = l ++ [b] ++ join [b] (x :: xs) by simp [join], ih', List.map_append, List.map_cons,
            hfree l hl]
          simp
      · rw [split_char_none a s h, hfree s h]
        rfl
  exact this s.length s (Nat.le_refl _)

/-- **C123 (text).** The result is the absolute path of the directory part `f` of the program's path, seen from the working directory,
without empty elements, `.` and `..`; backslashes become slashes. -/
theorem C123_text (wd f name : Bytes) (args : List Bytes) (hwd : wd.head? = some 47) (hn : 47 ∉ name)
    (hf : f = [] ∨ f.getLast? = some 47) :
    getCurrentDir wd ((f ++ name) :: args) =
      .ok ((47 :: join [47] (loc (loc [] wd) f)).map (fun c => if c = 92 then 47 else c)) := by
  unfold getCurrentDir
  dsimp only
  rw [replace_char 92 47 (by decide), dirOf_eq f name hn hf, absPath_eq wd _ hwd, loc_clean]

theorem fold_mem (es : List Bytes) : ∀ (l : List Bytes) (e : Bytes), e ∈ es.foldl step l → e ∈ l ∨ e ∈ es := by
  induction es with
  | nil => intro l e h; exact .inl h
  | cons x es ih =>
    intro l e h
    rw [List.foldl_cons] at h
    rcases ih _ e h with h | h
    · unfold step at h
      split at h
      · exact .inl h
      · split at h
        · exact .inl h
        · split at h
          · exact .inl (List.dropLast_subset _ h)
          · rcases List.mem_append.1 h with h | h
            · exact .inl h
            · rw [List.mem_singleton] at h
              exact .inr (h ▸ List.mem_cons_self)
    · exact .inr (List.mem_cons_of_mem _ h)

theorem loc_free (c : Nat) (cwd : List Bytes) (p : Bytes) (hp : c ∉ p) (hc : ∀ e ∈ cwd, c ∉ e) : ∀ e ∈ loc cwd p, c ∉ e := by
  intro e he
  unfold loc at he
  rcases fold_mem _ _ e he with h | h
  · split at h
    · cases h
    · exact hc e h
  · exact fun hx => hp ((elems_infix p e h).subset hx)

theorem join_free (c : Nat) (hc : c ≠ 47) (l : List Bytes) (h : ∀ e ∈ l, c ∉ e) : c ∉ join [47] l := by
  induction l with
  | nil => simp [join]
  | cons a l ih =>
    cases l with
    | nil => simpa [join] using h a List.mem_cons_self
    | cons b l =>
      have h1 := ih (fun e he => h e (List.mem_cons_of_mem _ he))
      have h2 := h a List.mem_cons_self
      rw [show join [47] (a :: b :: l) = a ++ [47] ++ join [47] (b :: l) by simp [join]]
      simp only [List.mem_append, List.mem_singleton]
      rintro ((h' | h') | h')
      · exact h2 h'
      · exact hc h'
      · exact h1 h'

/-- **C123 (partial).** Without backslashes the result is absolute and leads to the directory part of the program's path. -/
theorem C123_dir_partial (wd f name : Bytes) (args : List Bytes) (hwd : wd.head? = some 47) (hn : 47 ∉ name)
    (hf : f = [] ∨ f.getLast? = some 47) (h1 : 92 ∉ wd) (h2 : 92 ∉ f) :
    ∃ d, getCurrentDir wd ((f ++ name) :: args) = .ok d ∧ d.head? = some 47 ∧ ∀ cwd, loc cwd d = loc (loc [] wd) f := by
  refine ⟨absPath wd f, ?_, ?_, ?_⟩
  · rw [C123_text wd f name args hwd hn hf, absPath_eq wd f hwd]
    have : 92 ∉ (47 :: join [47] (loc (loc [] wd) f)) := by
      rw [List.mem_cons, not_or]
      exact ⟨by decide, join_free 92 (by decide) _ (loc_free 92 _ f h2 (loc_free 92 _ wd h1 (by simp)))⟩
    congr 1
    conv_rhs => rw [← List.map_id (47 :: join [47] (loc (loc [] wd) f))]
    apply List.map_congr_left
    intro c hc
    have : c ≠ 92 := by rintro rfl; exact this hc
    simp [this]
  · rw [absPath_eq wd f hwd]; rfl
  · intro cwd
    unfold absPath
    by_cases h : isAbs f = true
    · rw [if_pos h, loc_clean]
      unfold loc
      rw [if_pos ((isAbs_iff f).1 h), if_pos ((isAbs_iff f).1 h)]
    · have h' : ¬ f.head? = some 47 := fun hh => h ((isAbs_iff f).2 hh)
      have hne : wd ≠ [] := by rintro rfl; cases hwd
      rw [if_neg h]
      unfold joinPath
      rw [if_pos hne, loc_clean, show slash = 47 from rfl, loc_slash cwd wd f hne]
      have e1 : loc cwd wd = loc [] wd := by unfold loc; rw [if_pos hwd, if_pos hwd]
      rw [e1]
      generalize loc [] wd = base
      unfold loc
      rw [if_neg h']

/-- **C123 (refuted).** A directory with a backslash in its name becomes two directories. -/
theorem C123_backslash_refuted : ∃ wd f name : Bytes, wd.head? = some 47 ∧ 47 ∉ name ∧ f.getLast? = some 47 ∧
    ∃ d, getCurrentDir wd [f ++ name] = .ok d ∧ loc [] d ≠ loc (loc [] wd) f := by
  refine ⟨lit "/", lit "/a\\b/", lit "p", by decide, by decide, by decide, lit "/a/b", by decide, by decide⟩

/-- **C123 (refuted).** A program that was found through `PATH` is called by its name only: the result is the working directory, wherever
the program lies. -/
theorem C123_path_refuted (wd name : Bytes) (hwd : wd.head? = some 47) (hn : 47 ∉ name) (h1 : 92 ∉ wd) :
    ∃ d, getCurrentDir wd [name] = .ok d ∧ loc [] d = loc [] wd := by
  obtain ⟨d, h, -, h'⟩ := C123_dir_partial wd [] name [] hwd hn (.inl rfl) h1 (by simp)
  exact ⟨d, h, h' []⟩

/-- **C123.** Without `os.Args` it panics. -/
theorem C123_noargs_refuted (wd : Bytes) : getCurrentDir wd [] = .error .index := rfl

example : getCurrentDir (lit "/srv/www") [lit "../bin/./tool", lit "-v"] = .ok (lit "/srv/bin") ∧
    loc (loc [] (lit "/srv/www")) (lit "../bin/./") = [lit "srv", lit "bin"] := by decide

/-! ## C124: ShellExec -/

/-- `Runs ex s ls os s'`: from `s` the shell executes the lines `ls`; the commands executed did `os`, and `s'` is the state after them.
Blank lines do nothing; after `exit` or a command that ends the shell nothing is executed. -/
inductive Runs {σ : Type} (ex : Exec σ) : σ → List Bytes → List Outcome → σ → Prop
  | done (s) : Runs ex s [] [] s
  | blank (s ls os s') : Runs ex s ls os s' → Runs ex s ([] :: ls) os s'
  | exit (s ls) : Runs ex s (lit "exit" :: ls) [] s
  | quit (s l ls o s') : l ≠ [] → l ≠ lit "exit" → ex s l = (s', o) → o.quits = true → Runs ex s (l :: ls) [o] s'
  | next (s l ls o s1 os s') : l ≠ [] → l ≠ lit "exit" → ex s l = (s1, o) → o.quits = false → Runs ex s1 ls os s' →
      Runs ex s (l :: ls) (o :: os) s'

/-- The status of the last command executed; that of no command is 0. -/
def lastStatus (os : List Outcome) : Nat := (os.getLast?.map (·.status)).getD 0

theorem lines_split (ls : List Bytes) (hls : ∀ l ∈ ls, 10 ∉ l) (tail : Bytes) :
    split ((ls.flatMap (· ++ [10])) ++ tail) [10] = ls ++ split tail [10] := by
  induction ls with
  | nil => rfl
  | cons l ls ih =>
    rw [List.flatMap_cons, List.append_assoc, List.append_assoc, List.singleton_append,
      split_char 10 l _ (hls l List.mem_cons_self), ih (fun x hx => hls x (List.mem_cons_of_mem _ hx)), List.cons_append]

theorem intercalate_end (ls : List Bytes) (h : ls ≠ []) : [10].intercalate ls ++ [10] = ls.flatMap (· ++ [10]) := by
  induction ls with
  | nil => exact absurd rfl h
  | cons a ls ih =>
    cases ls with
    | nil => simp [List.intercalate]
    | cons b ls =>
      have := ih (by simp)
      rw [List.flatMap_cons, ← this]
      simp [List.intercalate, List.intersperse]

theorem sh_runs {σ : Type} (ex : Exec σ) (s : σ) (ls : List Bytes) (os : List Outcome) (s' : σ) (h : Runs ex s ls os s') (tail : List Bytes) :
    ∀ last, sh ex s last (ls ++ lit "exit" :: tail) =
      (s', ⟨(os.getLast?.map (·.status)).getD last, os.flatMap (·.out), os.flatMap (·.err), true⟩) := by
  induction h with
  | done s =>
    intro last
    rw [List.nil_append, sh, if_neg (by decide), if_pos rfl]
    rfl
  | blank s ls os s' _ ih =>
    intro last
    rw [List.cons_append, sh, if_pos rfl, ih]
  | exit s ls =>
    intro last
    rw [List.cons_append, sh, if_neg (by decide), if_pos rfl]
    rfl
  | quit s l ls o s' h1 h2 h3 h4 =>
    intro last
    rw [List.cons_append, sh, if_neg h1, if_neg h2, h3]
    dsimp only
    rw [if_pos h4]
    obtain ⟨a, b, c, d⟩ := o
    simp only at h4
    subst h4
    simp
  | next s l ls o s1 os s' h1 h2 h3 h4 _ ih =>
    intro last
    rw [List.cons_append, sh, if_neg h1, if_neg h2, h3]
    dsimp only
    rw [if_neg (by simp [h4]), ih o.status]
    cases os with
    | nil => simp
    | cons o' os => simp [List.getLast?_cons]

/-- Every script runs in exactly one way. -/
theorem runs_exists {σ : Type} (ex : Exec σ) (ls : List Bytes) : ∀ s, ∃ os s', Runs ex s ls os s' := by
  induction ls with
  | nil => intro s; exact ⟨[], s, .done s⟩
  | cons l ls ih =>
    intro s
    by_cases h1 : l = []
    · subst h1
      obtain ⟨os, s', h⟩ := ih s
      exact ⟨os, s', .blank s ls os s' h⟩
    · by_cases h2 : l = lit "exit"
      · subst h2; exact ⟨[], s, .exit s ls⟩
      · cases h3 : ex s l with
        | mk s1 o =>
          cases h4 : o.quits with
          | true => exact ⟨[o], s1, .quit s l ls o s1 h1 h2 h3 h4⟩
          | false =>
            obtain ⟨os, s', h⟩ := ih s1
            exact ⟨o :: os, s', .next s l ls o s1 os s' h1 h2 h3 h4 h⟩

/-- **C124 (run).** The lines of the text are executed one after the other. If the last command that was executed succeeded, the result
is all that the commands wrote to stdout, in order; otherwise it is an error whose text is all that they wrote to stderr. -/
theorem C124_run {σ : Type} (ex : Exec σ) (s s' : σ) (ls : List Bytes) (os : List Outcome) (hne : ls ≠ []) (hls : ∀ l ∈ ls, 10 ∉ l)
    (h : Runs ex s ls os s') :
    shellExec (some ex) s ([10].intercalate ls) =
      (s', if lastStatus os = 0 then .ok (os.flatMap (·.out)) else .error (os.flatMap (·.err))) := by
  unfold shellExec
  dsimp only
  rw [intercalate_end ls hne, lines_split ls hls (lit "exit\n"), show split (lit "exit\n") [10] = lit "exit" :: [[]] by decide,
    sh_runs ex s ls os s' h [[]] 0]
  dsimp only
  unfold lastStatus
  by_cases h0 : (os.getLast?.map (·.status)).getD 0 = 0
  · rw [if_pos h0, if_neg (by rw [h0]; simp)]
  · rw [if_neg h0, if_pos h0]

/-- Any text is such a list of lines, and each script runs somehow: `C124_run` covers every call. -/
theorem C124_total {σ : Type} (ex : Exec σ) (s : σ) (cmd : Bytes) :
    ∃ ls os s', ls ≠ [] ∧ (∀ l ∈ ls, 10 ∉ l) ∧ cmd = [10].intercalate ls ∧ Runs ex s ls os s' := by
  have : ∀ n (c : Bytes), c.length ≤ n → ∃ ls : List Bytes, ls ≠ [] ∧ (∀ l ∈ ls, 10 ∉ l) ∧ c = [10].intercalate ls := by
    intro n
    induction n with
    | zero =>
      intro c hc
      rw [List.length_eq_zero_iff.1 (Nat.le_zero.1 hc)]
      exact ⟨[[]], by simp, by simp, by simp [List.intercalate]⟩
    | succ n ih =>
      intro c hc
      by_cases h : 10 ∈ c
      · obtain ⟨l, d, hl, rfl⟩ := mem_split 10 c h
        obtain ⟨ls, h1, h2, rfl⟩ := ih d (by rw [List.length_append, List.length_cons] at hc; omega)
        refine ⟨l :: ls, by simp, ?_, ?_⟩
        · intro x hx
          rcases List.mem_cons.1 hx with rfl | hx
          · exact hl
          · exact h2 x hx
        · cases ls with
          | nil => exact absurd rfl h1
          | cons b ls => simp [List.intercalate, List.intersperse]
      · exact ⟨[c], by simp, by simpa using h, by simp [List.intercalate]⟩
  obtain ⟨ls, h1, h2, h3⟩ := this cmd.length cmd (Nat.le_refl _)
  obtain ⟨os, s', h4⟩ := runs_exists ex ls s
  exact ⟨ls, os, s', h1, h2, h3, h4⟩

/-- A shell with the commands `false`, `true` and `echo` (the text after it is written), for the examples. -/
def tiny : Exec Unit := fun _ l =>
  if l = lit "false" then ((), ⟨1, [], [], false⟩)
  else if l = lit "true" then ((), ⟨0, [], [], false⟩)
  else if l.take 5 = lit "echo " then ((), ⟨0, l.drop 5 ++ [10], [], false⟩)
  else ((), ⟨127, [], lit "not found\n", false⟩)

/-- **C124 (refuted: failing commands are reported).** A failing command that is not the last one is not noticed, and what it wrote to
stderr is lost. -/
theorem C124_unnoticed_refuted : ∃ (ls : List Bytes) (os : List Outcome), Runs tiny () ls os () ∧
    (∃ o ∈ os, o.status ≠ 0 ∧ o.err ≠ []) ∧ shellExec (some tiny) () ([10].intercalate ls) = ((), .ok []) := by
  refine ⟨[lit "flase", lit "true"], [⟨127, [], lit "not found\n", false⟩, ⟨0, [], [], false⟩], ?_, ?_, by decide⟩
  · exact .next _ _ _ _ () _ _ (by decide) (by decide) (by decide) rfl
      (.next _ _ _ _ () _ _ (by decide) (by decide) (by decide) rfl (.done _))
  · exact ⟨_, List.mem_cons_self, by decide, by decide⟩

/-- **C124 (refuted: errors say what went wrong).** A command that fails without a word, and a missing shell, give an error with an empty
text; what was written to stdout before is lost. -/
theorem C124_silent_refuted : shellExec (some tiny) () (lit "echo a\nfalse") = ((), .error []) ∧
    ∀ (σ : Type) (s : σ) (cmd : Bytes), shellExec (none : Option (Exec σ)) s cmd = (s, .error []) := by
  refine ⟨by decide, fun σ s cmd => rfl⟩

example : shellExec (some tiny) () (lit "echo a\n\necho b") = ((), .ok (lit "a\nb\n")) ∧
    shellExec (some tiny) () (lit "echo a\nexit\nfalse") = ((), .ok (lit "a\n")) ∧
    shellExec (some tiny) () (lit "echo a\nnope") = ((), .error (lit "not found\n")) := by decide

/-! ## C125: Reload -/

/-- **C125 (partial).** If the parent is a process that may be signalled, it gets SIGHUP, nobody else does, and there is no error. -/
theorem C125_parent_partial (ps : List Proc) (may : Int → Bool) (self : Proc) (hp : 0 < self.ppid) (hr : self.ppid < 2 ^ 31)
    (hin : ∃ p ∈ ps, p.pid = self.ppid) (hm : may self.ppid = true) : reload false ps may self = ([self.ppid], true) := by
  unfold reload killHup
  rw [if_neg (by simp), Json.parseInt_formatInt _ ⟨by omega, by omega⟩]
  obtain ⟨p, h1, h2⟩ := hin
  have hmem : self.ppid ∈ ps.map (·.pid) := List.mem_map.2 ⟨p, h1, h2⟩
  split
  · rename_i h; simp only [Prod.mk.injEq] at h; omega
  · rename_i h1 h2 h3
    simp only [Prod.mk.injEq, and_true] at h3
    subst h3
    rw [if_pos ⟨hp, hmem, hm⟩]
  · rename_i h1 h2
    exact absurd rfl (h2 _)

/-- **C125.** If the parent is gone or may not be signalled, nobody is, and the error tells; on Windows as well. -/
theorem C125_error (ps : List Proc) (may : Int → Bool) (self : Proc) (hp : 0 < self.ppid) (hr : self.ppid < 2 ^ 31)
    (hno : (∀ p ∈ ps, p.pid ≠ self.ppid) ∨ may self.ppid = false) :
    reload false ps may self = ([], false) ∧ reload true ps may self = ([], false) := by
  refine ⟨?_, rfl⟩
  unfold reload killHup
  rw [if_neg (by simp), Json.parseInt_formatInt _ ⟨by omega, by omega⟩]
  split
  · rename_i h; simp only [Prod.mk.injEq] at h; omega
  · rename_i h1 h2 h3
    simp only [Prod.mk.injEq, and_true] at h3
    subst h3
    rw [if_neg]
    rintro ⟨-, hm, hm'⟩
    rcases hno with h | h
    · obtain ⟨p, a, b⟩ := List.mem_map.1 hm
      exact h p a b
    · rw [h] at hm'; cases hm'
  · rename_i h1 h2
    exact absurd rfl (h2 _)

/-- **C125 (refuted).** A process whose parent lies outside its container has the parent 0: it signals its own process group, so also
itself, and reports success. -/
theorem C125_container_refuted (ps : List Proc) (self : Proc) (h0 : self.ppid = 0) (hin : self ∈ ps) :
    (reload false ps (fun _ => true) self).2 = true ∧ self.pid ∈ (reload false ps (fun _ => true) self).1 ∧
    ∀ p ∈ ps, p.group = self.group → p.pid ∈ (reload false ps (fun _ => true) self).1 := by
  have hall : ∀ p ∈ ps, p.group = self.group → p.pid ∈ (reload false ps (fun _ => true) self).1 := by
    intro p hp hg
    unfold reload killHup
    rw [if_neg (by simp), h0, show Strconv.parseInt (Strconv.formatInt 0) = (0, none) by decide]
    dsimp only
    exact List.mem_map.2 ⟨p, List.mem_filter.2 ⟨hp, by simpa using hg⟩, rfl⟩
  refine ⟨?_, hall self hin rfl, hall⟩
  have h1 := hall self hin rfl
  unfold reload killHup at h1 ⊢
  rw [if_neg (by simp), h0, show Strconv.parseInt (Strconv.formatInt 0) = (0, none) by decide] at h1 ⊢
  exact decide_eq_true (List.ne_nil_of_mem h1)

example : reload false [⟨1, 0, 1⟩, ⟨7, 1, 7⟩, ⟨9, 7, 7⟩] (fun p => p ≠ 1) ⟨9, 7, 7⟩ = ([7], true) ∧
    reload false [⟨1, 0, 1⟩, ⟨7, 1, 7⟩, ⟨9, 7, 7⟩] (fun p => p ≠ 1) ⟨7, 1, 7⟩ = ([], false) ∧
    reload false [⟨1, 0, 1⟩, ⟨7, 1, 1⟩] (fun _ => true) ⟨1, 0, 1⟩ = ([1, 7], true) := by decide

end Verif.Sys
