import Verif.Model.ShellInput
import Verif.Props.Sys

/-!
# C192: commands given to `ShellExec` that read stdin or span several lines
-/

namespace Verif.Sys

open Utf8

/-- `RunsIn ex s input os s' u`: from `s` the shell reads `input`; the commands executed did `os`, `s'` is the state after them, and `u` was read by nobody. -/
inductive RunsIn {σ : Type} (ex : ExecIn σ) : σ → Bytes → List Outcome → σ → Bytes → Prop
  | done (s) : RunsIn ex s [] [] s []
  | blank (s r os s' u) : RunsIn ex s r os s' u → RunsIn ex s (10 :: r) os s' u
  | exit (s r) : RunsIn ex s (lit "exit" ++ 10 :: r) [] s r
  | quit (s l r o k s') : l ≠ [] → 10 ∉ l → l ≠ lit "exit" → ex s l r = (s', o, k) → o.quits = true →
      RunsIn ex s (l ++ 10 :: r) [o] s' (r.drop k)
  | next (s l r o k s1 os s' u) : l ≠ [] → 10 ∉ l → l ≠ lit "exit" → ex s l r = (s1, o, k) → o.quits = false →
      RunsIn ex s1 (r.drop k) os s' u → RunsIn ex s (l ++ 10 :: r) (o :: os) s' u

theorem readLine_append (l r : Bytes) (h : 10 ∉ l) : readLine (l ++ 10 :: r) = (l, r) := by
  unfold readLine
  have hl : ∀ x ∈ l, decide (x ≠ 10) = true := by
    intro x hx
    rw [decide_eq_true_eq]
    rintro rfl
    exact h hx
  rw [List.takeWhile_append_of_pos hl, List.dropWhile_append_of_pos hl]
  simp

theorem shIn_runs {σ : Type} {ex : ExecIn σ} {s s' : σ} {input : Bytes} {os : List Outcome} {u : Bytes} (h : RunsIn ex s input os s' u) :
    ∀ fuel last, input.length < fuel → ∃ q, shIn ex fuel s last input =
      .ok (s', ⟨(os.getLast?.map (·.status)).getD last, os.flatMap (·.out), os.flatMap (·.err), q⟩) := by
  induction h with
  | done s =>
    intro fuel last hf
    obtain ⟨f, rfl⟩ : ∃ f, fuel = f + 1 := ⟨fuel - 1, by omega⟩
    exact ⟨true, by simp [shIn]⟩
  | blank s r os s' u _ ih =>
    intro fuel last hf
    obtain ⟨f, rfl⟩ : ∃ f, fuel = f + 1 := ⟨fuel - 1, by omega⟩
    obtain ⟨q, hq⟩ := ih f last (by simp at hf; omega)
    refine ⟨q, ?_⟩
    have := readLine_append [] r (by simp)
    rw [List.nil_append] at this
    unfold shIn
    rw [if_neg (by simp), this]
    dsimp only
    rw [if_pos rfl, hq]
  | exit s r =>
    intro fuel last hf
    obtain ⟨f, rfl⟩ : ∃ f, fuel = f + 1 := ⟨fuel - 1, by omega⟩
    refine ⟨true, ?_⟩
    unfold shIn
    rw [if_neg (by simp), readLine_append _ r (by decide)]
    dsimp only
    rw [if_neg (by decide), if_pos rfl]
    simp
  | quit s l r o k s' h1 h2 h3 h4 h5 =>
    intro fuel last hf
    obtain ⟨f, rfl⟩ : ∃ f, fuel = f + 1 := ⟨fuel - 1, by omega⟩
    refine ⟨o.quits, ?_⟩
    unfold shIn
    rw [if_neg (by simp), readLine_append _ r h2]
    dsimp only
    rw [if_neg h1, if_neg h3, h4]
    dsimp only
    rw [if_pos h5]
    simp
  | next s l r o k s1 os s' u h1 h2 h3 h4 h5 _ ih =>
    intro fuel last hf
    obtain ⟨f, rfl⟩ : ∃ f, fuel = f + 1 := ⟨fuel - 1, by omega⟩
    obtain ⟨q, hq⟩ := ih f o.status (by simp at hf ⊢; omega)
    refine ⟨true, ?_⟩
    unfold shIn
    rw [if_neg (by simp), readLine_append _ r h2]
    dsimp only
    rw [if_neg h1, if_neg h3, h4]
    dsimp only
    rw [if_neg (by rw [h5]; simp), hq]
    show Except.ok _ = _
    congr 3
    cases os with
    | nil => rfl
    | cons a os => simp [List.getLast?_cons_cons, List.getLast?_cons]

/-- **C192 (run).** Every command is executed where the one before has stopped reading. If the last command that was executed succeeded, the result is all that the commands wrote to stdout, in order; otherwise an error with all
that they wrote to stderr. -/
theorem C192_run {σ : Type} (ex : ExecIn σ) (s s' : σ) (cmd : Bytes) (os : List Outcome) (u : Bytes)
    (h : RunsIn ex s (cmd ++ lit "\nexit\n") os s' u) :
    shellExecIn ex s cmd = .ok (s', if lastStatus os = 0 then .ok (os.flatMap (·.out)) else .error (os.flatMap (·.err))) := by
  have e : cmd ++ [10] ++ lit "exit\n" = cmd ++ lit "\nexit\n" := by rw [List.append_assoc]; rfl
  unfold shellExecIn
  dsimp only
  rw [e]
  obtain ⟨q, hq⟩ := shIn_runs h ((cmd ++ lit "\nexit\n").length + 1) 0 (by omega)
  rw [hq]
  show Except.ok _ = _
  dsimp only
  unfold lastStatus
  by_cases h0 : (os.getLast?.map (·.status)).getD 0 = 0
  · rw [if_pos h0, if_neg (by rw [h0]; simp)]
  · rw [if_neg h0, if_pos h0]

/-- The input ends with a newline. -/
def Ended (input : Bytes) : Prop := input = [] ∨ ∃ t, input = t ++ [10]

theorem ended_tail {a b : Bytes} (h : Ended (a ++ b)) : Ended b := by
  rcases h with h | ⟨t, h⟩
  · exact Or.inl (List.append_eq_nil_iff.1 h).2
  · rcases List.eq_nil_or_concat b with rfl | ⟨b', x, rfl⟩
    · exact Or.inl rfl
    · rw [List.concat_eq_append, ← List.append_assoc] at h
      have := List.append_inj_right' h rfl
      exact Or.inr ⟨b', by rw [List.concat_eq_append, this]⟩

theorem runsIn_total {σ : Type} (ex : ExecIn σ) : ∀ n (input : Bytes), input.length ≤ n → Ended input → ∀ s, ∃ os s' u,
    RunsIn ex s input os s' u ∧ u <:+ input := by
  intro n
  induction n with
  | zero =>
    intro input hn _ s
    rw [List.length_eq_zero_iff.1 (Nat.le_zero.1 hn)]
    exact ⟨[], s, [], .done s, List.suffix_refl _⟩
  | succ n ih =>
    intro input hn he s
    rcases he with rfl | ⟨t, ht⟩
    · exact ⟨[], s, [], .done s, List.suffix_refl _⟩
    obtain ⟨l, r, hl, hi⟩ : ∃ l r, 10 ∉ l ∧ input = l ++ 10 :: r := by
      obtain ⟨l, r, hl, hi⟩ := Strings.mem_split 10 input (by rw [ht]; simp)
      exact ⟨l, r, hl, hi⟩
    have her : Ended r := by
      have : Ended ((l ++ [10]) ++ r) := Or.inr ⟨t, by rw [← ht, hi]; simp⟩
      exact ended_tail this
    have hlen : r.length ≤ n := by rw [hi] at hn; simp at hn; omega
    have hsuf : r <:+ input := ⟨l ++ [10], by rw [hi]; simp⟩
    by_cases h1 : l = []
    · obtain ⟨os, s', u, h, hu⟩ := ih r hlen her s
      refine ⟨os, s', u, ?_, hu.trans hsuf⟩
      rw [hi, h1]
      exact .blank s r os s' u h
    by_cases h2 : l = lit "exit"
    · exact ⟨[], s, r, by rw [hi, h2]; exact .exit s r, hsuf⟩
    obtain ⟨s1, o, k, h3⟩ : ∃ s1 o k, ex s l r = (s1, o, k) := ⟨_, _, _, rfl⟩
    have hdrop : r.drop k <:+ r := List.drop_suffix k r
    cases h4 : o.quits with
    | true => exact ⟨[o], s1, r.drop k, by rw [hi]; exact .quit s l r o k s1 h1 hl h2 h3 h4, hdrop.trans hsuf⟩
    | false =>
      have hed : Ended (r.drop k) := ended_tail (a := r.take k) (by rwa [List.take_append_drop])
      obtain ⟨os, s', u, h, hu⟩ := ih (r.drop k) (le_trans hdrop.length_le hlen) hed s1
      exact ⟨o :: os, s', u, by rw [hi]; exact .next s l r o k s1 os s' u h1 hl h2 h3 h4 h, (hu.trans hdrop).trans hsuf⟩

/-- **C192 (total).** Every text runs somehow, whatever its commands read, so `C192_run` covers every call; in particular the shell ends if its commands do. -/
theorem C192_total {σ : Type} (ex : ExecIn σ) (s : σ) (cmd : Bytes) : ∃ os s' u,
    RunsIn ex s (cmd ++ lit "\nexit\n") os s' u ∧ u <:+ cmd ++ lit "\nexit\n" :=
  runsIn_total ex _ _ (Nat.le_refl _) (Or.inr ⟨cmd ++ lit "\nexit", by rw [List.append_assoc]; rfl⟩) s

theorem runs_runsIn {σ : Type} (ex : Exec σ) (exIn : ExecIn σ) (hex : ∀ s l r, exIn s l r = ((ex s l).1, (ex s l).2, 0)) {s s' : σ} {ls : List Bytes}
    {os : List Outcome} (h : Runs ex s ls os s') : (∀ l ∈ ls, 10 ∉ l) →
    ∃ u, RunsIn exIn s (ls.flatMap (· ++ [10]) ++ lit "exit\n") os s' u := by
  induction h with
  | done s => exact fun _ => ⟨[], .exit s []⟩
  | blank s ls os s' _ ih =>
    intro hl
    obtain ⟨u, hu⟩ := ih (fun l h => hl l (List.mem_cons_of_mem _ h))
    exact ⟨u, .blank s _ os s' u hu⟩
  | exit s ls =>
    intro _
    refine ⟨ls.flatMap (· ++ [10]) ++ lit "exit\n", ?_⟩
    have := RunsIn.exit (ex := exIn) s (ls.flatMap (· ++ [10]) ++ lit "exit\n")
    simpa using this
  | quit s l ls o s' h1 h2 h3 h4 =>
    intro hl
    have := RunsIn.quit (ex := exIn) s l (ls.flatMap (· ++ [10]) ++ lit "exit\n") o 0 s' h1 (hl l List.mem_cons_self) h2 (by rw [hex, h3]) h4
    exact ⟨_, by simpa using this⟩
  | next s l ls o s1 os s' h1 h2 h3 h4 _ ih =>
    intro hl
    obtain ⟨u, hu⟩ := ih (fun l h => hl l (List.mem_cons_of_mem _ h))
    have := RunsIn.next (ex := exIn) s l (ls.flatMap (· ++ [10]) ++ lit "exit\n") o 0 s1 os s' u h1 (hl l List.mem_cons_self) h2 (by rw [hex, h3]) h4 (by simpa using hu)
    exact ⟨u, by simpa using this⟩

theorem intercalate_flat (ls : List Bytes) (h : ls ≠ []) : [10].intercalate ls ++ [10] = ls.flatMap (· ++ [10]) := by
  induction ls with
  | nil => exact absurd rfl h
  | cons l ls ih =>
    cases ls with
    | nil => simp [List.intercalate]
    | cons m ls =>
      have e := ih (by simp)
      simp only [List.intercalate, List.intersperse, List.flatten_cons, List.flatMap_cons, List.append_assoc] at e ⊢
      rw [e]

/-- **C192 (nobody reads).** If no command reads stdin or goes on in another line, the result is that of C124. -/
theorem C192_same {σ : Type} (ex : Exec σ) (exIn : ExecIn σ) (hex : ∀ s l r, exIn s l r = ((ex s l).1, (ex s l).2, 0)) (s : σ) (cmd : Bytes) :
    shellExecIn exIn s cmd = .ok (shellExec (some ex) s cmd) := by
  obtain ⟨ls, os, s', hne, hls, rfl, h⟩ := C124_total ex s cmd
  obtain ⟨u, hu⟩ := runs_runsIn ex exIn hex h hls
  rw [C124_run ex s s' ls os hne hls h]
  refine C192_run exIn s s' _ os u ?_
  have e : [10].intercalate ls ++ lit "\nexit\n" = ls.flatMap (· ++ [10]) ++ lit "exit\n" := by
    rw [← intercalate_flat ls hne, List.append_assoc]
    rfl
  rw [e]
  exact hu

/-- **C192 (refuted: the lines of the text are what is executed).** A command that copies stdin to stdout (`cat`) gets all that is behind it, which is not executed; its output ends with the `exit` that `ShellExec` has added. For
every text behind it and every shell with such a command. -/
theorem C192_cat_refuted {σ : Type} (ex : ExecIn σ) (l : Bytes) (h1 : l ≠ []) (h2 : 10 ∉ l) (h3 : l ≠ lit "exit")
    (hcat : ∀ s r, ex s l r = (s, ⟨0, r, [], false⟩, r.length)) (s : σ) (r : Bytes) :
    shellExecIn ex s (l ++ [10] ++ r) = .ok (s, .ok (r ++ lit "\nexit\n")) ∧ shellExecIn ex s l = .ok (s, .ok (lit "exit\n")) := by
  constructor
  · have h := RunsIn.next (ex := ex) s l (r ++ lit "\nexit\n") _ _ s [] s [] h1 h2 h3 (hcat s _) rfl (by rw [List.drop_length]; exact .done s)
    have := C192_run ex s s (l ++ [10] ++ r) _ [] (by simpa using h)
    simpa [lastStatus] using this
  · have h := RunsIn.next (ex := ex) s l (lit "exit\n") _ _ s [] s [] h1 h2 h3 (hcat s _) rfl (by rw [List.drop_length]; exact .done s)
    have := C192_run ex s s l _ [] h
    simpa [lastStatus] using this

/-- A shell with `cat`, `read` (takes one line) and `echo`. -/
def tinyIn : ExecIn Unit := fun _ l r =>
  if l = lit "cat" then ((), ⟨0, r, [], false⟩, r.length)
  else if l = lit "read x" then ((), ⟨if 10 ∈ r then 0 else 1, [], [], false⟩, (r.takeWhile (· ≠ 10)).length + 1)
  else if l.take 5 = lit "echo " then ((), ⟨0, l.drop 5 ++ [10], [], false⟩, 0)
  else ((), ⟨127, [], lit "not found\n", false⟩, 0)

/-- Non-vacuity: `read` swallows the next line, the last one swallows `exit`; `cat` prints the script. -/
example : shellExecIn tinyIn () (lit "read x\nfalse\necho a") = .ok ((), .ok (lit "a\n")) ∧
    shellExecIn tinyIn () (lit "echo a\nread x") = .ok ((), .ok (lit "a\n")) ∧
    shellExecIn tinyIn () (lit "cat\necho b") = .ok ((), .ok (lit "echo b\nexit\n")) ∧
    shellExecIn tinyIn () (lit "echo a\nnope") = .ok ((), .error (lit "not found\n")) := by decide

end Verif.Sys
