import Verif.Model.CsvConc
import Verif.Props.UploadConc
import Verif.Props.Csv

/-!
# C176: `WriteCsv` by several goroutines
-/

namespace Verif.Fs

open Utf8
open Mutex (put put_self put_ne)

/-- The line that `WriteCsv` writes, `m` times. -/
def lines (m : Nat) : Bytes := (List.replicate m (lit "1,2,3,4,\"5,6\"\r\n")).flatten

/-- The states reachable from `s0`. -/
inductive CsvFrom (l : Loc) (s0 : CsvConc) : CsvConc → Prop
  | refl : CsvFrom l s0 s0
  | step {s s' : CsvConc} (i : Nat) : CsvFrom l s0 s → csvExec l s i = some s' → CsvFrom l s0 s'

/-! ## Proof -/

theorem csvLine_eq : csvLine = lit "1,2,3,4,\"5,6\"\r\n" := by decide +kernel

theorem csvLine_len : csvLine.length = 15 := by decide +kernel

theorem lines_zero : lines 0 = [] := rfl

theorem lines_succ (m : Nat) : lines (m + 1) = lines m ++ csvLine := by
  unfold lines
  rw [List.replicate_succ', List.flatten_append, csvLine_eq]
  simp

theorem lines_add (j k : Nat) : lines (j + k) = lines j ++ lines k := by
  unfold lines
  rw [List.replicate_add, List.flatten_append]

theorem lines_len (m : Nat) : (lines m).length = 15 * m := by
  induction m with
  | zero => rfl
  | succ m ih => rw [lines_succ, List.length_append, ih, csvLine_len]; omega

theorem write_end (old : Bytes) (m : Nat) : writeAt (old ++ lines m) (old.length + 15 * m) csvLine = old ++ lines (m + 1) := by
  have hne : csvLine ≠ [] := by
    intro h
    have := csvLine_len
    rw [h] at this
    cases this
  have hlen : (old ++ lines m).length = old.length + 15 * m := by rw [List.length_append, lines_len]
  unfold writeAt
  rw [if_neg hne, ← hlen, List.take_length, Nat.sub_self, List.drop_eq_nil_of_le (by omega), lines_succ]
  simp

theorem write_again (old : Bytes) {j m : Nat} (h : j < m) : writeAt (old ++ lines m) (old.length + 15 * j) csvLine = old ++ lines m := by
  have hne : csvLine ≠ [] := by
    intro h
    have := csvLine_len
    rw [h] at this
    cases this
  obtain ⟨k, rfl⟩ : ∃ k, m = j + (1 + k) := ⟨m - j - 1, by omega⟩
  have hlen : (old ++ lines j).length = old.length + 15 * j := by rw [List.length_append, lines_len]
  have h1 : lines 1 = csvLine := by rw [lines_succ, lines_zero, List.nil_append]
  unfold writeAt
  rw [if_neg hne, csvLine_len, lines_add j, lines_add 1 k, h1, ← List.append_assoc, ← hlen, List.take_left']
  · rw [← List.append_assoc (old ++ lines j) csvLine, List.drop_left' (by rw [List.length_append, csvLine_len])]
    have : (old ++ lines j).length - (old ++ lines j ++ csvLine ++ lines k).length = 0 := by
      simp only [List.length_append]
      omega
    rw [this]
    simp
  · rfl

/-- What is known at any time. -/
structure CsvInv (l : Loc) (old : Bytes) (s : CsvConc) (m : Nat) : Prop where
  text : content s.fs l = old ++ lines m
  le : m ≤ s.calls
  pos : 0 < s.calls → 0 < m
  ready : ∀ i o, s.pc i = .ready o → ∃ j, j ≤ m ∧ o = old.length + 15 * j

theorem openKeep_content {fs fs' : FS} {l : Loc} (h : openKeep fs l = some fs') : content fs' l = content fs l := by
  unfold openKeep at h
  cases hf : fs l with
  | none =>
    rw [hf] at h
    dsimp only at h
    split at h
    · cases h
      rw [content_file (set_self _ _ _)]
      unfold content
      rw [hf]
    · cases h
  | some n =>
    rw [hf] at h
    cases n with
    | dir => cases h
    | file c => cases h; rfl

theorem csv_step {l : Loc} {old : Bytes} {s s' : CsvConc} {m i : Nat} (h : CsvInv l old s m) (e : csvExec l s i = some s') :
    ∃ m', m ≤ m' ∧ CsvInv l old s' m' := by
  have key : ∀ (p : CsvPc) (k : Nat), (∀ o, p = .ready o → ∃ j, j ≤ k ∧ o = old.length + 15 * j) → m ≤ k →
      ∀ j o, put s.pc i p j = .ready o → ∃ j, j ≤ k ∧ o = old.length + 15 * j := by
    intro p k hp hk j o hj
    by_cases hji : j = i
    · subst hji
      rw [put_self] at hj
      exact hp o hj
    · rw [put_ne _ _ hji] at hj
      obtain ⟨j', h1, h2⟩ := h.ready j o hj
      exact ⟨j', by omega, h2⟩
  unfold csvExec at e
  split at e
  · split at e
    · cases e
      exact ⟨m, Nat.le_refl _, h.text, h.le, h.pos, key _ _ (fun _ h => by cases h) (Nat.le_refl _)⟩
    · rename_i fs' ho
      cases e
      exact ⟨m, Nat.le_refl _, (openKeep_content ho).trans h.text, h.le, h.pos, key _ _ (fun _ h => by cases h) (Nat.le_refl _)⟩
  · cases e
    refine ⟨m, Nat.le_refl _, h.text, h.le, h.pos, key _ _ (fun o ho => ?_) (Nat.le_refl _)⟩
    cases ho
    exact ⟨m, Nat.le_refl _, by rw [h.text, List.length_append, lines_len]⟩
  · rename_i o hp
    cases e
    obtain ⟨j, hj, rfl⟩ := h.ready i o hp
    have hle := h.le
    rcases Nat.lt_or_eq_of_le hj with hlt | rfl
    · refine ⟨m, Nat.le_refl _, ?_, by dsimp only; omega, fun _ => by omega, key _ _ (fun _ h => by cases h) (Nat.le_refl _)⟩
      rw [content_file (set_self _ _ _), h.text, write_again old hlt]
    · refine ⟨j + 1, by omega, ?_, by dsimp only; omega, fun _ => by omega, key _ _ (fun _ h => by cases h) (by omega)⟩
      rw [content_file (set_self _ _ _), h.text, write_end]
  · cases e

theorem csv_from {l : Loc} {old : Bytes} {s0 s : CsvConc} {m : Nat} (h0 : CsvInv l old s0 m) (h : CsvFrom l s0 s) : ∃ m', m ≤ m' ∧ CsvInv l old s m' := by
  induction h with
  | refl => exact ⟨m, Nat.le_refl _, h0⟩
  | step i _ he ih =>
    obtain ⟨m1, h1, h2⟩ := ih
    obtain ⟨m2, h3, h4⟩ := csv_step h2 he
    exact ⟨m2, by omega, h4⟩

/-- The calls that have reported success, counted. -/
theorem csv_success {l : Loc} {fs : FS} {s : CsvConc} (h : CsvFrom l ⟨fs, fun _ => .idle, 0⟩ s) :
    ∃ is : List Nat, is.Nodup ∧ (∀ i, i ∈ is ↔ s.pc i = .returned true) ∧ is.length = s.calls := by
  induction h with
  | refl => exact ⟨[], List.nodup_nil, fun i => ⟨(fun h => by cases h), (fun h => by cases h)⟩, rfl⟩
  | @step s s' i _ he ih =>
    obtain ⟨is, h1, h2, h3⟩ := ih
    have keep : ∀ p : CsvPc, p ≠ .returned true → s.pc i ≠ .returned true → ∀ j, j ∈ is ↔ put s.pc i p j = .returned true := by
      intro p hp hi j
      by_cases hj : j = i
      · subst hj
        rw [put_self, h2]
        exact ⟨fun h => absurd h hi, fun h => absurd h hp⟩
      · rw [put_ne _ _ hj, h2]
    unfold csvExec at he
    split at he
    · rename_i hp
      split at he
      · cases he
        exact ⟨is, h1, keep _ (by decide) (by rw [hp]; decide), h3⟩
      · cases he
        exact ⟨is, h1, keep _ (by decide) (by rw [hp]; decide), h3⟩
    · rename_i hp
      cases he
      exact ⟨is, h1, keep _ (fun h => by cases h) (by rw [hp]; decide), h3⟩
    · rename_i o hp
      cases he
      have hn : i ∉ is := fun h => by
        rw [h2, hp] at h
        cases h
      refine ⟨i :: is, List.nodup_cons.2 ⟨hn, h1⟩, fun j => ?_, by rw [List.length_cons, h3]⟩
      dsimp only
      by_cases hj : j = i
      · subst hj
        rw [put_self]
        exact ⟨fun _ => rfl, fun _ => List.mem_cons_self ..⟩
      · rw [put_ne _ _ hj, List.mem_cons, ← h2]
        exact ⟨fun h => h.resolve_left hj, Or.inr⟩
    · cases he

/-- **C176 (kept and whole).** However calls of `WriteCsv` for one file overlap: at any time the file is what it was at first with some whole lines behind,
at least one if a call (one of `is`) has reported success, and at most as many as have done so. -/
theorem C176_whole {l : Loc} {fs : FS} {s : CsvConc} (h : CsvFrom l ⟨fs, fun _ => .idle, 0⟩ s) :
    ∃ (m : Nat) (is : List Nat), content s.fs l = content fs l ++ lines m ∧ is.Nodup ∧ (∀ i, i ∈ is ↔ s.pc i = .returned true) ∧
      m ≤ is.length ∧ (is ≠ [] → 0 < m) := by
  have h0 : CsvInv l (content fs l) ⟨fs, fun _ => .idle, 0⟩ 0 :=
    ⟨by rw [lines_zero, List.append_nil], Nat.le_refl _, fun h => absurd h (Nat.lt_irrefl _), fun i o h => by cases h⟩
  obtain ⟨m, -, h1⟩ := csv_from h0 h
  obtain ⟨is, h2, h3, h4⟩ := csv_success h
  exact ⟨m, is, h1.text, h2, h3, h4 ▸ h1.le, fun hne => h1.pos (h4 ▸ List.length_pos_iff.2 hne)⟩

/-- **C176 (lines stay).** Lines that are in the file are never lost again: the text only grows. -/
theorem C176_grows {l : Loc} {fs : FS} {s s' : CsvConc} (h : CsvFrom l ⟨fs, fun _ => .idle, 0⟩ s) (h' : CsvFrom l s s') : content s.fs l <+: content s'.fs l := by
  have h0 : CsvInv l (content fs l) ⟨fs, fun _ => .idle, 0⟩ 0 :=
    ⟨by rw [lines_zero, List.append_nil], Nat.le_refl _, fun h => absurd h (Nat.lt_irrefl _), fun i o h => by cases h⟩
  obtain ⟨m, -, h1⟩ := csv_from h0 h
  obtain ⟨m', h2, h3⟩ := csv_from h1 h'
  obtain ⟨k, rfl⟩ : ∃ k, m' = m + k := ⟨m' - m, by omega⟩
  rw [h1.text, h3.text, lines_add, ← List.append_assoc]
  exact List.prefix_append _ _

/-! ## Every number of lines is possible -/

theorem set_set (fs : FS) (l : Loc) (a b : Option Node) : (fs.set l a).set l b = fs.set l b := by
  funext x
  unfold FS.set
  by_cases h : x = l
  · rw [if_pos h, if_pos h]
  · rw [if_neg h, if_neg h, if_neg h]

theorem CsvFrom.trans {l : Loc} {s0 s s' : CsvConc} (h : CsvFrom l s0 s) (h' : CsvFrom l s s') : CsvFrom l s0 s' := by
  induction h' with
  | refl => exact h
  | step i _ he ih => exact .step i ih he

theorem put_fun {f g : Nat → CsvPc} {i : Nat} {p : CsvPc} (h1 : g i = p) (h2 : ∀ j, j ≠ i → g j = f j) : put f i p = g := by
  funext j
  by_cases hj : j = i
  · subst hj
    rw [put_self, h1]
  · rw [put_ne _ _ hj, h2 j hj]

/-- The first `d` goroutines have opened the file and looked for its end. -/
theorem seeking {l : Loc} {fs : FS} {old : Bytes} (hf : fs l = some (.file old)) (d : Nat) :
    CsvFrom l ⟨fs, fun _ => .idle, 0⟩ ⟨fs, fun j => if j < d then .ready old.length else .idle, 0⟩ := by
  induction d with
  | zero => exact .refl
  | succ d ih =>
    have hk : openKeep fs l = some fs := by unfold openKeep; rw [hf]
    have e1 : csvExec l ⟨fs, fun j => if j < d then .ready old.length else .idle, 0⟩ d =
        some ⟨fs, fun j => if j < d then .ready old.length else if j = d then .opened else .idle, 0⟩ := by
      unfold csvExec
      dsimp only
      rw [if_neg (Nat.lt_irrefl _)]
      dsimp only
      rw [hk]
      dsimp only
      rw [put_fun (g := fun j => if j < d then .ready old.length else if j = d then .opened else .idle) (by simp) (fun j hj => by simp [hj])]
    have e2 : csvExec l ⟨fs, fun j => if j < d then .ready old.length else if j = d then .opened else .idle, 0⟩ d =
        some ⟨fs, fun j => if j < d + 1 then .ready old.length else .idle, 0⟩ := by
      unfold csvExec
      dsimp only
      rw [if_neg (Nat.lt_irrefl _), if_pos rfl]
      dsimp only
      rw [content_file hf, put_fun (g := fun j => if j < d + 1 then .ready old.length else .idle) (by simp) (fun j hj => ?_)]
      by_cases hjd : j < d
      · rw [if_pos (by omega), if_pos hjd]
      · rw [if_neg (by omega), if_neg hjd, if_neg hj]
    exact .step d (.step d ih e1) e2

/-- They write one after the other. -/
theorem writing {l : Loc} {fs : FS} {old : Bytes} (hf : fs l = some (.file old)) {d : Nat} (w : Nat) (hw : w < d) :
    CsvFrom l ⟨fs, fun _ => .idle, 0⟩
      ⟨fs.set l (some (.file (old ++ lines 1))), fun j => if j < w + 1 then .returned true else if j < d then .ready old.length else .idle, w + 1⟩ := by
  induction w with
  | zero =>
    refine .step 0 (seeking hf d) ?_
    unfold csvExec
    dsimp only
    rw [if_pos hw]
    dsimp only
    have hw0 : writeAt old old.length csvLine = old ++ lines 1 := by
      have := write_end old 0
      rw [lines_zero, List.append_nil] at this
      exact this
    rw [content_file hf, hw0,
      put_fun (g := fun j => if j < 0 + 1 then .returned true else if j < d then .ready old.length else .idle) (by simp)
        (fun j hj => by rw [if_neg (by omega)])]
  | succ w ih =>
    refine .step (w + 1) (ih (by omega)) ?_
    unfold csvExec
    dsimp only
    rw [if_neg (by omega), if_pos hw]
    dsimp only
    have hw0 : writeAt (old ++ lines 1) old.length csvLine = old ++ lines 1 := write_again old Nat.zero_lt_one
    rw [content_file (set_self _ _ _), hw0, set_set,
      put_fun (g := fun j => if j < w + 1 + 1 then .returned true else if j < d then .ready old.length else .idle) (by simp) (fun j hj => ?_)]
    by_cases hjw : j < w + 1
    · rw [if_pos (by omega), if_pos hjw]
    · rw [if_neg (by omega), if_neg hjw]

/-- More goroutines, one after the other. -/
theorem following {l : Loc} {fs : FS} {old : Bytes} (hf : fs l = some (.file old)) {d : Nat} (hd : 0 < d) (r : Nat) :
    CsvFrom l ⟨fs, fun _ => .idle, 0⟩ ⟨fs.set l (some (.file (old ++ lines (r + 1)))), fun j => if j < d + r then .returned true else .idle, d + r⟩ := by
  induction r with
  | zero =>
    have := writing hf (d := d) (d - 1) (by omega)
    rw [show d - 1 + 1 = d by omega] at this
    have hfun : (fun j => if j < d then CsvPc.returned true else if j < d then .ready old.length else .idle) =
        fun j => if j < d + 0 then CsvPc.returned true else .idle := by
      funext j
      by_cases hj : j < d
      · rw [if_pos hj, if_pos (by omega)]
      · rw [if_neg hj, if_neg hj, if_neg (by omega)]
    rw [hfun] at this
    exact this
  | succ r ih =>
    have hk : ∀ c, openKeep (fs.set l (some (.file c))) l = some (fs.set l (some (.file c))) := by
      intro c
      unfold openKeep
      rw [set_self]
    have e1 : csvExec l ⟨fs.set l (some (.file (old ++ lines (r + 1)))), fun j => if j < d + r then .returned true else .idle, d + r⟩ (d + r) =
        some ⟨fs.set l (some (.file (old ++ lines (r + 1)))), fun j => if j < d + r then .returned true else if j = d + r then .opened else .idle, d + r⟩ := by
      unfold csvExec
      dsimp only
      rw [if_neg (Nat.lt_irrefl _)]
      dsimp only
      rw [hk]
      dsimp only
      rw [put_fun (g := fun j => if j < d + r then .returned true else if j = d + r then .opened else .idle) (by simp) (fun j hj => by simp [hj])]
    have e2 : csvExec l ⟨fs.set l (some (.file (old ++ lines (r + 1)))), fun j => if j < d + r then .returned true else if j = d + r then .opened else .idle, d + r⟩ (d + r) =
        some ⟨fs.set l (some (.file (old ++ lines (r + 1)))),
          fun j => if j < d + r then .returned true else if j = d + r then .ready (old.length + 15 * (r + 1)) else .idle, d + r⟩ := by
      unfold csvExec
      dsimp only
      rw [if_neg (Nat.lt_irrefl _), if_pos rfl]
      dsimp only
      rw [content_file (set_self _ _ _), List.length_append, lines_len,
        put_fun (g := fun j => if j < d + r then .returned true else if j = d + r then .ready (old.length + 15 * (r + 1)) else .idle) (by simp)
          (fun j hj => by simp [hj])]
    have e3 : csvExec l ⟨fs.set l (some (.file (old ++ lines (r + 1)))),
          fun j => if j < d + r then .returned true else if j = d + r then .ready (old.length + 15 * (r + 1)) else .idle, d + r⟩ (d + r) =
        some ⟨fs.set l (some (.file (old ++ lines (r + 1 + 1)))), fun j => if j < d + (r + 1) then .returned true else .idle, d + (r + 1)⟩ := by
      unfold csvExec
      dsimp only
      rw [if_neg (Nat.lt_irrefl _), if_pos rfl]
      dsimp only
      rw [content_file (set_self _ _ _), write_end, set_set,
        put_fun (g := fun j => if j < d + (r + 1) then .returned true else .idle) (by simp) (fun j hj => ?_)]
      · rfl
      · by_cases hjd : j < d + r
        · rw [if_pos (by omega), if_pos hjd]
        · rw [if_neg (by omega), if_neg hjd, if_neg hj]
    exact .step _ (.step _ (.step _ ih e1) e2) e3

/-- **C176 (every row), refuted exactly.** Of `n` calls that all report success any number of rows from one on may be in the file, the others are lost: for
every file and all `1 ≤ m ≤ n` the goroutines can take turns such that `m` lines are added. -/
theorem C176_lost_refuted {l : Loc} {fs : FS} {old : Bytes} (hf : fs l = some (.file old)) {m n : Nat} (h1 : 1 ≤ m) (h2 : m ≤ n) :
    ∃ s, CsvFrom l ⟨fs, fun _ => .idle, 0⟩ s ∧ (∀ i, i < n → s.pc i = .returned true) ∧ s.calls = n ∧ s.fs l = some (.file (old ++ lines m)) := by
  have h := following hf (d := n - m + 1) (by omega) (m - 1)
  rw [show m - 1 + 1 = m by omega, show n - m + 1 + (m - 1) = n by omega] at h
  exact ⟨_, h, fun i hi => if_pos hi, rfl, set_self _ _ _⟩

/-- **C176 (alone).** A call without interruption is `WriteCsv` of Model/Files. -/
theorem C176_alone {l : Loc} {s : CsvConc} {i : Nat} {fs : FS} (hi : s.pc i = .idle) (ho : openKeep s.fs l = some fs) (row : List Bytes) :
    ∃ s', csvExecs l [i, i, i] s = some s' ∧ s'.fs = (writeCsv s.fs l row 15).1 ∧ s'.pc i = .returned (writeCsv s.fs l row 15).2 := by
  have hw : writeAt (content fs l) (content fs l).length csvLine = content fs l ++ csvLine := by
    have := write_end (content fs l) 0
    rw [lines_zero, List.append_nil, lines_succ, lines_zero] at this
    exact this
  have e : csvExecs l [i, i, i] s = some ⟨appendTo fs l csvLine, put (put (put s.pc i .opened) i (.ready (content fs l).length)) i (.returned true), s.calls + 1⟩ := by
    simp [csvExecs, csvExec, hi, ho, put_self, hw, appendTo]
  have hc : writeCsv s.fs l row 15 = (appendTo fs l csvLine, true) := by
    unfold writeCsv
    rw [ho]
    dsimp only
    rw [List.take_of_length_le (by rw [← csvLine_len]; exact Nat.le_refl _)]
    rfl
  exact ⟨_, e, by rw [hc], by rw [hc]; exact put_self _ _ _⟩

/-- The hypotheses are met: two calls overlap, both report success, and one row is lost. -/
example : ((csvExecs [lit "t"] [0, 1, 0, 1, 1, 0] ⟨fun x => if x = [] then some .dir else none, fun _ => .idle, 0⟩).any fun s =>
    decide (s.pc 0 = .returned true) && decide (s.pc 1 = .returned true) && decide (s.calls = 2) &&
    decide (s.fs [lit "t"] = some (.file (lit "1,2,3,4,\"5,6\"\r\n")))) = true := by decide +kernel

end Verif.Fs
