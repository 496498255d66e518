import Verif.Model.Fs
import Verif.Proof.Paths
import Verif.Props.Strconv
import Mathlib.Data.List.Perm.Subperm
import Mathlib.Data.List.Nodup

/-!
# Resumable uploads: locations, and the state after any sequence of uploads
-/

namespace Verif.Fs

open Utf8 Spec.Path

/-! ## Locations -/

/-- A plain name: no separator, not empty, neither `.` nor `..`. -/
def Plain (e : Bytes) : Prop := Paths.Name e

/-- The name of a chunk. -/
def chunkName (fileName : Bytes) (n : Int) : Bytes := fileName ++ lit "_" ++ Strconv.formatInt n

/-- The directory of all uploads. -/
def upDir (cwd : Loc) : Loc := cwd ++ [lit "breakpointDir"]

/-- The directory of finished files. -/
def outDir (cwd : Loc) : Loc := cwd ++ [lit "fileDir"]

theorem step_dot (l : Loc) : step l [46] = l := rfl

theorem step_nil (l : Loc) : step l [] = l := rfl

theorem digitsFuel_chars (fuel n : Nat) : ∀ c ∈ Strconv.digitsFuel fuel n, 48 ≤ c ∧ c ≤ 57 := by
  induction fuel generalizing n with
  | zero => simp [Strconv.digitsFuel]
  | succ fuel ih =>
    intro c hc
    rw [Strconv.digitsFuel] at hc
    split at hc
    · rw [List.mem_singleton] at hc
      omega
    · rcases List.mem_append.1 hc with hc | hc
      · exact ih _ c hc
      · rw [List.mem_singleton] at hc
        omega

/-- The characters of a number: digits and a minus sign. -/
theorem formatInt_chars (n : Int) : ∀ c ∈ Strconv.formatInt n, c = 45 ∨ (48 ≤ c ∧ c ≤ 57) := by
  intro c hc
  unfold Strconv.formatInt at hc
  split at hc
  · rcases List.mem_cons.1 hc with rfl | hc
    · exact Or.inl rfl
    · exact Or.inr (digitsFuel_chars _ _ c hc)
  · exact Or.inr (digitsFuel_chars _ _ c hc)

theorem plain_chunkName (f : Bytes) (hf : 47 ∉ f) (n : Int) : Plain (chunkName f n) := by
  have hu : 95 ∈ chunkName f n := by
    unfold chunkName
    rw [show lit "_" = [95] by decide]
    simp
  refine ⟨?_, ?_, ?_, ?_⟩
  · unfold chunkName
    rw [show lit "_" = [95] by decide]
    intro h
    rcases List.mem_append.1 h with h | h
    · rcases List.mem_append.1 h with h | h
      · exact hf h
      · simp at h
    · have := formatInt_chars n 47 h
      omega
  · intro h
    rw [h] at hu
    cases hu
  · intro h
    rw [h] at hu
    exact absurd hu (by decide)
  · intro h
    rw [h] at hu
    exact absurd hu (by decide)

/-- Different files or numbers have different chunk names. -/
theorem chunkName_inj (f g : Bytes) (m n : Int) (hm : InI64 m) (hn : InI64 n) (h : chunkName f m = chunkName g n) : f = g ∧ m = n := by
  have h95 : ∀ n, 95 ∉ Strconv.formatInt n := fun n hc => by
    have := formatInt_chars n 95 hc
    omega
  have key : ∀ (a b x y : Bytes), 95 ∉ x → 95 ∉ y → a ++ [95] ++ x = b ++ [95] ++ y → a = b ∧ x = y := by
    intro a b x y hx hy h
    have hr := congrArg List.reverse h
    simp only [List.reverse_append, List.reverse_cons, List.reverse_nil, List.nil_append] at hr
    have e : ∀ x y u v : List Nat, 95 ∉ x → 95 ∉ y → x ++ ([95] ++ u) = y ++ ([95] ++ v) → x = y ∧ u = v := by
      intro x
      induction x with
      | nil =>
        intro y u v _ hy h
        cases y with
        | nil =>
          simp only [List.nil_append, List.cons_append, List.cons.injEq, true_and] at h
          exact ⟨rfl, h⟩
        | cons c y =>
          simp only [List.nil_append, List.cons_append, List.cons.injEq] at h
          exact absurd (by rw [h.1]; exact List.mem_cons_self) hy
      | cons c x ih =>
        intro y u v hx hy h
        cases y with
        | nil =>
          simp only [List.nil_append, List.cons_append, List.cons.injEq] at h
          exact absurd (by rw [h.1]; exact List.mem_cons_self) hx
        | cons d y =>
          simp only [List.cons_append, List.cons.injEq] at h
          obtain ⟨h1, h2⟩ := ih y u v (fun h' => hx (List.mem_cons_of_mem _ h')) (fun h' => hy (List.mem_cons_of_mem _ h')) (by simpa using h.2)
          exact ⟨by rw [h.1, h1], h2⟩
    obtain ⟨e1, e2⟩ := e x.reverse y.reverse a.reverse b.reverse (by simpa using hx) (by simpa using hy) (by simpa using hr)
    exact ⟨List.reverse_inj.1 e2, List.reverse_inj.1 e1⟩
  unfold chunkName at h
  rw [show lit "_" = [95] by decide] at h
  obtain ⟨h1, h2⟩ := key f g _ _ (h95 m) (h95 n) h
  exact ⟨h1, Strconv.C71_injective m n hm hn h2⟩

theorem loc_up (cwd : Loc) (rest : Bytes) :
    loc cwd (breakpointDir ++ rest) = (elems rest).foldl step (upDir cwd) := by
  have hb : breakpointDir = [46] ++ 47 :: (lit "breakpointDir" ++ [47]) := by decide +kernel
  have h2 : breakpointDir ++ rest = [46] ++ 47 :: (lit "breakpointDir" ++ 47 :: rest) := by
    rw [hb]
    simp
  unfold loc
  rw [h2, if_neg (by simp), Paths.elems_append [46] _ (by simp), Paths.elems_append (lit "breakpointDir") _ (by decide +kernel)]
  rw [List.foldl_cons, List.foldl_cons, step_dot, Paths.step_name _ _ (by unfold Paths.Name; decide +kernel)]
  rfl

theorem loc_out (cwd : Loc) (rest : Bytes) :
    loc cwd (finishDir ++ rest) = (elems rest).foldl step (outDir cwd) := by
  have hb : finishDir = [46] ++ 47 :: (lit "fileDir" ++ [47]) := by decide +kernel
  have h2 : finishDir ++ rest = [46] ++ 47 :: (lit "fileDir" ++ 47 :: rest) := by
    rw [hb]
    simp
  unfold loc
  rw [h2, if_neg (by simp), Paths.elems_append [46] _ (by simp), Paths.elems_append (lit "fileDir") _ (by decide +kernel)]
  rw [List.foldl_cons, List.foldl_cons, step_dot, Paths.step_name _ _ (by unfold Paths.Name; decide +kernel)]
  rfl

theorem loc_upload (cwd : Loc) (h : Bytes) (hh : Plain h) : loc cwd (breakpointDir ++ h) = upDir cwd ++ [h] := by
  rw [loc_up, Paths.elems_free h hh.1]
  exact Paths.step_name _ _ hh

theorem loc_upload_slash (cwd : Loc) (h : Bytes) (hh : Plain h) : loc cwd (breakpointDir ++ h ++ lit "/") = upDir cwd ++ [h] := by
  rw [List.append_assoc, loc_up, show lit "/" = [47] by decide, Paths.elems_append h [] hh.1]
  show step (step (upDir cwd) h) [] = _
  rw [step_nil, Paths.step_name _ _ hh]

theorem loc_chunk (cwd : Loc) (h f : Bytes) (hh : Plain h) (hf : 47 ∉ f) (n : Int) :
    loc cwd (chunkPath h f n) = upDir cwd ++ [h, chunkName f n] := by
  have hc := plain_chunkName f hf n
  have : chunkPath h f n = breakpointDir ++ (h ++ 47 :: chunkName f n) := by
    unfold chunkPath chunkName
    rw [show lit "/" = [47] by decide]
    simp
  rw [this, loc_up, Paths.elems_append h _ hh.1, Paths.elems_free _ hc.1]
  show step (step (upDir cwd) h) _ = _
  rw [Paths.step_name _ _ hh, Paths.step_name _ _ hc]
  simp

theorem loc_finish (cwd : Loc) : loc cwd finishDir = outDir cwd := by
  have := loc_out cwd []
  rw [List.append_nil] at this
  rw [this]
  rfl

theorem loc_target (cwd : Loc) (f : Bytes) (hf : Plain f) : loc cwd (finishDir ++ f) = outDir cwd ++ [f] := by
  rw [loc_out, Paths.elems_free f hf.1]
  exact Paths.step_name _ _ hf

theorem up_ne_out (cwd : Loc) (a b : Loc) : upDir cwd ++ a ≠ outDir cwd ++ b := by
  unfold upDir outDir
  intro h
  rw [List.append_assoc, List.append_assoc] at h
  have := List.append_cancel_left h
  simp only [List.cons_append, List.cons.injEq] at this
  exact absurd this.1 (by decide +kernel)

/-! ## The operations -/

theorem mkdirAll_some (fs : FS) (l : Loc) (h : ∀ p, p <+: l → isFile (fs p) = false) :
    mkdirAll fs l = some (fun x => if x <+: l ∧ fs x = none then some .dir else fs x) := by
  unfold mkdirAll
  rw [if_neg]
  rw [List.any_eq_true]
  rintro ⟨i, -, hi⟩
  rw [h _ (List.take_prefix i l)] at hi
  cases hi

/-- One upload. -/
structure Upload where
  md5 : Bytes
  fileName : Bytes
  number : Int
  cont : Bytes
  io : UploadIo

/-- Uploads with plain names and numbers of 64 bits. -/
def Upload.Ok (e : Upload) : Prop := Plain e.md5 ∧ 47 ∉ e.fileName ∧ InI64 e.number

/-- The upload gets as far as creating the file of the chunk. -/
def Upload.created (e : Upload) : Bool := !e.io.mkdirFails && !e.io.createFails

/-- The file system after one upload. -/
def upload1 (cwd : Loc) (fs : FS) (e : Upload) : FS := (breakPointContinue cwd e.io fs e.cont e.fileName e.number e.md5).1

/-- The file system after a sequence of uploads. -/
def uploads (cwd : Loc) (fs : FS) (es : List Upload) : FS := es.foldl (upload1 cwd) fs

/-- Only directories on the way to the directory of uploads; there, only directories; in them, only files. -/
structure Tidy (cwd : Loc) (fs : FS) : Prop where
  way : ∀ p, p <+: upDir cwd → isFile (fs p) = false
  dirs : ∀ h, isFile (fs (upDir cwd ++ [h])) = false
  files : ∀ h n, fs (upDir cwd ++ [h, n]) ≠ some .dir

/-- A prefix of `l ++ [x]` is one of `l` or the whole. -/
theorem prefix_snoc {p l : Loc} {x : Bytes} (h : p <+: l ++ [x]) : p <+: l ∨ p = l ++ [x] := by
  rw [List.prefix_concat_iff] at h
  exact h.symm

theorem not_prefix_two (l : Loc) (a b c : Bytes) : ¬ (l ++ [a, b]) <+: (l ++ [c]) := by
  intro h
  have := h.length_le
  simp at this

/-- What one upload does to the chunks. -/
theorem upload1_spec (cwd : Loc) (fs : FS) (e : Upload) (he : e.Ok) (ht : Tidy cwd fs) :
    Tidy cwd (upload1 cwd fs e) ∧
    (∀ h n, upload1 cwd fs e (upDir cwd ++ [h, n]) =
      if e.created = true ∧ h = e.md5 ∧ n = chunkName e.fileName e.number then some (.file (e.cont.take e.io.wrote))
      else fs (upDir cwd ++ [h, n])) ∧
    (e.created = true → upload1 cwd fs e (upDir cwd ++ [e.md5]) = some .dir) ∧
    (∀ h, fs (upDir cwd ++ [h]) = some .dir → upload1 cwd fs e (upDir cwd ++ [h]) = some .dir) ∧
    (∀ l, ¬ l <+: upDir cwd → ¬ upDir cwd <+: l → upload1 cwd fs e l = fs l) ∧
    (∀ l, fs l = some .dir → upload1 cwd fs e l = some .dir) := by
  obtain ⟨hh, hf, -⟩ := he
  unfold upload1 breakPointContinue Upload.created
  rw [loc_upload_slash cwd _ hh, loc_chunk cwd _ _ hh hf]
  cases hm : e.io.mkdirFails with
  | true =>
    simp only [if_true, Bool.not_true, Bool.false_and, Bool.false_eq_true, false_and, if_false, false_implies, true_and]
    exact ⟨ht, fun _ _ => trivial, fun _ h => h, fun _ _ _ => trivial, fun _ h => h⟩
  | false =>
    have hway : ∀ p, p <+: upDir cwd ++ [e.md5] → isFile (fs p) = false := by
      intro p hp
      rcases prefix_snoc hp with hp | rfl
      · exact ht.way p hp
      · exact ht.dirs e.md5
    rw [mkdirAll_some fs _ hway]
    simp only [Bool.false_eq_true, if_false, Bool.not_false, Bool.true_and, Bool.not_eq_true']
    -- the file system with the directories
    generalize hg : (fun x => if x <+: upDir cwd ++ [e.md5] ∧ fs x = none then some Node.dir else fs x) = fs1
    have hfs1 : ∀ x, fs1 x = if x <+: upDir cwd ++ [e.md5] ∧ fs x = none then some Node.dir else fs x := fun x => by rw [← hg]
    have htwo : ∀ h n, fs1 (upDir cwd ++ [h, n]) = fs (upDir cwd ++ [h, n]) := by
      intro h n
      rw [hfs1, if_neg]
      rintro ⟨hp, -⟩
      exact not_prefix_two _ _ _ _ hp
    have hfile : ∀ x, isFile (fs x) = false → isFile (fs1 x) = false := by
      intro x hx
      rw [hfs1]
      split
      · rfl
      · exact hx
    have hdir : fs1 (upDir cwd ++ [e.md5]) = some .dir := by
      rw [hfs1]
      by_cases hn : fs (upDir cwd ++ [e.md5]) = none
      · rw [if_pos ⟨List.prefix_refl _, hn⟩]
      · rw [if_neg (fun h => hn h.2)]
        have := ht.dirs e.md5
        cases hc : fs (upDir cwd ++ [e.md5]) with
        | none => exact absurd hc hn
        | some nd =>
          cases nd with
          | dir => rfl
          | file c => rw [hc] at this; cases this
    have hkeep : ∀ x, fs x = some .dir → fs1 x = some .dir := by
      intro x hx
      rw [hfs1, if_neg (fun h => by rw [hx] at h; cases h.2)]
      exact hx
    have ht1 : Tidy cwd fs1 :=
      ⟨fun p hp => hfile p (ht.way p hp), fun h => hfile _ (ht.dirs h), fun h n => by rw [htwo]; exact ht.files h n⟩
    have hout : ∀ l, ¬ l <+: upDir cwd → ¬ upDir cwd <+: l → fs1 l = fs l := by
      intro l h1 h2
      rw [hfs1, if_neg]
      rintro ⟨hp, -⟩
      rcases prefix_snoc hp with hp | rfl
      · exact h1 hp
      · exact h2 (List.prefix_append _ _)
    cases hc : e.io.createFails with
    | true =>
      simp only [if_true, Bool.true_eq_false, false_and, if_false, false_implies, true_and]
      exact ⟨ht1, htwo, fun h hd => hkeep _ hd, hout, hkeep⟩
    | false =>
      have hcr : create fs1 (upDir cwd ++ [e.md5, chunkName e.fileName e.number]) =
          some (FS.set fs1 (upDir cwd ++ [e.md5, chunkName e.fileName e.number]) (some (.file []))) := by
        unfold create
        rw [if_pos]
        refine ⟨?_, ht1.files _ _⟩
        rw [show upDir cwd ++ [e.md5, chunkName e.fileName e.number] = (upDir cwd ++ [e.md5]) ++ [chunkName e.fileName e.number] by simp,
          List.dropLast_concat]
        exact hdir
      rw [hcr]
      simp only [Bool.false_eq_true, if_false, true_and, forall_const]
      have hset : ∀ x, appendTo (FS.set fs1 (upDir cwd ++ [e.md5, chunkName e.fileName e.number]) (some (.file [])))
          (upDir cwd ++ [e.md5, chunkName e.fileName e.number]) (e.cont.take e.io.wrote) x =
          if x = upDir cwd ++ [e.md5, chunkName e.fileName e.number] then some (.file (e.cont.take e.io.wrote)) else fs1 x := by
        intro x
        unfold appendTo content FS.set
        simp only [if_true, List.nil_append]
        split <;> rfl
      have hne : ∀ x, (x <+: upDir cwd ∨ ∃ h, x = upDir cwd ++ [h]) → x ≠ upDir cwd ++ [e.md5, chunkName e.fileName e.number] := by
        rintro x (h | ⟨h, rfl⟩) hx
        · rw [hx] at h
          have := h.length_le
          simp at this
          omega
        · have := congrArg List.length hx
          simp at this
      have htd : ∀ l, fs l = some .dir → l ≠ upDir cwd ++ [e.md5, chunkName e.fileName e.number] := by
        rintro l hl rfl
        exact ht.files _ _ hl
      refine ⟨⟨?_, ?_, ?_⟩, ?_, ?_, ?_, ?_, ?_⟩
      · intro p hp
        rw [hset, if_neg (hne p (Or.inl hp))]
        exact ht1.way p hp
      · intro h
        rw [hset, if_neg (hne _ (Or.inr ⟨h, rfl⟩))]
        exact ht1.dirs h
      · intro h n
        rw [hset]
        split
        · exact fun h => by cases h
        · exact ht1.files h n
      · intro h n
        rw [hset, htwo]
        by_cases hx : h = e.md5 ∧ n = chunkName e.fileName e.number
        · rw [if_pos (by rw [hx.1, hx.2]), if_pos hx]
        · rw [if_neg, if_neg hx]
          intro he
          have := List.append_cancel_left he
          simp only [List.cons.injEq, and_true] at this
          exact hx this
      · rw [hset, if_neg (hne _ (Or.inr ⟨_, rfl⟩))]
        exact hdir
      · intro h hd
        rw [hset, if_neg (hne _ (Or.inr ⟨h, rfl⟩))]
        exact hkeep _ hd
      · intro l h1 h2
        rw [hset, if_neg (by rintro rfl; exact h2 (List.prefix_append _ _))]
        exact hout l h1 h2
      · intro l hl
        rw [hset, if_neg (htd l hl)]
        exact hkeep l hl

/-- Deeper locations are not touched. -/
theorem upload1_deep (cwd : Loc) (fs : FS) (e : Upload) (he : e.Ok) (ht : Tidy cwd fs) (g n m : Bytes) (r : Loc) :
    upload1 cwd fs e (upDir cwd ++ g :: n :: m :: r) = fs (upDir cwd ++ g :: n :: m :: r) := by
  obtain ⟨hh, hf, -⟩ := he
  unfold upload1 breakPointContinue
  rw [loc_upload_slash cwd _ hh, loc_chunk cwd _ _ hh hf]
  cases e.io.mkdirFails with
  | true => rfl
  | false =>
    have hway : ∀ p, p <+: upDir cwd ++ [e.md5] → isFile (fs p) = false := by
      intro p hp
      rcases prefix_snoc hp with hp | rfl
      · exact ht.way p hp
      · exact ht.dirs e.md5
    rw [mkdirAll_some fs _ hway]
    simp only [Bool.false_eq_true, if_false]
    have h1 : ¬ (upDir cwd ++ g :: n :: m :: r) <+: (upDir cwd ++ [e.md5]) := by
      intro h
      have := h.length_le
      simp at this
    have h2 : upDir cwd ++ g :: n :: m :: r ≠ upDir cwd ++ [e.md5, chunkName e.fileName e.number] := by
      intro h
      have := congrArg List.length h
      simp at this
    split
    · dsimp only
      rw [if_neg (fun h => h1 h.1)]
    · rename_i fs2 hc
      have hfs2 : fs2 (upDir cwd ++ g :: n :: m :: r) = fs (upDir cwd ++ g :: n :: m :: r) := by
        cases hcf : e.io.createFails with
        | true => rw [hcf] at hc; cases hc
        | false =>
          rw [hcf] at hc
          simp only [Bool.false_eq_true, if_false] at hc
          unfold create at hc
          split at hc
          · rw [Option.some.injEq] at hc
            rw [← hc]
            unfold FS.set
            rw [if_neg h2]
            dsimp only
            rw [if_neg (fun h => h1 h.1)]
          · cases hc
      show appendTo _ _ _ _ = _
      unfold appendTo FS.set
      rw [if_neg h2]
      exact hfs2

/-! ## Sequences of uploads -/

/-- What is left of chunk `n` of file `f` of upload `h` after a sequence of uploads: the bytes written by the last one that got as far
as creating the file. -/
def lastChunk (h f : Bytes) (n : Int) : List Upload → Option Bytes
  | [] => none
  | e :: es =>
    match lastChunk h f n es with
    | some c => some c
    | none => if e.created = true ∧ e.md5 = h ∧ e.fileName = f ∧ e.number = n then some (e.cont.take e.io.wrote) else none

theorem uploads_spec (cwd : Loc) (fs : FS) (es : List Upload) (hes : ∀ e ∈ es, e.Ok) (ht : Tidy cwd fs) :
    Tidy cwd (uploads cwd fs es) ∧
    (∀ h f n, InI64 n → uploads cwd fs es (upDir cwd ++ [h, chunkName f n]) =
      match lastChunk h f n es with
      | some c => some (.file c)
      | none => fs (upDir cwd ++ [h, chunkName f n])) ∧
    (∀ l, ¬ l <+: upDir cwd → ¬ upDir cwd <+: l → uploads cwd fs es l = fs l) ∧
    (∀ l, fs l = some .dir → uploads cwd fs es l = some .dir) ∧
    (∀ e ∈ es, e.created = true → uploads cwd fs es (upDir cwd ++ [e.md5]) = some .dir) := by
  induction es generalizing fs with
  | nil => exact ⟨ht, fun _ _ _ _ => rfl, fun _ _ _ => rfl, fun _ h => h, by simp⟩
  | cons e es ih =>
    have he := hes e List.mem_cons_self
    obtain ⟨t1, t2, t3, -, t5, t6⟩ := upload1_spec cwd fs e he ht
    obtain ⟨u1, u2, u3, u4, u5⟩ := ih (upload1 cwd fs e) (fun x hx => hes x (List.mem_cons_of_mem _ hx)) t1
    have hu : uploads cwd fs (e :: es) = uploads cwd (upload1 cwd fs e) es := rfl
    rw [hu]
    refine ⟨u1, ?_, fun l h1 h2 => by rw [u3 l h1 h2, t5 l h1 h2], fun l hl => u4 l (t6 l hl), ?_⟩
    · intro h f n hn
      rw [u2 h f n hn, lastChunk]
      cases lastChunk h f n es with
      | some c => rfl
      | none =>
        dsimp only
        rw [t2]
        by_cases hx : e.created = true ∧ e.md5 = h ∧ e.fileName = f ∧ e.number = n
        · rw [if_pos hx, if_pos]
          obtain ⟨a, b, c, d⟩ := hx
          exact ⟨a, b.symm, by rw [c, d]⟩
        · rw [if_neg hx, if_neg]
          rintro ⟨a, b, c⟩
          obtain ⟨c1, c2⟩ := chunkName_inj _ _ _ _ hn he.2.2 c
          exact hx ⟨a, b.symm, c1.symm, c2.symm⟩
    · intro x hx hcr
      rcases List.mem_cons.1 hx with rfl | hx
      · exact u4 _ (t3 hcr)
      · exact u5 x hx hcr

theorem lastChunk_mem (h f : Bytes) (n : Int) (es : List Upload) (c : Bytes) (hl : lastChunk h f n es = some c) :
    ∃ e ∈ es, e.created = true ∧ e.md5 = h ∧ e.fileName = f ∧ e.number = n ∧ c = e.cont.take e.io.wrote := by
  induction es with
  | nil => cases hl
  | cons e es ih =>
    rw [lastChunk] at hl
    cases hc : lastChunk h f n es with
    | some d =>
      rw [hc] at hl
      dsimp only at hl
      rw [Option.some.injEq] at hl
      subst hl
      obtain ⟨x, hx, hh⟩ := ih hc
      exact ⟨x, List.mem_cons_of_mem _ hx, hh⟩
    | none =>
      rw [hc] at hl
      dsimp only at hl
      split at hl
      · rename_i hx
        rw [Option.some.injEq] at hl
        exact ⟨e, List.mem_cons_self, hx.1, hx.2.1, hx.2.2.1, hx.2.2.2, hl.symm⟩
      · cases hl

/-! ## `MakeFile` -/

/-- The loop appends the chunks to the target. -/
theorem makeLoop_spec (cwd : Loc) (io : MakeIo) (f h : Bytes) (hh : Plain h) (hf : 47 ∉ f) (t : Bytes) (ks : List Nat) (fs : FS)
    (hw : ∀ k ∈ ks, io.writeFails k = false) (c : Bytes) (hc : fs (outDir cwd ++ [t]) = some (.file c)) :
    (makeLoop cwd io f h (outDir cwd ++ [t]) ks fs).2 = true ∧
    ∀ x, (makeLoop cwd io f h (outDir cwd ++ [t]) ks fs).1 x =
      if x = outDir cwd ++ [t] then some (.file (c ++ (ks.map (readChunk cwd io fs f h)).flatten)) else fs x := by
  induction ks generalizing fs c with
  | nil =>
    refine ⟨rfl, fun x => ?_⟩
    simp only [makeLoop, List.map_nil, List.flatten_nil, List.append_nil]
    split
    · rename_i hx; rw [hx, hc]
    · rfl
  | cons k ks ih =>
    rw [makeLoop]
    simp only [hw k List.mem_cons_self, Bool.false_eq_true, if_false]
    have happ : ∀ b x, appendTo fs (outDir cwd ++ [t]) b x = if x = outDir cwd ++ [t] then some (.file (c ++ b)) else fs x := by
      intro b x
      unfold appendTo content FS.set
      rw [hc]
    have hread : ∀ b k, readChunk cwd io (appendTo fs (outDir cwd ++ [t]) b) f h k = readChunk cwd io fs f h k := by
      intro b k
      unfold readChunk content
      rw [loc_chunk cwd h f hh hf, happ, if_neg (up_ne_out cwd _ _)]
    obtain ⟨h1, h2⟩ := ih (appendTo fs (outDir cwd ++ [t]) (readChunk cwd io fs f h k)) (fun k hk => hw k (List.mem_cons_of_mem _ hk))
      (c ++ readChunk cwd io fs f h k) (by rw [happ, if_pos rfl])
    refine ⟨h1, fun x => ?_⟩
    rw [h2]
    split
    · congr 2
      rw [List.map_cons, List.flatten_cons, List.append_assoc]
      congr 3
      apply List.map_congr_left
      intro k _
      exact hread _ k
    · rename_i hx
      rw [happ, if_neg hx]

/-- Only directories on the way to the directory of finished files; the target is no directory. -/
structure Ready (cwd : Loc) (fs : FS) (t : Bytes) : Prop where
  way : ∀ p, p <+: outDir cwd → isFile (fs p) = false
  target : fs (outDir cwd ++ [t]) ≠ some .dir

/-- `MakeFile` without failures of the operating system. -/
theorem makeFile_spec (cwd : Loc) (io : MakeIo) (f h : Bytes) (hh : Plain h) (hf : Plain f) (fs : FS)
    (hd : fs (upDir cwd ++ [h]) = some .dir) (hr : Ready cwd fs f) (ho : io.openFails = false) (hw : ∀ k, io.writeFails k = false) :
    (makeFile cwd io fs f h).2 = true ∧
    (makeFile cwd io fs f h).1 (outDir cwd ++ [f]) =
      some (.file (content fs (outDir cwd ++ [f]) ++ ((List.range io.listing.length).map (readChunk cwd io fs f h)).flatten)) ∧
    (∀ x, ¬ x <+: outDir cwd → x ≠ outDir cwd ++ [f] → (makeFile cwd io fs f h).1 x = fs x) ∧
    (∀ x, x <+: outDir cwd → x ≠ outDir cwd ++ [f] → (makeFile cwd io fs f h).1 x = if fs x = none then some .dir else fs x) := by
  unfold makeFile
  rw [loc_upload cwd h hh, if_neg (by rw [hd]; simp), loc_finish, loc_target cwd f hf, mkdirAll_some fs _ hr.way]
  dsimp only [Option.getD_some]
  rw [ho]
  simp only [Bool.false_eq_true, if_false]
  generalize hg : (fun x => if x <+: outDir cwd ∧ fs x = none then some Node.dir else fs x) = fs1
  have hfs1 : ∀ x, fs1 x = if x <+: outDir cwd ∧ fs x = none then some Node.dir else fs x := fun x => by rw [← hg]
  have hnp : ¬ (outDir cwd ++ [f]) <+: outDir cwd := by
    intro h
    have := h.length_le
    simp at this
    omega
  have ht : fs1 (outDir cwd ++ [f]) = fs (outDir cwd ++ [f]) := by rw [hfs1, if_neg (fun h => hnp h.1)]
  have hdir : fs1 (outDir cwd) = some .dir := by
    rw [hfs1]
    by_cases hn : fs (outDir cwd) = none
    · rw [if_pos ⟨List.prefix_refl _, hn⟩]
    · rw [if_neg (fun h => hn h.2)]
      have := hr.way (outDir cwd) (List.prefix_refl _)
      cases hc : fs (outDir cwd) with
      | none => exact absurd hc hn
      | some nd =>
        cases nd with
        | dir => rfl
        | file c => rw [hc] at this; cases this
  -- the target after opening
  have hopen : ∃ fs2, openKeep fs1 (outDir cwd ++ [f]) = some fs2 ∧
      ∀ x, fs2 x = if x = outDir cwd ++ [f] then some (.file (content fs (outDir cwd ++ [f]))) else fs1 x := by
    unfold openKeep content
    rw [ht]
    cases hc : fs (outDir cwd ++ [f]) with
    | none =>
      dsimp only
      rw [List.dropLast_concat, if_pos hdir]
      exact ⟨_, rfl, fun x => rfl⟩
    | some nd =>
      cases nd with
      | dir => exact absurd hc hr.target
      | file c =>
        refine ⟨fs1, rfl, fun x => ?_⟩
        dsimp only
        split
        · rename_i hx; rw [hx, ht, hc]
        · rfl
  obtain ⟨fs2, h1, h2⟩ := hopen
  rw [h1]
  dsimp only
  have hread : ∀ k, readChunk cwd io fs2 f h k = readChunk cwd io fs f h k := by
    intro k
    unfold readChunk content
    rw [loc_chunk cwd h f hh hf.1, h2, if_neg (up_ne_out cwd _ _), hfs1, if_neg]
    rintro ⟨hp, -⟩
    have := hp.length_le
    simp [upDir, outDir] at this
  obtain ⟨h3, h4⟩ := makeLoop_spec cwd io f h hh hf.1 f (List.range io.listing.length) fs2 (fun k _ => hw k) _ (by rw [h2, if_pos rfl])
  refine ⟨h3, ?_, ?_, ?_⟩
  · rw [h4, if_pos rfl]
    congr 5
    funext k
    exact hread k
  · intro x hx1 hx2
    rw [h4, if_neg hx2, h2, if_neg hx2, hfs1, if_neg (fun h => hx1 h.1)]
  · intro x hx1 hx2
    rw [h4, if_neg hx2, h2, if_neg hx2, hfs1]
    simp only [hx1, true_and]

/-- The way to the directory of finished files stays free. -/
theorem makeFile_way (cwd : Loc) (io : MakeIo) (f h : Bytes) (hh : Plain h) (hf : Plain f) (fs : FS)
    (hd : fs (upDir cwd ++ [h]) = some .dir) (hr : Ready cwd fs f) (ho : io.openFails = false) (hw : ∀ k, io.writeFails k = false)
    (p : Loc) (hp : p <+: outDir cwd) : isFile ((makeFile cwd io fs f h).1 p) = false := by
  have hne : p ≠ outDir cwd ++ [f] := by
    rintro rfl
    have := hp.length_le
    simp at this
    omega
  rw [(makeFile_spec cwd io f h hh hf fs hd hr ho hw).2.2.2 p hp hne]
  split
  · rfl
  · exact hr.way p hp

end Verif.Fs
