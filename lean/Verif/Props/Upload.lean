import Verif.Proof.Upload

/-!
# C77, C78, C79, C103: resumable uploads (help/utils/breakpoint_continue.go)

`Plain` names are those without separators that are neither empty nor `.` or `..`. `Tidy` says that no file is where a directory is
needed; `Ready` the same for the directory of finished files. The working directory is any location.
-/

namespace Verif.Fs

open Utf8 Spec.Path

/-- The upload creates chunk `k` of file `f` of upload `h`. -/
def Upload.isFor (e : Upload) (h f : Bytes) (k : Nat) : Prop :=
  e.created = true ∧ e.md5 = h ∧ e.fileName = f ∧ e.number = (k : Int)

/-- The last upload of the chunk that got as far as creating the file wrote all of `c`. (Before it, any number of complete or
interrupted uploads of the same chunk; after it, only ones that failed to create the file.) -/
def Arrived (es : List Upload) (h f : Bytes) (k : Nat) (c : Bytes) : Prop :=
  ∃ before e after, es = before ++ e :: after ∧ e.isFor h f k ∧ e.cont = c ∧ c.length ≤ e.io.wrote ∧ ∀ x ∈ after, ¬ x.isFor h f k

theorem lastChunk_none (h f : Bytes) (k : Nat) (es : List Upload) (hn : ∀ x ∈ es, ¬ x.isFor h f k) : lastChunk h f k es = none := by
  cases hl : lastChunk h f k es with
  | none => rfl
  | some c =>
    obtain ⟨e, he, h1, h2, h3, h4, -⟩ := lastChunk_mem h f k es c hl
    exact absurd ⟨h1, h2, h3, h4⟩ (hn e he)

theorem lastChunk_arrived (es : List Upload) (h f : Bytes) (k : Nat) (c : Bytes) (ha : Arrived es h f k c) :
    lastChunk h f k es = some c := by
  obtain ⟨before, e, after, rfl, h1, h2, h3, h4⟩ := ha
  induction before with
  | nil =>
    rw [List.nil_append, lastChunk, lastChunk_none h f k after h4]
    dsimp only
    unfold Upload.isFor at h1
    rw [if_pos h1, h2, List.take_of_length_le h3]
  | cons b before ih => rw [List.cons_append, lastChunk, ih]

/-- The directory listing has at least as many names as there are chunks. -/
theorem listing_length (cwd : Loc) (fs : FS) (h f : Bytes) (hh : Plain h) (names : List Bytes) (hl : Listing cwd fs h names) (n : Nat)
    (hn : (n : Int) ≤ 2 ^ 63) (hp : ∀ k < n, fs (upDir cwd ++ [h, chunkName f k]) ≠ none) : n ≤ names.length := by
  have hin : ∀ k < n, InI64 (k : Int) := by
    intro k hk
    unfold InI64
    omega
  have hnd : ((List.range n).map (fun k : Nat => chunkName f (k : Int))).Nodup := by
    apply List.Nodup.map_on _ List.nodup_range
    intro a ha b hb hab
    rw [List.mem_range] at ha hb
    have := (chunkName_inj f f a b (hin a ha) (hin b hb) hab).2
    omega
  have hsub : ((List.range n).map (fun k : Nat => chunkName f (k : Int))) ⊆ names := by
    intro x hx
    obtain ⟨k, hk, rfl⟩ := List.mem_map.1 hx
    rw [List.mem_range] at hk
    rw [hl.2, loc_upload cwd h hh, List.append_assoc]
    exact hp k hk
  have := (hnd.subperm hsub).length_le
  simpa using this

/-- **C77 (reported).** An upload reports success exactly if directory and file were made and all bytes written; then the chunk is stored. -/
theorem C77_reported (cwd : Loc) (fs : FS) (e : Upload) (he : e.Ok) (ht : Tidy cwd fs) :
    ((breakPointContinue cwd e.io fs e.cont e.fileName e.number e.md5).2 = true ↔
      e.io.mkdirFails = false ∧ e.io.createFails = false ∧ e.cont.length ≤ e.io.wrote) ∧
    ((breakPointContinue cwd e.io fs e.cont e.fileName e.number e.md5).2 = true →
      upload1 cwd fs e (upDir cwd ++ [e.md5, chunkName e.fileName e.number]) = some (.file e.cont)) := by
  have hiff : (breakPointContinue cwd e.io fs e.cont e.fileName e.number e.md5).2 = true ↔
      e.io.mkdirFails = false ∧ e.io.createFails = false ∧ e.cont.length ≤ e.io.wrote := by
    obtain ⟨hh, hf, -⟩ := he
    unfold breakPointContinue
    rw [loc_upload_slash cwd _ hh, loc_chunk cwd _ _ hh hf]
    cases hm : e.io.mkdirFails with
    | true => simp
    | false =>
      have hway : ∀ p, p <+: upDir cwd ++ [e.md5] → isFile (fs p) = false := by
        intro p hp
        rcases prefix_snoc hp with hp | rfl
        · exact ht.way p hp
        · exact ht.dirs e.md5
      rw [mkdirAll_some fs _ hway]
      simp only [Bool.false_eq_true, if_false]
      generalize hg : (fun x => if x <+: upDir cwd ++ [e.md5] ∧ fs x = none then some Node.dir else fs x) = fs1
      cases hc : e.io.createFails with
      | true => simp
      | false =>
        have hdir : fs1 (upDir cwd ++ [e.md5]) = some .dir := by
          rw [← hg]
          dsimp only
          by_cases hn : fs (upDir cwd ++ [e.md5]) = none
          · rw [if_pos ⟨List.prefix_refl _, hn⟩]
          · rw [if_neg (fun h => hn h.2)]
            have := ht.dirs e.md5
            cases hc : fs (upDir cwd ++ [e.md5]) with
            | none => exact absurd hc hn
            | some nd =>
              cases nd with
              | dir => rfl
              | file c => rw [hc] at this; cases this
        have hcr : create fs1 (upDir cwd ++ [e.md5, chunkName e.fileName e.number]) =
            some (FS.set fs1 (upDir cwd ++ [e.md5, chunkName e.fileName e.number]) (some (.file []))) := by
          unfold create
          rw [if_pos]
          refine ⟨?_, ?_⟩
          · rw [show upDir cwd ++ [e.md5, chunkName e.fileName e.number] = (upDir cwd ++ [e.md5]) ++ [chunkName e.fileName e.number] by simp,
              List.dropLast_concat]
            exact hdir
          · rw [← hg]
            dsimp only
            rw [if_neg (fun h => not_prefix_two _ _ _ _ h.1)]
            exact ht.files _ _
        rw [hcr]
        simp
  refine ⟨hiff, fun h => ?_⟩
  obtain ⟨h1, h2, h3⟩ := hiff.1 h
  rw [(upload1_spec cwd fs e he ht).2.1, if_pos ⟨by simp [Upload.created, h1, h2], rfl, rfl⟩, List.take_of_length_le h3]

/-- **C77.** After any sequence of uploads (of this and other files, in any order, with repetitions, failures and interruptions) in which
chunks `0 .. n-1` of file `f` arrived in the end and no later chunk was ever uploaded, `MakeFile` for a target that does not exist
succeeds, and the file consists of exactly the chunks in order. Nothing else changes, but for the directory of finished files. -/
theorem C77_reassembled (cwd : Loc) (fs : FS) (ht : Tidy cwd fs) (es : List Upload) (hes : ∀ e ∈ es, e.Ok)
    (h f : Bytes) (hh : Plain h) (hf : Plain f) (chunks : List Bytes) (hpos : chunks ≠ [])
    (harr : ∀ k (hk : k < chunks.length), Arrived es h f k chunks[k])
    (hmore : ∀ e ∈ es, ∀ k : Nat, chunks.length ≤ k → ¬ e.isFor h f k)
    (hold : ∀ k : Nat, chunks.length ≤ k → content fs (upDir cwd ++ [h, chunkName f k]) = [])
    (io : MakeIo) (hl : Listing cwd (uploads cwd fs es) h io.listing) (hlen : (io.listing.length : Int) < 2 ^ 63)
    (ho : io.openFails = false) (hr : ∀ k, io.readCut k = none) (hw : ∀ k, io.writeFails k = false)
    (hnew : fs (outDir cwd ++ [f]) = none) (hway : ∀ p, p <+: outDir cwd → isFile (fs p) = false) (hcl : (chunks.length : Int) ≤ 2 ^ 63) :
    (makeFile cwd io (uploads cwd fs es) f h).2 = true ∧
    (makeFile cwd io (uploads cwd fs es) f h).1 (outDir cwd ++ [f]) = some (.file chunks.flatten) ∧
    ∀ x, ¬ x <+: outDir cwd → x ≠ outDir cwd ++ [f] → (makeFile cwd io (uploads cwd fs es) f h).1 x = uploads cwd fs es x := by
  obtain ⟨u1, u2, u3, u4, u5⟩ := uploads_spec cwd fs es hes ht
  have hpos' : 0 < chunks.length := List.length_pos_iff.2 hpos
  -- the directory exists
  have hd : uploads cwd fs es (upDir cwd ++ [h]) = some .dir := by
    obtain ⟨b, e, a, he, h1, -⟩ := harr 0 hpos'
    have := u5 e (by rw [he]; simp) h1.1
    rwa [h1.2.1] at this
  have hout : uploads cwd fs es (outDir cwd ++ [f]) = none := by
    rw [u3, hnew]
    · intro hp
      obtain ⟨r, hr⟩ := hp
      have := congrArg List.length hr
      simp [upDir, outDir] at this
    · rintro ⟨r, hr⟩
      exact up_ne_out cwd r [f] hr
  have hready : Ready cwd (uploads cwd fs es) f := by
    refine ⟨?_, by rw [hout]; simp⟩
    intro p hp
    unfold outDir at hp
    rcases prefix_snoc hp with hp | rfl
    · exact u1.way p (hp.trans (List.prefix_append _ _))
    · rw [u3]
      · exact hway _ (List.prefix_refl _)
      · rintro ⟨r, hr⟩
        have hx : r = [] := by
          have := congrArg List.length hr
          simp [upDir] at this
          exact this
        subst hx
        have := up_ne_out cwd [] []
        simp only [List.append_nil] at this hr
        exact this hr.symm
      · rintro ⟨r, hr⟩
        have := up_ne_out cwd r []
        rw [List.append_nil] at this
        exact this hr
  obtain ⟨m1, m2, m3, -⟩ := makeFile_spec cwd io f h hh hf _ hd hready ho hw
  refine ⟨m1, ?_, m3⟩
  rw [m2]
  have hc0 : content (uploads cwd fs es) (outDir cwd ++ [f]) = [] := by unfold content; rw [hout]
  rw [hc0, List.nil_append]
  have hle : chunks.length ≤ io.listing.length := by
    apply listing_length cwd _ h f hh _ hl _ hcl
    intro k hk
    rw [u2 h f k (by unfold InI64; omega), lastChunk_arrived es h f k _ (harr k hk)]
    simp
  have hread : ∀ k < io.listing.length, readChunk cwd io (uploads cwd fs es) f h k = chunks[k]?.getD [] := by
    intro k hk
    unfold readChunk
    rw [hr k, loc_chunk cwd h f hh hf.1]
    dsimp only
    have hk64 : InI64 (k : Int) := by unfold InI64; omega
    unfold content
    rw [u2 h f k hk64]
    by_cases hkc : k < chunks.length
    · rw [lastChunk_arrived es h f k _ (harr k hkc), List.getElem?_eq_getElem hkc]
      rfl
    · rw [lastChunk_none h f k es (fun e he => hmore e he k (by omega)), List.getElem?_eq_none (by omega)]
      exact hold k (by omega)
  congr 2
  rw [List.map_congr_left (g := fun k => chunks[k]?.getD []) (fun k hk => hread k (List.mem_range.1 hk))]
  obtain ⟨d, hd⟩ : ∃ d, io.listing.length = chunks.length + d := ⟨_, (Nat.add_sub_cancel' hle).symm⟩
  rw [hd, List.range_add, List.map_append, List.flatten_append]
  have e1 : (List.range chunks.length).map (fun k => chunks[k]?.getD []) = chunks := by
    apply List.ext_getElem
    · simp
    · intro i h1 h2
      simp [h2]
  have e2 : (((List.range d).map (chunks.length + ·)).map (fun k => chunks[k]?.getD [])).flatten = [] := by
    rw [List.flatten_eq_nil_iff]
    intro l hl
    simp only [List.mem_map, List.mem_range] at hl
    obtain ⟨k, ⟨j, -, rfl⟩, rfl⟩ := hl
    rw [List.getElem?_eq_none (by omega)]
    rfl
  rw [e1, e2, List.append_nil]

/-! ## Concrete cases -/

/-- An empty machine. -/
def bare : FS := fun x => if x = [] then some .dir else none

theorem bare_tidy : Tidy [] bare := by
  refine ⟨?_, ?_, ?_⟩
  · intro p hp
    unfold bare
    split <;> rfl
  · intro h
    unfold bare
    rw [if_neg (by simp)]
    rfl
  · intro h n
    unfold bare
    rw [if_neg (by simp)]
    simp

def fine (k : Nat) : UploadIo := { mkdirFails := false, createFails := false, wrote := k }

/-- Chunk 1, an interrupted chunk 0, another file of the same upload, and chunk 0 again. -/
def story : List Upload :=
  [{ md5 := lit "ab", fileName := lit "f", number := 1, cont := lit "world", io := fine 5 },
   { md5 := lit "ab", fileName := lit "f", number := 0, cont := lit "hello", io := fine 2 },
   { md5 := lit "ab", fileName := lit "g", number := 0, cont := lit "x", io := fine 1 },
   { md5 := lit "ab", fileName := lit "f", number := 0, cont := lit "hello", io := fine 9 }]

def calm (names : List Bytes) : MakeIo := { listing := names, openFails := false, readCut := fun _ => none, writeFails := fun _ => false }

/-- The case meets the hypotheses about the uploads … -/
example : (∀ e ∈ story, e.Ok) ∧ Arrived story (lit "ab") (lit "f") 0 (lit "hello") ∧ Arrived story (lit "ab") (lit "f") 1 (lit "world") := by
  refine ⟨?_, ⟨story.take 3, _, [], rfl, ⟨rfl, rfl, rfl, rfl⟩, rfl, by decide +kernel, by simp⟩,
    ⟨[], _, story.drop 1, rfl, ⟨rfl, rfl, rfl, rfl⟩, rfl, by decide +kernel, ?_⟩⟩
  · intro e he
    simp only [story, List.mem_cons, List.not_mem_nil, or_false] at he
    rcases he with rfl | rfl | rfl | rfl <;>
      exact ⟨by unfold Plain Paths.Name; decide +kernel, by decide +kernel, by unfold InI64; decide⟩
  · intro x hx hfor
    simp only [story, List.drop_succ_cons, List.drop_zero, List.mem_cons, List.not_mem_nil, or_false] at hx
    obtain ⟨-, h1, h2, h3⟩ := hfor
    rcases hx with rfl | rfl | rfl <;> revert h2 h3 <;> decide +kernel

/-- … and this is what it gives. -/
example : (makeFile [] (calm [lit "f_0", lit "f_1", lit "g_0"]) (uploads [] bare story) (lit "f") (lit "ab")).1 [lit "fileDir", lit "f"] =
    some (.file (lit "helloworld")) := by decide +kernel

/-! ## C78 -/

/-- **C78 (what happens).** Calling `MakeFile` twice in a row, without any failure, appends all chunks twice: the file is the same after
the second call only if all chunks are empty. -/
theorem C78_twice_exact (cwd : Loc) (io io2 : MakeIo) (f h : Bytes) (hh : Plain h) (hf : Plain f) (fs : FS)
    (hd : fs (upDir cwd ++ [h]) = some .dir) (hr : Ready cwd fs f) (ho : io.openFails = false) (hw : ∀ k, io.writeFails k = false)
    (hc : ∀ k, io.readCut k = none) (hl : Listing cwd fs h io.listing)
    (ho2 : io2.openFails = false) (hw2 : ∀ k, io2.writeFails k = false) (hc2 : ∀ k, io2.readCut k = none)
    (hl2 : Listing cwd (makeFile cwd io fs f h).1 h io2.listing) :
    ∃ d, (makeFile cwd io fs f h).1 (outDir cwd ++ [f]) = some (.file (content fs (outDir cwd ++ [f]) ++ d)) ∧
      (makeFile cwd io2 (makeFile cwd io fs f h).1 f h).2 = true ∧
      (makeFile cwd io2 (makeFile cwd io fs f h).1 f h).1 (outDir cwd ++ [f]) =
        some (.file (content fs (outDir cwd ++ [f]) ++ d ++ d)) := by
  obtain ⟨m1, m2, m3, -⟩ := makeFile_spec cwd io f h hh hf fs hd hr ho hw
  have hup : ∀ a, a ≠ [] → (makeFile cwd io fs f h).1 (upDir cwd ++ a) = fs (upDir cwd ++ a) := by
    intro a ha
    apply m3
    · rintro ⟨r, hr⟩
      have := up_ne_out cwd (a ++ r) []
      rw [List.append_nil, ← List.append_assoc] at this
      exact this hr
    · exact up_ne_out cwd a [f]
  have hr2 : Ready cwd (makeFile cwd io fs f h).1 f := by
    refine ⟨?_, by rw [m2]; simp⟩
    intro p hp
    exact makeFile_way cwd io f h hh hf fs hd hr ho hw p hp
  obtain ⟨n1, n2, n3⟩ := makeFile_spec cwd io2 f h hh hf _ (by rw [hup _ (by simp)]; exact hd) hr2 ho2 hw2
  refine ⟨_, m2, n1, ?_⟩
  rw [n2]
  have hcont : content (makeFile cwd io fs f h).1 (outDir cwd ++ [f]) =
      content fs (outDir cwd ++ [f]) ++ ((List.range io.listing.length).map (readChunk cwd io fs f h)).flatten := by
    unfold content
    rw [m2]
    rfl
  rw [hcont]
  congr 3
  -- the listings are as long as each other, and the chunks the same
  have hlen : io2.listing.length = io.listing.length := by
    have hmem : ∀ n, n ∈ io2.listing ↔ n ∈ io.listing := by
      intro n
      rw [hl2.2, hl.2, loc_upload cwd h hh, List.append_assoc, hup _ (by simp)]
    exact ((List.perm_ext_iff_of_nodup hl2.1 hl.1).2 hmem).length_eq
  rw [hlen]
  congr 1
  apply List.map_congr_left
  intro k _
  unfold readChunk content
  rw [hc k, hc2 k, loc_chunk cwd h f hh hf.1, hup _ (by simp)]

/-- **C78 (refuted).** A second call changes the file. -/
theorem C78_idempotent_refuted :
    ∃ (fs : FS) (io : MakeIo) (f h : Bytes), Plain h ∧ Plain f ∧
      (makeFile [] io fs f h).2 = true ∧ (makeFile [] io (makeFile [] io fs f h).1 f h).2 = true ∧
      (makeFile [] io fs f h).1 [lit "fileDir", f] = some (.file (lit "hi")) ∧
      (makeFile [] io (makeFile [] io fs f h).1 f h).1 [lit "fileDir", f] = some (.file (lit "hihi")) := by
  refine ⟨uploads [] bare [{ md5 := lit "ab", fileName := lit "f", number := 0, cont := lit "hi", io := fine 2 }], calm [lit "f_0"],
    lit "f", lit "ab", by unfold Plain Paths.Name; decide +kernel, by unfold Plain Paths.Name; decide +kernel, ?_⟩
  decide +kernel

/-- **C78 (missing chunks are never reported).** Whenever the directory of the upload exists and the operating system does not fail,
`MakeFile` reports success, whichever chunks are there. -/
theorem C78_never_reported (cwd : Loc) (io : MakeIo) (f h : Bytes) (hh : Plain h) (hf : Plain f) (fs : FS)
    (hd : fs (upDir cwd ++ [h]) = some .dir) (hr : Ready cwd fs f) (ho : io.openFails = false) (hw : ∀ k, io.writeFails k = false) :
    (makeFile cwd io fs f h).2 = true :=
  (makeFile_spec cwd io f h hh hf fs hd hr ho hw).1

/-- **C78 (refuted).** Chunks 0 and 2 of three are there: `MakeFile` reports success, and chunk 2 is lost as well. -/
theorem C78_missing_refuted :
    ∃ (es : List Upload) (io : MakeIo), (∀ e ∈ es, e.Ok) ∧
      io.listing = [lit "f_0", lit "f_2"] ∧
      (makeFile [] io (uploads [] bare es) (lit "f") (lit "ab")).2 = true ∧
      (makeFile [] io (uploads [] bare es) (lit "f") (lit "ab")).1 [lit "fileDir", lit "f"] = some (.file (lit "a")) := by
  refine ⟨[{ md5 := lit "ab", fileName := lit "f", number := 0, cont := lit "a", io := fine 1 },
    { md5 := lit "ab", fileName := lit "f", number := 2, cont := lit "c", io := fine 1 }], calm [lit "f_0", lit "f_2"], ?_, rfl, ?_⟩
  · intro e he
    simp only [List.mem_cons, List.not_mem_nil, or_false] at he
    rcases he with rfl | rfl <;>
      exact ⟨by unfold Plain Paths.Name; decide +kernel, by decide +kernel, by unfold InI64; decide⟩
  · decide +kernel

/-- **C78 (partial).** If nothing was uploaded (there is no directory), this is reported, and nothing changes. Missing: single chunks,
see above. -/
theorem C78_nothing_uploaded_partial (cwd : Loc) (io : MakeIo) (f h : Bytes) (hh : Plain h) (fs : FS)
    (hd : fs (upDir cwd ++ [h]) ≠ some .dir) : makeFile cwd io fs f h = (fs, false) := by
  unfold makeFile
  rw [loc_upload cwd h hh, if_pos hd]

/-! ## C79 -/

/-- **C79 (partial).** For a plain name, unless a file is where the directory of uploads or one above it should be, `RemoveChunk` succeeds
and removes exactly the directory of that upload with all below. Missing: names that are not plain, see below. -/
theorem C79_own_upload_partial (cwd : Loc) (fs : FS) (h : Bytes) (hh : Plain h) (hway : ∀ p, p <+: upDir cwd → isFile (fs p) = false) :
    (removeChunk cwd fs h).2 = true ∧
    (∀ rest, (removeChunk cwd fs h).1 (upDir cwd ++ h :: rest) = none) ∧
    (∀ x, ¬ (upDir cwd ++ [h]) <+: x → (removeChunk cwd fs h).1 x = fs x) := by
  have hb : breakpointDir = lit "./breakpointDir" ++ [47] := by decide +kernel
  have hlast : ∀ (s : Bytes) (a : Bytes), 47 ∉ a → a ≠ [] → (47 :: a) <:+ (s ++ 47 :: h) → h = a := by
    intro s a ha hne hsuf
    obtain ⟨t, ht⟩ := hsuf
    have key : ∀ (t s a h : Bytes), 47 ∉ a → 47 ∉ h → t ++ 47 :: a = s ++ 47 :: h → a = h := by
      intro t
      induction t with
      | nil =>
        intro s a h ha hh he
        cases s with
        | nil => simpa using he
        | cons c s =>
          simp only [List.nil_append, List.cons_append, List.cons.injEq] at he
          exact absurd (by rw [he.2]; simp) ha
      | cons c t ih =>
        intro s a h ha hh he
        cases s with
        | nil =>
          simp only [List.nil_append, List.cons_append, List.cons.injEq] at he
          exact absurd (by rw [← he.2]; simp) hh
        | cons d s =>
          simp only [List.cons_append, List.cons.injEq] at he
          exact ih s a h ha hh he.2
    exact (key t s a h ha hh.1 ht).symm
  have hsplit : breakpointDir ++ h = lit "./breakpointDir" ++ 47 :: h := by rw [hb]; simp
  have hval : removeChunk cwd fs h = (removeAll fs (upDir cwd ++ [h]), true) := by
    unfold removeChunk removeAllPath
    rw [if_neg (by rw [hsplit]; simp), if_neg, if_neg, loc_upload cwd h hh, if_neg]
    · rw [List.any_eq_true]
      rintro ⟨i, hi, hf⟩
      rw [List.mem_range, List.length_append, List.length_singleton] at hi
      rw [List.take_append_of_le_length (by omega), hway _ (List.take_prefix _ _)] at hf
      cases hf
    · rw [List.isSuffixOf_iff_suffix, hsplit]
      intro hs
      exact hh.2.2.2 (hlast _ [46, 46] (by decide) (by decide) hs)
    · rintro (he | hs)
      · rw [hsplit] at he
        have := congrArg List.length he
        simp [show (lit "./breakpointDir").length = 15 by decide +kernel] at this
        omega
      · rw [List.isSuffixOf_iff_suffix, hsplit] at hs
        exact hh.2.2.1 (hlast _ [46] (by decide) (by decide) hs)
  rw [hval]
  refine ⟨rfl, ?_, ?_⟩
  · intro rest
    show (if _ then none else _) = _
    rw [if_pos ⟨rest, by simp⟩]
  · intro x hx
    show (if _ then none else _) = _
    rw [if_neg hx]

/-- Another upload is not touched. -/
theorem C79_others_kept (cwd : Loc) (fs : FS) (h g : Bytes) (hh : Plain h) (hway : ∀ p, p <+: upDir cwd → isFile (fs p) = false)
    (hne : g ≠ h) (rest : Loc) :
    (removeChunk cwd fs h).1 (upDir cwd ++ g :: rest) = fs (upDir cwd ++ g :: rest) := by
  apply (C79_own_upload_partial cwd fs h hh hway).2.2
  rintro ⟨r, hr⟩
  rw [List.append_assoc] at hr
  have := List.append_cancel_left hr
  simp only [List.cons_append, List.nil_append, List.cons.injEq] at this
  exact hne this.1.symm

/-- **C79 (refuted).** With an empty name, all uploads are removed, and success is reported. -/
theorem C79_empty_refuted (cwd : Loc) (fs : FS) (hway : ∀ p, p <+: upDir cwd → isFile (fs p) = false) :
    (removeChunk cwd fs []).2 = true ∧ ∀ rest, (removeChunk cwd fs []).1 (upDir cwd ++ rest) = none := by
  have hval : removeChunk cwd fs [] = (removeAll fs (upDir cwd), true) := by
    unfold removeChunk removeAllPath
    rw [if_neg (by decide +kernel), if_neg (by decide +kernel), if_neg (by decide +kernel), loc_up]
    change (if (List.range (upDir cwd).length).any (fun i => isFile (fs ((upDir cwd).take i))) = true then _ else _) = _
    rw [if_neg]
    · rfl
    · rw [List.any_eq_true]
      rintro ⟨i, -, hf⟩
      rw [hway _ (List.take_prefix _ _)] at hf
      cases hf
  rw [hval]
  refine ⟨rfl, fun rest => ?_⟩
  show (if _ then none else _) = _
  rw [if_pos ⟨rest, rfl⟩]

/-- **C79 (refuted).** With the name `..`, everything below the working directory is removed (if there was any upload). -/
theorem C79_dotdot_refuted (cwd : Loc) (fs : FS) (hd : fs (upDir cwd) = some .dir) (x : Bytes) (rest : Loc) :
    (removeChunk cwd fs (lit "..")).1 (cwd ++ x :: rest) = none := by
  have hloc : loc cwd (breakpointDir ++ lit "..") = cwd := by
    rw [loc_up, Paths.elems_free _ (by decide +kernel)]
    show step (upDir cwd) (lit "..") = cwd
    unfold step upDir
    rw [if_neg (by decide +kernel), if_neg (by decide +kernel), if_pos (by decide +kernel), List.dropLast_concat]
  unfold removeChunk removeAllPath
  rw [if_neg (by decide +kernel), if_neg (by decide +kernel), if_pos (by decide +kernel)]
  have hbase : loc cwd ((breakpointDir ++ lit "..").take ((breakpointDir ++ lit "..").length - 3)) = upDir cwd := by
    rw [show (breakpointDir ++ lit "..").take ((breakpointDir ++ lit "..").length - 3) = [46] ++ 47 :: lit "breakpointDir" by decide +kernel]
    unfold loc
    rw [if_neg (by simp), Paths.elems_append [46] _ (by simp), Paths.elems_free _ (by decide +kernel), List.foldl_cons, step_dot]
    exact Paths.step_name _ (lit "breakpointDir") (by unfold Paths.Name; decide +kernel)
  rw [hbase, hd]
  dsimp only
  rw [hloc, if_pos]
  refine ⟨⟨x :: rest, rfl⟩, fun h => ?_⟩
  have := congrArg List.length h
  simp at this

/-! ## C103 -/

/-- **C103 (partial).** With a plain name of the upload and a file name without separators, an upload changes nothing outside the
directory of that upload, but for creating the directories. Missing: file names with separators, see below. -/
theorem C103_upload_stays_inside_partial (cwd : Loc) (fs : FS) (e : Upload) (he : e.Ok) (ht : Tidy cwd fs) (l : Loc)
    (h1 : ¬ l <+: upDir cwd) (h2 : ∀ rest, l ≠ upDir cwd ++ e.md5 :: rest) (hx : fs l ≠ none) : upload1 cwd fs e l = fs l := by
  obtain ⟨t1, t2, t3, t4, t5, t6⟩ := upload1_spec cwd fs e he ht
  by_cases hl : upDir cwd <+: l
  · obtain ⟨r, rfl⟩ := hl
    match r, h1, h2, hx with
    | [], h1, _, _ => exact absurd (by rw [List.append_nil]; exact List.prefix_refl _) h1
    | [g], _, _, hx =>
      cases hc : fs (upDir cwd ++ [g]) with
      | none => exact absurd hc hx
      | some nd =>
        cases nd with
        | dir => exact t4 g hc
        | file c => have := ht.dirs g; rw [hc] at this; cases this
    | [g, n], _, h2, _ =>
      rw [t2, if_neg]
      rintro ⟨-, rfl, -⟩
      exact h2 [n] rfl
    | g :: n :: m :: r, _, h2, _ => exact upload1_deep cwd fs e he ht g n m r
  · exact t5 l h1 hl

/-- **C103 (refuted).** The file name may lead out of the directory: the upload overwrites a chunk of another upload, or any other file
whose name ends in `_` and a number. -/
theorem C103_upload_escapes_refuted :
    ∃ (fs : FS) (e : Upload), Plain e.md5 ∧ fs [lit "breakpointDir", lit "zz", lit "f_0"] = some (.file (lit "good")) ∧
      (breakPointContinue [] e.io fs e.cont e.fileName e.number e.md5).2 = true ∧
      (breakPointContinue [] e.io fs e.cont e.fileName e.number e.md5).1 [lit "breakpointDir", lit "zz", lit "f_0"] =
        some (.file (lit "evil")) := by
  refine ⟨uploads [] bare [{ md5 := lit "zz", fileName := lit "f", number := 0, cont := lit "good", io := fine 4 }],
    { md5 := lit "ab", fileName := lit "../zz/f", number := 0, cont := lit "evil", io := fine 4 },
    by unfold Plain Paths.Name; decide +kernel, ?_⟩
  decide +kernel

/-- **C103 (refuted).** Likewise `MakeFile` writes outside the directory of finished files. -/
theorem C103_make_escapes_refuted :
    ∃ (fs : FS) (io : MakeIo) (f h : Bytes), Plain h ∧ fs [lit "secret"] = none ∧
      (makeFile [] io fs f h).2 = true ∧ (makeFile [] io fs f h).1 [lit "secret"] ≠ none := by
  refine ⟨uploads [] bare [{ md5 := lit "ab", fileName := lit "f", number := 0, cont := lit "hi", io := fine 2 }], calm [lit "f_0"],
    lit "../secret", lit "ab", by unfold Plain Paths.Name; decide +kernel, ?_⟩
  decide +kernel

end Verif.Fs
