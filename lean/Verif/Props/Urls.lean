import Mathlib.Data.List.TakeWhile
import Verif.Model.Urls
import Verif.Spec.Urls
import Verif.Proof.Strings
import Mathlib.Tactic.ByContra
import Batteries.Lean.Except

/-!
# C87, C90, C97, C101, C102: URLs and file names
-/

namespace Verif.Urls

open Utf8 Strings Spec.Url

/-! ## C87 -/

/-- Exactly the strings `/x…` with `x` neither slash nor backslash. -/
theorem C87_iff (u : Bytes) : isSameSiteURLPath u = true ↔ ∃ c rest, u = 47 :: c :: rest ∧ c ≠ 47 ∧ c ≠ 92 := by
  match u with
  | [] => simp [isSameSiteURLPath]
  | [a] => simp [isSameSiteURLPath]
  | a :: b :: t =>
    simp only [isSameSiteURLPath, Bool.and_eq_true, beq_iff_eq, bne_iff_ne, List.cons.injEq]
    constructor
    · rintro ⟨⟨rfl, h1⟩, h2⟩
      exact ⟨b, t, ⟨rfl, rfl, rfl⟩, h1, h2⟩
    · rintro ⟨c, rest, ⟨rfl, rfl, rfl⟩, h1, h2⟩
      exact ⟨⟨rfl, h1⟩, h2⟩

/-- Such a reference has neither scheme nor authority. -/
theorem C87_sound (u : Bytes) (h : isSameSiteURLPath u = true) : scheme u = (none, u) ∧ authority u = none := by
  obtain ⟨c, rest, rfl, h1, -⟩ := (C87_iff u).1 h
  have hs : scheme (47 :: c :: rest) = (none, 47 :: c :: rest) := by
    simp [scheme, delim]
  refine ⟨hs, ?_⟩
  unfold authority
  rw [hs]
  split
  · rename_i h'
    simp only [List.cons.injEq] at h'
    exact absurd h'.2.1 h1
  · rfl

example : isSameSiteURLPath (lit "/a?x=//b") = true ∧ isSameSiteURLPath (lit "//b") = false ∧
    authority (lit "//b/c") = some (lit "b") ∧ scheme (lit "http:/x") = (some (lit "http"), lit "/x") := by decide +kernel

/-- The root path itself is not accepted. -/
theorem C87_root : isSameSiteURLPath (lit "/") = false ∧ authority (lit "/") = none := by decide

/-! ## C101: as seen by a browser -/

/-- A tab after the first slash: accepted, though a browser goes to the host `evil`. -/
theorem C101_refuted : ∃ u, isSameSiteURLPath u = true ∧ authority (browser u) = some (lit "evil") :=
  ⟨[47, 9, 47] ++ lit "evil", by decide +kernel, by decide +kernel⟩

/-- Without tabs and newlines a browser stays on the site, too.

Missing for the full claim: strings with those characters, for which it fails (`C101_refuted`). -/
theorem C101_partial (u : Bytes) (h : isSameSiteURLPath u = true) (hc : ∀ c ∈ u, c ≠ 9 ∧ c ≠ 10 ∧ c ≠ 13) :
    (scheme (browser u)).1 = none ∧ authority (browser u) = none := by
  obtain ⟨c, rest, rfl, h1, h2⟩ := (C87_iff u).1 h
  have hf : browser (47 :: c :: rest) = 47 :: c :: rest.map (fun c => if c = 92 then 47 else c) := by
    unfold browser
    rw [List.filter_eq_self.2]
    · simp [h2]
    · intro x hx
      obtain ⟨a, b, c⟩ := hc x hx
      simp [a, b, c]
  have hs : isSameSiteURLPath (47 :: c :: rest.map (fun c => if c = 92 then 47 else c)) = true :=
    (C87_iff _).2 ⟨c, _, rfl, h1, h2⟩
  rw [hf]
  obtain ⟨h3, h4⟩ := C87_sound _ hs
  exact ⟨by rw [h3], h4⟩

/-- It suffices that the second character is none of them. -/
theorem C101_second_partial (u : Bytes) (h : isSameSiteURLPath u = true) (hc : ∀ c, u[1]? = some c → c ≠ 9 ∧ c ≠ 10 ∧ c ≠ 13) :
    (scheme (browser u)).1 = none ∧ authority (browser u) = none := by
  obtain ⟨c, rest, rfl, h1, h2⟩ := (C87_iff u).1 h
  obtain ⟨a, b, d⟩ := hc c rfl
  have hf : ∃ r, browser (47 :: c :: rest) = 47 :: c :: r := by
    refine ⟨browser rest, ?_⟩
    unfold browser
    simp [a, b, d, h2]
  obtain ⟨r, hr⟩ := hf
  rw [hr]
  obtain ⟨h3, h4⟩ := C87_sound _ ((C87_iff _).2 ⟨c, r, rfl, h1, h2⟩)
  exact ⟨by rw [h3], h4⟩

/-! ## Trimming -/

theorem trimRight_spec (s : Bytes) (c : Nat) :
    (∃ k, s = trimRight s c ++ List.replicate k c) ∧ (trimRight s c).getLast? ≠ some c := by
  unfold trimRight
  have h : s.reverse = s.reverse.takeWhile (· == c) ++ s.reverse.dropWhile (· == c) := List.takeWhile_append_dropWhile.symm
  constructor
  · refine ⟨(s.reverse.takeWhile (· == c)).length, ?_⟩
    have h1 : s.reverse.takeWhile (· == c) = List.replicate (s.reverse.takeWhile (· == c)).length c := by
      apply List.eq_replicate_iff.2
      refine ⟨rfl, fun b hb => ?_⟩
      have := List.all_takeWhile (l := s.reverse) (p := (· == c))
      rw [List.all_eq_true] at this
      simpa using this b hb
    have h2 := congrArg List.reverse h
    rw [List.reverse_reverse, List.reverse_append, h1, List.reverse_replicate] at h2
    exact h2
  · intro hl
    rw [List.getLast?_reverse] at hl
    have := List.head?_dropWhile_not (· == c) s.reverse
    rw [hl] at this
    simp at this

/-- `trimRight` is determined by that. -/
theorem trimRight_unique (t : Bytes) (c k : Nat) (h : t.getLast? ≠ some c) : trimRight (t ++ List.replicate k c) c = t := by
  unfold trimRight
  rw [List.reverse_append, List.reverse_replicate]
  have h1 : (List.replicate k c ++ t.reverse).dropWhile (· == c) = t.reverse.dropWhile (· == c) := by
    induction k with
    | zero => rfl
    | succ k ih => rw [List.replicate_succ, List.cons_append, List.dropWhile_cons]; simpa using ih
  rw [h1]
  have h2 : t.reverse.dropWhile (· == c) = t.reverse := by
    cases ht : t.reverse with
    | nil => rfl
    | cons a l =>
      have : t.getLast? = some a := by
        rw [← List.reverse_reverse t, List.getLast?_reverse, ht]
        rfl
      rw [List.dropWhile_cons]
      rw [if_neg]
      intro ha
      rw [beq_iff_eq] at ha
      rw [ha] at this
      exact h this
  rw [h2, List.reverse_reverse]

theorem trim_last (s : Bytes) (c : Nat) : (trim s c).getLast? ≠ some c := (trimRight_spec _ c).2

theorem trim_head (s : Bytes) (c : Nat) : (trim s c).head? ≠ some c := by
  obtain ⟨⟨k, hk⟩, -⟩ := trimRight_spec (trimLeft s c) c
  unfold trim
  intro h
  have : (trimLeft s c).head? = some c := by
    rw [hk, List.head?_append, h]
    rfl
  unfold trimLeft at this
  have h2 := List.head?_dropWhile_not (· == c) s
  rw [this] at h2
  simp at h2

/-! ## C90 -/

/-- The parameters in pairs; an odd last one is left out. -/
def pairs : List Bytes → List (Bytes × Bytes)
  | k :: v :: rest => (k, v) :: pairs rest
  | _ => []

/-- A pair that is written. -/
def keep (p : Bytes × Bytes) : Bool := p.1 != [] && p.2 != [48]

/-- The text before trimming. -/
def text (pre : Bytes) (params : List Bytes) : Bytes :=
  [47] ++ trim pre 47 ++ (((pairs params).filter keep).map (fun p => [47] ++ p.1 ++ [47] ++ p.2)).flatten

theorem buildLoop_eq (params acc : List Bytes) :
    buildLoop params acc = acc ++ ((pairs params).filter keep).map (fun p => p.1 ++ [47] ++ p.2) := by
  induction params, acc using buildLoop.induct with
  | case1 k v rest acc ih =>
    rw [buildLoop, pairs, ih]
    have hk : (k.length > 0 && v != lit "0") = keep (k, v) := by
      unfold keep
      rw [show lit "0" = [48] by decide]
      cases k <;> simp
    rw [hk]
    cases h : keep (k, v) with
    | true =>
      simp only [if_true]
      rw [List.filter_cons_of_pos (by exact h)]
      simp [show lit "/" = [47] by decide]
    | false =>
      simp only [Bool.false_eq_true, if_false]
      rw [List.filter_cons_of_neg (by simp [h])]
  | case2 params acc h =>
    have h1 : buildLoop params acc = acc := by
      unfold buildLoop
      split
      · exact absurd rfl (h _ _ _)
      · rfl
    have h2 : pairs params = [] := by
      unfold pairs
      split
      · exact absurd rfl (h _ _ _)
      · rfl
    rw [h1, h2]
    simp

theorem join_cons_flatten (a : Bytes) (l : List Bytes) : join [47] (a :: l) = a ++ (l.map (fun x => [47] ++ x)).flatten := by
  induction l generalizing a with
  | nil => simp [join]
  | cons b l ih =>
    have : join [47] (a :: b :: l) = a ++ [47] ++ join [47] (b :: l) := by simp [join]
    rw [this, ih b]
    simp

/-- What `BuildUrl` returns: the trimmed prefix and the pairs kept, each after a slash, without slashes at the end. -/
theorem C90_text (pre : Bytes) (params : List Bytes) : buildUrl pre params = trimRight (text pre params) 47 := by
  unfold buildUrl text
  rw [buildLoop_eq, show lit "/" = [47] by decide, List.singleton_append, List.singleton_append, join_cons_flatten]
  simp [Function.comp_def]

/-- No slash at the end. -/
theorem C90_no_trailing (pre : Bytes) (params : List Bytes) : (buildUrl pre params).getLast? ≠ some 47 := by
  rw [C90_text]
  exact (trimRight_spec _ 47).2

theorem trimRight_prefix (a b : Bytes) (c : Nat) (ha : a.getLast? ≠ some c) : a <+: trimRight (a ++ b) c := by
  obtain ⟨⟨k, hk⟩, -⟩ := trimRight_spec (a ++ b) c
  by_cases hl : a.length ≤ (trimRight (a ++ b) c).length
  · exact List.prefix_of_prefix_length_le (List.prefix_append a b) ⟨_, hk.symm⟩ hl
  · exfalso
    have h1 : trimRight (a ++ b) c <+: a :=
      List.prefix_of_prefix_length_le (⟨_, hk.symm⟩) (List.prefix_append a b) (by omega)
    obtain ⟨t, ht⟩ := h1
    have h2 : t ++ b = List.replicate k c := by
      have : trimRight (a ++ b) c ++ (t ++ b) = trimRight (a ++ b) c ++ List.replicate k c := by
        rw [← List.append_assoc, ht]
        exact hk
      exact List.append_cancel_left this
    have ht0 : t ≠ [] := by
      rintro rfl
      rw [List.append_nil] at ht
      rw [ht] at hl
      exact hl (Nat.le_refl _)
    apply ha
    rw [← ht, List.getLast?_append, List.getLast?_eq_some_getLast ht0]
    have : t.getLast ht0 ∈ List.replicate k c := by
      rw [← h2]
      exact List.mem_append_left _ (List.getLast_mem ht0)
    rw [(List.mem_replicate.1 this).2]
    rfl

/-- The result starts with a slash and the trimmed prefix, if that is not empty; and in any case it is empty or starts with
a slash. -/
theorem C90_prefix (pre : Bytes) (params : List Bytes) :
    (trim pre 47 ≠ [] → ([47] ++ trim pre 47) <+: buildUrl pre params) ∧
    (buildUrl pre params = [] ∨ (buildUrl pre params).head? = some 47) := by
  rw [C90_text]
  constructor
  · intro h
    unfold text
    apply trimRight_prefix
    rw [List.getLast?_append, List.getLast?_eq_some_getLast h]
    intro h'
    apply trim_last pre 47
    rw [List.getLast?_eq_some_getLast h]
    simpa using h'
  · obtain ⟨⟨k, hk⟩, -⟩ := trimRight_spec (text pre params) 47
    cases ht : trimRight (text pre params) 47 with
    | nil => exact Or.inl rfl
    | cons a l =>
      right
      rw [ht] at hk
      have : (text pre params).head? = some 47 := rfl
      rw [hk] at this
      exact this

/-- Without pairs that are kept: the trimmed prefix after a slash, or nothing. -/
theorem C90_no_pairs (pre : Bytes) (params : List Bytes) (h : ∀ p ∈ pairs params, keep p = false) :
    buildUrl pre params = if trim pre 47 = [] then [] else [47] ++ trim pre 47 := by
  have hf : (pairs params).filter keep = [] := by
    rw [List.filter_eq_nil_iff]
    intro p hp
    simp [h p hp]
  rw [C90_text]
  unfold text
  rw [hf]
  split
  · rename_i h0
    rw [h0]
    decide
  · rename_i h0
    have := trimRight_unique ([47] ++ trim pre 47) 47 0 (by
      rw [List.getLast?_append, List.getLast?_eq_some_getLast h0]
      intro h'
      apply trim_last pre 47
      rw [List.getLast?_eq_some_getLast h0]
      simpa using h')
    simpa using this

/-- A last parameter without partner, an empty key or the value `0` changes nothing. -/
theorem C90_ignored (pre : Bytes) (params : List Bytes) (k v : Bytes) (he : params.length % 2 = 0) :
    buildUrl pre (params ++ [k]) = buildUrl pre params ∧
    (keep (k, v) = false → buildUrl pre (params ++ [k, v]) = buildUrl pre params) := by
  have hp : ∀ l : List Bytes, params.length % 2 = 0 → pairs (params ++ l) = pairs params ++ pairs l := by
    intro l
    clear he
    induction params using pairs.induct with
    | case1 a b rest ih =>
      intro h
      simp only [List.length_cons] at h
      rw [List.cons_append, List.cons_append, pairs, pairs, ih (by omega), List.cons_append]
    | case2 params hn =>
      intro h
      match params with
      | [] => rfl
      | [a] => simp at h
      | a :: b :: rest => exact absurd rfl (hn _ _ _)
  constructor
  · rw [C90_text, C90_text, text, hp _ he]
    simp [pairs, text]
  · intro h
    rw [C90_text, C90_text, text, hp _ he]
    simp [pairs, h, text]

example : buildUrl (lit "/user/") [lit "id", lit "7", lit "page", lit "0", lit "x"] = lit "/user/id/7" := by decide +kernel

/-! ## C102: no host by accident -/

/-- If the trimmed prefix is empty, the result of two plain parameters is a network-path reference: `//a/1` names host `a`. -/
theorem C102_refuted : ∃ pre params, buildUrl pre params = lit "//a/1" ∧ authority (buildUrl pre params) = some (lit "a") :=
  ⟨lit "/", [lit "a", lit "1"], by decide +kernel, by decide +kernel⟩

/-- With a prefix that does not consist of slashes the result has neither scheme nor authority.

Missing for the full claim: the other prefixes, for which it fails (`C102_refuted`). -/
theorem C102_partial (pre : Bytes) (params : List Bytes) (h : trim pre 47 ≠ []) :
    (scheme (buildUrl pre params)).1 = none ∧ authority (buildUrl pre params) = none := by
  obtain ⟨t, ht⟩ := (C90_prefix pre params).1 h
  have hh := trim_head pre 47
  cases hp : trim pre 47 with
  | nil => exact absurd hp h
  | cons c l =>
    rw [hp] at ht hh
    have hc : c ≠ 47 := fun h => hh (by rw [h]; rfl)
    rw [← ht]
    have hs : scheme ([47] ++ c :: l ++ t) = (none, 47 :: c :: (l ++ t)) := by
      simp [scheme, delim]
    refine ⟨by rw [hs], ?_⟩
    unfold authority
    rw [hs]
    split
    · rename_i h'
      simp only [List.cons.injEq] at h'
      exact absurd h'.2.1 hc
    · rfl

/-! ## C97: `GetSuffixName` -/

theorem split_last (s sep : Bytes) (hs : sep ≠ []) :
    ∃ h : (split s sep) ≠ [], ¬ sep <:+: (split s sep).getLast h ∧
      (sep <:+: s → 1 < (split s sep).length ∧ ∃ a, s = a ++ sep ++ (split s sep).getLast h) ∧
      (¬ sep <:+: s → split s sep = [s]) := by
  have hpos : 0 < sep.length := List.length_pos_iff.2 hs
  have : ∀ n (s : Bytes), s.length ≤ n → ∃ h : (split s sep) ≠ [], ¬ sep <:+: (split s sep).getLast h ∧
      (sep <:+: s → 1 < (split s sep).length ∧ ∃ a, s = a ++ sep ++ (split s sep).getLast h) ∧
      (¬ sep <:+: s → split s sep = [s]) := by
    intro n
    induction n with
    | zero =>
      intro s hn
      have h0 : s = [] := List.length_eq_zero_iff.1 (by omega)
      subst h0
      have hno : ¬ sep <:+: [] := by rw [List.infix_nil]; exact hs
      have e := split_none [] sep hs ((index_none sep []).2 hno)
      refine ⟨by rw [e]; simp, by simp only [e, List.getLast_singleton]; exact hno, fun h => absurd h hno, fun _ => e⟩
    | succ n ih =>
      intro s hn
      cases hi : index sep s with
      | none =>
        have hno := (index_none sep s).1 hi
        have e := split_none s sep hs hi
        exact ⟨by rw [e]; simp, by simp only [e, List.getLast_singleton]; exact hno, fun h => absurd h hno, fun _ => e⟩
      | some i =>
        obtain ⟨h1, -⟩ := index_some sep s i hi
        have e := split_some s sep hs i hi
        have hl : (s.drop (i + sep.length)).length ≤ n := by
          have := congrArg List.length h1
          rw [List.length_append, List.length_append, List.length_take, List.length_drop] at this
          rw [List.length_drop]
          omega
        obtain ⟨g1, g2, g3, g4⟩ := ih _ hl
        have hin : sep <:+: s := by rw [h1]; exact ⟨_, _, rfl⟩
        refine ⟨by rw [e]; simp, ?_, fun _ => ⟨?_, ?_⟩, fun h => absurd hin h⟩
        · simp only [e, List.getLast_cons g1]
          exact g2
        · rw [e, List.length_cons]
          have := List.length_pos_iff.2 g1
          omega
        · simp only [e, List.getLast_cons g1]
          by_cases hr : sep <:+: s.drop (i + sep.length)
          · obtain ⟨-, a, ha⟩ := g3 hr
            refine ⟨s.take i ++ sep ++ a, ?_⟩
            rw [List.append_assoc (s.take i ++ sep), List.append_assoc (s.take i ++ sep), ← ha]
            exact h1
          · refine ⟨s.take i, ?_⟩
            simp only [g4 hr, List.getLast_singleton]
            exact h1
  exact this s.length s (Nat.le_refl _)

/-- The text after an occurrence of the separator, itself without separator; empty if there is none. -/
theorem C97_suffix (s sep : Bytes) (hs : sep ≠ []) :
    (¬ sep <:+: s → getSuffixName s sep = []) ∧
    (sep <:+: s → (∃ a, s = a ++ sep ++ getSuffixName s sep) ∧ ¬ sep <:+: getSuffixName s sep) := by
  obtain ⟨h, h1, h2, h3⟩ := split_last s sep hs
  unfold getSuffixName
  dsimp only
  constructor
  · intro hn
    rw [dif_neg (by rw [h3 hn]; simp)]
  · intro hn
    obtain ⟨g1, g2⟩ := h2 hn
    rw [dif_pos g1, ← List.getLast_eq_getElem h]
    exact ⟨g2, h1⟩

/-- A word that does not overlap itself. -/
def Unbordered (w : Bytes) : Prop := ∀ k, 0 < k → k < w.length → ¬ w.drop k <+: w

/-- It is the text after the last occurrence, if the separator does not overlap itself, in particular for one character.

Missing for the full claim: separators that overlap themselves, for which it fails (`C97_last_refuted`). -/
theorem C97_last_partial (s sep : Bytes) (hs : sep ≠ []) (hu : Unbordered sep) (a r : Bytes) (h : s = a ++ sep ++ r)
    (hlast : ∀ a' r', s = a' ++ sep ++ r' → r.length ≤ r'.length) : getSuffixName s sep = r := by
  have hpos : 0 < sep.length := List.length_pos_iff.2 hs
  obtain ⟨⟨b, hb⟩, hn⟩ := (C97_suffix s sep hs).2 (by rw [h]; exact ⟨a, r, rfl⟩)
  generalize getSuffixName s sep = q at hb hn ⊢
  have hle := hlast b q hb
  have hl1 := congrArg List.length h
  have hl2 := congrArg List.length hb
  simp only [List.length_append] at hl1 hl2
  rcases Nat.lt_or_ge r.length q.length with hlt | hge
  · exfalso
    -- the occurrence after `a` begins after the one after `b`
    have hq : q = s.drop (b.length + sep.length) := by rw [hb]; simp
    rcases Nat.lt_or_ge a.length (b.length + sep.length) with h1 | h1
    · -- they overlap
      apply hu (a.length - b.length) (by omega) (by omega)
      have e1 : s.drop a.length = sep ++ r := by rw [h, List.append_assoc, List.drop_left]
      have e2 : s.drop a.length = sep.drop (a.length - b.length) ++ q := by
        rw [hb, List.append_assoc, List.drop_append, List.drop_eq_nil_of_le (by omega), List.nil_append,
          List.drop_append_of_le_length (by omega)]
      rw [e1] at e2
      exact List.prefix_of_prefix_length_le (⟨q, e2.symm⟩) (List.prefix_append sep r) (by rw [List.length_drop]; omega)
    · apply hn
      rw [hq, h, List.append_assoc, List.drop_append_of_le_length (by omega), ]
      exact ⟨a.drop (b.length + sep.length), r, by rw [List.append_assoc]⟩
  · have : r.length = q.length := by omega
    rw [h] at hb
    exact ((List.append_inj' hb this).2).symm

/-- One character overlaps nothing. -/
theorem unbordered_char (c : Nat) : Unbordered [c] := by
  intro k h1 h2
  simp at h2
  omega

/-- "aaa" with "aa": the last occurrence is at the end, the result is "a". -/
theorem C97_last_refuted : ∃ s sep a : Bytes, s = a ++ sep ∧ getSuffixName s sep ≠ [] :=
  ⟨lit "aaa", lit "aa", lit "a", by decide +kernel, by decide +kernel⟩

example : getSuffixName (lit "a.tar.gz") (lit ".") = lit "gz" ∧ Unbordered (lit "::a") := by
  refine ⟨by decide +kernel, ?_⟩
  intro k h1 h2
  have : (lit "::a").length = 3 := by decide
  rw [this] at h2
  obtain rfl | rfl : k = 1 ∨ k = 2 := by omega
  · decide
  · decide

/-! ## C97: `IsImage` -/

/-- What is used of `unicode.ToLower`: ASCII letters as usual, runes stay runes. -/
structure LowerOk (lower : Nat → Nat) : Prop where
  ascii : ∀ r < 128, lower r = if 65 ≤ r ∧ r ≤ 90 then r + 32 else r
  valid : ∀ r, Valid r → Valid (lower r)

theorem ofRunes_inj (a b : List Nat) (ha : ∀ r ∈ a, Valid r) (hb : ∀ r ∈ b, Valid r) (h : ofRunes a = ofRunes b) : a = b := by
  rw [← runes_ofRunes a ha, h, runes_ofRunes b hb]

theorem dropWhile_subset (p : Nat → Bool) (l : List Nat) : ∀ r ∈ l.dropWhile p, r ∈ l := fun _ hr => (List.dropWhile_sublist p).subset hr

theorem trimSpace_subset (rs : List Nat) : ∀ r ∈ trimSpace rs, r ∈ rs := by
  intro r hr
  unfold trimSpace at hr
  rw [List.mem_reverse] at hr
  have := dropWhile_subset _ _ r hr
  rw [List.mem_reverse] at this
  exact dropWhile_subset _ _ r this

theorem exts_ascii : ∀ e ∈ exts, Ascii e := by decide +kernel

theorem isImage_last (lower : Nat → Nat) (hl : LowerOk lower) (path last : Bytes)
    (h : (46 ∉ path ∧ last = path) ∨ ∃ a, path = a ++ [46] ++ last ∧ 46 ∉ last) :
    isImage lower path = .ok (decide ((trimSpace (runes last)).map lower ∈ exts)) := by
  have hd : lit "." = [46] := by decide
  have hin : ∀ s : Bytes, [46] <:+: s ↔ 46 ∈ s := by
    intro s
    refine ⟨fun h => h.subset List.mem_cons_self, fun h => ?_⟩
    obtain ⟨a, b, rfl⟩ := List.append_of_mem h
    exact ⟨a, b, by simp⟩
  obtain ⟨g1, g2, g3, g4⟩ := split_last path [46] (by simp)
  have hlast : (split path [46]).getLast g1 = last := by
    rcases h with ⟨h1, rfl⟩ | ⟨a, h1, h2⟩
    · simp only [g4 (by rw [hin]; exact h1), List.getLast_singleton]
    · obtain ⟨-, b, hb⟩ := g3 (by rw [hin, h1]; simp)
      rw [hin] at g2
      generalize (split path [46]).getLast g1 = q at *
      rw [h1] at hb
      have hr := congrArg List.reverse hb
      simp only [List.reverse_append, List.reverse_cons, List.reverse_nil, List.nil_append] at hr
      have e : ∀ x y u v : List Nat, 46 ∉ x → 46 ∉ y → x ++ ([46] ++ u) = y ++ ([46] ++ v) → x = y := by
        intro x
        induction x with
        | nil =>
          intro y u v _ hy h
          cases y with
          | nil => rfl
          | cons c y =>
            simp only [List.nil_append, List.cons_append, List.cons.injEq] at h
            exact absurd (by rw [h.1]; exact List.mem_cons_self) hy
        | cons c x ih =>
          intro y u v hx hy h
          cases y with
          | nil =>
            simp only [List.nil_append, List.cons_append, List.cons.injEq] at h
            exact absurd (by rw [h.1]; exact List.mem_cons_self) hx
          | cons d y =>
            simp only [List.cons_append, List.cons.injEq] at h
            rw [h.1, ih y u v (fun h' => hx (List.mem_cons_of_mem _ h')) (fun h' => hy (List.mem_cons_of_mem _ h')) (by simpa using h.2)]
      have := e last.reverse q.reverse _ _ (by simpa using h2) (by simpa using g2) (by simpa using hr)
      exact (List.reverse_inj.1 this).symm
  unfold isImage
  rw [hd]
  dsimp only
  have hlen := List.length_pos_iff.2 g1
  rw [Go.idx_of_lt _ _ (show (split path [46]).length - 1 < (split path [46]).length by omega), ← List.getLast_eq_getElem g1, hlast]
  simp only [Go.bind_ok, Go.pure_eq, Except.ok.injEq, decide_eq_decide]
  have hv : ∀ r ∈ (trimSpace (runes last)).map lower, Valid r := by
    intro r hr
    obtain ⟨x, hx, rfl⟩ := List.mem_map.1 hr
    exact hl.valid x (runes_valid last x (trimSpace_subset _ x hx))
  constructor
  · intro hm
    have he : ofRunes (ofRunes ((trimSpace (runes last)).map lower)) = ofRunes ((trimSpace (runes last)).map lower) :=
      ofRunes_ascii _ (exts_ascii _ hm)
    have hva : ∀ r ∈ ofRunes ((trimSpace (runes last)).map lower), Valid r := fun r hr =>
      Or.inl (Nat.lt_trans (exts_ascii _ hm r hr) (by decide))
    rw [← ofRunes_inj _ _ hva hv he]
    exact hm
  · intro hm
    rw [ofRunes_ascii _ (exts_ascii _ hm)]
    exact hm

theorem exts_images : exts = images := by decide

/-- The white space of Unicode (property `White_Space`). -/
def blanks : List Nat :=
  [9, 10, 11, 12, 13, 32, 0x85, 0xA0, 0x1680, 0x2000, 0x2001, 0x2002, 0x2003, 0x2004, 0x2005, 0x2006, 0x2007, 0x2008, 0x2009, 0x200A, 0x2028,
    0x2029, 0x202F, 0x205F, 0x3000]

/-- `t` is `l` without the blanks at its ends. -/
def Trimmed (l t : List Nat) : Prop :=
  ∃ a b, l = a ++ t ++ b ∧ (∀ r ∈ a, r ∈ blanks) ∧ (∀ r ∈ b, r ∈ blanks) ∧ (∀ r ∈ t.head?, r ∉ blanks) ∧ ∀ r ∈ t.getLast?, r ∉ blanks

theorem isSpace_iff (r : Nat) : isSpace r = true ↔ r ∈ blanks := by
  unfold isSpace blanks
  simp only [decide_eq_true_eq, List.mem_cons, List.not_mem_nil, or_false]
  omega

theorem isSpace_false_iff (r : Nat) : isSpace r = false ↔ r ∉ blanks := by
  rw [← isSpace_iff, Bool.not_eq_true]

theorem dropWhile_append_all (a l : List Nat) (ha : ∀ r ∈ a, isSpace r = true) : (a ++ l).dropWhile isSpace = l.dropWhile isSpace := by
  induction a with
  | nil => rfl
  | cons x a ih =>
    rw [List.cons_append, List.dropWhile_cons, if_pos (ha x List.mem_cons_self)]
    exact ih (fun r hr => ha r (List.mem_cons_of_mem _ hr))

theorem dropWhile_head (l : List Nat) (h : ∀ r ∈ l.head?, isSpace r = false) : l.dropWhile isSpace = l := by
  cases l with
  | nil => rfl
  | cons a l => rw [List.dropWhile_cons, h a (by simp)]; rfl

theorem dropWhile_all (l : List Nat) (h : ∀ r ∈ l, isSpace r = true) : l.dropWhile isSpace = [] := by
  have := dropWhile_append_all l [] h
  simpa using this

theorem trimSpace_trimmed {l t : List Nat} (h : Trimmed l t) : trimSpace l = t := by
  obtain ⟨a, b, rfl, ha, hb, h1, h2⟩ := h
  have hb' : ∀ r ∈ b.reverse, isSpace r = true := fun r hr => (isSpace_iff r).2 (hb r (List.mem_reverse.1 hr))
  unfold trimSpace
  rw [List.append_assoc, dropWhile_append_all a _ (fun r hr => (isSpace_iff r).2 (ha r hr))]
  cases t with
  | nil =>
    rw [List.nil_append, dropWhile_all b (fun r hr => (isSpace_iff r).2 (hb r hr))]
    rfl
  | cons x t =>
    rw [dropWhile_head (x :: t ++ b) (by
      intro r hr
      exact (isSpace_false_iff r).2 (h1 r (by simpa using hr)))]
    rw [List.reverse_append, dropWhile_append_all _ _ hb', dropWhile_head _ (by
      intro r hr
      rw [List.head?_reverse] at hr
      exact (isSpace_false_iff r).2 (h2 r hr)), List.reverse_reverse]

/-- Every text has such a middle. -/
theorem trimmed_exists (l : List Nat) : ∃ t, Trimmed l t := by
  refine ⟨trimSpace l, l.takeWhile isSpace, ((l.dropWhile isSpace).reverse.takeWhile isSpace).reverse, ?_, ?_, ?_, ?_, ?_⟩
  · unfold trimSpace
    rw [List.append_assoc, ← List.reverse_append, List.takeWhile_append_dropWhile, List.reverse_reverse, List.takeWhile_append_dropWhile]
  · intro r hr
    exact (isSpace_iff r).1 (List.mem_takeWhile_imp hr)
  · intro r hr
    exact (isSpace_iff r).1 (List.mem_takeWhile_imp (List.mem_reverse.1 hr))
  · intro r hr
    unfold trimSpace at hr
    rw [List.head?_reverse] at hr
    have hsuf := List.dropWhile_suffix (l := (l.dropWhile isSpace).reverse) isSpace
    generalize hd : (l.dropWhile isSpace).reverse.dropWhile isSpace = d at hr hsuf
    have hne : d ≠ [] := by rintro rfl; simp at hr
    have : (l.dropWhile isSpace).reverse.getLast? = some r := by
      obtain ⟨p, hp⟩ := hsuf
      rw [← hp, List.getLast?_append]
      rw [Option.mem_def.1 hr]; rfl
    rw [List.getLast?_reverse] at this
    have := List.head?_dropWhile_not isSpace l
    rename_i h
    rw [h] at this
    exact (isSpace_false_iff r).1 (by simpa using this)
  · intro r hr
    unfold trimSpace at hr
    rw [List.getLast?_reverse] at hr
    have := List.head?_dropWhile_not isSpace (l.dropWhile isSpace).reverse
    rw [Option.mem_def.1 hr] at this
    exact (isSpace_false_iff r).1 (by simpa using this)

/-- `IsImage` never panics and depends on the text after the last dot (the whole name if there is no dot): without the blanks at its ends
and in lower case it must be one of the seven. -/
theorem C97_image (lower : Nat → Nat) (hl : LowerOk lower) (path last : Bytes)
    (h : (46 ∉ path ∧ last = path) ∨ ∃ a, path = a ++ [46] ++ last ∧ 46 ∉ last) (t : List Nat) (ht : Trimmed (runes last) t) :
    isImage lower path = .ok (decide (t.map lower ∈ images)) := by
  rw [← exts_images, ← trimSpace_trimmed ht]
  exact isImage_last lower hl path last h

/-- Lower case in ASCII. -/
def asciiLower (r : Nat) : Nat := if 65 ≤ r ∧ r ≤ 90 then r + 32 else r

theorem trimSpace_self (l : List Nat) (h : ∀ r ∈ l, isSpace r = false) : trimSpace l = l := by
  unfold trimSpace
  have h1 : ∀ l : List Nat, (∀ r ∈ l, isSpace r = false) → l.dropWhile isSpace = l := by
    intro l h
    cases l with
    | nil => rfl
    | cons a l => rw [List.dropWhile_cons, h a List.mem_cons_self]; rfl
  rw [h1 l h, h1 l.reverse (fun r hr => h r (List.mem_reverse.1 hr)), List.reverse_reverse]

/-- For an ASCII name with an extension (no blanks in it) `IsImage` accepts exactly the seven, in any case.

Missing for the full claim: names without extension and with other runes, for which it fails (`C97_image_refuted`,
`C97_unicode_refuted`), and blanks at the ends of the extension, which are ignored (`C97_image`). -/
theorem C97_image_partial (lower : Nat → Nat) (hl : LowerOk lower) (a ext : Bytes) (he : Ascii ext) (hd : 46 ∉ ext)
    (hs : ∀ r ∈ ext, r ∉ blanks) : isImage lower (a ++ [46] ++ ext) = .ok (decide (ext.map asciiLower ∈ images)) := by
  rw [← exts_images]
  rw [isImage_last lower hl _ ext (Or.inr ⟨a, rfl, hd⟩), runes_ascii ext he, trimSpace_self ext (fun r hr => (isSpace_false_iff r).2 (hs r hr))]
  congr 3
  apply List.map_congr_left
  intro r hr
  exact hl.ascii r (he r hr)

/-- A file called `png`, without extension, is taken for an image. -/
theorem C97_image_refuted (lower : Nat → Nat) (hl : LowerOk lower) : 46 ∉ lit "png" ∧ isImage lower (lit "png") = .ok true := by
  refine ⟨by decide, ?_⟩
  rw [isImage_last lower hl _ (lit "png") (Or.inl ⟨by decide, rfl⟩), runes_ascii _ (by decide), trimSpace_self _ (by decide)]
  have : (lit "png").map lower = lit "png" := by
    rw [show lit "png" = [112, 110, 103] by decide]
    simp [hl.ascii]
  rw [this]
  decide

/-- The extension `gİf` with U+0130, whose lower case is `i`, is taken for `gif`. -/
theorem C97_unicode_refuted (lower : Nat → Nat) (hl : LowerOk lower) (hi : lower 0x130 = 0x69) :
    isImage lower (lit "a.gİf") = .ok true := by
  rw [isImage_last lower hl _ (lit "gİf") (Or.inr ⟨lit "a", by decide +kernel, by decide⟩)]
  have h1 : runes (lit "gİf") = [103, 0x130, 102] := by decide +kernel
  rw [h1, trimSpace_self _ (by decide)]
  have : [103, 0x130, 102].map lower = lit "gif" := by
    simp only [List.map_cons, List.map_nil, hl.ascii 103 (by decide), hl.ascii 102 (by decide), hi]
    decide
  rw [this]
  decide

/-- A function with the properties assumed of `unicode.ToLower`. -/
def lowerExample (r : Nat) : Nat := if r = 0x130 then 0x69 else asciiLower r

example : LowerOk lowerExample ∧ lowerExample 0x130 = 0x69 ∧ isImage lowerExample (lit "x/photo.JPeG ") = .ok true ∧
    isImage lowerExample (lit "x/photo.jpg.exe") = .ok false := by
  refine ⟨⟨fun r hr => ?_, fun r hr => ?_⟩, by decide, by decide +kernel, by decide +kernel⟩
  · unfold lowerExample asciiLower
    rw [if_neg (by omega)]
  · unfold lowerExample asciiLower
    unfold Valid at *
    split
    · omega
    · split <;> omega

end Verif.Urls
