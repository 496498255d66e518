import Verif.Model.Strings
import Verif.Proof.Strings
import Batteries.Lean.Except

/-!
# C80–C84: `help/utils/strings.go`

`cap` is the capacity the runtime gives to `[]rune(s)`.
-/

namespace Verif.StringsGo

open Utf8 Strings

/-- What the language guarantees about capacities. -/
def CapOk (cap : Nat → Nat) : Prop := ∀ n, n ≤ cap n

theorem slice_ok (cap : Nat) (rs : List Nat) (lo hi : Nat) (h1 : lo ≤ hi) (h2 : hi ≤ rs.length) (h3 : rs.length ≤ cap) :
    slice cap rs lo hi = .ok ((rs.take hi).drop lo) := by
  unfold slice
  rw [if_pos (by omega)]
  simp only [Int.toNat_natCast]
  rw [List.take_append_of_le_length h2]

/-! ## C84 -/

/-- Within the runes of the string, `Substr2` is slicing by runes. -/
theorem C84_slice (cap : Nat → Nat) (hc : CapOk cap) (s : Bytes) (i j : Nat) (h1 : i ≤ j) (h2 : j ≤ (runes s).length) :
    substr2 cap s i j = .ok (ofRunes (((runes s).take j).drop i)) := by
  unfold substr2
  dsimp only
  rw [slice_ok _ _ i j h1 h2 (hc _)]
  rfl

/-- The runes of the result are those from `i` to `j - 1`. -/
theorem C84_runes (cap : Nat → Nat) (hc : CapOk cap) (s : Bytes) (i j : Nat) (h1 : i ≤ j) (h2 : j ≤ (runes s).length) :
    ∃ r, substr2 cap s i j = .ok r ∧ (runes r).length = j - i ∧ ∀ k < j - i, (runes r)[k]? = (runes s)[i + k]? := by
  refine ⟨_, C84_slice cap hc s i j h1 h2, ?_⟩
  have hv : ∀ r ∈ ((runes s).take j).drop i, Valid r := fun r hr =>
    runes_valid s r (List.mem_of_mem_take (List.mem_of_mem_drop hr))
  rw [runes_ofRunes _ hv]
  refine ⟨by rw [List.length_drop, List.length_take]; omega, fun k hk => ?_⟩
  rw [List.getElem?_drop, List.getElem?_take]
  rw [if_pos (by omega)]

/-- Adjacent pieces concatenate; for valid UTF-8 the pieces up to and from any point give the string back. -/
theorem C84_concat (cap : Nat → Nat) (hc : CapOk cap) (s : Bytes) (i j k : Nat) (h1 : i ≤ j) (h2 : j ≤ k) (h3 : k ≤ (runes s).length) :
    ∃ a b c, substr2 cap s i j = .ok a ∧ substr2 cap s j k = .ok b ∧ substr2 cap s i k = .ok c ∧ a ++ b = c := by
  refine ⟨_, _, _, C84_slice cap hc s i j h1 (by omega), C84_slice cap hc s j k h2 h3, C84_slice cap hc s i k (by omega) h3, ?_⟩
  rw [← ofRunes_append]
  congr 1
  apply List.ext_getElem?
  intro n
  rw [List.getElem?_append]
  simp only [List.length_drop, List.length_take, List.getElem?_drop, List.getElem?_take]
  split
  · rw [if_pos (by omega), if_pos (by omega)]
  · rw [show j + (n - (min j (runes s).length - i)) = i + n by omega]

theorem C84_whole (cap : Nat → Nat) (hc : CapOk cap) (s : Bytes) (hs : ValidString s) :
    substr2 cap s 0 (runes s).length = .ok s := by
  have := C84_slice cap hc s 0 (runes s).length (Nat.zero_le _) (Nat.le_refl _)
  rw [List.take_length, List.drop_zero, ofRunes_runes s hs] at this
  exact this

/-- Other bounds panic. -/
theorem C84_panics (cap : Nat → Nat) (s : Bytes) (i j : Int) (h : i < 0 ∨ j < i) : substr2 cap s i j = .error .slice := by
  unfold substr2 slice
  dsimp only
  rw [if_neg (by omega)]
  rfl

/-- Above the number of runes the outcome depends on the capacity: a panic, or the text followed by NUL characters. -/
theorem C84_beyond (s : Bytes) (j : Nat) (hj : (runes s).length < j) :
    substr2 (fun n => n) s 0 j = .error .slice ∧
    substr2 (fun n => max n j) s 0 j = .ok (ofRunes (runes s) ++ List.replicate (j - (runes s).length) 0) := by
  constructor
  · unfold substr2 slice
    dsimp only
    rw [if_neg (by omega)]
    rfl
  · unfold substr2 slice
    dsimp only
    have hm : max (runes s).length j = j := by omega
    rw [if_pos (by omega), hm]
    simp only [Int.toNat_natCast, Int.toNat_zero, List.drop_zero, Go.bind_ok, Go.pure_eq, Except.ok.injEq]
    rw [List.take_of_length_le (by rw [List.length_append, List.length_replicate]; omega), ofRunes_append,
      ofRunes_ascii (List.replicate _ _) (fun b hb => by rw [(List.mem_replicate.1 hb).2]; omega)]

/-- "héllo": runes 1 and 2. -/
example : substr2 (fun n => n) (lit "héllo") 1 3 = .ok (lit "él") := by decide +kernel

/-! ## C83 -/

/-- `UpperFirst` returns its argument. -/
theorem C83_unchanged (s : Bytes) : upperFirst s = s := by
  unfold upperFirst
  split <;> rfl

/-- So the first letter is in upper case only if it was so before. -/
theorem C83_refuted : ∃ s : Bytes, s.head? = some 97 ∧ (upperFirst s).head? = some 97 := ⟨lit "abc", by decide, by decide⟩

/-- If the first character is no lower-case ASCII letter, the claim holds trivially. -/
theorem C83_partial (s : Bytes) (b : Nat) (h : s.head? = some b) (hb : ¬ (97 ≤ b ∧ b ≤ 122)) :
    ∃ b', (upperFirst s).head? = some b' ∧ ¬ (97 ≤ b' ∧ b' ≤ 122) := ⟨b, by rw [C83_unchanged]; exact h, hb⟩

/-! ## C80 -/

theorem hasAt (s : Bytes) : contains s (lit "@") = true ↔ 64 ∈ s := by
  have : lit "@" = [64] := by decide
  rw [contains_iff, this]
  refine ⟨fun h => h.subset List.mem_cons_self, fun h => ?_⟩
  obtain ⟨a, b, rfl⟩ := List.append_of_mem h
  exact ⟨a, b, by simp⟩

theorem C80_empty (cap : Nat → Nat) : hideStar cap [] = .ok (lit "***") := rfl

/-- The text for a name, by its number of runes. -/
def hiddenName (rs : List Nat) : Bytes :=
  if rs.length ≤ 1 then lit "***"
  else if rs.length = 2 then ofRunes (rs.take 1) ++ lit "*"
  else if rs.length = 3 then ofRunes (rs.take 1) ++ lit "*" ++ ofRunes (rs.drop 2)
  else if rs.length = 4 then ofRunes (rs.take 1) ++ lit "**" ++ ofRunes (rs.drop 3)
  else ofRunes (rs.take 2) ++ lit "***" ++ ofRunes (rs.drop (rs.length - 2))

/-- A mobile number: the digit 1 and ten digits. -/
def Mobile (s : Bytes) : Prop := ∃ ds : List Nat, ds.length = 10 ∧ (∀ d ∈ ds, d < 10) ∧ s = 49 :: ds.map (48 + ·)

theorem isMobile_iff (s : Bytes) : isMobile s = true ↔ Mobile s := by
  unfold isMobile Mobile
  rw [decide_eq_true_eq]
  constructor
  · rintro ⟨hl, hh, hd⟩
    cases s with
    | nil => cases hh
    | cons b s =>
      rw [List.head?_cons, Option.some.injEq] at hh
      subst hh
      refine ⟨s.map (· - 48), by simpa using hl, ?_, ?_⟩
      · intro d hd'
        obtain ⟨b, hb, rfl⟩ := List.mem_map.1 hd'
        have := hd b (List.mem_cons_of_mem _ hb)
        omega
      · rw [List.map_map]
        congr 1
        symm
        have : ∀ l : List Nat, (∀ b ∈ l, 48 ≤ b) → l.map ((48 + ·) ∘ (· - 48)) = l := by
          intro l
          induction l with
          | nil => intro _; rfl
          | cons b l ih =>
            intro h
            rw [List.map_cons, ih (fun b hb => h b (List.mem_cons_of_mem _ hb))]
            have := h b List.mem_cons_self
            congr 1
            show 48 + (b - 48) = b
            omega
        exact this s (fun b hb => (hd b (List.mem_cons_of_mem _ hb)).1)
  · rintro ⟨ds, hl, hd, rfl⟩
    refine ⟨by simp [hl], rfl, ?_⟩
    intro b hb
    rcases List.mem_cons.1 hb with rfl | hb
    · omega
    · obtain ⟨d, hd', rfl⟩ := List.mem_map.1 hb
      have := hd d hd'
      omega

/-- A name (no `@`, no mobile number). -/
theorem C80_short_names (cap : Nat → Nat) (hc : CapOk cap) (s : Bytes) (h0 : s ≠ []) (h1 : 64 ∉ s) (h2' : ¬ Mobile s) :
    hideStar cap s = .ok (hiddenName (runes s)) := by
  have h2 : isMobile s = false := by rw [← Bool.not_eq_true, isMobile_iff]; exact h2'
  have hat : contains s (lit "@") = false := by
    rw [← Bool.not_eq_true, hasAt]
    exact h1
  unfold hideStar hiddenName
  rw [if_neg h0, hat, h2]
  simp only [Bool.false_eq_true, if_false]
  generalize runes s = rs
  have hcap := hc rs.length
  split
  · rfl
  split
  · rename_i h
    have := slice_ok (cap rs.length) rs 0 1 (by omega) (by omega) hcap
    simp only [Int.natCast_zero, Int.natCast_one] at this
    rw [this]
    simp
  split
  · rename_i h
    have e1 := slice_ok (cap rs.length) rs 0 1 (by omega) (by omega) hcap
    have e2 := slice_ok (cap rs.length) rs 2 3 (by omega) (by omega) hcap
    simp only [Int.natCast_zero, Int.natCast_one] at e1
    rw [e1, show (2 : Int) = ((2 : Nat) : Int) from rfl, show (3 : Int) = ((3 : Nat) : Int) from rfl, e2, ← h, List.take_length]
    simp
  split
  · rename_i h
    have e1 := slice_ok (cap rs.length) rs 0 1 (by omega) (by omega) hcap
    have e2 := slice_ok (cap rs.length) rs 3 rs.length (by omega) (by omega) hcap
    simp only [Int.natCast_zero, Int.natCast_one] at e1
    rw [e1, show (rs.length : Int) - 1 = ((3 : Nat) : Int) by omega, e2, List.take_length]
    simp
  · have e1 := slice_ok (cap rs.length) rs 0 2 (by omega) (by omega) hcap
    have e2 := slice_ok (cap rs.length) rs (rs.length - 2) rs.length (by omega) (by omega) hcap
    simp only [Int.natCast_zero] at e1
    rw [show (2 : Int) = ((2 : Nat) : Int) from rfl, e1,
      show (rs.length : Int) - ((2 : Nat) : Int) = ((rs.length - 2 : Nat) : Int) by omega, e2, List.take_length]
    simp

/-- For names of more than four runes: the first two, three stars, the last two; so the output depends on nothing else. -/
theorem C80_name (cap : Nat → Nat) (hc : CapOk cap) (s : Bytes) (h1 : 64 ∉ s) (h2 : ¬ Mobile s)
    (hl : 4 < (runes s).length) :
    hideStar cap s = .ok (ofRunes ((runes s).take 2) ++ lit "***" ++ ofRunes ((runes s).drop ((runes s).length - 2))) := by
  have h0 : s ≠ [] := by
    rintro rfl
    simp [runes_nil] at hl
  rw [C80_short_names cap hc s h0 h1 h2]
  unfold hiddenName
  rw [if_neg (by omega), if_neg (by omega), if_neg (by omega), if_neg (by omega)]

theorem C80_name_depends (cap : Nat → Nat) (hc : CapOk cap) (s s' : Bytes) (h1 : 64 ∉ s) (h2 : ¬ Mobile s)
    (h1' : 64 ∉ s') (h2' : ¬ Mobile s') (hl : 4 < (runes s).length) (hl' : 4 < (runes s').length)
    (hp : (runes s).take 2 = (runes s').take 2)
    (hq : (runes s).drop ((runes s).length - 2) = (runes s').drop ((runes s').length - 2)) : hideStar cap s = hideStar cap s' := by
  rw [C80_name cap hc s h1 h2 hl, C80_name cap hc s' h1' h2' hl', hp, hq]

/-- A mobile number: the first three and the last four digits. -/
theorem C80_mobile (cap : Nat → Nat) (hc : CapOk cap) (s : Bytes) (hm : Mobile s) :
    hideStar cap s = .ok (s.take 3 ++ lit "****" ++ s.drop 7) := by
  have h := (isMobile_iff s).2 hm
  have h' := h
  simp only [isMobile, decide_eq_true_eq] at h'
  obtain ⟨hl, hh, hd⟩ := h'
  have ha : Ascii s := fun b hb => by have := hd b hb; omega
  have hat : contains s (lit "@") = false := by
    rw [← Bool.not_eq_true, hasAt]
    intro h64
    have := hd 64 h64
    omega
  have hr := runes_ascii s ha
  have e1 := C84_slice cap hc s 0 3 (by omega) (by rw [hr]; omega)
  have e2 := C84_slice cap hc s 7 11 (by omega) (by rw [hr]; omega)
  rw [hr] at e1 e2
  rw [ofRunes_ascii _ (fun b hb => ha b (List.mem_of_mem_take (List.mem_of_mem_drop hb)))] at e1 e2
  unfold hideStar
  rw [if_neg (by rintro rfl; simp at hl), hat, h]
  simp only [Bool.false_eq_true, if_false, if_true]
  have e1' : substr2 cap s 0 3 = .ok ((s.take 3).drop 0) := e1
  have e2' : substr2 cap s 7 11 = .ok ((s.take 11).drop 7) := e2
  rw [e1', e2', ← hl, List.take_length]
  simp

/-- An e-mail address whose local part has less than three bytes is hidden altogether. -/
theorem C80_email_short (cap : Nat → Nat) (l d : Bytes) (hl : 64 ∉ l) (h3 : l.length < 3) :
    hideStar cap (l ++ 64 :: d) = .ok (lit "***@" ++ d.takeWhile (· != 64)) := by
  have hat : contains (l ++ 64 :: d) (lit "@") = true := (hasAt _).2 (by simp)
  unfold hideStar
  rw [if_neg (by simp), hat]
  simp only [if_true]
  rw [show lit "@" = [64] from by decide, split_char 64 l d hl]
  have hs : Go.idx (l :: split d [64]) 1 = .ok (d.takeWhile (· != 64)) := by
    by_cases h : 64 ∈ d
    · obtain ⟨a, b, ha, rfl⟩ := mem_split 64 d h
      rw [split_char 64 a b ha]
      simp only [Go.idx, List.getElem?_cons_succ, List.getElem?_cons_zero]
      rw [List.takeWhile_append_of_pos (fun x hx => by
        simp only [bne_iff_ne, ne_eq]
        rintro rfl
        exact ha hx)]
      simp
    · rw [split_char_none 64 d h]
      simp only [Go.idx, List.getElem?_cons_succ, List.getElem?_cons_zero]
      have := List.takeWhile_append_of_pos (p := fun x => x != 64) (l₁ := d) (l₂ := []) (fun x hx => by
        simp only [bne_iff_ne, ne_eq]
        rintro rfl
        exact h hx)
      simp only [List.append_nil, List.takeWhile_nil] at this
      rw [this]
  rw [hs]
  have h0 : Go.idx (l :: split d [64]) 0 = .ok l := rfl
  rw [h0]
  simp only [Go.bind_ok, Go.pure_eq]
  rw [if_pos h3]
  rfl

/-- One with at least three: the first three characters of the address, and the domain up to the next `@`. -/
theorem C80_email (cap : Nat → Nat) (l d : Bytes) (hl : 64 ∉ l) (h3 : 3 ≤ l.length) :
    hideStar cap (l ++ 64 :: d) =
      (substr2 cap (l ++ 64 :: d) 0 3).map (fun p => p ++ lit "***@" ++ d.takeWhile (· != 64)) := by
  have hat : contains (l ++ 64 :: d) (lit "@") = true := (hasAt _).2 (by simp)
  unfold hideStar
  rw [if_neg (by simp), hat]
  simp only [if_true]
  rw [show lit "@" = [64] from by decide, split_char 64 l d hl]
  have hs : Go.idx (l :: split d [64]) 1 = .ok (d.takeWhile (· != 64)) := by
    by_cases h : 64 ∈ d
    · obtain ⟨a, b, ha, rfl⟩ := mem_split 64 d h
      rw [split_char 64 a b ha]
      simp only [Go.idx, List.getElem?_cons_succ, List.getElem?_cons_zero]
      rw [List.takeWhile_append_of_pos (fun x hx => by
        simp only [bne_iff_ne, ne_eq]
        rintro rfl
        exact ha hx)]
      simp
    · rw [split_char_none 64 d h]
      simp only [Go.idx, List.getElem?_cons_succ, List.getElem?_cons_zero]
      have := List.takeWhile_append_of_pos (p := fun x => x != 64) (l₁ := d) (l₂ := []) (fun x hx => by
        simp only [bne_iff_ne, ne_eq]
        rintro rfl
        exact h hx)
      simp only [List.append_nil, List.takeWhile_nil] at this
      rw [this]
  rw [hs]
  have h0 : Go.idx (l :: split d [64]) 0 = .ok l := rfl
  rw [h0]
  simp only [Go.bind_ok, Go.pure_eq]
  rw [if_neg (by omega)]
  generalize substr2 cap (l ++ 64 :: d) 0 3 = x
  cases x with
  | error e => rfl
  | ok p =>
    simp only [Go.bind_ok, Except.map]
    rw [show lit "***@" = lit "***" ++ [64] from by decide]
    simp

/-- So of the local part nothing after its first three characters can be seen. -/
theorem C80_email_depends (cap : Nat → Nat) (hc : CapOk cap) (l l' d : Bytes) (hl : 64 ∉ l) (hl' : 64 ∉ l')
    (h3 : 3 ≤ (runes l).length) (h3' : 3 ≤ (runes l').length) (he : (runes l).take 3 = (runes l').take 3) :
    hideStar cap (l ++ 64 :: d) = hideStar cap (l' ++ 64 :: d) := by
  have key : ∀ l : Bytes, 3 ≤ (runes l).length → substr2 cap (l ++ 64 :: d) 0 3 = .ok (ofRunes ((runes l).take 3)) := by
    intro l h
    have hr := runes_append_ascii l d 64 (by omega)
    have := C84_slice cap hc (l ++ 64 :: d) 0 3 (by omega) (by rw [hr, List.length_append]; omega)
    rw [hr, List.take_append_of_le_length h] at this
    exact this
  have b1 := (length_le_runes l).2
  have b2 := (length_le_runes l').2
  rw [C80_email cap l d hl (by omega), C80_email cap l' d hl' (by omega), key l h3, key l' h3', he]

example : hideStar (fun n => n) (lit "alexander@example.com") = .ok (lit "ale***@example.com") := by decide +kernel
example : hideStar (fun n => n) (lit "13812345678") = .ok (lit "138****5678") := by decide +kernel
example : hideStar (fun n => n) (lit "司马相如先生") = .ok (lit "司马***先生") := by decide +kernel

/-- The test for three characters counts bytes: one Chinese character passes it, and then the outcome depends on the capacity the runtime
chose: a panic, or text with a NUL character. -/
theorem C80_bytes_refuted : hideStar (fun n => n) (lit "张@") = .error .slice ∧
    hideStar (fun n => max n 32) (lit "张@") = .ok (lit "张@" ++ [0] ++ lit "***@") := by
  decide +kernel

/-! ## C81 -/

theorem maskLoop_eq (offset m : Int) (s : Bytes) (k : Nat) (pre : List Nat) (hk : pre.length = k) :
    maskLoop offset m ((s.zipIdx k).map (fun p => (p.2, p.1))) (pre ++ List.replicate s.length 0) =
      .ok (pre ++ (s.zipIdx k).map (fun p => if offset ≤ (p.2 : Int) ∧ (p.2 : Int) < m then 42 else p.1)) := by
  induction s generalizing k pre with
  | nil => simp [maskLoop]
  | cons c s ih =>
    rw [List.zipIdx_cons, List.map_cons, maskLoop, List.length_cons, List.replicate_succ]
    rw [Go.set_of_lt _ _ _ (by rw [List.length_append, List.length_cons]; omega)]
    simp only [Go.bind_ok]
    have hset : (pre ++ 0 :: List.replicate s.length 0).set k (if offset ≤ (k : Int) ∧ (k : Int) < m then 42 else c) =
        (pre ++ [if offset ≤ (k : Int) ∧ (k : Int) < m then 42 else c]) ++ List.replicate s.length 0 := by
      rw [← hk, List.set_append_right _ _ (Nat.le_refl _)]
      simp
    rw [hset, ih (k + 1) _ (by simp [hk])]
    simp

theorem mask_ascii (offset m : Nat) (s : Bytes) (hs : Ascii s) (h1 : offset ≤ m) (h2 : m < s.length) :
    mask offset m s = .ok (s.take offset ++ List.replicate (m - offset) 42 ++ s.drop m) := by
  unfold mask
  rw [if_pos (by omega), range_ascii s hs]
  have := maskLoop_eq offset m s 0 [] rfl
  simp only [List.nil_append] at this
  rw [this]
  simp only [Go.bind_ok, Go.pure_eq, Except.ok.injEq]
  have hl : (s.zipIdx.map (fun p => if (offset : Int) ≤ (p.2 : Int) ∧ (p.2 : Int) < (m : Int) then 42 else p.1)) =
      s.take offset ++ List.replicate (m - offset) 42 ++ s.drop m := by
    apply List.ext_getElem?
    intro n
    rw [List.getElem?_map, List.getElem?_zipIdx]
    simp only [List.getElem?_append, List.length_append, List.length_take, List.length_replicate, List.getElem?_take,
      List.getElem?_replicate, List.getElem?_drop, Nat.zero_add]
    by_cases a : n < offset
    · rw [if_pos (by omega), if_pos (by omega), if_pos a]
      cases s[n]? <;> simp [show ¬ (offset ≤ n) by omega]
    · by_cases b : n < m
      · rw [if_pos (by omega), if_neg (by omega), if_pos (by omega)]
        rw [List.getElem?_eq_getElem (by omega)]
        simp [show offset ≤ n by omega, b]
      · rw [if_neg (by omega), show m + (n - (min offset s.length + (m - offset))) = n by omega]
        cases s[n]? <;> simp [b]
  rw [hl]
  apply ofRunes_ascii
  intro b hb
  rcases List.mem_append.1 hb with hb | hb
  · rcases List.mem_append.1 hb with hb | hb
    · exact hs b (List.mem_of_mem_take hb)
    · rw [(List.mem_replicate.1 hb).2]; omega
  · exact hs b (List.mem_of_mem_drop hb)

/-- Lengths of Go strings are `int`s. -/
def LenOk (s : Bytes) : Prop := s.length < 2 ^ 63

/-- `MaskIDCard`: exactly the characters 4 to 3+n are replaced. -/
theorem C81_idcard (s : Bytes) (hs : Ascii s) (hlen : LenOk s) (n : Nat) (h : 4 + n < s.length) :
    maskIDCard s n = .ok (s.take 4 ++ List.replicate n 42 ++ s.drop (4 + n)) := by
  unfold maskIDCard
  unfold LenOk at hlen
  rw [wrap64_of_in (by unfold InI64; omega)]
  have := mask_ascii 4 (4 + n) s hs (by omega) h
  rw [show ((4 + n : Nat) : Int) = (n : Int) + 4 by omega] at this
  rw [show 4 + n - 4 = n by omega] at this
  exact this

/-- `MaskMobile`: from the third character on, or from the fifth for numbers of more than 11. -/
theorem C81_mobile (s : Bytes) (hs : Ascii s) (hlen : LenOk s) (n : Nat) (h : (if s.length > 11 then 5 else 3) + n < s.length) :
    maskMobile s n = .ok (s.take (if s.length > 11 then 5 else 3) ++ List.replicate n 42 ++
      s.drop ((if s.length > 11 then 5 else 3) + n)) := by
  unfold maskMobile
  unfold LenOk at hlen
  by_cases hl : s.length > 11
  · simp only [hl, if_true] at h ⊢
    rw [wrap64_of_in (by unfold InI64; omega)]
    have := mask_ascii 5 (5 + n) s hs (by omega) h
    rw [show ((5 + n : Nat) : Int) = (n : Int) + (3 + 2) by omega, show 5 + n - 5 = n by omega] at this
    exact this
  · simp only [hl, if_false] at h ⊢
    rw [wrap64_of_in (by unfold InI64; omega)]
    have := mask_ascii 3 (3 + n) s hs (by omega) h
    rw [show ((3 + n : Nat) : Int) = (n : Int) + 3 by omega, show 3 + n - 3 = n by omega] at this
    exact this

/-- `MaskBackCard`: from the fourth character on; of more than 16 characters so many more are replaced. -/
theorem C81_bankcard (s : Bytes) (hs : Ascii s) (hlen : LenOk s) (n : Nat) (h : 4 + n + (s.length - 16) < s.length) :
    maskBackCard s n = .ok (s.take 4 ++ List.replicate (n + (s.length - 16)) 42 ++ s.drop (4 + n + (s.length - 16))) := by
  unfold maskBackCard
  unfold LenOk at hlen
  rw [wrap64_of_in (by unfold InI64; omega)]
  have := mask_ascii 4 (4 + n + (s.length - 16)) s hs (by omega) h
  rw [show 4 + n + (s.length - 16) - 4 = n + (s.length - 16) by omega] at this
  by_cases hl : s.length > 16
  · simp only [hl, if_true]
    rw [wrap64_of_in (by unfold InI64; omega)]
    rw [show ((4 + n + (s.length - 16) : Nat) : Int) = (n : Int) + 4 + ((s.length : Int) - 16) by omega] at this
    exact this
  · simp only [hl, if_false]
    rw [show ((4 + n + (s.length - 16) : Nat) : Int) = (n : Int) + 4 by omega] at this
    exact this

/-- The output does not depend on the masked characters. -/
theorem C81_depends (s t : Bytes) (hs : Ascii s) (ht : Ascii t) (hls : LenOk s) (hlt : LenOk t) (n : Nat) (h : 4 + n < s.length)
    (hl : s.length = t.length) (ha : s.take 4 = t.take 4) (hb : s.drop (4 + n) = t.drop (4 + n)) :
    maskIDCard s n = maskIDCard t n := by
  rw [C81_idcard s hs hls n h, C81_idcard t ht hlt n (by omega), ha, hb]

/-- Short input, ASCII or not, is returned as it is: nothing is hidden. -/
theorem C81_short_refuted (s : Bytes) (n : Nat) (h : s.length ≤ 4 + n) (hn : n < 2 ^ 62) :
    maskIDCard s n = .ok s ∧ maskBackCard s n = .ok s := by
  have hw : wrap64 ((n : Int) + 4) = (n : Int) + 4 := wrap64_of_in (by unfold InI64; omega)
  constructor
  · unfold maskIDCard mask
    rw [hw, if_neg (by omega)]
  · unfold maskBackCard mask
    rw [hw]
    dsimp only
    split
    · rename_i hl
      rw [wrap64_of_in (by unfold InI64; omega), if_neg (by omega)]
    · rw [if_neg (by omega)]

example : maskIDCard (lit "1234") 0 = .ok (lit "1234") := (C81_short_refuted _ 0 (by decide) (by omega)).1

/-- Bank cards: with 12 or more characters to mask, no card of more than 16 is masked. -/
theorem C81_bankcard_refuted (s : Bytes) (n : Nat) (h1 : 16 < s.length) (h2 : 12 ≤ n) (hn : n < 2 ^ 62)
    (hs : s.length < 2 ^ 62) : maskBackCard s n = .ok s := by
  unfold maskBackCard mask
  rw [wrap64_of_in (by unfold InI64; omega)]
  simp only [h1, if_true]
  rw [wrap64_of_in (by unfold InI64; omega), if_neg (by omega)]

/-- Non-ASCII input: every byte but the first of a character becomes NUL. -/
theorem C81_non_ascii_refuted : maskIDCard (lit "张三丰") 3 = .ok (lit "张" ++ [0, 0] ++ lit "三" ++ [0, 0] ++ lit "*" ++ [0, 0]) := by
  decide +kernel

example : maskMobile (lit "13812345678") 4 = .ok (lit "138****5678") := by decide +kernel
example : maskBackCard (lit "6222021234567890123") 8 = .ok (lit "6222***********0123") := by decide +kernel

/-- These functions never panic. -/
theorem C81_total (offset m : Int) (s : Bytes) : ∃ r, mask offset m s = .ok r := by
  have loop : ∀ (l : List (Nat × Nat)) (card : List Nat), (∀ p ∈ l, p.1 < card.length) → ∃ r, maskLoop offset m l card = .ok r := by
    intro l
    induction l with
    | nil => intro card _; exact ⟨_, rfl⟩
    | cons p l ih =>
      intro card h
      obtain ⟨i, c⟩ := p
      rw [maskLoop, Go.set_of_lt _ _ _ (h (i, c) List.mem_cons_self)]
      exact ih _ (fun q hq => by rw [List.length_set]; exact h q (List.mem_cons_of_mem _ hq))
  have bound : ∀ s : Bytes, ∀ p ∈ range s, p.1 < s.length := by
    intro s
    induction s using runes_induct with
    | nil => intro p hp; cases hp
    | cons s hne ih =>
      intro p hp
      have hw := decode1_width s hne
      rw [range_cons s hne] at hp
      rcases List.mem_cons.1 hp with rfl | hp
      · exact List.length_pos_iff.2 hne
      · obtain ⟨q, hq, rfl⟩ := List.mem_map.1 hp
        have := ih q hq
        rw [List.length_drop] at this
        dsimp only
        omega
  unfold mask
  split
  · obtain ⟨r, hr⟩ := loop (range s) (List.replicate s.length 0) (fun p hp => by
      rw [List.length_replicate]; exact bound s p hp)
    exact ⟨_, by rw [hr]; rfl⟩
  · exact ⟨_, rfl⟩

/-! ## C82 -/

/-- The text: by the number of bytes, the first two and the last two runes, or the first rune. Never a panic. -/
theorem C82_shape (cap : Nat → Nat) (hc : CapOk cap) (s : Bytes) :
    maskCustomerName cap s = .ok (
      if s.length > 4 then ofRunes ((runes s).take 2) ++ lit "***" ++ ofRunes ((runes s).drop ((runes s).length - 2))
      else if s = [] then [] else ofRunes ((runes s).take 1) ++ lit "***") := by
  have hl := length_le_runes s
  have hcap := hc (runes s).length
  unfold maskCustomerName
  dsimp only
  by_cases h : s.length > 4
  · rw [if_pos h, if_pos h]
    have e1 := slice_ok (cap (runes s).length) (runes s) 0 2 (by omega) (by omega) hcap
    have e2 := slice_ok (cap (runes s).length) (runes s) ((runes s).length - 2) (runes s).length (by omega) (by omega) hcap
    rw [show ((0 : Nat) : Int) = 0 from rfl] at e1
    rw [show (2 : Int) = ((2 : Nat) : Int) from rfl, e1,
      show ((runes s).length : Int) - ((2 : Nat) : Int) = (((runes s).length - 2 : Nat) : Int) by omega, e2, List.take_length]
    simp
  · rw [if_neg h, if_neg h]
    by_cases h0 : s = []
    · subst h0; rfl
    · have := List.length_pos_iff.2 h0
      rw [if_neg h0, if_neg (by omega)]
      have e1 := slice_ok (cap (runes s).length) (runes s) 0 1 (by omega) (by omega) hcap
      rw [show ((0 : Nat) : Int) = 0 from rfl] at e1
      rw [show (1 : Int) = ((1 : Nat) : Int) from rfl, e1]
      simp

/-- For more than four runes it hides the ones between. -/
theorem C82_depends (cap : Nat → Nat) (hc : CapOk cap) (s s' : Bytes) (h : 4 < (runes s).length) (h' : 4 < (runes s').length)
    (hp : (runes s).take 2 = (runes s').take 2)
    (hq : (runes s).drop ((runes s).length - 2) = (runes s').drop ((runes s').length - 2)) :
    maskCustomerName cap s = maskCustomerName cap s' := by
  have h1 := (length_le_runes s).2
  have h2 := (length_le_runes s').2
  rw [C82_shape cap hc, C82_shape cap hc, if_pos (by omega), if_pos (by omega), hp, hq]

/-- Names of two to four characters that are more than four bytes are shown entirely: every rune of the name is in the result. -/
theorem C82_short_refuted (cap : Nat → Nat) (hc : CapOk cap) (s : Bytes) (h1 : 4 < s.length) (h2 : (runes s).length ≤ 4) :
    ∃ r, maskCustomerName cap s = .ok r ∧ ∀ c ∈ runes s, c ∈ runes r := by
  refine ⟨_, C82_shape cap hc s, ?_⟩
  rw [if_pos h1]
  have hv := runes_valid s
  have e : ∀ rs : List Nat, (∀ r ∈ rs, Valid r) → runes (ofRunes (rs.take 2) ++ lit "***" ++ ofRunes (rs.drop (rs.length - 2))) =
      rs.take 2 ++ [42, 42, 42] ++ rs.drop (rs.length - 2) := by
    intro rs h
    have : ofRunes (rs.take 2) ++ lit "***" ++ ofRunes (rs.drop (rs.length - 2)) =
        ofRunes (rs.take 2 ++ [42, 42, 42] ++ rs.drop (rs.length - 2)) := by
      rw [ofRunes_append, ofRunes_append]
      rfl
    rw [this, runes_ofRunes]
    intro r hr
    rcases List.mem_append.1 hr with hr | hr
    · rcases List.mem_append.1 hr with hr | hr
      · exact h r (List.mem_of_mem_take hr)
      · left
        simp only [List.mem_cons, List.not_mem_nil, or_false] at hr
        omega
    · exact h r (List.mem_of_mem_drop hr)
  rw [e _ hv]
  intro c hcm
  have hsplit : runes s = (runes s).take 2 ++ (runes s).drop 2 := (List.take_append_drop 2 _).symm
  rw [hsplit] at hcm
  rcases List.mem_append.1 hcm with hcm | hcm
  · exact List.mem_append_left _ (List.mem_append_left _ hcm)
  · apply List.mem_append_right
    have hd : (runes s).drop 2 = ((runes s).drop ((runes s).length - 2)).drop (2 - ((runes s).length - 2)) := by
      rw [List.drop_drop]
      congr 1
      omega
    rw [hd] at hcm
    exact List.mem_of_mem_drop hcm

example : maskCustomerName (fun n => n) (lit "张三") = .ok (lit "张三***张三") := by decide +kernel
example : maskCustomerName (fun n => n) (lit "alexander") = .ok (lit "al***er") := by decide +kernel
example : maskCustomerName (fun n => n) (lit "bob") = .ok (lit "b***") := by decide +kernel

end Verif.StringsGo
