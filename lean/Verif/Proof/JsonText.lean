import Verif.Proof.Json
import Mathlib.Data.List.Forall2

/-!
# JSON: the parser and the grammar
-/

namespace Verif.Json

open Utf8 Spec.Decimal Spec.Json

/-! ## White space -/

theorem ws_iff (w : Bytes) : Ws w ↔ ∀ c ∈ w, isWs c = true := by
  unfold Ws isWs
  simp

theorem skipWs_append (w s : Bytes) (hw : Ws w) : skipWs (w ++ s) = skipWs s := by
  induction w with
  | nil => rfl
  | cons c w ih =>
    have hc := (ws_iff _).1 hw c (by simp)
    rw [List.cons_append]
    unfold skipWs at *
    rw [List.dropWhile_cons, if_pos hc]
    exact ih (fun x hx => hw x (by simp [hx]))

theorem skipWs_ws (w : Bytes) (hw : Ws w) : skipWs w = [] := by
  have := skipWs_append w [] hw
  rw [List.append_nil] at this
  exact this

theorem skipWs_split (s : Bytes) : ∃ w, s = w ++ skipWs s ∧ Ws w := by
  refine ⟨s.takeWhile isWs, (List.takeWhile_append_dropWhile).symm, ?_⟩
  rw [ws_iff]
  exact List.all_eq_true.1 List.all_takeWhile

/-! ## Strings -/

theorem isHex_iff (c : Nat) : isHex c = true ↔ Hex c (hexVal c) := by
  unfold isHex Hex hexVal
  simp only [decide_eq_true_eq]
  split <;> (try split) <;> omega

theorem hex_val {c n : Nat} (h : Hex c n) : isHex c = true ∧ hexVal c = n := by
  unfold Hex at h
  unfold isHex hexVal
  simp only [decide_eq_true_eq]
  split <;> (try split) <;> omega

theorem isEscape_iff (c : Nat) : isEscape c = true ↔ (c, unescape c) ∈ escapes := by
  unfold isEscape unescape escapes
  constructor
  · intro h
    simp at h
    rcases h with rfl | rfl | rfl | rfl | rfl | rfl | rfl | rfl <;> decide
  · intro h
    simp only [List.mem_cons, Prod.mk.injEq, List.not_mem_nil, or_false] at h
    have : c = 34 ∨ c = 92 ∨ c = 47 ∨ c = 98 ∨ c = 102 ∨ c = 110 ∨ c = 114 ∨ c = 116 := by omega
    rcases this with rfl | rfl | rfl | rfl | rfl | rfl | rfl | rfl <;> decide

theorem escape_val {c x : Nat} (h : (c, x) ∈ escapes) : isEscape c = true ∧ unescape c = x ∧ c ≠ 117 := by
  unfold escapes at h
  simp at h
  rcases h with ⟨rfl, rfl⟩ | ⟨rfl, rfl⟩ | ⟨rfl, rfl⟩ | ⟨rfl, rfl⟩ | ⟨rfl, rfl⟩ | ⟨rfl, rfl⟩ | ⟨rfl, rfl⟩ | ⟨rfl, rfl⟩ <;> decide

theorem scanString_sound (s raw r : Bytes) (h : scanString s = some (raw, r)) : s = raw ++ 34 :: r ∧ Chars raw := by
  induction s using scanString.induct generalizing raw r with
  | case1 => simp [scanString] at h
  | case2 s =>
    simp [scanString] at h
    rw [h.1, ← h.2]
    exact ⟨rfl, .nil⟩
  | case3 a b c d s hx ih =>
    rw [scanString, if_pos hx] at h
    obtain ⟨⟨v', r'⟩, h1, h2⟩ := Option.map_eq_some_iff.1 h
    obtain ⟨e1, e2⟩ := ih v' r' h1
    simp at h2
    rw [← h2.1, ← h2.2, e1]
    refine ⟨by simp, ?_⟩
    refine Chars.unicode [92, 117, a, b, c, d] _ v' ⟨a, b, c, d, hexVal a, hexVal b, hexVal c, hexVal d, rfl, rfl, ?_, ?_, ?_, ?_⟩ e2
    · exact (isHex_iff _).1 hx.1
    · exact (isHex_iff _).1 hx.2.1
    · exact (isHex_iff _).1 hx.2.2.1
    · exact (isHex_iff _).1 hx.2.2.2
  | case4 a b c d s hx =>
    rw [scanString, if_neg hx] at h
    simp at h
  | case5 c s hn hx ih =>
    rw [scanString, if_pos hx] at h
    · obtain ⟨⟨v', r'⟩, h1, h2⟩ := Option.map_eq_some_iff.1 h
      obtain ⟨e1, e2⟩ := ih v' r' h1
      simp at h2
      rw [← h2.1, ← h2.2, e1]
      exact ⟨by simp, .escape _ _ _ ((isEscape_iff _).1 hx) e2⟩
    · exact hn
  | case6 c s hn hx =>
    rw [scanString, if_neg hx] at h
    · simp at h
    · exact hn
  | case7 c s h1 h2 h3 hx =>
    rw [scanString, if_pos hx] at h
    · simp at h
    · exact h1
    · exact h2
    · exact h3
  | case8 c s h1 h2 h3 hx ih =>
    rw [scanString, if_neg hx] at h
    · obtain ⟨⟨v', r'⟩, e1, e2⟩ := Option.map_eq_some_iff.1 h
      obtain ⟨e3, e4⟩ := ih v' r' e1
      simp at e2
      rw [← e2.1, ← e2.2, e3]
      refine ⟨by simp, .plain _ _ (by omega) ?_ (by omega) e4⟩
      exact h1
    · exact h1
    · exact h2
    · exact h3

theorem scanString_complete (raw r : Bytes) (h : Chars raw) : scanString (raw ++ 34 :: r) = some (raw, r) := by
  induction h with
  | nil => rfl
  | plain c s h1 h2 h3 _ ih =>
    rw [List.cons_append, scanString, ih]
    · rw [if_neg (by omega)]; rfl
    · omega
    · rintro _ _ _ _ _ rfl; omega
    · rintro _ _ rfl; omega
  | escape c x s h _ ih =>
    obtain ⟨h1, -, h2⟩ := escape_val h
    simp only [List.cons_append]
    rw [scanString, if_pos h1, ih]
    · rfl
    · intro a b c d s e; omega
  | unicode t n s h _ ih =>
    obtain ⟨a, b, c, d, a', b', c', d', rfl, -, h1, h2, h3, h4⟩ := h
    simp only [List.cons_append, List.nil_append]
    rw [scanString, if_pos ⟨(hex_val h1).1, (hex_val h2).1, (hex_val h3).1, (hex_val h4).1⟩, ih]
    rfl

/-! ## Numbers -/

/-- What can follow a value. -/
def Stop (r : Bytes) : Prop := r = [] ∨ ∃ c s, r = c :: s ∧ (c = 32 ∨ c = 9 ∨ c = 10 ∨ c = 13 ∨ c = 44 ∨ c = 93 ∨ c = 125)

theorem stop_ws (w s : Bytes) (hw : Ws w) (hs : Stop s) : Stop (w ++ s) := by
  cases w with
  | nil => exact hs
  | cons c w =>
    have := hw c (by simp)
    exact Or.inr ⟨c, w ++ s, rfl, by omega⟩

theorem digits_sound (s : Bytes) (h : (digits s).1 ≠ []) : s = (digits s).1 ++ (digits s).2 ∧ Digits (digits s).1 := by
  refine ⟨(List.takeWhile_append_dropWhile).symm, h, ?_⟩
  have := List.all_eq_true.1 (List.all_takeWhile (p := isDigit) (l := s))
  intro d hd
  have := this d hd
  simpa [isDigit] using this

theorem digits_complete (ds r : Bytes) (h : ∀ d ∈ ds, 48 ≤ d ∧ d ≤ 57) (hr : r = [] ∨ ∃ c s, r = c :: s ∧ ¬ (48 ≤ c ∧ c ≤ 57)) :
    digits (ds ++ r) = (ds, r) := by
  rcases hr with rfl | ⟨c, s, rfl, hc⟩
  · have h' : ∀ d ∈ ds, isDigit d = true := fun d hd => by simpa [isDigit] using h d hd
    unfold digits
    rw [List.append_nil]
    have e : ∀ ds : Bytes, (∀ d ∈ ds, isDigit d = true) → ds.takeWhile isDigit = ds ∧ ds.dropWhile isDigit = [] := by
      intro ds
      induction ds with
      | nil => intro _; exact ⟨rfl, rfl⟩
      | cons d ds ih =>
        intro h
        obtain ⟨i1, i2⟩ := ih (fun x hx => h x (by simp [hx]))
        rw [List.takeWhile_cons, if_pos (h d (by simp)), i1, List.dropWhile_cons, if_pos (h d (by simp)), i2]
        exact ⟨rfl, rfl⟩
    rw [(e ds h').1, (e ds h').2]
  · exact digits_append ds h c hc s

theorem scanInt_sound (s i r : Bytes) (h : scanInt s = some (i, r)) : s = i ++ r ∧ (i = [48] ∨ Digits i ∧ i.head? ≠ some 48) := by
  unfold scanInt at h
  split at h
  · simp at h
    rw [← h.1, ← h.2]
    exact ⟨rfl, Or.inl rfl⟩
  · rename_i hz
    split at h
    · cases h
    · rename_i hne
      obtain ⟨h1, h2⟩ := digits_sound s hne
      injection h with h
      have e1 : (digits s).1 = i := by rw [h]
      have e2 : (digits s).2 = r := by rw [h]
      rw [e1, e2] at h1
      rw [e1] at h2
      refine ⟨h1, Or.inr ⟨h2, ?_⟩⟩
      intro hh
      cases i with
      | nil => cases hh
      | cons c i =>
        simp at hh
        subst hh
        exact hz (i ++ r) h1

theorem scanInt_complete (i r : Bytes) (h : i = [48] ∨ Digits i ∧ i.head? ≠ some 48)
    (hr : r = [] ∨ ∃ c s, r = c :: s ∧ ¬ (48 ≤ c ∧ c ≤ 57)) : scanInt (i ++ r) = some (i, r) := by
  rcases h with rfl | ⟨h1, h2⟩
  · rfl
  · have hd := digits_complete i r h1.2 hr
    unfold scanInt
    split
    · rename_i s hs
      exfalso
      cases i with
      | nil => exact h1.1 rfl
      | cons a b =>
        simp at hs h2
        exact h2 hs.1
    · rw [hd, if_neg h1.1]

theorem scanFrac_sound (s f r : Bytes) (h : scanFrac s = some (f, r)) : s = f ++ r ∧ (f = [] ∨ ∃ ds, f = 46 :: ds ∧ Digits ds) := by
  unfold scanFrac at h
  split at h
  · rename_i t
    split at h
    · cases h
    · rename_i hne
      obtain ⟨h1, h2⟩ := digits_sound t hne
      simp at h
      rw [← h.1, ← h.2]
      refine ⟨?_, Or.inr ⟨_, rfl, h2⟩⟩
      rw [List.cons_append, ← h1]
  · simp at h
    rw [h.1, ← h.2]
    exact ⟨rfl, Or.inl rfl⟩

theorem scanFrac_complete (f r : Bytes) (h : f = [] ∨ ∃ ds, f = 46 :: ds ∧ Digits ds)
    (hr : r = [] ∨ ∃ c s, r = c :: s ∧ ¬ (48 ≤ c ∧ c ≤ 57) ∧ c ≠ 46) : scanFrac (f ++ r) = some (f, r) := by
  rcases h with rfl | ⟨ds, rfl, hd⟩
  · unfold scanFrac
    split
    · rename_i hs
      rcases hr with rfl | ⟨c, s, rfl, -, hc⟩
      · cases hs
      · simp at hs
        exact absurd hs.1 hc
    · rfl
  · have := digits_complete ds r hd.2 (by rcases hr with h | ⟨c, s, h, h', -⟩; exact Or.inl h; exact Or.inr ⟨c, s, h, h'⟩)
    rw [List.cons_append, scanFrac, this, if_neg hd.1]

theorem scanExp_sound (s e r : Bytes) (h : scanExp s = some (e, r)) :
    s = e ++ r ∧ (e = [] ∨ ∃ x sg ds, e = x :: (sg ++ ds) ∧ (x = 101 ∨ x = 69) ∧ (sg = [] ∨ sg = [43] ∨ sg = [45]) ∧ Digits ds) := by
  unfold scanExp at h
  split at h
  · split at h
    · rename_i x _ hx
      split at h
      · rename_i c t
        split at h
        · rename_i hc
          split at h
          · cases h
          · rename_i hne
            obtain ⟨h1, h2⟩ := digits_sound t hne
            simp at h
            rw [← h.1, ← h.2]
            refine ⟨?_, Or.inr ⟨x, [c], _, rfl, hx, ?_, h2⟩⟩
            · simp only [List.cons_append]; rw [← h1]
            · rcases hc with rfl | rfl <;> simp
        · split at h
          · cases h
          · rename_i hne
            obtain ⟨h1, h2⟩ := digits_sound (c :: t) hne
            simp at h
            rw [← h.1, ← h.2]
            refine ⟨?_, Or.inr ⟨x, [], _, rfl, hx, Or.inl rfl, h2⟩⟩
            simp only [List.cons_append]; rw [← h1]
      · cases h
    · simp at h
      rw [h.1, ← h.2]
      exact ⟨rfl, Or.inl rfl⟩
  · simp at h
    rw [h.1, h.2]
    exact ⟨rfl, Or.inl rfl⟩

theorem scanExp_complete (e r : Bytes)
    (h : e = [] ∨ ∃ x sg ds, e = x :: (sg ++ ds) ∧ (x = 101 ∨ x = 69) ∧ (sg = [] ∨ sg = [43] ∨ sg = [45]) ∧ Digits ds) (hr : Stop r) :
    scanExp (e ++ r) = some (e, r) := by
  have hr' : r = [] ∨ ∃ c s, r = c :: s ∧ ¬ (48 ≤ c ∧ c ≤ 57) := by
    rcases hr with h | ⟨c, s, h, h'⟩
    · exact Or.inl h
    · exact Or.inr ⟨c, s, h, by omega⟩
  rcases h with rfl | ⟨x, sg, ds, rfl, hx, hsg, hd⟩
  · rcases hr with rfl | ⟨c, s, rfl, hc⟩
    · rfl
    · rw [List.nil_append]
      unfold scanExp
      simp only
      rw [if_neg (by omega)]
  · have := digits_complete ds r hd.2 hr'
    cases hds : ds with
    | nil => exact absurd hds hd.1
    | cons d t =>
      have hd1 := hd.2 d (by simp [hds])
      rw [hds] at this
      rcases hsg with rfl | rfl | rfl
      · simp only [List.nil_append, List.cons_append] at this ⊢
        unfold scanExp
        simp only
        rw [if_pos hx, if_neg (by omega), this]
        simp
      · simp only [List.nil_append, List.cons_append] at this ⊢
        unfold scanExp
        simp [hx, this]
      · simp only [List.nil_append, List.cons_append] at this ⊢
        unfold scanExp
        simp [hx, this]

theorem scanNumber_sound (s t r : Bytes) (h : scanNumber s = some (t, r)) : s = t ++ r ∧ Number t := by
  unfold scanNumber at h
  simp only [Option.bind_eq_bind, Option.bind_eq_some_iff, Prod.exists] at h
  obtain ⟨i, s1, h1, f, s2, h2, e, s3, h3, h4⟩ := h
  obtain ⟨a1, a2⟩ := scanInt_sound _ _ _ h1
  obtain ⟨b1, b2⟩ := scanFrac_sound _ _ _ h2
  obtain ⟨c1, c2⟩ := scanExp_sound _ _ _ h3
  simp only [Option.pure_def, Option.some.injEq, Prod.mk.injEq] at h4
  have hs : s = (if s.head? = some 45 then [45] else []) ++ s.drop (if s.head? = some 45 then [45] else []).length := by
    split
    · rename_i hh
      cases s with
      | nil => cases hh
      | cons c s =>
        simp at hh
        simp [hh]
    · simp
  constructor
  · rw [← h4.1, ← h4.2]
    conv_lhs => rw [hs, a1, b1, c1]
    simp
  · rw [← h4.1]
    refine ⟨_, i, f, e, by rw [List.append_assoc, List.append_assoc], ?_, a2, b2, c2⟩
    split
    · exact Or.inr rfl
    · exact Or.inl rfl

theorem scanNumber_complete (t r : Bytes) (h : Number t) (hr : Stop r) : scanNumber (t ++ r) = some (t, r) := by
  obtain ⟨sign, i, f, e, rfl, hs, hi, hf, he⟩ := h
  have e1 := scanExp_complete e r he hr
  have hre : e ++ r = [] ∨ ∃ c s, e ++ r = c :: s ∧ ¬ (48 ≤ c ∧ c ≤ 57) ∧ c ≠ 46 := by
    rcases he with rfl | ⟨x, sg, ds, rfl, hx, -, -⟩
    · rcases hr with rfl | ⟨c, s, rfl, hc⟩
      · exact Or.inl rfl
      · exact Or.inr ⟨c, s, rfl, by omega, by omega⟩
    · exact Or.inr ⟨x, _, rfl, by omega, by omega⟩
  have f1 := scanFrac_complete f (e ++ r) hf hre
  have hrf : f ++ (e ++ r) = [] ∨ ∃ c s, f ++ (e ++ r) = c :: s ∧ ¬ (48 ≤ c ∧ c ≤ 57) := by
    rcases hf with rfl | ⟨ds, rfl, -⟩
    · rcases hre with h | ⟨c, s, h, h', -⟩
      · exact Or.inl h
      · exact Or.inr ⟨c, s, h, h'⟩
    · exact Or.inr ⟨46, _, rfl, by omega⟩
  have i1 := scanInt_complete i (f ++ (e ++ r)) hi hrf
  have hh : (i ++ (f ++ (e ++ r))).head? ≠ some 45 := by
    rcases hi with rfl | ⟨h, -⟩
    · simp
    · cases hx : i with
      | nil => exact absurd hx h.1
      | cons a b =>
        have := h.2 a (by simp [hx])
        simp
        omega
  unfold scanNumber
  rcases hs with rfl | rfl
  · simp only [List.nil_append, List.append_assoc]
    rw [if_neg hh]
    simp [i1, f1, e1]
  · simp [i1, f1, e1]

/-! ## Values -/

/-- The first character of a value. -/
def Begin (c : Nat) : Prop := c = 34 ∨ c = 110 ∨ c = 116 ∨ c = 102 ∨ c = 45 ∨ (48 ≤ c ∧ c ≤ 57) ∨ c = 91 ∨ c = 123

theorem number_begin (t : Bytes) (h : Number t) : ∃ c s, t = c :: s ∧ (c = 45 ∨ (48 ≤ c ∧ c ≤ 57)) := by
  obtain ⟨sign, i, f, e, rfl, hs, hi, -, -⟩ := h
  rcases hs with rfl | rfl
  · rcases hi with rfl | ⟨h, -⟩
    · exact ⟨48, _, rfl, by omega⟩
    · cases i with
      | nil => exact absurd rfl h.1
      | cons a b => exact ⟨a, _, rfl, Or.inr (h.2 a (by simp))⟩
  · exact ⟨45, _, rfl, by omega⟩

theorem scalar_begin (t : Bytes) (v : Value) (h : Scalar t v) : ∃ c s, t = c :: s ∧ Begin c ∧ c ≠ 91 ∧ c ≠ 123 := by
  cases h with
  | null => exact ⟨110, lit "ull", by decide, by unfold Begin; omega, by decide, by decide⟩
  | true => exact ⟨116, lit "rue", by decide, by unfold Begin; omega, by decide, by decide⟩
  | false => exact ⟨102, lit "alse", by decide, by unfold Begin; omega, by decide, by decide⟩
  | num t h =>
    obtain ⟨c, s, rfl, hc⟩ := number_begin t h
    exact ⟨c, s, rfl, by unfold Begin; omega, by omega, by omega⟩
  | str raw h => exact ⟨34, _, rfl, by unfold Begin; omega, by decide, by decide⟩

theorem text_begin (d : Nat) (t : Bytes) (v : Value) (h : Text d t v) : ∃ c s, t = c :: s ∧ Begin c := by
  cases d with
  | zero =>
    obtain ⟨c, s, h1, h2, -⟩ := scalar_begin t v h
    exact ⟨c, s, h1, h2⟩
  | succ d =>
    rcases h with h | ⟨w, rfl, -⟩ | ⟨w, _, rfl, -⟩ | ⟨w, rfl, -⟩ | ⟨w, _, rfl, -⟩
    · obtain ⟨c, s, h1, h2, -⟩ := scalar_begin t v h
      exact ⟨c, s, h1, h2⟩
    · exact ⟨91, _, rfl, by unfold Begin; omega⟩
    · exact ⟨91, _, rfl, by unfold Begin; omega⟩
    · exact ⟨123, _, rfl, by unfold Begin; omega⟩
    · exact ⟨123, _, rfl, by unfold Begin; omega⟩

theorem begin_ws (c : Nat) (s : Bytes) (h : Begin c) : skipWs (c :: s) = c :: s := by
  apply skipWs_cons
  unfold Begin at h
  unfold isWs
  simp only [decide_eq_false_iff_not]
  omega

theorem scalar_sound (s : Bytes) (v : Value) (r : Bytes) (h : scalar s = some (v, r)) : ∃ t, s = t ++ r ∧ Scalar t v := by
  unfold scalar at h
  split at h
  · rename_i s
    obtain ⟨⟨raw, r'⟩, h1, h2⟩ := Option.map_eq_some_iff.1 h
    obtain ⟨e1, e2⟩ := scanString_sound _ _ _ h1
    simp at h2
    rw [← h2.1, ← h2.2]
    exact ⟨34 :: (raw ++ [34]), by simp [e1], .str _ e2⟩
  · simp at h
    rw [← h.1, ← h.2]
    exact ⟨lit "null", by rw [show lit "null" = [110, 117, 108, 108] by decide]; rfl, .null⟩
  · simp at h
    rw [← h.1, ← h.2]
    exact ⟨lit "true", by rw [show lit "true" = [116, 114, 117, 101] by decide]; rfl, .true⟩
  · simp at h
    rw [← h.1, ← h.2]
    exact ⟨lit "false", by rw [show lit "false" = [102, 97, 108, 115, 101] by decide]; rfl, .false⟩
  · obtain ⟨⟨t, r'⟩, h1, h2⟩ := Option.map_eq_some_iff.1 h
    obtain ⟨e1, e2⟩ := scanNumber_sound _ _ _ h1
    simp at h2
    rw [← h2.1, ← h2.2]
    exact ⟨t, e1, .num _ e2⟩

theorem scalar_complete (t : Bytes) (v : Value) (r : Bytes) (h : Scalar t v) (hr : Stop r) : scalar (t ++ r) = some (v, r) := by
  cases h with
  | null => rw [show lit "null" = [110, 117, 108, 108] by decide]; rfl
  | true => rw [show lit "true" = [116, 114, 117, 101] by decide]; rfl
  | false => rw [show lit "false" = [102, 97, 108, 115, 101] by decide]; rfl
  | num t h =>
    obtain ⟨c, s, hc, hb⟩ := number_begin t h
    have hs := scanNumber_complete t r h hr
    rw [hc] at hs ⊢
    rw [List.cons_append] at hs ⊢
    rw [scalar]
    · rw [hs]; rfl
    all_goals
      intro s e
      injection e with e1 _
      omega
  | str raw h =>
    have := scanString_complete raw r h
    simp only [List.cons_append, List.append_assoc, List.nil_append]
    rw [scalar, this]
    rfl

/-- A parser reads the texts of a grammar. -/
def Sound (val : Bytes → Option (Value × Bytes)) (P : Bytes → Value → Prop) : Prop :=
  ∀ s v r, val s = some (v, r) → ∃ t, s = t ++ r ∧ P t v

def Complete (val : Bytes → Option (Value × Bytes)) (P : Bytes → Value → Prop) : Prop :=
  ∀ t v r, P t v → Stop r → val (t ++ r) = some (v, r)

theorem elements_sound (val : Bytes → Option (Value × Bytes)) (P : Bytes → Value → Prop) (hv : Sound val P) (f : Nat) (s : Bytes) (vs : List Value)
    (r : Bytes) (h : elements val f s = some (vs, r)) (w : Bytes) (hw : Ws w) : ∃ t, w ++ s = t ++ 93 :: r ∧ Elements P t vs := by
  induction f generalizing s vs w with
  | zero => simp [elements] at h
  | succ f ih =>
    unfold elements at h
    simp only [Option.bind_eq_bind, Option.bind_eq_some_iff, Prod.exists] at h
    obtain ⟨v, s1, h1, h2⟩ := h
    obtain ⟨t, rfl, ht⟩ := hv _ _ _ h1
    obtain ⟨w1, hw1, hw1'⟩ := skipWs_split s1
    split at h2
    · rename_i s2 hs2
      simp at h2
      rw [hs2] at hw1
      rw [← h2.1, ← h2.2, hw1]
      exact ⟨w ++ (t ++ w1), by simp, .one _ _ _ _ hw ht hw1'⟩
    · rename_i s2 hs2
      simp only [Option.bind_eq_some_iff, Prod.exists] at h2
      obtain ⟨vs', s3, h3, h4⟩ := h2
      simp at h4
      rw [h4.2] at h3
      obtain ⟨w2, hw2, hw2'⟩ := skipWs_split s2
      obtain ⟨t', ht', he⟩ := ih _ _ h3 w2 hw2'
      rw [← hw2] at ht'
      rw [hs2] at hw1
      rw [← h4.1, hw1, ht']
      exact ⟨w ++ (t ++ (w1 ++ 44 :: t')), by simp, .cons _ _ _ _ _ _ hw ht hw1' he⟩
    · simp at h2

theorem elements_complete (val : Bytes → Option (Value × Bytes)) (P : Bytes → Value → Prop) (hv : Complete val P)
    (hb : ∀ t v, P t v → ∃ c s, t = c :: s ∧ Begin c) (s : Bytes) (vs : List Value) (r : Bytes) (h : Elements P s vs) :
    ∃ n, ∀ f, n ≤ f → elements val f (skipWs (s ++ 93 :: r)) = some (vs, r) := by
  induction h with
  | one w t w' v hw ht hw' =>
    refine ⟨1, fun f hf => ?_⟩
    obtain ⟨f, rfl⟩ : ∃ g, f = g + 1 := ⟨f - 1, by omega⟩
    obtain ⟨c, s, rfl, hc⟩ := hb t v ht
    simp only [List.append_assoc]
    rw [skipWs_append _ _ hw, List.cons_append, begin_ws _ _ hc, ← List.cons_append, elements,
      hv _ _ _ ht (stop_ws _ _ hw' (Or.inr ⟨93, r, rfl, by omega⟩))]
    simp only [Option.bind_eq_bind, Option.bind_some]
    rw [skipWs_append _ _ hw', skipWs_cons _ _ (by decide)]
    rfl
  | cons w t w' v s vs hw ht hw' _ ih =>
    obtain ⟨n, ih⟩ := ih
    refine ⟨n + 1, fun f hf => ?_⟩
    obtain ⟨f, rfl⟩ : ∃ g, f = g + 1 := ⟨f - 1, by omega⟩
    obtain ⟨c, s', rfl, hc⟩ := hb t v ht
    simp only [List.append_assoc]
    rw [skipWs_append _ _ hw, List.cons_append, begin_ws _ _ hc, ← List.cons_append, elements,
      List.cons_append (bs := 93 :: r), hv _ _ _ ht (stop_ws _ _ hw' (Or.inr ⟨44, s ++ 93 :: r, rfl, by omega⟩))]
    simp only [Option.bind_eq_bind, Option.bind_some]
    rw [skipWs_append _ _ hw', skipWs_cons _ _ (by decide)]
    simp only
    rw [ih f (by omega)]
    rfl

theorem members_sound (val : Bytes → Option (Value × Bytes)) (P : Bytes → Value → Prop) (hv : Sound val P) (f : Nat) (s : Bytes)
    (ms : List (Bytes × Value)) (r : Bytes) (h : members val f s = some (ms, r)) (w : Bytes) (hw : Ws w) :
    ∃ t, w ++ s = t ++ 125 :: r ∧ Members P t ms := by
  induction f generalizing s ms w with
  | zero => simp [members] at h
  | succ f ih =>
    unfold members at h
    split at h
    · rename_i s
      simp only [Option.bind_eq_bind, Option.bind_eq_some_iff, Prod.exists] at h
      obtain ⟨k, s0, h0, h⟩ := h
      obtain ⟨rfl, hk⟩ := scanString_sound _ _ _ h0
      obtain ⟨w1, hw1, hw1'⟩ := skipWs_split s0
      split at h
      · rename_i s1 hs1
        rw [hs1] at hw1
        simp only [Option.bind_eq_some_iff, Prod.exists] at h
        obtain ⟨v, s3, h3, h2⟩ := h
        obtain ⟨w2, hw2, hw2'⟩ := skipWs_split s1
        obtain ⟨t, ht1, ht⟩ := hv _ _ _ h3
        rw [ht1] at hw2
        obtain ⟨w3, hw3, hw3'⟩ := skipWs_split s3
        split at h2
        · rename_i s4 hs4
          simp at h2
          rw [hs4] at hw3
          rw [← h2.1, ← h2.2, hw1, hw2, hw3]
          exact ⟨_, by simp, .one w k w1 w2 t w3 v hw hk hw1' hw2' ht hw3'⟩
        · rename_i s4 hs4
          simp only [Option.bind_eq_some_iff, Prod.exists] at h2
          obtain ⟨ms', s5, h5, h4⟩ := h2
          simp at h4
          rw [h4.2] at h5
          obtain ⟨w4, hw4, hw4'⟩ := skipWs_split s4
          obtain ⟨t', ht', he⟩ := ih _ _ h5 w4 hw4'
          rw [← hw4] at ht'
          rw [hs4] at hw3
          rw [← h4.1, hw1, hw2, hw3, ht']
          exact ⟨_, by simp, .cons w k w1 w2 t w3 v t' _ hw hk hw1' hw2' ht hw3' he⟩
        · simp at h2
      · simp at h
    · simp at h

theorem members_complete (val : Bytes → Option (Value × Bytes)) (P : Bytes → Value → Prop) (hv : Complete val P)
    (hb : ∀ t v, P t v → ∃ c s, t = c :: s ∧ Begin c) (s : Bytes) (ms : List (Bytes × Value)) (r : Bytes) (h : Members P s ms) :
    (∃ s', skipWs (s ++ 125 :: r) = 34 :: s') ∧ ∃ n, ∀ f, n ≤ f → members val f (skipWs (s ++ 125 :: r)) = some (ms, r) := by
  induction h with
  | one w k w1 w2 t w3 v hw hk hw1 hw2 ht hw3 =>
    obtain ⟨c, s, rfl, hc⟩ := hb t v ht
    have hs : skipWs ((w ++ 34 :: (k ++ 34 :: (w1 ++ 58 :: (w2 ++ (c :: s ++ w3))))) ++ 125 :: r) =
        34 :: (k ++ 34 :: (w1 ++ 58 :: (w2 ++ (c :: s ++ (w3 ++ 125 :: r))))) := by
      rw [List.append_assoc, skipWs_append _ _ hw, List.cons_append, skipWs_cons _ _ (by decide)]
      simp
    rw [hs]
    refine ⟨⟨_, rfl⟩, 1, fun f hf => ?_⟩
    obtain ⟨f, rfl⟩ : ∃ g, f = g + 1 := ⟨f - 1, by omega⟩
    rw [members, scanString_complete _ _ hk]
    simp only [Option.bind_eq_bind, Option.bind_some]
    rw [skipWs_append _ _ hw1, skipWs_cons _ _ (by decide)]
    simp only
    rw [skipWs_append _ _ hw2, List.cons_append, begin_ws _ _ hc, ← List.cons_append,
      hv _ _ _ ht (stop_ws _ _ hw3 (Or.inr ⟨125, r, rfl, by omega⟩))]
    simp only [Option.bind_some]
    rw [skipWs_append _ _ hw3, skipWs_cons _ _ (by decide)]
    rfl
  | cons w k w1 w2 t w3 v s ms hw hk hw1 hw2 ht hw3 _ ih =>
    obtain ⟨-, n, ih⟩ := ih
    obtain ⟨c, s', rfl, hc⟩ := hb t v ht
    have hs : skipWs ((w ++ 34 :: (k ++ 34 :: (w1 ++ 58 :: (w2 ++ (c :: s' ++ (w3 ++ 44 :: s)))))) ++ 125 :: r) =
        34 :: (k ++ 34 :: (w1 ++ 58 :: (w2 ++ (c :: s' ++ (w3 ++ 44 :: (s ++ 125 :: r)))))) := by
      rw [List.append_assoc, skipWs_append _ _ hw, List.cons_append, skipWs_cons _ _ (by decide)]
      simp
    rw [hs]
    refine ⟨⟨_, rfl⟩, n + 1, fun f hf => ?_⟩
    obtain ⟨f, rfl⟩ : ∃ g, f = g + 1 := ⟨f - 1, by omega⟩
    rw [members, scanString_complete _ _ hk]
    simp only [Option.bind_eq_bind, Option.bind_some]
    rw [skipWs_append _ _ hw1, skipWs_cons _ _ (by decide)]
    simp only
    rw [skipWs_append _ _ hw2, List.cons_append, begin_ws _ _ hc, ← List.cons_append,
      hv _ _ _ ht (stop_ws _ _ hw3 (Or.inr ⟨44, _, rfl, by omega⟩))]
    simp only [Option.bind_some]
    rw [skipWs_append _ _ hw3, skipWs_cons _ _ (by decide)]
    simp only
    rw [ih f (by omega)]
    rfl

theorem value_sound (d : Nat) : Sound (value d) (Text d) := by
  induction d with
  | zero => exact fun s v r h => scalar_sound s v r h
  | succ d ih =>
    intro s v r h
    unfold value at h
    split at h
    · rename_i s
      obtain ⟨w, hw, hw'⟩ := skipWs_split s
      split at h
      · rename_i s1 hs1
        simp at h
        rw [hs1] at hw
        rw [← h.1, ← h.2, hw]
        exact ⟨123 :: (w ++ [125]), by simp, Or.inr (Or.inr (Or.inr (Or.inl ⟨w, rfl, rfl, hw'⟩)))⟩
      · obtain ⟨⟨ms, r'⟩, h1, h2⟩ := Option.map_eq_some_iff.1 h
        simp at h2
        rw [h2.2] at h1
        obtain ⟨t, ht, hm⟩ := members_sound _ _ ih _ _ _ _ h1 w hw'
        rw [← hw] at ht
        rw [← h2.1, ht]
        exact ⟨123 :: (t ++ [125]), by simp, Or.inr (Or.inr (Or.inr (Or.inr ⟨t, ms, rfl, rfl, hm⟩)))⟩
    · rename_i s
      obtain ⟨w, hw, hw'⟩ := skipWs_split s
      split at h
      · rename_i s1 hs1
        simp at h
        rw [hs1] at hw
        rw [← h.1, ← h.2, hw]
        exact ⟨91 :: (w ++ [93]), by simp, Or.inr (Or.inl ⟨w, rfl, rfl, hw'⟩)⟩
      · obtain ⟨⟨vs, r'⟩, h1, h2⟩ := Option.map_eq_some_iff.1 h
        simp at h2
        rw [h2.2] at h1
        obtain ⟨t, ht, hm⟩ := elements_sound _ _ ih _ _ _ _ h1 w hw'
        rw [← hw] at ht
        rw [← h2.1, ht]
        exact ⟨91 :: (t ++ [93]), by simp, Or.inr (Or.inr (Or.inl ⟨t, vs, rfl, rfl, hm⟩))⟩
    · obtain ⟨t, h1, h2⟩ := scalar_sound _ _ _ h
      exact ⟨t, h1, Or.inl h2⟩

theorem value_complete (d : Nat) : Complete (value d) (Text d) := by
  induction d with
  | zero => exact fun t v r h hr => scalar_complete t v r h hr
  | succ d ih =>
    intro t v r h hr
    rcases h with h | ⟨w, rfl, rfl, hw⟩ | ⟨s, vs, rfl, rfl, he⟩ | ⟨w, rfl, rfl, hw⟩ | ⟨s, ms, rfl, rfl, he⟩
    · obtain ⟨c, s, hc, -, h1, h2⟩ := scalar_begin t v h
      have hs := scalar_complete t v r h hr
      rw [hc] at hs ⊢
      rw [List.cons_append] at hs ⊢
      rw [value]
      · exact hs
      all_goals
        intro s e
        injection e with e1 _
        omega
    · simp only [List.cons_append, List.append_assoc, List.nil_append]
      rw [value, skipWs_append _ _ hw, skipWs_cons _ _ (by decide)]
      rfl
    · obtain ⟨n, hn⟩ := elements_complete _ _ ih (text_begin d) s vs r he
      simp only [List.cons_append, List.append_assoc, List.nil_append]
      have hb : ∃ c s', skipWs (s ++ 93 :: r) = c :: s' ∧ Begin c := by
        cases he with
        | one w t w' v hw ht hw' =>
          obtain ⟨c, s, rfl, hc⟩ := text_begin _ _ _ ht
          simp only [List.append_assoc]
          rw [skipWs_append _ _ hw, List.cons_append, begin_ws _ _ hc]
          exact ⟨c, _, rfl, hc⟩
        | cons w t w' v s vs hw ht hw' _ =>
          obtain ⟨c, s, rfl, hc⟩ := text_begin _ _ _ ht
          simp only [List.append_assoc]
          rw [skipWs_append _ _ hw, List.cons_append, begin_ws _ _ hc]
          exact ⟨c, _, rfl, hc⟩
      obtain ⟨c, s', hs, hc⟩ := hb
      have := hn (max n (skipWs (s ++ 93 :: r)).length) (by omega)
      rw [elements_fuel _ (value_shrinks d) _ (skipWs (s ++ 93 :: r)).length _ (by omega) (by omega) (by rw [hs]; simp)] at this
      rw [value]
      rw [hs] at this ⊢
      split
      · rename_i s2 e
        injection e with e1 _
        unfold Begin at hc
        omega
      · rw [this]; rfl
    · simp only [List.cons_append, List.append_assoc, List.nil_append]
      rw [value, skipWs_append _ _ hw, skipWs_cons _ _ (by decide)]
      rfl
    · obtain ⟨⟨s', hs⟩, n, hn⟩ := members_complete _ _ ih (text_begin d) s ms r he
      simp only [List.cons_append, List.append_assoc, List.nil_append]
      have := hn (max n (skipWs (s ++ 125 :: r)).length) (by omega)
      rw [members_fuel _ (value_shrinks d) _ (skipWs (s ++ 125 :: r)).length _ (by omega) (by omega)] at this
      rw [value]
      rw [hs] at this ⊢
      simp only
      rw [this]
      rfl

/-- Exactly the texts of the grammar are parsed, as the values they are. -/
theorem parse_iff (s : Bytes) (v : Value) : parse s = some v ↔ Doc maxDepth s v := by
  unfold parse Doc
  constructor
  · intro h
    split at h
    · rename_i v' r hv
      split at h
      · rename_i hr
        injection h with h
        subst h
        obtain ⟨w, hw, hw'⟩ := skipWs_split s
        obtain ⟨t, ht, hT⟩ := value_sound _ _ _ _ hv
        obtain ⟨w2, hw2, hw2'⟩ := skipWs_split r
        rw [hr, List.append_nil] at hw2
        rw [ht] at hw
        exact ⟨w, t, r, hw, hw', hT, hw2 ▸ hw2'⟩
      · cases h
    · cases h
  · rintro ⟨w, t, w', rfl, hw, ht, hw'⟩
    obtain ⟨c, s, rfl, hc⟩ := text_begin _ _ _ ht
    rw [skipWs_append _ _ hw, List.cons_append, begin_ws _ _ hc, ← List.cons_append, value_complete _ _ _ _ ht]
    · simp [skipWs_ws _ hw']
    · have := stop_ws w' [] hw' (Or.inl rfl)
      simpa using this

end Verif.Json
