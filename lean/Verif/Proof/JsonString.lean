import Verif.Proof.JsonText

/-!
# JSON: what strings stand for
-/

namespace Verif.Utf8

/-- What is decoded was encoded, or is no UTF-8. -/
theorem decode1_spec (s : Bytes) (h : s ≠ []) :
    decode1 s = (runeError, 1) ∨ s = encode1 (decode1 s).1 ++ s.drop (decode1 s).2 := by
  have hv := decode1_valid s
  cases s with
  | nil => exact absurd rfl h
  | cons b0 t =>
    simp only [decode1] at hv ⊢
    by_cases h1 : b0 < 0x80
    · rw [if_pos h1]
      right
      simp [encode1, h1]
    rw [if_neg h1] at hv ⊢
    by_cases h2 : b0 < 0xC2
    · rw [if_pos h2]; exact Or.inl rfl
    rw [if_neg h2] at hv ⊢
    by_cases h3 : b0 < 0xE0
    · rw [if_pos h3] at hv ⊢
      cases t with
      | nil => exact Or.inl rfl
      | cons b1 t =>
        simp only at hv ⊢
        by_cases hc : cont b1 = true
        · rw [if_pos hc]
          right
          simp only [cont, decide_eq_true_eq] at hc
          simp only
          unfold encode1
          rw [if_neg (by omega), if_pos (by omega)]
          simp
          omega
        · rw [if_neg hc]; exact Or.inl rfl
    rw [if_neg h3] at hv ⊢
    by_cases h4 : b0 < 0xF0
    · rw [if_pos h4] at hv ⊢
      match t with
      | [] => exact Or.inl rfl
      | [b1] => exact Or.inl rfl
      | b1 :: b2 :: t =>
        simp only at hv ⊢
        by_cases hc : lo b0 ≤ b1 ∧ b1 ≤ hi b0 ∧ cont b2 = true
        · rw [if_pos hc] at hv ⊢
          right
          simp only [cont, decide_eq_true_eq] at hc
          have hlo : (b0 = 0xE0 → 0xA0 ≤ b1) ∧ 0x80 ≤ b1 ∧ b1 ≤ 0xBF := by
            unfold lo hi at hc
            split at hc <;> split at hc <;> (try split at hc) <;> (try split at hc) <;> omega
          simp only at hv ⊢
          unfold encode1
          rw [if_neg (by omega), if_neg (by omega), if_neg (by simpa using hv), if_pos (by omega)]
          simp
          omega
        · rw [if_neg hc]; exact Or.inl rfl
    rw [if_neg h4] at hv ⊢
    by_cases h5 : b0 < 0xF5
    · rw [if_pos h5] at hv ⊢
      match t with
      | [] => exact Or.inl rfl
      | [b1] => exact Or.inl rfl
      | [b1, b2] => exact Or.inl rfl
      | b1 :: b2 :: b3 :: t =>
        simp only at hv ⊢
        by_cases hc : lo b0 ≤ b1 ∧ b1 ≤ hi b0 ∧ cont b2 = true ∧ cont b3 = true
        · rw [if_pos hc] at hv ⊢
          right
          simp only [cont, decide_eq_true_eq] at hc
          have hlo : (b0 = 0xF0 → 0x90 ≤ b1) ∧ 0x80 ≤ b1 ∧ b1 ≤ 0xBF := by
            unfold lo hi at hc
            split at hc <;> split at hc <;> (try split at hc) <;> (try split at hc) <;> omega
          simp only at hv ⊢
          unfold encode1
          rw [if_neg (by omega), if_neg (by omega), if_neg (by simpa using hv), if_neg (by omega)]
          simp
          omega
        · rw [if_neg hc]; exact Or.inl rfl
    · rw [if_neg h5]; exact Or.inl rfl

/-- Bytes that begin with no rune. -/
theorem decode1_broken (s : Bytes) (h : s ≠ []) (hb : ¬ ∃ r s', Valid r ∧ s = encode1 r ++ s') : decode1 s = (runeError, 1) := by
  rcases decode1_spec s h with h1 | h1
  · exact h1
  · exact absurd ⟨_, _, decode1_valid s, h1⟩ hb

end Verif.Utf8

namespace Verif.Json

open Utf8 Spec.Decimal Spec.Json

theorem hex4_get {t : Bytes} {n : Nat} (h : Hex4 t n) (s : Bytes) : getu4 (t ++ s) = some n := by
  obtain ⟨a, b, c, d, a', b', c', d', rfl, rfl, h1, h2, h3, h4⟩ := h
  obtain ⟨x1, y1⟩ := hex_val h1
  obtain ⟨x2, y2⟩ := hex_val h2
  obtain ⟨x3, y3⟩ := hex_val h3
  obtain ⟨x4, y4⟩ := hex_val h4
  simp only [List.cons_append, List.nil_append]
  rw [getu4, if_pos ⟨x1, x2, x3, x4⟩, y1, y2, y3, y4]
  congr 1
  omega

theorem get_hex4 (s : Bytes) (n : Nat) (h : getu4 s = some n) : ∃ t s', s = t ++ s' ∧ Hex4 t n := by
  unfold getu4 at h
  split at h
  · rename_i a b c d s'
    split at h
    · rename_i hx
      injection h with h
      refine ⟨[92, 117, a, b, c, d], s', rfl, a, b, c, d, hexVal a, hexVal b, hexVal c, hexVal d, rfl, by omega, ?_⟩
      exact ⟨(isHex_iff _).1 hx.1, (isHex_iff _).1 hx.2.1, (isHex_iff _).1 hx.2.2.1, (isHex_iff _).1 hx.2.2.2⟩
    · cases h
  · cases h

theorem hex4_length {t : Bytes} {n : Nat} (h : Hex4 t n) : ∃ u, t = 92 :: 117 :: u ∧ u.length = 4 := by
  obtain ⟨a, b, c, d, -, -, -, -, rfl, -⟩ := h
  exact ⟨[a, b, c, d], rfl, rfl⟩

/-- Reading `\uXXXX`. -/
theorem unquote_hex {t : Bytes} {n : Nat} (h : Hex4 t n) (s : Bytes) (f : Nat) :
    unquoteLoop (f + 1) (t ++ s) = if 0xD800 ≤ n ∧ n < 0xE000 then
        match getu4 s with
        | some r2 =>
          if decodeSurrogates n r2 ≠ runeError then encode1 (decodeSurrogates n r2) ++ unquoteLoop f (s.drop 6)
          else encode1 runeError ++ unquoteLoop f s
        | none => encode1 runeError ++ unquoteLoop f s
      else encode1 n ++ unquoteLoop f s := by
  have hg := hex4_get h s
  obtain ⟨u, rfl, hu⟩ := hex4_length h
  have hd : (u ++ s).drop 4 = s := by rw [← hu, List.drop_left]
  have hd2 : (u ++ s).drop 10 = s.drop 6 := by
    rw [show 10 = 4 + 6 from rfl, ← List.drop_drop, hd]
  simp only [List.cons_append] at hg ⊢
  rw [unquoteLoop, hg]
  simp only [hd, hd2]
  rfl

theorem decoded_unquote (raw o : Bytes) (h : Decoded raw o) : ∀ f, raw.length ≤ f → unquoteLoop f raw = o := by
  induction h with
  | nil => intro f _; cases f <;> rfl
  | plain c s o h1 h2 _ ih =>
    intro f hf
    obtain ⟨f, rfl⟩ : ∃ g, f = g + 1 := ⟨f - 1, by simp at hf; omega⟩
    rw [unquoteLoop]
    · rw [if_pos h1, ih f (by simpa using hf)]
    · rintro _ rfl; omega
    · rintro _ _ rfl; omega
  | escape c x s o h _ ih =>
    intro f hf
    obtain ⟨f, rfl⟩ : ∃ g, f = g + 1 := ⟨f - 1, by simp at hf; omega⟩
    obtain ⟨-, h1, h2⟩ := escape_val h
    rw [unquoteLoop, ih f (by simp at hf; omega), h1]
    omega
  | unicode t n s o h h1 h2 _ ih =>
    intro f hf
    obtain ⟨u, hu, -⟩ := hex4_length h
    obtain ⟨f, rfl⟩ : ∃ g, f = g + 1 := ⟨f - 1, by simp [hu] at hf; omega⟩
    rw [unquote_hex h, if_neg (by unfold High at h1; unfold Low at h2; omega), ih f (by simp [hu] at hf; omega)]
  | pair t n t' n' s o h h' h1 h2 _ ih =>
    intro f hf
    obtain ⟨u, hu, -⟩ := hex4_length h
    obtain ⟨u', hu', hl⟩ := hex4_length h'
    obtain ⟨f, rfl⟩ : ∃ g, f = g + 1 := ⟨f - 1, by simp [hu] at hf; omega⟩
    unfold High at h1
    unfold Low at h2
    rw [unquote_hex h, if_pos (by omega), hex4_get h']
    have hd : (t' ++ s).drop 6 = s := by rw [hu', show 6 = (92 :: 117 :: u').length by simp [hl], List.drop_left]
    have hr : decodeSurrogates n n' = 0x10000 + (n - 0xD800) * 0x400 + (n' - 0xDC00) := by
      unfold decodeSurrogates
      rw [if_pos (by omega)]
      omega
    simp only
    rw [hr, if_pos (by unfold runeError; omega), hd, ih f (by simp [hu] at hf; omega)]
  | lone t n s o h h1 h2 _ ih =>
    intro f hf
    obtain ⟨u, hu, -⟩ := hex4_length h
    obtain ⟨f, rfl⟩ : ∃ g, f = g + 1 := ⟨f - 1, by simp [hu] at hf; omega⟩
    have ih := ih f (by simp [hu] at hf; omega)
    rw [unquote_hex h, if_pos (by unfold High Low at h1; omega)]
    split
    · rename_i r2 hr2
      obtain ⟨t', s', hs, ht'⟩ := get_hex4 _ _ hr2
      have : ¬ (High n ∧ Low r2) := fun hx => h2 ⟨hx.1, t', r2, s', hs, ht', hx.2⟩
      rw [if_neg, ih]
      · rfl
      · unfold decodeSurrogates
        rw [if_neg (by unfold High Low at this; omega)]
        simp
    · rw [ih]; rfl
  | multi r s o h1 h2 _ ih =>
    intro f hf
    have hl := encode1_length r
    obtain ⟨f, rfl⟩ : ∃ g, f = g + 1 := ⟨f - 1, by simp at hf; omega⟩
    rw [unquote_piece _ _ (.multi r h1 h2), ih f (by simp at hf; omega)]
  | broken c s o h1 h2 _ ih =>
    intro f hf
    obtain ⟨f, rfl⟩ : ∃ g, f = g + 1 := ⟨f - 1, by simp at hf; omega⟩
    have hd := decode1_broken (c :: s) (by simp) h2
    rw [unquoteLoop]
    · rw [if_neg (by omega), hd]
      simp only [List.drop_succ_cons, List.drop_zero]
      rw [ih f (by simpa using hf)]
      rfl
    · rintro _ rfl; omega
    · rintro _ _ rfl; omega

theorem chars_high (bs s : Bytes) (hb : ∀ b ∈ bs, 128 ≤ b) (h : Chars (bs ++ s)) : Chars s := by
  induction bs with
  | nil => exact h
  | cons b bs ih =>
    have h128 := hb b (by simp)
    rw [List.cons_append] at h
    generalize hx : b :: (bs ++ s) = x at h
    cases h with
    | nil => cases hx
    | plain c s' _ _ _ h' =>
      injection hx with h1 h2
      exact ih (fun x hx => hb x (by simp [hx])) (h2 ▸ h')
    | escape c x s' _ _ =>
      injection hx with h1 h2
      omega
    | unicode t n s' h4 _ =>
      obtain ⟨u, rfl, -⟩ := hex4_length h4
      injection hx with h1 h2
      omega

theorem chars_hex {t : Bytes} {n : Nat} (ht : Hex4 t n) (s : Bytes) (h : Chars (t ++ s)) : Chars s := by
  obtain ⟨u, rfl, hu⟩ := hex4_length ht
  generalize hx : 92 :: 117 :: u ++ s = x at h
  cases h with
  | nil => cases hx
  | plain c s' _ _ h' _ =>
    injection hx with h1 h2
    exact absurd h1.symm h'
  | escape c x s' h' _ =>
    injection hx with h1 h2
    injection h2 with h2 _
    exact absurd h2.symm (escape_val h').2.2
  | unicode t n s' h4 h' =>
    obtain ⟨u', rfl, hu'⟩ := hex4_length h4
    simp only [List.cons_append, List.cons.injEq, true_and] at hx
    have := (List.append_inj hx (by omega)).2
    exact this ▸ h'

theorem unquote_decoded (f : Nat) (raw : Bytes) (h : Chars raw) (hf : raw.length ≤ f) : Decoded raw (unquoteLoop f raw) := by
  induction f generalizing raw with
  | zero =>
    have : raw = [] := by cases raw <;> simp_all
    subst this
    exact .nil
  | succ f ih =>
    cases h with
    | nil => exact .nil
    | plain c s h1 h2 h3 h4 =>
      have e : unquoteLoop (f + 1) (c :: s) = if c < 0x80 then c :: unquoteLoop f s
          else encode1 (decode1 (c :: s)).1 ++ unquoteLoop f ((c :: s).drop (decode1 (c :: s)).2) := by
        rw [unquoteLoop]
        · rintro _ rfl; omega
        · rintro _ _ rfl; omega
      rw [e]
      split
      · exact .plain _ _ _ ‹_› h3 (ih s h4 (by simpa using hf))
      · rename_i hc
        by_cases hb : ∃ r s', Valid r ∧ c :: s = encode1 r ++ s'
        · obtain ⟨r, s', hr, hs⟩ := hb
          have hr128 : 128 ≤ r := by
            by_contra hlt
            rw [encode1, if_pos (by omega)] at hs
            injection hs with hs _
            omega
          have hl := encode1_length r
          have hch : Chars s' := chars_high _ _ (encode1_high r hr128) (hs ▸ .plain c s h1 h2 h3 h4)
          have hlen : s'.length + 1 ≤ (c :: s).length := by rw [hs]; simp; omega
          rw [hs, decode1_encode1 r hr]
          simp only [List.drop_left]
          exact .multi _ _ _ hr128 hr (ih s' hch (by omega))
        · rw [decode1_broken _ (by simp) hb]
          exact .broken _ _ _ (by omega) hb (ih s h4 (by simpa using hf))
    | escape c x s h h' =>
      obtain ⟨-, h1, h2⟩ := escape_val h
      rw [unquoteLoop]
      · rw [h1]
        exact .escape _ _ _ _ h (ih s h' (by simp at hf; omega))
      · omega
    | unicode t n s h h' =>
      obtain ⟨u, hu, hul⟩ := hex4_length h
      have hlen : s.length + 6 = (t ++ s).length := by simp [hu, hul]; omega
      rw [unquote_hex h]
      split
      · rename_i hn
        have hsur : High n ∨ Low n := by unfold High Low; omega
        split
        · rename_i n' hn'
          obtain ⟨t', s', rfl, ht'⟩ := get_hex4 _ _ hn'
          obtain ⟨u', hu', hul'⟩ := hex4_length ht'
          have hd : (t' ++ s').drop 6 = s' := by rw [hu', show 6 = (92 :: 117 :: u').length by simp [hul'], List.drop_left]
          by_cases hp : High n ∧ Low n'
          · have hr : decodeSurrogates n n' = 0x10000 + (n - 0xD800) * 0x400 + (n' - 0xDC00) := by
              unfold decodeSurrogates
              unfold High Low at hp
              rw [if_pos (by omega)]
              omega
            rw [hr, if_pos (by unfold runeError; omega), hd]
            refine .pair _ _ _ _ _ _ h ht' hp.1 hp.2 (ih s' (chars_hex ht' _ h') ?_)
            simp [hu', hul'] at hlen
            rw [List.length_append] at hf
            simp [hu'] at hf
            omega
          · have hr : decodeSurrogates n n' = runeError := by
              unfold decodeSurrogates
              unfold High Low at hp
              rw [if_neg (by omega)]
            rw [hr, if_neg (by simp)]
            refine .lone _ _ _ _ h hsur ?_ (ih _ h' (by omega))
            rintro ⟨hh, t2, n2, s2, hs2, ht2, hl2⟩
            have := hex4_get ht2 s2
            rw [← hs2, hn'] at this
            injection this with this
            exact hp ⟨hh, this ▸ hl2⟩
        · rename_i hn'
          refine .lone _ _ _ _ h hsur ?_ (ih _ h' (by omega))
          rintro ⟨hh, t2, n2, s2, hs2, ht2, hl2⟩
          have := hex4_get ht2 s2
          rw [← hs2, hn'] at this
          cases this
      · refine .unicode _ _ _ _ h ?_ ?_ (ih _ h' (by omega))
        · unfold High; omega
        · unfold Low; omega

/-- What a string stands for is what `unquote` gives. -/
theorem decoded_iff (raw o : Bytes) (h : Chars raw) : Decoded raw o ↔ unquote raw = o :=
  ⟨fun hd => decoded_unquote raw o hd _ (Nat.le_refl _), fun hd => hd ▸ unquote_decoded _ raw h (Nat.le_refl _)⟩

/-! ## 32-bit numbers -/

open Strconv

theorem parseUintLoop_none (s : Bytes) (n m : Nat) (h : parseUintLoop s n = (m, none)) : (∀ d ∈ s, 48 ≤ d ∧ d ≤ 57) ∧ m = valueFrom n s := by
  induction s generalizing n with
  | nil =>
    simp [parseUintLoop] at h
    exact ⟨by simp, by simp [valueFrom, h]⟩
  | cons c s ih =>
    rw [parseUintLoop] at h
    split at h
    · simp at h
    · rename_i hc
      split at h
      · simp at h
      · simp only at h
        split at h
        · simp at h
        · obtain ⟨h1, h2⟩ := ih _ h
          refine ⟨?_, h2⟩
          intro d hd
          rcases List.mem_cons.1 hd with rfl | hd
          · exact not_not.1 hc
          · exact h1 d hd

theorem parseUintLoop_range (s : Bytes) (n : Nat) (h : (parseUintLoop s n).2 = some .rangeErr) : (parseUintLoop s n).1 = 2 ^ 64 - 1 := by
  induction s generalizing n with
  | nil => simp [parseUintLoop] at h
  | cons c s ih =>
    rw [parseUintLoop] at h ⊢
    split at h
    · simp at h
    · rename_i hc
      rw [if_neg hc]
      split at h
      · rename_i h2; rw [if_pos h2]
      · rename_i h2
        rw [if_neg h2]
        simp only at h ⊢
        split at h
        · rename_i h3; rw [if_pos h3]
        · rename_i h3
          rw [if_neg h3]
          exact ih _ h

theorem parseInt_ok (s : Bytes) (n : Int) (h : parseInt s = (n, none)) : Numeral s n := by
  unfold parseInt at h
  by_cases h0 : s = []
  · rw [if_pos h0] at h; simp at h
  rw [if_neg h0] at h
  simp only at h
  generalize ht : (if s.head? = some 43 ∨ s.head? = some 45 then s.drop 1 else s) = t at h
  by_cases h1 : (parseUint t).2 = some .syntaxErr
  · rw [if_pos h1, h1] at h; simp at h
  rw [if_neg h1] at h
  by_cases h2 : ¬ s.head? = some 45 ∧ (parseUint t).1 ≥ 2 ^ 63
  · rw [if_pos h2] at h; simp at h
  rw [if_neg h2] at h
  by_cases h3 : s.head? = some 45 ∧ (parseUint t).1 > 2 ^ 63
  · rw [if_pos h3] at h; simp at h
  rw [if_neg h3] at h
  simp only [Prod.mk.injEq, and_true] at h
  have hnone : (parseUint t).2 = none := by
    cases he : (parseUint t).2 with
    | none => rfl
    | some e =>
      cases e with
      | syntaxErr => exact absurd he h1
      | rangeErr =>
        have : (parseUint t).1 = 2 ^ 64 - 1 := by
          unfold parseUint at he ⊢
          split at he
          · simp at he
          · rename_i hne
            rw [if_neg hne]
            exact parseUintLoop_range t 0 he
        rw [this] at h2 h3
        by_cases hs : s.head? = some 45
        · exact absurd ⟨hs, by decide⟩ h3
        · exact absurd ⟨hs, by decide⟩ h2
  have hd : Digits t ∧ (parseUint t).1 = Spec.Decimal.value t := by
    unfold parseUint at hnone ⊢
    by_cases hne : t = []
    · rw [if_pos hne] at hnone; simp at hnone
    rw [if_neg hne] at hnone ⊢
    obtain ⟨a, b⟩ := parseUintLoop_none t 0 _ (Prod.ext rfl hnone)
    exact ⟨⟨hne, a⟩, b⟩
  obtain ⟨hd, hv⟩ := hd
  rw [hv] at h
  cases s with
  | nil => exact absurd rfl h0
  | cons c s =>
    simp only [List.head?_cons, Option.some.injEq, List.drop_succ_cons, List.drop_zero] at ht h
    by_cases hc : c = 45
    · subst hc
      rw [if_pos (Or.inr rfl)] at ht
      rw [if_pos rfl] at h
      rw [← h, ht]
      exact .minus t hd
    · rw [if_neg hc] at h
      by_cases hc' : c = 43
      · subst hc'
        rw [if_pos (Or.inl rfl)] at ht
        rw [← h, ht]
        exact .plus t hd
      · rw [if_neg (by omega)] at ht
        rw [← h, ht]
        exact .plain t hd

theorem numeral_unique (s : Bytes) (v w : Int) (h : Numeral s v) (h' : Numeral s w) : v = w := by
  have key : ∀ ds : Bytes, Digits ds → ds.head? ≠ some 43 ∧ ds.head? ≠ some 45 := digits_head
  cases h with
  | plain _ hd =>
    cases h' with
    | plain _ _ => rfl
    | plus ds _ => exact absurd rfl (key _ hd).1
    | minus ds _ => exact absurd rfl (key _ hd).2
  | plus ds hd =>
    cases h' with
    | plain _ hd' => exact absurd rfl (key _ hd').1
    | plus _ _ => rfl
  | minus ds hd =>
    cases h' with
    | plain _ hd' => exact absurd rfl (key _ hd').2
    | minus _ _ => rfl

theorem parseInt_of_numeral (s : Bytes) (v : Int) (h : Numeral s v) (hv : InI32 v) : parseInt s = (v, none) := by
  have hb : v.natAbs < 2 ^ 63 := by unfold InI32 at hv; omega
  unfold parseInt
  cases h with
  | plain _ hd =>
    have hv' : Spec.Decimal.value s < 2 ^ 63 := by omega
    have h1 := (parseUint_digits s hd).1 (by omega)
    obtain ⟨h3, h4⟩ := digits_head s hd
    rw [if_neg hd.1]
    simp only [h3, h4, or_self, if_false, false_and, not_false_eq_true, true_and, h1]
    rw [if_neg (by simp), if_neg (by omega)]
  | plus ds hd =>
    have hv' : Spec.Decimal.value ds < 2 ^ 63 := by omega
    have h1 := (parseUint_digits ds hd).1 (by omega)
    rw [if_neg (by simp)]
    simp only [List.head?_cons, true_or, if_true, List.drop_succ_cons, List.drop_zero, h1]
    rw [if_neg (by simp), if_neg (by omega), if_neg (by simp)]
    simp
  | minus ds hd =>
    have hv' : Spec.Decimal.value ds < 2 ^ 63 := by omega
    have h1 := (parseUint_digits ds hd).1 (by omega)
    rw [if_neg (by simp)]
    simp only [List.head?_cons, or_true, if_true, List.drop_succ_cons, List.drop_zero, h1]
    rw [if_neg (by simp), if_neg (by simp), if_neg (by omega)]

theorem int32_iff (v : Value) (n : Int) : Int32 v n ↔ toInt32 v = n := by
  have hex : (∃ t m, v = .num t ∧ Numeral t m ∧ InI32 m ∧ toInt32 v = m) ∨
      (¬ (∃ t m, v = .num t ∧ Numeral t m ∧ InI32 m) ∧ toInt32 v = 0) := by
    by_cases hx : ∃ t m, v = .num t ∧ Numeral t m ∧ InI32 m
    · obtain ⟨t, m, rfl, ht, hm⟩ := hx
      refine Or.inl ⟨t, m, rfl, ht, hm, ?_⟩
      unfold toInt32
      simp only [parseInt_of_numeral t m ht hm]
      exact if_pos hm
    · refine Or.inr ⟨hx, ?_⟩
      unfold toInt32
      split
      · rename_i t
        split
        · rename_i m hm
          rw [if_neg]
          intro hr
          exact hx ⟨t, m, rfl, parseInt_ok t m hm, hr⟩
        · rfl
      · rfl
  constructor
  · rintro (⟨t, rfl, ht, hm⟩ | ⟨rfl, hn⟩)
    · rcases hex with ⟨t', m, e, ht', hm', h⟩ | ⟨h, -⟩
      · injection e with e
        subst e
        rw [h, numeral_unique _ _ _ ht ht']
      · exact absurd ⟨t, n, rfl, ht, hm⟩ h
    · rcases hex with ⟨t', m, e, ht', hm', h⟩ | ⟨-, h⟩
      · exact absurd ⟨t', m, e, ht', hm'⟩ hn
      · exact h
  · intro hn
    rcases hex with ⟨t', m, e, ht', hm', h⟩ | ⟨h, h'⟩
    · rw [h] at hn
      subst hn
      exact Or.inl ⟨t', e, ht', hm'⟩
    · exact Or.inr ⟨by rw [← hn, h'], h⟩

end Verif.Json
