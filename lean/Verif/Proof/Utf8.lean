import Verif.Go.Utf8

/-!
# UTF-8 round trips
-/

namespace Verif.Utf8

theorem decode1_width (s : Bytes) (h : s ≠ []) : 1 ≤ (decode1 s).2 ∧ (decode1 s).2 ≤ 4 ∧ (decode1 s).2 ≤ s.length := by
  cases s with
  | nil => exact absurd rfl h
  | cons b0 t =>
    simp only [decode1]
    split
    · simp
    split
    · simp
    split
    · split
      · split <;> simp
      · simp
    split
    · split
      · split <;> simp
      · simp
    split
    · split
      · split <;> simp
      · simp
    · simp

theorem decode1_valid (s : Bytes) : Valid (decode1 s).1 := by
  have he : Valid runeError := by decide
  cases s with
  | nil => exact he
  | cons b0 t =>
    simp only [decode1]
    split
    · unfold Valid; left; dsimp only; omega
    split
    · exact he
    split
    · split
      · split
        · rename_i hc
          simp only [cont, decide_eq_true_eq] at hc
          unfold Valid; left; dsimp only; omega
        · exact he
      · exact he
    split
    · split
      · split
        · rename_i hc
          simp only [cont, decide_eq_true_eq, lo, hi] at hc
          unfold Valid; dsimp only
          split at hc <;> split at hc <;> (try split at hc) <;> (try split at hc) <;> omega
        · exact he
      · exact he
    split
    · split
      · split
        · rename_i hc
          simp only [cont, decide_eq_true_eq, lo, hi] at hc
          unfold Valid; dsimp only
          split at hc <;> split at hc <;> (try split at hc) <;> (try split at hc) <;> omega
        · exact he
      · exact he
    · exact he

theorem encode1_length (r : Nat) : 1 ≤ (encode1 r).length ∧ (encode1 r).length ≤ 4 := by
  unfold encode1
  repeat' split
  all_goals simp

/-- Surrogates and values out of range are written as U+FFFD. -/
theorem encode1_invalid (r : Nat) (h : ¬ Valid r) : encode1 r = encode1 runeError := by
  have h1 : ¬ r < 0x80 ∧ ¬ r < 0x800 := by unfold Valid at h; omega
  rw [show encode1 runeError = [0xEF, 0xBF, 0xBD] by decide]
  unfold encode1
  rw [if_neg h1.1, if_neg h1.2, if_pos h]

theorem decode1_encode1 (r : Nat) (h : Valid r) (t : Bytes) : decode1 (encode1 r ++ t) = (r, (encode1 r).length) := by
  unfold encode1
  by_cases h1 : r < 0x80
  · simp [decode1, h1]
  rw [if_neg h1]
  by_cases h2 : r < 0x800
  · rw [if_pos h2]
    have a1 : ¬ 0xC0 + r / 64 < 0x80 := by omega
    have a2 : ¬ 0xC0 + r / 64 < 0xC2 := by omega
    have a3 : 0xC0 + r / 64 < 0xE0 := by omega
    have a4 : cont (0x80 + r % 64) = true := by simp only [cont, decide_eq_true_eq]; omega
    simp only [List.cons_append, List.nil_append, decode1, a1, a2, a3, a4, if_true, if_false, Prod.mk.injEq]
    refine ⟨?_, rfl⟩
    omega
  rw [if_neg h2, if_neg (fun h' => h' h)]
  have hv := h
  unfold Valid at hv
  by_cases h4 : r < 0x10000
  · rw [if_pos h4]
    have a1 : ¬ 0xE0 + r / 4096 < 0x80 := by omega
    have a2 : ¬ 0xE0 + r / 4096 < 0xC2 := by omega
    have a3 : ¬ 0xE0 + r / 4096 < 0xE0 := by omega
    have a4 : 0xE0 + r / 4096 < 0xF0 := by omega
    have a5 : lo (0xE0 + r / 4096) ≤ 0x80 + r / 64 % 64 ∧ 0x80 + r / 64 % 64 ≤ hi (0xE0 + r / 4096) ∧ cont (0x80 + r % 64) = true := by
      refine ⟨?_, ?_, ?_⟩
      · unfold lo; split
        · omega
        · split <;> omega
      · unfold hi; split
        · omega
        · split <;> omega
      · simp only [cont, decide_eq_true_eq]; omega
    simp only [List.cons_append, List.nil_append, decode1, a1, a2, a3, a4, if_true, if_false]
    rw [if_pos a5, Prod.mk.injEq]
    refine ⟨?_, rfl⟩
    omega
  · rw [if_neg h4]
    have a1 : ¬ 0xF0 + r / 262144 < 0x80 := by omega
    have a2 : ¬ 0xF0 + r / 262144 < 0xC2 := by omega
    have a3 : ¬ 0xF0 + r / 262144 < 0xE0 := by omega
    have a4 : ¬ 0xF0 + r / 262144 < 0xF0 := by omega
    have a5 : 0xF0 + r / 262144 < 0xF5 := by omega
    have a6 : lo (0xF0 + r / 262144) ≤ 0x80 + r / 4096 % 64 ∧ 0x80 + r / 4096 % 64 ≤ hi (0xF0 + r / 262144) ∧
        cont (0x80 + r / 64 % 64) = true ∧ cont (0x80 + r % 64) = true := by
      refine ⟨?_, ?_, ?_, ?_⟩
      · unfold lo; split
        · omega
        · split <;> omega
      · unfold hi; split
        · omega
        · split <;> omega
      · simp only [cont, decide_eq_true_eq]; omega
      · simp only [cont, decide_eq_true_eq]; omega
    simp only [List.cons_append, List.nil_append, decode1, a1, a2, a3, a4, a5, if_true, if_false]
    rw [if_pos a6, Prod.mk.injEq]
    refine ⟨?_, rfl⟩
    omega

/-! ## Ranging -/

theorem rangeFrom_fuel (f g off : Nat) (s : Bytes) (hf : s.length ≤ f) (hg : s.length ≤ g) :
    rangeFrom f off s = rangeFrom g off s := by
  induction f generalizing g off s with
  | zero =>
    have : s = [] := List.length_eq_zero_iff.1 (by omega)
    subst this
    cases g <;> rfl
  | succ f ih =>
    cases s with
    | nil => cases g <;> rfl
    | cons b t =>
      have hw := decode1_width (b :: t) (by simp)
      cases g with
      | zero => simp at hg
      | succ g =>
        rw [rangeFrom, rangeFrom]
        · congr 1
          simp only [List.length_cons] at hf hg hw
          exact ih g _ _ (by simp only [List.length_drop, List.length_cons]; omega)
            (by simp only [List.length_drop, List.length_cons]; omega)
        · simp
        · simp

theorem rangeFrom_shift (f off k : Nat) (s : Bytes) : rangeFrom f (off + k) s = (rangeFrom f off s).map (fun p => (p.1 + k, p.2)) := by
  induction f generalizing off s with
  | zero => rfl
  | succ f ih =>
    cases s with
    | nil => rfl
    | cons b t =>
      rw [rangeFrom, rangeFrom]
      · rw [List.map_cons, ← ih]
        congr 2
        omega
      · simp
      · simp

theorem range_cons (s : Bytes) (h : s ≠ []) :
    range s = (0, (decode1 s).1) :: (range (s.drop (decode1 s).2)).map (fun p => (p.1 + (decode1 s).2, p.2)) := by
  obtain ⟨h1, -, h3⟩ := decode1_width s h
  unfold range
  obtain ⟨n, hn⟩ : ∃ n, s.length = n + 1 := ⟨s.length - 1, by omega⟩
  rw [hn, rangeFrom]
  · congr 1
    rw [← rangeFrom_shift]
    apply rangeFrom_fuel
    · rw [List.length_drop]; omega
    · exact Nat.le_refl _
  · exact h

theorem runes_nil : runes [] = [] := rfl

theorem runes_cons (s : Bytes) (h : s ≠ []) : runes s = (decode1 s).1 :: runes (s.drop (decode1 s).2) := by
  unfold runes
  rw [range_cons s h]
  simp [Function.comp_def]

/-- Induction over the runes of a string. -/
theorem runes_induct {P : Bytes → Prop} (nil : P []) (cons : ∀ s, s ≠ [] → P (s.drop (decode1 s).2) → P s) (s : Bytes) : P s := by
  have : ∀ n (s : Bytes), s.length ≤ n → P s := by
    intro n
    induction n with
    | zero =>
      intro s hs
      rw [List.length_eq_zero_iff.1 (Nat.le_zero.1 hs)]
      exact nil
    | succ n ih =>
      intro s hs
      by_cases h : s = []
      · rw [h]; exact nil
      · have hw := decode1_width s h
        exact cons s h (ih _ (by rw [List.length_drop]; omega))
  exact this s.length s (Nat.le_refl _)

theorem runes_encode1 (r : Nat) (h : Valid r) (t : Bytes) : runes (encode1 r ++ t) = r :: runes t := by
  have hl := encode1_length r
  rw [runes_cons _ (by
    intro h'
    have := congrArg List.length h'
    rw [List.length_append, List.length_nil] at this
    omega), decode1_encode1 r h]
  simp

theorem runes_ofRunes_append (rs : List Nat) (h : ∀ r ∈ rs, Valid r) (t : Bytes) : runes (ofRunes rs ++ t) = rs ++ runes t := by
  induction rs with
  | nil => simp [ofRunes]
  | cons r rs ih =>
    have : ofRunes (r :: rs) ++ t = encode1 r ++ (ofRunes rs ++ t) := by simp [ofRunes]
    rw [this, runes_encode1 r (h r List.mem_cons_self), ih (fun r hr => h r (List.mem_cons_of_mem _ hr))]
    rfl

/-- `[]rune(string(rs)) = rs` for Unicode scalar values. -/
theorem runes_ofRunes (rs : List Nat) (h : ∀ r ∈ rs, Valid r) : runes (ofRunes rs) = rs := by
  have := runes_ofRunes_append rs h []
  simpa [runes_nil] using this

/-- `string([]rune(s)) = s` for valid UTF-8. -/
theorem ofRunes_runes (s : Bytes) (h : ValidString s) : ofRunes (runes s) = s := by
  obtain ⟨rs, h1, rfl⟩ := h
  rw [runes_ofRunes rs h1]

theorem runes_valid (s : Bytes) : ∀ r ∈ runes s, Valid r := by
  induction s using runes_induct with
  | nil => simp [runes_nil]
  | cons s h ih =>
    rw [runes_cons s h]
    intro r hr
    rcases List.mem_cons.1 hr with rfl | hr
    · exact decode1_valid s
    · exact ih r hr

theorem length_le_runes (s : Bytes) : s.length ≤ 4 * (runes s).length ∧ (runes s).length ≤ s.length := by
  induction s using runes_induct with
  | nil => simp [runes_nil]
  | cons s h ih =>
    have hw := decode1_width s h
    rw [runes_cons s h, List.length_cons]
    rw [List.length_drop] at ih
    omega

theorem ofRunes_append (a b : List Nat) : ofRunes (a ++ b) = ofRunes a ++ ofRunes b := by
  simp [ofRunes]

theorem ofRunes_ascii (s : Bytes) (h : Ascii s) : ofRunes s = s := by
  induction s with
  | nil => rfl
  | cons b t ih =>
    have h1 := h b List.mem_cons_self
    have h2 : encode1 b = [b] := by simp [encode1, h1]
    have h3 := ih (fun c hc => h c (List.mem_cons_of_mem _ hc))
    simp only [ofRunes] at h3 ⊢
    rw [List.map_cons, List.flatten_cons, h2, h3]
    rfl

theorem runes_ascii (s : Bytes) (h : Ascii s) : runes s = s := by
  have hv : ∀ r ∈ s, Valid r := fun r hr => Or.inl (Nat.lt_trans (h r hr) (by decide))
  have := runes_ofRunes s hv
  rwa [ofRunes_ascii s h] at this

theorem range_ascii (s : Bytes) (h : Ascii s) : range s = s.zipIdx.map (fun p => (p.2, p.1)) := by
  induction s with
  | nil => rfl
  | cons b t ih =>
    have h1 := h b List.mem_cons_self
    have h2 : decode1 (b :: t) = (b, 1) := by simp [decode1, h1]
    rw [range_cons _ (by simp), h2, List.zipIdx_cons]
    have h3 := ih (fun c hc => h c (List.mem_cons_of_mem _ hc))
    dsimp only
    rw [List.drop_succ_cons, List.drop_zero, h3, List.map_cons, List.zipIdx_succ]
    simp [List.map_map, Function.comp_def]

end Verif.Utf8
