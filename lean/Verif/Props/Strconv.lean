import Verif.Model.Strconv
import Verif.Spec.Decimal
import Mathlib.Tactic.ByContra

/-!
# C71, C72: numbers and strings
-/

namespace Verif.Strconv

open Utf8 Spec.Decimal

/-- The value of digits after `n`. -/
def valueFrom (n : Nat) (ds : Bytes) : Nat := ds.foldl (fun n d => n * 10 + (d - 48)) n

theorem valueFrom_le (ds : Bytes) (n : Nat) : n ≤ valueFrom n ds := by
  induction ds generalizing n with
  | nil => exact Nat.le_refl _
  | cons d ds ih =>
    have := ih (n * 10 + (d - 48))
    have h2 : valueFrom n (d :: ds) = valueFrom (n * 10 + (d - 48)) ds := rfl
    omega

theorem parseUintLoop_digits (ds : Bytes) (hd : ∀ d ∈ ds, 48 ≤ d ∧ d ≤ 57) (n : Nat) (hn : n < 2 ^ 64) :
    (valueFrom n ds < 2 ^ 64 → parseUintLoop ds n = (valueFrom n ds, none)) ∧
    (2 ^ 64 ≤ valueFrom n ds → parseUintLoop ds n = (2 ^ 64 - 1, some .rangeErr)) := by
  induction ds generalizing n with
  | nil => exact ⟨fun _ => rfl, fun h => by unfold valueFrom at h; simp only [List.foldl_nil] at h; omega⟩
  | cons c ds ih =>
    have hc := hd c List.mem_cons_self
    have hv : valueFrom n (c :: ds) = valueFrom (n * 10 + (c - 48)) ds := rfl
    have hle := valueFrom_le ds (n * 10 + (c - 48))
    rw [hv]
    rw [parseUintLoop, if_neg (by simp only [not_not]; exact hc)]
    dsimp only
    by_cases h1 : n ≥ (2 ^ 64 - 1) / 10 + 1
    · rw [if_pos h1]
      have : 2 ^ 64 ≤ n * 10 := by omega
      exact ⟨fun h => by omega, fun _ => rfl⟩
    · rw [if_neg h1]
      by_cases h2 : n * 10 + (c - 48) ≥ 2 ^ 64
      · rw [if_pos h2]
        exact ⟨fun h => by omega, fun _ => rfl⟩
      · rw [if_neg h2]
        exact ih (fun d hd' => hd d (List.mem_cons_of_mem _ hd')) _ (by omega)

theorem atoiLoop_digits (ds : Bytes) (hd : ∀ d ∈ ds, 48 ≤ d ∧ d ≤ 57) (n : Nat) : atoiLoop ds n = some (valueFrom n ds) := by
  induction ds generalizing n with
  | nil => rfl
  | cons c ds ih =>
    rw [atoiLoop, if_pos (hd c List.mem_cons_self), ih (fun d hd' => hd d (List.mem_cons_of_mem _ hd'))]
    rfl

theorem atoiLoop_bad (ds : Bytes) (hd : ¬ ∀ d ∈ ds, 48 ≤ d ∧ d ≤ 57) (n : Nat) : atoiLoop ds n = none := by
  induction ds generalizing n with
  | nil => simp at hd
  | cons c ds ih =>
    rw [atoiLoop]
    split
    · rename_i hc
      apply ih
      intro h
      apply hd
      intro d hd'
      rcases List.mem_cons.1 hd' with rfl | hd'
      · exact hc
      · exact h d hd'
    · rfl

theorem valueFrom_lt (ds : Bytes) (hd : ∀ d ∈ ds, 48 ≤ d ∧ d ≤ 57) (n : Nat) : valueFrom n ds < (n + 1) * 10 ^ ds.length := by
  induction ds generalizing n with
  | nil => simp [valueFrom]
  | cons c ds ih =>
    have hc := hd c List.mem_cons_self
    have := ih (fun d hd' => hd d (List.mem_cons_of_mem _ hd')) (n * 10 + (c - 48))
    have hv : valueFrom n (c :: ds) = valueFrom (n * 10 + (c - 48)) ds := rfl
    rw [hv]
    refine Nat.lt_of_lt_of_le this ?_
    rw [List.length_cons, Nat.pow_succ, ← Nat.mul_assoc, Nat.mul_right_comm]
    exact Nat.mul_le_mul_right _ (by omega)

theorem value_eq (ds : Bytes) : value ds = valueFrom 0 ds := rfl

theorem digits_head (ds : Bytes) (h : Digits ds) : ds.head? ≠ some 43 ∧ ds.head? ≠ some 45 := by
  cases ds with
  | nil => exact absurd rfl h.1
  | cons c ds =>
    have := h.2 c List.mem_cons_self
    simp only [List.head?_cons, ne_eq, Option.some.injEq]
    omega

theorem parseUint_digits (ds : Bytes) (h : Digits ds) :
    (value ds < 2 ^ 64 → parseUint ds = (value ds, none)) ∧ (2 ^ 64 ≤ value ds → parseUint ds = (2 ^ 64 - 1, some .rangeErr)) := by
  unfold parseUint
  rw [if_neg h.1]
  exact parseUintLoop_digits ds h.2 0 (by decide)

/-- `ParseInt` of a numeral: the value, at the ends of the range the nearest number. -/
theorem parseInt_numeral (s : Bytes) (v : Int) (h : Numeral s v) : (parseInt s).1 = clamp v := by
  unfold parseInt clamp
  cases h with
  | plain ds hd =>
    obtain ⟨h1, h2⟩ := parseUint_digits s hd
    obtain ⟨h3, h4⟩ := digits_head s hd
    rw [if_neg hd.1]
    simp only [h3, h4, or_self, if_false, false_and, not_false_eq_true, true_and]
    rcases Nat.lt_or_ge (value s) (2 ^ 64) with h5 | h5
    · rw [h1 h5]
      simp only [reduceCtorEq, if_false]
      split <;> dsimp only <;> omega
    · rw [h2 h5]
      rw [if_neg (by simp), if_pos (by decide)]
      dsimp only
      omega
  | plus ds hd =>
    obtain ⟨h1, h2⟩ := parseUint_digits ds hd
    rw [if_neg (by simp)]
    simp only [List.head?_cons, true_or, if_true, List.drop_succ_cons, List.drop_zero]
    rcases Nat.lt_or_ge (value ds) (2 ^ 64) with h5 | h5
    · rw [h1 h5]
      simp only [reduceCtorEq, if_false, Option.some.injEq, Nat.reduceEqDiff, not_false_eq_true, true_and, false_and]
      split <;> dsimp only <;> omega
    · rw [h2 h5]
      rw [if_neg (by simp), if_pos (by decide)]
      dsimp only
      omega
  | minus ds hd =>
    obtain ⟨h1, h2⟩ := parseUint_digits ds hd
    rw [if_neg (by simp)]
    simp only [List.head?_cons, or_true, if_true, List.drop_succ_cons, List.drop_zero]
    rcases Nat.lt_or_ge (value ds) (2 ^ 64) with h5 | h5
    · rw [h1 h5]
      simp only [reduceCtorEq, if_false, not_true_eq_false, true_and, false_and]
      split <;> dsimp only <;> omega
    · rw [h2 h5]
      rw [if_neg (by simp), if_neg (by simp), if_pos (by decide)]
      dsimp only
      omega

/-- `Atoi` of a numeral: the same. -/
theorem atoi_numeral (s : Bytes) (v : Int) (h : Numeral s v) : (atoi s).1 = clamp v := by
  unfold atoi
  split
  · rename_i hl
    have hsmall : ∀ ds : Bytes, Digits ds → ds.length < 19 → value ds < 10 ^ 18 := by
      intro ds hd hl
      have := valueFrom_lt ds hd.2 0
      rw [← value_eq] at this
      have h2 : 10 ^ ds.length ≤ 10 ^ 18 := Nat.pow_le_pow_right (by omega) (by omega)
      omega
    unfold clamp
    cases h with
    | plain ds hd =>
      obtain ⟨h3, h4⟩ := digits_head s hd
      simp only [h3, h4, or_self, if_false, false_and]
      rw [atoiLoop_digits s hd.2, ← value_eq]
      have := hsmall s hd hl.2
      dsimp only
      omega
    | plus ds hd =>
      simp only [List.length_cons] at hl
      have := hsmall ds hd (by omega)
      have hpos := List.length_pos_iff.2 hd.1
      simp only [List.head?_cons, true_or, if_true, List.drop_succ_cons, List.drop_zero, true_and]
      rw [if_neg (by omega), atoiLoop_digits ds hd.2, ← value_eq]
      simp only [Option.some.injEq, Nat.reduceEqDiff, if_false]
      omega
    | minus ds hd =>
      simp only [List.length_cons] at hl
      have := hsmall ds hd (by omega)
      have hpos := List.length_pos_iff.2 hd.1
      simp only [List.head?_cons, or_true, if_true, List.drop_succ_cons, List.drop_zero, true_and]
      rw [if_neg (by omega), atoiLoop_digits ds hd.2, ← value_eq]
      dsimp only
      omega
  · exact parseInt_numeral s v h

/-! ## C72 -/

/-- Every numeral gives its value, and out of range the extreme of its sign. -/
theorem C72_numeral (s : Bytes) (v : Int) (h : Numeral s v) : stringToInt s = clamp v ∧ stringToInt64 s = clamp v :=
  ⟨atoi_numeral s v h, parseInt_numeral s v h⟩

theorem parseUintLoop_bad (ds : Bytes) (hd : ¬ ∀ d ∈ ds, 48 ≤ d ∧ d ≤ 57) (n : Nat) (hn : (n + 1) * 10 ^ ds.length ≤ 2 ^ 64 * 10) :
    parseUintLoop ds n = (0, some .syntaxErr) := by
  induction ds generalizing n with
  | nil => simp at hd
  | cons c ds ih =>
    rw [parseUintLoop]
    by_cases hc : 48 ≤ c ∧ c ≤ 57
    · rw [if_neg (by simp only [not_not]; exact hc)]
      have hbad : ¬ ∀ d ∈ ds, 48 ≤ d ∧ d ≤ 57 := by
        intro h
        apply hd
        intro d hd'
        rcases List.mem_cons.1 hd' with rfl | hd'
        · exact hc
        · exact h d hd'
      have hne : ds ≠ [] := by
        rintro rfl
        exact hbad (by simp)
      have hlen := List.length_pos_iff.2 hne
      have h10 : 10 ≤ 10 ^ ds.length := by
        have := Nat.pow_le_pow_right (show 0 < 10 by omega) hlen
        omega
      rw [List.length_cons, Nat.pow_succ] at hn
      have hmul : (n + 1) * 10 * 10 ≤ (n + 1) * (10 ^ ds.length * 10) := by
        rw [← Nat.mul_assoc]
        exact Nat.mul_le_mul_right _ (Nat.mul_le_mul_left _ h10)
      dsimp only
      rw [if_neg (by omega), if_neg (by omega)]
      apply ih hbad
      refine Nat.le_trans ?_ hn
      rw [Nat.mul_comm (10 ^ ds.length), ← Nat.mul_assoc]
      exact Nat.mul_le_mul_right _ (by omega)
    · rw [if_pos (by simpa only [not_not] using hc)]

theorem not_numeral (s : Bytes) (h : ∀ v, ¬ Numeral s v) :
    ¬ Digits s ∧ ∀ c ds, s = c :: ds → c = 43 ∨ c = 45 → ¬ Digits ds := by
  refine ⟨fun hd => h _ (.plain s hd), ?_⟩
  rintro c ds rfl (rfl | rfl) hd
  · exact h _ (.plus ds hd)
  · exact h _ (.minus ds hd)

/-- A string that is no numeral gives 0 as long as it is short enough for its digits to fit into 64 bits.

Missing for the full claim: longer strings; for them it may fail (`C72_invalid_refuted`), because the range error is found first.
`C72_invalid_exact` says when. -/
theorem C72_invalid_partial (s : Bytes) (h : ∀ v, ¬ Numeral s v) (hl : s.length ≤ 20) : stringToInt s = 0 ∧ stringToInt64 s = 0 := by
  obtain ⟨h1, h2⟩ := not_numeral s h
  have hpi : (parseInt s).1 = 0 := by
    unfold parseInt
    split
    · rfl
    rename_i h0
    have key : ∀ t : Bytes, ¬ Digits t → t.length ≤ 20 → parseUint t = (0, some .syntaxErr) := by
      intro t ht hl
      unfold parseUint
      split
      · rfl
      · rename_i hne
        apply parseUintLoop_bad t (fun h => ht ⟨hne, h⟩)
        have := Nat.pow_le_pow_right (show 0 < 10 by omega) hl
        omega
    dsimp only
    split
    · rename_i hs
      cases s with
      | nil => exact absurd rfl h0
      | cons c ds =>
        have hc : c = 43 ∨ c = 45 := by simpa using hs
        rw [List.drop_succ_cons, List.drop_zero, key ds (h2 c ds rfl hc) (by simp at hl; omega)]
        rfl
    · rw [key s h1 hl]
      rfl
  refine ⟨?_, hpi⟩
  unfold stringToInt atoi
  split
  · rename_i hlen
    dsimp only
    by_cases hs : s.head? = some 43 ∨ s.head? = some 45
    · rw [if_pos hs]
      cases s with
      | nil => simp at hlen
      | cons c ds =>
        have hc : c = 43 ∨ c = 45 := by simpa using hs
        rw [List.drop_succ_cons, List.drop_zero]
        by_cases h0 : ds.length < 1
        · rw [if_pos ⟨hs, h0⟩]
        · rw [if_neg (fun h => h0 h.2), atoiLoop_bad]
          intro hd
          refine h2 c ds rfl hc ⟨?_, hd⟩
          rintro rfl
          exact h0 (by simp)
    · rw [if_neg hs, if_neg (fun h => hs h.1), atoiLoop_bad]
      intro hd
      refine h1 ⟨?_, hd⟩
      rintro rfl
      simp at hlen
  · exact hpi

theorem parseUintLoop_append (ds t : Bytes) (hd : ∀ d ∈ ds, 48 ≤ d ∧ d ≤ 57) (n : Nat) (hn : n < 2 ^ 64) :
    parseUintLoop (ds ++ t) n = if valueFrom n ds < 2 ^ 64 then parseUintLoop t (valueFrom n ds) else (2 ^ 64 - 1, some .rangeErr) := by
  induction ds generalizing n with
  | nil => rw [if_pos (by exact hn)]; rfl
  | cons c ds ih =>
    have hc := hd c List.mem_cons_self
    have hv : valueFrom n (c :: ds) = valueFrom (n * 10 + (c - 48)) ds := rfl
    have hle := valueFrom_le ds (n * 10 + (c - 48))
    rw [hv, List.cons_append, parseUintLoop, if_neg (by simp only [not_not]; exact hc)]
    dsimp only
    by_cases h1 : n ≥ (2 ^ 64 - 1) / 10 + 1
    · rw [if_pos h1, if_neg (by omega)]
    · rw [if_neg h1]
      by_cases h2 : n * 10 + (c - 48) ≥ 2 ^ 64
      · rw [if_pos h2, if_neg (by omega)]
      · rw [if_neg h2]
        exact ih (fun d hd' => hd d (List.mem_cons_of_mem _ hd')) _ (by omega)

/-- What a string gives whose first bad character `c` comes after a sign and the digits `ds`: 0 if the digits fit into 64 bits,
else the extreme of the sign. -/
theorem C72_invalid_exact (sign ds rest : Bytes) (c : Nat) (hsign : sign = [] ∨ sign = [43] ∨ sign = [45])
    (hd : ∀ d ∈ ds, 48 ≤ d ∧ d ≤ 57) (hc : ¬ (48 ≤ c ∧ c ≤ 57)) (h0 : sign = [] → ds = [] → c ≠ 43 ∧ c ≠ 45) :
    let r := if value ds < 2 ^ 64 then 0 else if sign = [45] then - 2 ^ 63 else 2 ^ 63 - 1
    stringToInt64 (sign ++ ds ++ c :: rest) = r ∧ stringToInt (sign ++ ds ++ c :: rest) = r := by
  have hu : parseUint (ds ++ c :: rest) = if value ds < 2 ^ 64 then (0, some .syntaxErr) else (2 ^ 64 - 1, some .rangeErr) := by
    unfold parseUint
    rw [if_neg (by simp), parseUintLoop_append ds _ hd 0 (by decide), ← value_eq]
    congr 1
    rw [parseUintLoop, if_pos hc]
  have hh : (ds ++ c :: rest).head? ≠ some 43 ∧ (ds ++ c :: rest).head? ≠ some 45 ∨ sign ≠ [] := by
    by_cases hs : sign = []
    · left
      cases ds with
      | nil =>
        have := h0 hs rfl
        simpa using this
      | cons d ds =>
        have := hd d List.mem_cons_self
        simp only [List.cons_append, List.head?_cons, ne_eq, Option.some.injEq]
        omega
    · exact Or.inr hs
  dsimp only
  have hpi : (parseInt (sign ++ ds ++ c :: rest)).1 =
      if value ds < 2 ^ 64 then 0 else if sign = [45] then - 2 ^ 63 else 2 ^ 63 - 1 := by
    unfold parseInt
    rw [if_neg (by simp)]
    rcases hsign with rfl | rfl | rfl
    · rw [List.nil_append]
      rcases hh with ⟨h1, h2⟩ | h
      · simp only [h1, h2, or_self, if_false, hu]
        by_cases hv : value ds < 2 ^ 64
        · simp [hv]
        · rw [if_neg hv, if_neg hv]
          decide
      · exact absurd rfl h
    · simp only [List.cons_append, List.nil_append, List.head?_cons, true_or, if_true, List.drop_succ_cons, List.drop_zero, hu]
      by_cases hv : value ds < 2 ^ 64
      · simp [hv]
      · rw [if_neg hv, if_neg hv]
        decide
    · simp only [List.cons_append, List.nil_append, List.head?_cons, or_true, if_true, List.drop_succ_cons, List.drop_zero, hu]
      by_cases hv : value ds < 2 ^ 64
      · simp [hv]
      · rw [if_neg hv, if_neg hv]
        decide
  refine ⟨hpi, ?_⟩
  unfold stringToInt atoi
  split
  · rename_i hl
    have hval : value ds < 2 ^ 64 := by
      have := valueFrom_lt ds hd 0
      rw [← value_eq] at this
      simp only [List.length_append, List.length_cons] at hl
      have h2 : 10 ^ ds.length ≤ 10 ^ 18 := Nat.pow_le_pow_right (by omega) (by omega)
      omega
    have hbad : atoiLoop (ds ++ c :: rest) 0 = none := atoiLoop_bad _ (fun h => hc (h c (by simp))) 0
    rw [if_pos hval]
    dsimp only
    rcases hsign with rfl | rfl | rfl
    · rw [List.nil_append]
      rcases hh with ⟨h1, h2⟩ | h
      · simp only [h1, h2, or_self, if_false, false_and, hbad]
      · exact absurd rfl h
    · simp only [List.cons_append, List.nil_append, List.head?_cons, true_or, if_true, List.drop_succ_cons, List.drop_zero, hbad,
        ite_self]
    · simp only [List.cons_append, List.nil_append, List.head?_cons, or_true, if_true, List.drop_succ_cons, List.drop_zero, hbad,
        ite_self]
  · exact hpi

/-- Twenty nines followed by a letter: not a numeral, but the result is the greatest number, not 0. -/
theorem C72_invalid_refuted : ∃ s : Bytes, (∀ v, ¬ Numeral s v) ∧ stringToInt s = 2 ^ 63 - 1 ∧ stringToInt64 s = 2 ^ 63 - 1 := by
  refine ⟨lit "99999999999999999999x", ?_, by decide +kernel, by decide +kernel⟩
  have hs : lit "99999999999999999999x" = List.replicate 20 57 ++ [120] := by decide +kernel
  rw [hs]
  intro v h
  have hx : ∀ ds : Bytes, Digits ds → 120 ∉ ds := fun ds hd h => by have := hd.2 120 h; omega
  generalize hg : List.replicate 20 57 ++ [120] = s at h
  have h120 : 120 ∈ s := by rw [← hg]; simp
  have hh : s.head? = some 57 := by rw [← hg]; rfl
  cases h with
  | plain ds hd => exact hx _ hd h120
  | plus ds hd => cases hh
  | minus ds hd => cases hh

/-! ## C71 -/

theorem digitsFuel_spec (fuel n : Nat) (h : n < 10 ^ (fuel + 1)) :
    Digits (digitsFuel (fuel + 1) n) ∧ value (digitsFuel (fuel + 1) n) = n := by
  induction fuel generalizing n with
  | zero =>
    have : n < 10 := by simpa using h
    simp only [digitsFuel, if_pos this]
    refine ⟨⟨by simp, ?_⟩, ?_⟩
    · intro d hd
      rw [List.mem_singleton] at hd
      omega
    · simp [value]
  | succ fuel ih =>
    rw [digitsFuel]
    split
    · refine ⟨⟨by simp, ?_⟩, ?_⟩
      · intro d hd
        rw [List.mem_singleton] at hd
        omega
      · simp [value]
    · obtain ⟨h1, h2⟩ := ih (n / 10) (by rw [Nat.pow_succ] at h; omega)
      refine ⟨⟨by simp, ?_⟩, ?_⟩
      · intro d hd
        rcases List.mem_append.1 hd with hd | hd
        · exact h1.2 d hd
        · rw [List.mem_singleton] at hd
          omega
      · unfold value at *
        rw [List.foldl_append, h2]
        simp only [List.foldl_cons, List.foldl_nil]
        omega

theorem digits_spec (n : Nat) (h : n ≤ 2 ^ 63) : Digits (digitsFuel 20 n) ∧ value (digitsFuel 20 n) = n :=
  digitsFuel_spec 19 n (by omega)

/-- The text of a number is a numeral with that value. -/
theorem C71_numeral (x : Int) (h : InI64 x) : Numeral (intToString x) x ∧ int64ToString x = intToString x := by
  unfold intToString int64ToString formatInt InI64 at *
  refine ⟨?_, rfl⟩
  obtain ⟨h1, h2⟩ := digits_spec x.natAbs (by omega)
  split
  · have := Numeral.minus _ h1
    rw [h2] at this
    rwa [show (- (x.natAbs : Int)) = x by omega] at this
  · have := Numeral.plain _ h1
    rw [h2] at this
    rwa [show ((x.natAbs : Int)) = x by omega] at this

/-- Round trip, for all 64-bit numbers. -/
theorem C71_roundtrip (x : Int) (h : InI64 x) : stringToInt (intToString x) = x ∧ stringToInt64 (int64ToString x) = x := by
  obtain ⟨h1, h2⟩ := C71_numeral x h
  obtain ⟨h3, h4⟩ := C72_numeral _ x h1
  rw [h2, h3, h4]
  unfold clamp InI64 at *
  omega

theorem C71_injective (x y : Int) (hx : InI64 x) (hy : InI64 y) (h : intToString x = intToString y) : x = y := by
  rw [← (C71_roundtrip x hx).1, h, (C71_roundtrip y hy).1]

/-- No superfluous zeros: the text is the shortest numeral. -/
theorem C71_no_leading_zero (x : Int) (h : InI64 x) (h0 : x ≠ 0) : (intToString x).head? ≠ some 48 ∧ (intToString x)[0]? ≠ some 43 := by
  have key : ∀ fuel n, n ≠ 0 → (digitsFuel (fuel + 1) n).head? ≠ some 48 ∨ 10 ^ (fuel + 1) ≤ n := by
    intro fuel
    induction fuel with
    | zero =>
      intro n hn
      rw [digitsFuel]
      split
      · left
        simp only [List.head?_cons, ne_eq, Option.some.injEq]
        omega
      · right; simp; omega
    | succ fuel ih =>
      intro n hn
      rw [digitsFuel]
      split
      · left
        simp only [List.head?_cons, ne_eq, Option.some.injEq]
        omega
      · rcases ih (n / 10) (by omega) with h | h
        · left
          rw [List.head?_append]
          cases hd : (digitsFuel (fuel + 1) (n / 10)).head? with
          | none =>
            exfalso
            rw [List.head?_eq_none_iff, digitsFuel] at hd
            split at hd <;> simp at hd
          | some c =>
            rw [hd] at h
            exact h
        · right
          rw [Nat.pow_succ]
          omega
  unfold InI64 at h
  obtain ⟨hd, -⟩ := digits_spec x.natAbs (by omega)
  have hh := digits_head _ hd
  rw [← List.head?_eq_getElem?]
  unfold intToString formatInt
  split
  · simp
  · refine ⟨?_, hh.1⟩
    rcases key 19 x.natAbs (by omega) with h | h
    · exact h
    · omega

example : intToString (-2 ^ 63) = lit "-9223372036854775808" ∧ stringToInt (lit "+0012") = 12 ∧ stringToInt (lit "12a") = 0 ∧
    stringToInt (lit "9223372036854775808") = 2 ^ 63 - 1 := by decide +kernel

end Verif.Strconv
