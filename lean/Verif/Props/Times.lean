import Verif.Model.Times
import Verif.Props.Strconv
import Mathlib.Data.List.Basic

/-!
# C120: `GetTimeDir`
-/

namespace Verif.Times

open Utf8 Spec.Decimal

/-- A day of the calendar with a year of four digits. -/
structure Ok (t : Day) : Prop where
  year : 0 ≤ t.year ∧ t.year ≤ 9999
  month : 1 ≤ t.month ∧ t.month ≤ 12
  day : 1 ≤ t.day ∧ t.day ≤ 31

/-- The order of time. -/
def Before (a b : Day) : Prop := a.year < b.year ∨ (a.year = b.year ∧ (a.month < b.month ∨ (a.month = b.month ∧ a.day < b.day)))

/-- The order of strings. -/
def Less : Bytes → Bytes → Prop
  | _, [] => False
  | [], _ :: _ => True
  | a :: s, b :: t => a < b ∨ (a = b ∧ Less s t)

theorem less_append (p q s t : Bytes) (h : p.length = q.length) : Less (p ++ s) (q ++ t) ↔ Less p q ∨ (p = q ∧ Less s t) := by
  induction p generalizing q with
  | nil =>
    cases q with
    | nil => simp [Less]
    | cons b q => cases h
  | cons a p ih =>
    cases q with
    | nil => cases h
    | cons b q =>
      simp only [List.cons_append, Less, ih q (by simpa using h), List.cons.injEq]
      tauto

theorem less_irrefl (s : Bytes) : ¬ Less s s := by
  induction s with
  | nil => simp [Less]
  | cons a s ih => simp [Less, ih]

/-- The last `w` digits of `n`. -/
def lastDigits : Nat → Nat → Bytes
  | 0, _ => []
  | w + 1, n => lastDigits w (n / 10) ++ [48 + n % 10]

theorem lastDigits_length (w n : Nat) : (lastDigits w n).length = w := by
  induction w generalizing n with
  | zero => rfl
  | succ w ih => simp [lastDigits, ih]

theorem lastDigits_zero (w : Nat) : lastDigits w 0 = List.replicate w 48 := by
  induction w with
  | zero => rfl
  | succ w ih =>
    rw [lastDigits, List.replicate_succ']
    simpa using ih

theorem lastDigits_inj (w m n : Nat) (hm : m < 10 ^ w) (hn : n < 10 ^ w) (h : lastDigits w m = lastDigits w n) : m = n := by
  induction w generalizing m n with
  | zero => simp at hm hn; omega
  | succ w ih =>
    rw [lastDigits, lastDigits] at h
    obtain ⟨h1, h2⟩ := List.append_inj h (by simp [lastDigits_length])
    have := ih (m / 10) (n / 10) (by rw [Nat.pow_succ] at hm; omega) (by rw [Nat.pow_succ] at hn; omega) h1
    simp at h2
    omega

theorem lastDigits_less (w m n : Nat) (hm : m < 10 ^ w) (hn : n < 10 ^ w) : Less (lastDigits w m) (lastDigits w n) ↔ m < n := by
  induction w generalizing m n with
  | zero => simp at hm hn; simp [lastDigits, Less]; omega
  | succ w ih =>
    have h1 : m / 10 < 10 ^ w := by rw [Nat.pow_succ] at hm; omega
    have h2 : n / 10 < 10 ^ w := by rw [Nat.pow_succ] at hn; omega
    rw [lastDigits, lastDigits, less_append _ _ _ _ (by simp [lastDigits_length]), ih _ _ h1 h2]
    constructor
    · rintro (h | ⟨h, h3⟩)
      · omega
      · have := lastDigits_inj w _ _ h1 h2 h
        simp [Less] at h3
        omega
    · intro h
      by_cases hq : m / 10 < n / 10
      · exact Or.inl hq
      · right
        have : m / 10 = n / 10 := by omega
        rw [this]
        refine ⟨rfl, ?_⟩
        simp [Less]
        omega

theorem digitsFuel_pad (fuel w n : Nat) (hn : n < 10 ^ (w + 1)) (hw : w < fuel) :
    List.replicate (w + 1 - (Strconv.digitsFuel fuel n).length) 48 ++ Strconv.digitsFuel fuel n = lastDigits (w + 1) n := by
  induction fuel generalizing w n with
  | zero => omega
  | succ fuel ih =>
    rw [Strconv.digitsFuel]
    by_cases h : n < 10
    · rw [if_pos h, lastDigits, Nat.div_eq_of_lt h, Nat.mod_eq_of_lt h, lastDigits_zero]
      simp
    · rw [if_neg h, lastDigits]
      cases w with
      | zero => simp at hn; omega
      | succ w =>
        rw [← ih w (n / 10) (by rw [Nat.pow_succ] at hn; omega) (by omega)]
        simp [Nat.add_sub_add_right]

theorem appendInt_eq (x w : Nat) (hx : x < 10 ^ (w + 1)) (hw : w < 20) : appendInt x (w + 1) = lastDigits (w + 1) x := by
  unfold appendInt
  rw [if_neg (by omega)]
  exact digitsFuel_pad 20 w x hx hw

theorem getTimeDir_eq (t : Day) (h : Ok t) :
    getTimeDir t = lastDigits 4 t.year.toNat ++ 47 :: (lastDigits 2 t.month ++ 47 :: lastDigits 2 t.day) := by
  obtain ⟨⟨h1, h2⟩, ⟨h3, h4⟩, ⟨h5, h6⟩⟩ := h
  unfold getTimeDir
  have hy : t.year = (t.year.toNat : Int) := by omega
  rw [appendInt_eq t.month 1 (by omega) (by omega), appendInt_eq t.day 1 (by omega) (by omega)]
  conv => lhs; rw [hy]
  rw [appendInt_eq t.year.toNat 3 (by omega) (by omega)]

/-- **C120 (partial).** Sorting the paths sorts the days, for years of four digits. Missing: other years. -/
theorem C120_order_partial (a b : Day) (ha : Ok a) (hb : Ok b) : Less (getTimeDir a) (getTimeDir b) ↔ Before a b := by
  rw [getTimeDir_eq a ha, getTimeDir_eq b hb]
  obtain ⟨⟨h1, h2⟩, ⟨h3, h4⟩, ⟨h5, h6⟩⟩ := ha
  obtain ⟨⟨g1, g2⟩, ⟨g3, g4⟩, ⟨g5, g6⟩⟩ := hb
  have hy : lastDigits 4 a.year.toNat = lastDigits 4 b.year.toNat ↔ a.year = b.year :=
    ⟨fun h => by have := lastDigits_inj 4 _ _ (by omega) (by omega) h; omega, fun h => by rw [h]⟩
  have hm : lastDigits 2 a.month = lastDigits 2 b.month ↔ a.month = b.month :=
    ⟨fun h => lastDigits_inj 2 _ _ (by omega) (by omega) h, fun h => by rw [h]⟩
  rw [less_append _ _ _ _ (by simp [lastDigits_length]), lastDigits_less 4 _ _ (by omega) (by omega), hy]
  simp only [Less, Nat.lt_irrefl, false_or, true_and]
  rw [less_append _ _ _ _ (by simp [lastDigits_length]), lastDigits_less 2 _ _ (by omega) (by omega), hm]
  simp only [Less, Nat.lt_irrefl, false_or, true_and]
  rw [lastDigits_less 2 _ _ (by omega) (by omega)]
  unfold Before
  have : a.year.toNat < b.year.toNat ↔ a.year < b.year := by omega
  rw [this]

/-- **C120 (partial).** Different days have different paths, of ten characters, with the separators at the same places and digits between
them. -/
theorem C120_injective_partial (a b : Day) (ha : Ok a) (hb : Ok b) (h : getTimeDir a = getTimeDir b) : a = b := by
  have h1 : ¬ Before a b := by
    rw [← C120_order_partial a b ha hb, h]
    exact less_irrefl _
  have h2 : ¬ Before b a := by
    rw [← C120_order_partial b a hb ha, h]
    exact less_irrefl _
  unfold Before at h1 h2
  obtain ⟨y, m, d⟩ := a
  obtain ⟨y', m', d'⟩ := b
  simp only [Day.mk.injEq]
  simp only at h1 h2
  omega

theorem lastDigits_spec (w n : Nat) (h : n < 10 ^ w) : (∀ d ∈ lastDigits w n, 48 ≤ d ∧ d ≤ 57) ∧ value (lastDigits w n) = n := by
  induction w generalizing n with
  | zero => simp at h; subst h; simp [lastDigits, value]
  | succ w ih =>
    obtain ⟨h1, h2⟩ := ih (n / 10) (by rw [Nat.pow_succ] at h; omega)
    rw [lastDigits]
    refine ⟨?_, ?_⟩
    · intro d hd
      rcases List.mem_append.1 hd with hd | hd
      · exact h1 d hd
      · simp at hd; omega
    · unfold value at *
      rw [List.foldl_append, h2]
      simp only [List.foldl_cons, List.foldl_nil]
      omega

/-- **C120 (partial: the shape).** Four digits, two digits and two digits: the year, the month and the day. -/
theorem C120_shape_partial (t : Day) (h : Ok t) : ∃ y m d, getTimeDir t = y ++ 47 :: (m ++ 47 :: d) ∧ y.length = 4 ∧ m.length = 2 ∧ d.length = 2 ∧
    Digits y ∧ Digits m ∧ Digits d ∧ (value y : Int) = t.year ∧ value m = t.month ∧ value d = t.day := by
  have hk := h
  obtain ⟨⟨h1, h2⟩, ⟨h3, h4⟩, ⟨h5, h6⟩⟩ := h
  obtain ⟨a1, a2⟩ := lastDigits_spec 4 t.year.toNat (by omega)
  obtain ⟨b1, b2⟩ := lastDigits_spec 2 t.month (by omega)
  obtain ⟨c1, c2⟩ := lastDigits_spec 2 t.day (by omega)
  have ne : ∀ w n, 0 < w → lastDigits w n ≠ [] := by
    intro w n hw h
    have := lastDigits_length w n
    rw [h] at this
    simp at this
    omega
  refine ⟨_, _, _, getTimeDir_eq t hk, lastDigits_length _ _, lastDigits_length _ _, lastDigits_length _ _, ⟨ne _ _ (by omega), a1⟩,
    ⟨ne _ _ (by omega), b1⟩, ⟨ne _ _ (by omega), c1⟩, ?_, b2, c2⟩
  rw [a2]
  omega

/-- **C120 (does not hold from the year 10000 on).** The directory of the first day of the year 10000 comes before that of the day before. -/
theorem C120_order_refuted : Before ⟨9999, 12, 31⟩ ⟨10000, 1, 1⟩ ∧ Less (getTimeDir ⟨10000, 1, 1⟩) (getTimeDir ⟨9999, 12, 31⟩) := by
  refine ⟨Or.inl (by decide), ?_⟩
  have h1 : getTimeDir ⟨10000, 1, 1⟩ = lit "10000/01/01" := by decide +kernel
  have h2 : getTimeDir ⟨9999, 12, 31⟩ = lit "9999/12/31" := by decide +kernel
  rw [h1, h2]
  exact Or.inl (by decide)

example : Ok ⟨2023, 4, 4⟩ ∧ getTimeDir ⟨2023, 4, 4⟩ = lit "2023/04/04" := ⟨⟨by decide, by decide, by decide⟩, by decide +kernel⟩

end Verif.Times
