import Verif.Model.Calendar
import Verif.Props.Times
import Mathlib.Order.Basic
import Mathlib.Algebra.Order.Group.Nat

/-!
# C143: `GetTimeDir` at a moment
-/

namespace Verif.Calendar

open Utf8 Times

/-! ## Specification: the Gregorian calendar, day by day -/

/-- A year of 366 days. -/
def Leap (y : Int) : Prop := (4 ∣ y ∧ ¬ 100 ∣ y) ∨ 400 ∣ y

instance (y : Int) : Decidable (Leap y) := by unfold Leap; infer_instance

/-- Thirty days has September ... -/
def monthLen (y : Int) (m : Nat) : Nat :=
  if m = 4 ∨ m = 6 ∨ m = 9 ∨ m = 11 then 30 else if m = 2 then (if Leap y then 29 else 28) else 31

/-- A day of the calendar. -/
def Valid (t : Day) : Prop := 1 ≤ t.month ∧ t.month ≤ 12 ∧ 1 ≤ t.day ∧ t.day ≤ monthLen t.year t.month

/-- The day after. -/
def next (t : Day) : Day :=
  if t.day < monthLen t.year t.month then ⟨t.year, t.month, t.day + 1⟩
  else if t.month < 12 then ⟨t.year, t.month + 1, 1⟩
  else ⟨t.year + 1, 1, 1⟩

/-- The moments that package time can tell (about 292 thousand million years around 1970). -/
def InRange (t : Int) : Prop := -unixToAbs ≤ t ∧ t < 2 ^ 63

/-! ## The year -/

theorem isLeap_iff (y : Int) : isLeap y = true ↔ Leap y := by
  unfold isLeap Leap
  rw [decide_eq_true_iff]
  omega

/-- The days before the year `y`, counted from `zeroYear`. -/
def dby (y : Nat) : Nat := 365 * y + y / 4 - y / 100 + y / 400

def yearLen (y : Nat) : Nat := if Leap ((y : Int) + zeroYear) then 366 else 365

theorem leap_nat (y : Nat) : Leap ((y : Int) + zeroYear) ↔ (y + 1) % 4 = 0 ∧ ((y + 1) % 100 ≠ 0 ∨ (y + 1) % 400 = 0) := by
  unfold Leap zeroYear
  omega

theorem yearLen_cases (y : Nat) : yearLen y = if (y + 1) % 4 = 0 ∧ ((y + 1) % 100 ≠ 0 ∨ (y + 1) % 400 = 0) then 366 else 365 := by
  unfold yearLen
  simp only [leap_nat]

theorem dby_succ (y : Nat) : dby (y + 1) = dby y + yearLen y := by
  rw [yearLen_cases]
  unfold dby
  have h4 : (y + 1) / 4 = y / 4 + if (y + 1) % 4 = 0 then 1 else 0 := by split <;> omega
  have h100 : (y + 1) / 100 = y / 100 + if (y + 1) % 100 = 0 then 1 else 0 := by split <;> omega
  have h400 : (y + 1) / 400 = y / 400 + if (y + 1) % 400 = 0 then 1 else 0 := by split <;> omega
  have hle : y / 100 ≤ y := Nat.div_le_self _ _
  have i1 : (y + 1) % 100 = 0 → (y + 1) % 4 = 0 := by omega
  have i2 : (y + 1) % 400 = 0 → (y + 1) % 100 = 0 := by omega
  rw [h4, h100, h400]
  generalize y / 4 = q4
  generalize y / 100 = q100 at hle ⊢
  generalize y / 400 = q400
  by_cases c4 : (y + 1) % 4 = 0 <;> by_cases c100 : (y + 1) % 100 = 0 <;> by_cases c400 : (y + 1) % 400 = 0 <;> simp [c4, c100, c400] at i1 i2 ⊢ <;> omega

theorem dby_mono {a b : Nat} (h : a ≤ b) : dby a ≤ dby b := by
  induction b, h using Nat.le_induction with
  | base => exact Nat.le_refl _
  | succ b _ ih => rw [dby_succ]; omega

theorem yearOf_spec (d : Nat) : dby (yearOf d).1 + (yearOf d).2 = d ∧ (yearOf d).2 < yearLen (yearOf d).1 := by
  unfold yearOf
  dsimp only
  generalize hn4 : d / 146097 = a
  generalize hr : d - 146097 * a = r
  generalize hn1 : r / 36524 - r / 36524 / 4 = b
  generalize hr2 : r - 36524 * b = r2
  generalize hc : r2 / 1461 = c
  generalize hr3 : r2 - 1461 * c = r3
  generalize he : r3 / 365 - r3 / 365 / 4 = e
  have h1 : r < 146097 := by omega
  have h2 : b ≤ 3 := by omega
  have h3 : r2 ≤ 36524 := by omega
  have h4 : b < 3 → r2 < 36524 := by omega
  have h5 : c ≤ 24 := by omega
  have h6 : r3 < 1461 := by omega
  have h7 : c = 24 → r3 ≤ 1460 := by omega
  have h8 : c = 24 → b < 3 → r3 < 1460 := by omega
  have h9 : e ≤ 3 := by omega
  have y4 : (400 * a + 100 * b + 4 * c + e) / 4 = 100 * a + 25 * b + c := by omega
  have y100 : (400 * a + 100 * b + 4 * c + e) / 100 = 4 * a + b := by omega
  have y400 : (400 * a + 100 * b + 4 * c + e) / 400 = a := by omega
  constructor
  · unfold dby
    rw [y4, y100, y400]
    have e1 : d = 146097 * a + r := by clear y4 y100 y400 hn1 hr2 hc hr3 he; omega
    have e2 : r = 36524 * b + r2 := by clear y4 y100 y400 hn4 hr hc hr3 he; omega
    have e3 : r2 = 1461 * c + r3 := by clear y4 y100 y400 hn4 hr hn1 hr2 he; omega
    have e4 : 365 * e ≤ r3 := by clear y4 y100 y400 hn4 hr hn1 hr2 hc hr3; omega
    clear y4 y100 y400 hn4 hr hn1 hr2 hc hr3 he h1 h2 h3 h4 h5 h6 h7 h8 h9
    omega
  · rw [yearLen_cases]
    have m4 : (400 * a + 100 * b + 4 * c + e + 1) % 4 = (e + 1) % 4 := by omega
    have m100 : (400 * a + 100 * b + 4 * c + e + 1) % 100 = (4 * c + e + 1) % 100 := by omega
    have m400 : (400 * a + 100 * b + 4 * c + e + 1) % 400 = (100 * b + 4 * c + e + 1) % 400 := by omega
    have hk : r3 - 365 * e < 365 ∨ e = 3 ∧ r3 = 1460 := by clear m4 m100 m400 y4 y100 y400 hn4 hr hn1 hr2 hc hr3; omega
    have hq : r3 - 365 * e < 366 := by omega
    rw [m4, m100, m400]
    clear hn4 hr hn1 hr2 hc hr3 he y4 y100 y400 m4 m100 m400 h1 h3 h4 h6 h7
    split
    · exact hq
    · rename_i hc'
      rcases hk with hk | ⟨rfl, hk⟩
      · exact hk
      · exfalso
        apply hc'
        refine ⟨by omega, ?_⟩
        by_cases hc24 : c = 24
        · right
          have : ¬ b < 3 := fun hb => by have := h8 hc24 hb; omega
          omega
        · left
          omega

/-- The year and the day of the year are determined. -/
theorem year_unique {y y' k k' : Nat} (hk : k < yearLen y) (hk' : k' < yearLen y') (h : dby y + k = dby y' + k') : y = y' ∧ k = k' := by
  rcases Nat.lt_trichotomy y y' with hlt | rfl | hlt
  · have := dby_mono (show y + 1 ≤ y' from hlt)
    rw [dby_succ] at this
    omega
  · exact ⟨rfl, by omega⟩
  · have := dby_mono (show y' + 1 ≤ y from hlt)
    rw [dby_succ] at this
    omega

/-! ## The day of the year -/

def mlen (leap : Bool) (m : Nat) : Nat :=
  if m = 4 ∨ m = 6 ∨ m = 9 ∨ m = 11 then 30 else if m = 2 then (if leap then 29 else 28) else 31

/-- All days of a year, one after the other. -/
theorem inYear_next (leap : Bool) : ∀ k < (if leap then 366 else 365),
    (1 ≤ (inYear leap k).1 ∧ (inYear leap k).1 ≤ 12 ∧ 1 ≤ (inYear leap k).2 ∧ (inYear leap k).2 ≤ mlen leap (inYear leap k).1) ∧
    (k + 1 < (if leap then 366 else 365) →
      inYear leap (k + 1) = if (inYear leap k).2 < mlen leap (inYear leap k).1 then ((inYear leap k).1, (inYear leap k).2 + 1) else ((inYear leap k).1 + 1, 1)) ∧
    (k + 1 < (if leap then 366 else 365) → ¬ (inYear leap k).2 < mlen leap (inYear leap k).1 → (inYear leap k).1 < 12) ∧
    (k + 1 = (if leap then 366 else 365) → inYear leap k = (12, 31)) := by
  cases leap <;> decide +kernel

theorem inYear_zero (leap : Bool) : inYear leap 0 = (1, 1) := by cases leap <;> rfl

/-- The date of a day counted from `zeroYear`. -/
def dayDate (d : Nat) : Day := absDate (d * 86400)

theorem absDate_eq (s : Nat) : absDate s = dayDate (s / 86400) := by
  unfold dayDate absDate
  rw [Nat.mul_div_cancel _ (by omega : 0 < 86400)]

theorem dayDate_eq {d y k : Nat} (hk : k < yearLen y) (h : dby y + k = d) :
    dayDate d = ⟨(y : Int) + zeroYear, (inYear (isLeap ((y : Int) + zeroYear)) k).1, (inYear (isLeap ((y : Int) + zeroYear)) k).2⟩ := by
  obtain ⟨h1, h2⟩ := yearOf_spec d
  obtain ⟨e1, e2⟩ := year_unique h2 hk (by rw [h1, h])
  unfold dayDate absDate
  rw [Nat.mul_div_cancel _ (by omega : 0 < 86400)]
  dsimp only
  rw [e1, e2]

theorem yearLen_isLeap (y : Nat) : yearLen y = if isLeap ((y : Int) + zeroYear) then 366 else 365 := by
  unfold yearLen
  by_cases h : Leap ((y : Int) + zeroYear)
  · rw [if_pos h, if_pos ((isLeap_iff _).2 h)]
  · rw [if_neg h, if_neg (fun hc => h ((isLeap_iff _).1 hc))]

theorem monthLen_isLeap (y : Int) (m : Nat) : monthLen y m = mlen (isLeap y) m := by
  unfold monthLen mlen
  by_cases h : Leap y
  · simp only [h, (isLeap_iff _).2 h]
  · have : isLeap y = false := by
      rw [Bool.eq_false_iff]
      exact fun hc => h ((isLeap_iff _).1 hc)
    simp only [h, this]
    rfl

theorem dayDate_valid (d : Nat) : Valid (dayDate d) := by
  obtain ⟨h1, h2⟩ := yearOf_spec d
  rw [dayDate_eq h2 h1]
  rw [yearLen_isLeap] at h2
  have := (inYear_next _ _ h2).1
  unfold Valid
  dsimp only at this ⊢
  rw [monthLen_isLeap]
  exact this

theorem dayDate_next (d : Nat) : dayDate (d + 1) = next (dayDate d) := by
  obtain ⟨h1, h2⟩ := yearOf_spec d
  rw [dayDate_eq h2 h1]
  generalize (yearOf d).1 = y at h1 h2 ⊢
  generalize (yearOf d).2 = k at h1 h2 ⊢
  have hl := yearLen_isLeap y
  have h2' := h2
  rw [hl] at h2'
  obtain ⟨-, g1, g2, g3⟩ := inYear_next _ _ h2'
  unfold next
  dsimp only at g1 g2 g3 ⊢
  rw [monthLen_isLeap]
  by_cases hk : k + 1 < yearLen y
  · rw [dayDate_eq hk (by omega)]
    rw [hl] at hk
    rw [g1 hk]
    have g2 := g2 hk
    by_cases hc : (inYear (isLeap ((y : Int) + zeroYear)) k).2 < mlen (isLeap ((y : Int) + zeroYear)) (inYear (isLeap ((y : Int) + zeroYear)) k).1
    · rw [if_pos hc, if_pos hc]
    · rw [if_neg hc, if_neg hc, if_pos (g2 hc)]
  · have e : k + 1 = yearLen y := by omega
    rw [hl] at e
    rw [g3 e, if_neg (by simp [mlen]), if_neg (by simp)]
    have h0 : 0 < yearLen (y + 1) := by unfold yearLen; split <;> omega
    rw [dayDate_eq h0 (by rw [dby_succ]; omega), inYear_zero]
    push_cast
    congr 1
    omega

/-! ## Moments -/

theorem abs_eq {t : Int} (off : Int) (h : InRange (t + off)) : (abs t off : Int) = t + off + unixToAbs := by
  unfold InRange at h
  unfold abs
  have hu : unixToAbs = 9223372028715321600 := by decide
  rw [hu] at h ⊢
  omega

/-- The day number of 1970-01-01. -/
def day0 : Nat := 719162 + 292277022400 * 3652425 / 10000

theorem date_eq {t : Int} (off : Int) (h : InRange (t + off)) : date t off = dayDate ((t + off) / 86400 + day0).toNat := by
  unfold date
  rw [absDate_eq]
  congr 1
  have := abs_eq off h
  have hu : unixToAbs = 9223372028715321600 := by decide
  have hd : day0 = 106751991073094 := by decide
  unfold InRange at h
  rw [hu] at this h
  rw [hd]
  omega

/-- **C143** The first second of 1970 is on January 1st; 86400 seconds later it is the next day of the calendar, and within a day the date stays. So the date is that
of the Gregorian calendar at every moment that package time can tell. -/
theorem C143_calendar (off : Int) :
    (date (-off) off = ⟨1970, 1, 1⟩) ∧
    (∀ t, InRange (t + off) → InRange (t + off + 86400) → date (t + 86400) off = next (date t off)) ∧
    (∀ t u, InRange (t + off) → InRange (u + off) → (t + off) / 86400 = (u + off) / 86400 → date t off = date u off) := by
  refine ⟨?_, fun t h h' => ?_, fun t u h h' e => ?_⟩
  · rw [date_eq off (by rw [Int.add_left_neg]; unfold InRange; decide), Int.add_left_neg]
    decide +kernel
  · rw [date_eq off h, date_eq off (by rwa [show t + 86400 + off = t + off + 86400 by omega]), ← dayDate_next]
    congr 1
    have hu : unixToAbs = 9223372028715321600 := by decide
    have hd : day0 = 106751991073094 := by decide
    unfold InRange at h
    rw [hu] at h
    rw [hd]
    omega
  · rw [date_eq off h, date_eq off h', e]

/-- **C143** So `n` days after 1970-01-01, and `n` days before it. -/
theorem C143_days (n : Nat) (h : n < 106751991000000) : date (86400 * n) 0 = next^[n] ⟨1970, 1, 1⟩ ∧ next^[n] (date (-(86400 * n)) 0) = ⟨1970, 1, 1⟩ := by
  have hu : unixToAbs = 9223372028715321600 := by decide
  have h0 := (C143_calendar 0).1
  rw [Int.neg_zero] at h0
  constructor
  · induction n with
    | zero => exact h0
    | succ n ih =>
      rw [Function.iterate_succ_apply', ← ih (by omega), ← (C143_calendar 0).2.1 _ (by unfold InRange; rw [hu]; omega) (by unfold InRange; rw [hu]; omega)]
      congr 1
  · induction n with
    | zero => exact h0
    | succ n ih =>
      rw [Function.iterate_succ_apply, ← (C143_calendar 0).2.1 _ (by unfold InRange; rw [hu]; omega) (by unfold InRange; rw [hu]; omega),
        show -(86400 * ((n + 1 : Nat) : Int)) + 86400 = -(86400 * (n : Int)) by omega]
      exact ih (by omega)

/-- **C143** It is always a day of the calendar. -/
theorem C143_valid (t off : Int) : Valid (date t off) := by
  unfold date
  rw [absDate_eq]
  exact dayDate_valid _

theorem before_next {t : Day} (h : Valid t) : Before t (next t) := by
  obtain ⟨h1, h2, h3, h4⟩ := h
  unfold next Before
  split
  · right; exact ⟨rfl, .inr ⟨rfl, by dsimp only; omega⟩⟩
  · split
    · right; exact ⟨rfl, .inl (by dsimp only; omega)⟩
    · left; dsimp only; omega

theorem before_trans {a b c : Day} (h : Before a b) (h' : Before b c) : Before a c := by
  unfold Before at *
  omega

theorem before_dayDate {a b : Nat} (h : a < b) : Before (dayDate a) (dayDate b) := by
  induction b, h using Nat.le_induction with
  | base => rw [dayDate_next]; exact before_next (dayDate_valid a)
  | succ b _ ih => rw [dayDate_next]; exact before_trans ih (before_next (dayDate_valid b))

/-- **C143** Days of the zone follow each other as the calendar says. -/
theorem C143_order {t u off off' : Int} (h : InRange (t + off)) (h' : InRange (u + off')) :
    Before (date t off) (date u off') ↔ (t + off) / 86400 < (u + off') / 86400 := by
  have hu : unixToAbs = 9223372028715321600 := by decide
  have hd : day0 = 106751991073094 := by decide
  have g := h
  have g' := h'
  unfold InRange at g g'
  rw [hu] at g g'
  rw [date_eq off h, date_eq off' h']
  constructor
  · intro hb
    by_contra hc
    rcases Nat.lt_or_ge ((u + off') / 86400 + day0).toNat ((t + off) / 86400 + day0).toNat with hlt | hge
    · have := before_trans hb (before_dayDate hlt)
      unfold Before at this
      omega
    · have : ((t + off) / 86400 + day0).toNat = ((u + off') / 86400 + day0).toNat := by rw [hd] at hge ⊢; omega
      rw [this] at hb
      unfold Before at hb
      omega
  · intro hlt
    exact before_dayDate (by rw [hd]; omega)

/-- The year of a moment has four digits: from 0000-01-01 to 9999-12-31. -/
theorem date_ok {t off : Int} (h : -62167219200 ≤ t + off) (h' : t + off < 253402300800) : Ok (date t off) := by
  have hu : unixToAbs = 9223372028715321600 := by decide
  have hr : InRange (t + off) := by unfold InRange; rw [hu]; omega
  obtain ⟨v1, v2, v3, v4⟩ := C143_valid t off
  have hm : monthLen (date t off).year (date t off).month ≤ 31 := by unfold monthLen; split <;> (try split) <;> (try split) <;> omega
  refine ⟨?_, ⟨v1, v2⟩, ⟨v3, by omega⟩⟩
  have a0 : date (-62167219200) 0 = ⟨0, 1, 1⟩ := by decide +kernel
  have a1 : date 253402300799 0 = ⟨9999, 12, 31⟩ := by decide +kernel
  have b0 := (C143_order (t := t) (off := off) (u := -62167219200) (off' := 0) hr (by unfold InRange; rw [hu]; omega)).not.2 (by omega)
  have b1 := (C143_order (t := 253402300799) (off := 0) (u := t) (off' := off) (by unfold InRange; rw [hu]; omega) hr).not.2 (by omega)
  rw [a0] at b0
  rw [a1] at b1
  unfold Before at b0 b1
  dsimp only at b0 b1
  omega

/-- **C143** In a zone with a fixed offset, in years of four digits: within a day the directory is the same, and the directory of a later day is greater. -/
theorem C143_dir_partial {t u off : Int} (ht : -62167219200 ≤ t + off) (htu : t ≤ u) (hu : u + off < 253402300800) :
    ((t + off) / 86400 = (u + off) / 86400 → timeDir t off = timeDir u off) ∧
    ((t + off) / 86400 < (u + off) / 86400 → Less (timeDir t off) (timeDir u off)) := by
  have hc : unixToAbs = 9223372028715321600 := by decide
  have r1 : InRange (t + off) := by unfold InRange; rw [hc]; omega
  have r2 : InRange (u + off) := by unfold InRange; rw [hc]; omega
  constructor
  · intro e
    unfold timeDir
    rw [(C143_calendar off).2.2 t u r1 r2 e]
  · intro hlt
    exact (C120_order_partial _ _ (date_ok ht (by omega)) (date_ok (by omega) hu)).2 ((C143_order r1 r2).2 hlt)

/-- **C143 (refuted: as time passes the directory never goes back).** In Newfoundland summer time ended at 00:01 (until 2011): on 2010-11-07 at 00:01 the clock went
back to 23:01 of November 6th, and with it the directory. -/
theorem C143_back_refuted : ∃ t u off off' : Int, t < u ∧ off = -9000 ∧ off' = -12600 ∧ timeDir t off = lit "2010/11/07" ∧ timeDir u off' = lit "2010/11/06" ∧
    Less (timeDir u off') (timeDir t off) := by
  have h1 : timeDir 1289097030 (-9000) = lit "2010/11/07" := by decide +kernel
  have h2 : timeDir 1289097060 (-12600) = lit "2010/11/06" := by decide +kernel
  refine ⟨1289097030, 1289097060, -9000, -12600, by omega, rfl, rfl, h1, h2, ?_⟩
  rw [h1, h2, show lit "2010/11/07" = [50, 48, 49, 48, 47, 49, 49, 47, 48, 55] by decide +kernel,
    show lit "2010/11/06" = [50, 48, 49, 48, 47, 49, 49, 47, 48, 54] by decide +kernel]
  simp [Less]

/-! ## Examples -/

example : date 951782400 0 = ⟨2000, 2, 29⟩ := by decide +kernel
example : date 951868799 0 = ⟨2000, 2, 29⟩ := by decide +kernel
example : date 951868800 0 = ⟨2000, 3, 1⟩ := by decide +kernel
example : date 4107542399 0 = ⟨2100, 2, 28⟩ ∧ date 4107542400 0 = ⟨2100, 3, 1⟩ := by decide +kernel
example : date (-1) 0 = ⟨1969, 12, 31⟩ := by decide +kernel
example : date 1704038400 28800 = ⟨2024, 1, 1⟩ ∧ date 1704038399 28800 = ⟨2023, 12, 31⟩ := by decide +kernel
example : timeDir 1680590668 28800 = [50, 48, 50, 51, 47, 48, 52, 47, 48, 52] := by decide +kernel
example : Leap 2000 ∧ ¬ Leap 1900 ∧ Leap 2024 ∧ ¬ Leap 2023 := by decide

end Verif.Calendar
