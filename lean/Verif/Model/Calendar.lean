import Verif.Model.Times

/-!
# The calendar behind `GetTimeDir` (help/utils/times.go): what `time.Now()` and its `Format` make of a moment

A moment is a number of seconds since 1970-01-01 00:00:00 UTC; the time zone adds its offset at that moment. The steps are those of
`Time.abs` and `absDate` in package time (Go 1.18), with the wrap-around of 64-bit numbers in `abs`.
-/

namespace Verif.Calendar

open Utf8 Times

/-- `unixToInternal + internalToAbsolute`: the seconds from the start of the year -292277022399 to 1970. -/
def unixToAbs : Int := (719162 + 292277022400 * 3652425 / 10000) * 86400

/-- `Time.abs`: `uint64(sec + offset + ...)`. -/
def abs (sec offset : Int) : Nat := ((sec + offset + unixToAbs) % 2 ^ 64).toNat

/-- `absoluteZeroYear` -/
def zeroYear : Int := -292277022399

/-- `isLeap` -/
def isLeap (year : Int) : Bool := decide (year % 4 = 0 ∧ (year % 100 ≠ 0 ∨ year % 400 = 0))

/-- `daysBefore` -/
def daysBefore : List Nat := [0, 31, 59, 90, 120, 151, 181, 212, 243, 273, 304, 334, 365]

/-- The last part of `absDate`: month and day of the `day`-th day of a year without February 29th. -/
def monthDay (day : Nat) : Nat × Nat :=
  let month := day / 31
  let stop := daysBefore.getD (month + 1) 0
  if stop ≤ day then (month + 2, day - stop + 1) else (month + 1, day - daysBefore.getD month 0 + 1)

/-- `absDate`, the part with the leap day. -/
def inYear (leap : Bool) (day : Nat) : Nat × Nat :=
  if leap then
    if 31 + 29 - 1 < day then monthDay (day - 1)
    else if day = 31 + 29 - 1 then (2, 29)
    else monthDay day
  else monthDay day

/-- `absDate`, the part that finds the year: the years since `zeroYear` and the day of the year. -/
def yearOf (d : Nat) : Nat × Nat :=
  let n := d / 146097
  let y := 400 * n
  let d := d - 146097 * n
  let n := d / 36524
  let n := n - n / 4
  let y := y + 100 * n
  let d := d - 36524 * n
  let n := d / 1461
  let y := y + 4 * n
  let d := d - 1461 * n
  let n := d / 365
  let n := n - n / 4
  (y + n, d - 365 * n)

/-- `absDate` -/
def absDate (abs : Nat) : Day :=
  let (y, yday) := yearOf (abs / 86400)
  let year := (y : Int) + zeroYear
  let (month, day) := inYear (isLeap year) yday
  ⟨year, month, day⟩

/-- The day at a moment, in a zone with the given offset. -/
def date (sec offset : Int) : Day := absDate (abs sec offset)

/-- `GetTimeDir`, help/utils/times.go:25-29, at a moment. -/
def timeDir (sec offset : Int) : Bytes := getTimeDir (date sec offset)

end Verif.Calendar
