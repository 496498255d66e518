import Verif.Model.Strconv

/-!
# Model of `GetTimeDir` (help/utils/times.go)
-/

namespace Verif.Times

open Utf8

/-- A day of the calendar, as `time.Now()` and the time zone give it. -/
structure Day where
  year : Int
  month : Nat
  day : Nat
deriving DecidableEq

/-- `appendInt` of package time: the sign, zeros up to the width, and the digits. -/
def appendInt (x : Int) (width : Nat) : Bytes :=
  (if x < 0 then [45] else []) ++
    (List.replicate (width - (Strconv.digitsFuel 20 x.natAbs).length) 48 ++ Strconv.digitsFuel 20 x.natAbs)

/-- `GetTimeDir`, help/utils/times.go:25-29: `Format("2006/01/02")`. -/
def getTimeDir (t : Day) : Bytes := appendInt t.year 4 ++ 47 :: (appendInt t.month 2 ++ 47 :: appendInt t.day 2)

end Verif.Times
