import Verif.Go.Strings
import Verif.Go.Int64

/-!
# Model of `help/utils/strings.go`

A conversion `[]rune(s)` yields a slice whose capacity the language leaves open; here it is a parameter `cap` with `n ≤ cap n`,
and the slots above the length hold zero, as in the runtime.
-/

namespace Verif.StringsGo

open Utf8 Strings

/-- `rs[lo:hi]` for a slice of `rs.length` runes with capacity `cap`: panics unless `0 ≤ lo ≤ hi ≤ cap`. -/
def slice (cap : Nat) (rs : List Nat) (lo hi : Int) : Go (List Nat) :=
  if 0 ≤ lo ∧ lo ≤ hi ∧ hi ≤ cap then
    .ok (((rs ++ List.replicate (cap - rs.length) 0).take hi.toNat).drop lo.toNat)
  else .error .slice

/-- `Substr2`, strings.go:28-31. -/
def substr2 (cap : Nat → Nat) (str : Bytes) (start stop : Int) : Go Bytes := do
  let rs := runes str
  let part ← slice (cap rs.length) rs start stop
  return ofRunes part

/-- `strings.ToUpper` of a one-byte string, for ASCII; a byte above 127 becomes U+FFFD. -/
def toUpper1 (s : Bytes) : Bytes :=
  match s with
  | [b] => if 97 ≤ b ∧ b ≤ 122 then [b - 32] else if b < 128 then [b] else encode1 runeError
  | s => s

/-- `UpperFirst`, strings.go:50-56: the result of `strings.Replace` is dropped. -/
def upperFirst (s : Bytes) : Bytes :=
  if s.length > 0 then
    let _ := toUpper1 (s.take 1) ++ s.drop 1
    s
  else s

/-- `^1[0-9]\d{9}$`, strings.go:79-81. -/
def isMobile (s : Bytes) : Bool := decide (s.length = 11 ∧ s.head? = some 49 ∧ ∀ b ∈ s, 48 ≤ b ∧ b ≤ 57)

/-- `HideStar`, strings.go:62-102. -/
def hideStar (cap : Nat → Nat) (str : Bytes) : Go Bytes :=
  if str = [] then .ok (lit "***")
  else if contains str (lit "@") then do
    let res := split str (lit "@")
    let r0 ← Go.idx res 0
    if r0.length < 3 then do
      let r1 ← Go.idx res 1
      return lit "***" ++ lit "@" ++ r1
    else do
      let res2 ← substr2 cap str 0 3
      let r1 ← Go.idx res 1
      return res2 ++ lit "***" ++ lit "@" ++ r1
  else if isMobile str then do
    let a ← substr2 cap str 0 3
    let b ← substr2 cap str 7 11
    return a ++ lit "****" ++ b
  else do
    let nameRune := runes str
    let lens := nameRune.length
    let c := cap lens
    if lens ≤ 1 then return lit "***"
    else if lens = 2 then do
      let a ← slice c nameRune 0 1
      return ofRunes a ++ lit "*"
    else if lens = 3 then do
      let a ← slice c nameRune 0 1
      let b ← slice c nameRune 2 3
      return ofRunes a ++ lit "*" ++ ofRunes b
    else if lens = 4 then do
      let a ← slice c nameRune 0 1
      let b ← slice c nameRune (lens - 1) lens
      return ofRunes a ++ lit "**" ++ ofRunes b
    else do
      let a ← slice c nameRune 0 2
      let b ← slice c nameRune (lens - 2) lens
      return ofRunes a ++ lit "***" ++ ofRunes b

/-- The loop over the characters, strings.go:118-124, 161-167, 189-195: `_cardNo[index] = '*'` or `= _c`. -/
def maskLoop (offset maskNumber : Int) : List (Nat × Nat) → List Nat → Go (List Nat)
  | [], card => .ok card
  | (index, c) :: rest, card => do
    let card ← Go.set card index (if offset ≤ index ∧ index < maskNumber then 42 else c)
    maskLoop offset maskNumber rest card

/-- The common part, strings.go:115-129, 158-172, 186-200. -/
def mask (offset maskNumber : Int) (s : Bytes) : Go Bytes :=
  if (s.length : Int) > maskNumber then do
    let card ← maskLoop offset maskNumber (range s) (List.replicate s.length 0)
    return ofRunes card
  else .ok s

/-- `MaskMobile`, strings.go:108-130. -/
def maskMobile (mobile : Bytes) (maskNumber : Int) : Go Bytes :=
  let offset : Int := if mobile.length > 11 then 3 + 2 else 3
  mask offset (wrap64 (maskNumber + offset)) mobile

/-- `MaskIDCard`, strings.go:154-173. -/
def maskIDCard (idcard : Bytes) (maskNumber : Int) : Go Bytes := mask 4 (wrap64 (maskNumber + 4)) idcard

/-- `MaskBackCard`, strings.go:179-201. -/
def maskBackCard (bankcard : Bytes) (maskNumber : Int) : Go Bytes :=
  let maskNumber := wrap64 (maskNumber + 4)
  let maskNumber := if bankcard.length > 16 then wrap64 (maskNumber + (bankcard.length - 16)) else maskNumber
  mask 4 maskNumber bankcard

/-- `MaskCustomerName`, strings.go:136-148: the length is that of the bytes, the slices are of runes. -/
def maskCustomerName (cap : Nat → Nat) (name : Bytes) : Go Bytes :=
  let rs := runes name
  let c := cap rs.length
  if name.length > 4 then do
    let a ← slice c rs 0 2
    let b ← slice c rs ((rs.length : Int) - 2) rs.length
    return ofRunes a ++ lit "***" ++ ofRunes b
  else if name.length < 1 then .ok []
  else do
    let a ← slice c rs 0 1
    return ofRunes a ++ lit "***"

end Verif.StringsGo
