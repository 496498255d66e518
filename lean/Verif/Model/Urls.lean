import Verif.Go.Strings

/-!
# URLs and file names: `IsSameSiteURLPath`, `BuildUrl`, `GetSuffixName`, `IsImage`
-/

namespace Verif.Urls

open Utf8 Strings

/-- `IsSameSiteURLPath`, help/utils/files.go:313-315 (`/` is 47, the backslash 92). -/
def isSameSiteURLPath (url : Bytes) : Bool :=
  match url with
  | a :: b :: _ => a == 47 && b != 47 && b != 92
  | _ => false

/-- The loop of `BuildUrl`, url.go:26-33; the parameters as printed by `%v`. -/
def buildLoop : List Bytes → List Bytes → List Bytes
  | k :: v :: rest, linkUrl =>
    buildLoop rest (if k.length > 0 && v != lit "0" then linkUrl ++ [k ++ lit "/" ++ v] else linkUrl)
  | _, linkUrl => linkUrl

/-- `BuildUrl`, help/utils/url.go:15-37. -/
def buildUrl (pre : Bytes) (params : List Bytes) : Bytes :=
  trimRight (join (lit "/") (buildLoop params [lit "/" ++ trim pre 47])) 47

/-- `GetSuffixName`, help/utils/files.go:149-156. -/
def getSuffixName (str seg : Bytes) : Bytes :=
  let slice := split str seg
  if h : slice.length > 1 then slice[slice.length - 1] else []

/-- `unicode.IsSpace` -/
def isSpace (r : Nat) : Bool :=
  decide ((9 ≤ r ∧ r ≤ 13) ∨ r = 32 ∨ r = 0x85 ∨ r = 0xA0 ∨ r = 0x1680 ∨ (0x2000 ≤ r ∧ r ≤ 0x200A) ∨ r = 0x2028 ∨ r = 0x2029 ∨
    r = 0x202F ∨ r = 0x205F ∨ r = 0x3000)

/-- `strings.TrimSpace`, on the runes. -/
def trimSpace (rs : List Nat) : List Nat := ((rs.dropWhile isSpace).reverse.dropWhile isSpace).reverse

/-- The seven extensions, files.go:140. -/
def exts : List Bytes := [lit "jpeg", lit "jpg", lit "gif", lit "png", lit "bmp", lit "tif", lit "tiff"]

/-- `IsImage`, help/utils/files.go:137-143. `lower` is `unicode.ToLower`. The name is valid UTF-8, so the strings are sequences
of runes. -/
def isImage (lower : Nat → Nat) (path : Bytes) : Go Bool := do
  let slice := split path (lit ".")
  let last ← Go.idx slice (slice.length - 1)
  let ext := ofRunes ((trimSpace (runes last)).map lower)
  return decide (ext ∈ exts)

end Verif.Urls
