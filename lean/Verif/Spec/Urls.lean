import Verif.Go.Utf8

/-!
# The parts of a URL reference

The regular expression of RFC 3986, appendix B: `^(([^:/?#]+):)?(//([^/?#]*))?([^?#]*)(\?([^#]*))?(#(.*))?`, and what browsers
do first (WHATWG URL: tabs and newlines are removed, a backslash counts as a slash).
-/

namespace Verif.Spec.Url

/-- `:`, `/`, `?` or `#` -/
def delim (c : Nat) : Bool := c == 58 || c == 47 || c == 63 || c == 35

/-- The scheme and what follows. -/
def scheme (u : Bytes) : Option Bytes × Bytes :=
  let s := u.takeWhile (fun c => !delim c)
  match s, u.dropWhile (fun c => !delim c) with
  | _ :: _, 58 :: rest => (some s, rest)
  | _, _ => (none, u)

/-- The authority. -/
def authority (u : Bytes) : Option Bytes :=
  match (scheme u).2 with
  | 47 :: 47 :: rest => some (rest.takeWhile (fun c => !(c == 47 || c == 63 || c == 35)))
  | _ => none

/-- What a browser parses: without tab, line feed, carriage return; a backslash is a slash. -/
def browser (u : Bytes) : Bytes := (u.filter (fun c => !(c == 9 || c == 10 || c == 13))).map (fun c => if c = 92 then 47 else c)

/-- The extensions of images: jpeg, jpg, gif, png, bmp, tif, tiff. -/
def images : List Bytes :=
  [[106, 112, 101, 103], [106, 112, 103], [103, 105, 102], [112, 110, 103], [98, 109, 112], [116, 105, 102], [116, 105, 102, 102]]

end Verif.Spec.Url
