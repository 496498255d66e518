import Verif.Model.Strings

/-!
# Model of `IsTextFile`, `IsImageFile`, `IsPDFFile` and `IsVideoFile` (help/utils/files.go)

`http.DetectContentType` of the standard library (go 1.18, net/http/sniff.go) with its table.
-/

namespace Verif.Sniff

open Utf8

/-- `isWS` -/
def isWS (b : Nat) : Bool := b = 9 ∨ b = 10 ∨ b = 12 ∨ b = 13 ∨ b = 32

/-- `isTT` -/
def isTT (b : Nat) : Bool := b = 32 ∨ b = 62

/-- One signature of the table; in `masked` a `none` is a byte that may be anything. -/
inductive Sig
  | html (tag : Bytes)
  | masked (skipWS : Bool) (pat : List (Option Nat)) (ct : Bytes)
  | exact (pat : Bytes) (ct : Bytes)
  | mp4
  | text
deriving DecidableEq

/-- The bytes of a tag: capital letters match small ones too. -/
def tagMatches : Bytes → Bytes → Bool
  | [], b :: _ => isTT b
  | t :: ts, b :: bs => (if 65 ≤ t ∧ t ≤ 90 then b = t ∨ b = t + 32 else b = t) && tagMatches ts bs
  | _, [] => false

/-- The bytes of a pattern. -/
def patMatches : List (Option Nat) → Bytes → Bool
  | [], _ => true
  | p :: ps, b :: bs => (p = none ∨ p = some b) && patMatches ps bs
  | _ :: _, [] => false

/-- `binary.BigEndian.Uint32` of the first four bytes. -/
def boxSize (d : Bytes) : Nat := ((d.getD 0 0 * 256 + d.getD 1 0) * 256 + d.getD 2 0) * 256 + d.getD 3 0

/-- The loop of `mp4Sig.match`: four bytes at a time from `st`, up to the end of the box. -/
def mp4Brands (d : Bytes) : Nat → Nat → Bool
  | 0, _ => false
  | fuel + 1, st =>
    if st < boxSize d then
      if st ≠ 12 ∧ (d.drop st).take 3 = lit "mp4" then true else mp4Brands d fuel (st + 4)
    else false

/-- `mp4Sig.match` -/
def mp4Matches (d : Bytes) : Bool :=
  12 ≤ d.length ∧ boxSize d ≤ d.length ∧ boxSize d % 4 = 0 ∧ (d.drop 4).take 4 = lit "ftyp" ∧ mp4Brands d d.length 8 = true

/-- A byte that does not occur in texts. -/
def isBinary (b : Nat) : Bool := b ≤ 8 ∨ b = 11 ∨ (14 ≤ b ∧ b ≤ 26) ∨ (28 ≤ b ∧ b ≤ 31)

/-- `sig.match`: the type, or `none`. -/
def Sig.matches (d : Bytes) : Sig → Option Bytes
  | .html tag => if tagMatches tag (d.dropWhile isWS) then some (lit "text/html; charset=utf-8") else none
  | .masked skip pat ct => if patMatches pat (if skip then d.dropWhile isWS else d) then some ct else none
  | .exact pat ct => if pat.isPrefixOf d then some ct else none
  | .mp4 => if mp4Matches d then some (lit "video/mp4") else none
  | .text => if (d.dropWhile isWS).any isBinary then none else some (lit "text/plain; charset=utf-8")

/-- A pattern without free bytes. -/
def all (s : Bytes) : List (Option Nat) := s.map some

/-- `n` free bytes. -/
def any (n : Nat) : List (Option Nat) := List.replicate n none

/-- The tags. -/
def tags : List Bytes :=
  [lit "<!DOCTYPE HTML", lit "<HTML", lit "<HEAD", lit "<SCRIPT", lit "<IFRAME", lit "<H1", lit "<DIV", lit "<FONT", lit "<TABLE", lit "<A",
    lit "<STYLE", lit "<TITLE", lit "<B", lit "<BODY", lit "<BR", lit "<P", lit "<!--"]

/-- The table after the tags. -/
def others : List Sig :=
  [.masked true (all (lit "<?xml")) (lit "text/xml; charset=utf-8"),
    .exact (lit "%PDF-") (lit "application/pdf"),
    .exact (lit "%!PS-Adobe-") (lit "application/postscript"),
    .masked false ([some 254, some 255] ++ any 2) (lit "text/plain; charset=utf-16be"),
    .masked false ([some 255, some 254] ++ any 2) (lit "text/plain; charset=utf-16le"),
    .masked false ([some 239, some 187, some 191] ++ any 1) (lit "text/plain; charset=utf-8"),
    .exact [0, 0, 1, 0] (lit "image/x-icon"),
    .exact [0, 0, 2, 0] (lit "image/x-icon"),
    .exact (lit "BM") (lit "image/bmp"),
    .exact (lit "GIF87a") (lit "image/gif"),
    .exact (lit "GIF89a") (lit "image/gif"),
    .masked false (all (lit "RIFF") ++ any 4 ++ all (lit "WEBPVP")) (lit "image/webp"),
    .exact [137, 80, 78, 71, 13, 10, 26, 10] (lit "image/png"),
    .exact [255, 216, 255] (lit "image/jpeg"),
    .masked false (all (lit "FORM") ++ any 4 ++ all (lit "AIFF")) (lit "audio/aiff"),
    .masked false (all (lit "ID3")) (lit "audio/mpeg"),
    .masked false (all (lit "OggS" ++ [0])) (lit "application/ogg"),
    .masked false (all (lit "MThd" ++ [0, 0, 0, 6])) (lit "audio/midi"),
    .masked false (all (lit "RIFF") ++ any 4 ++ all (lit "AVI ")) (lit "video/avi"),
    .masked false (all (lit "RIFF") ++ any 4 ++ all (lit "WAVE")) (lit "audio/wave"),
    .mp4,
    .exact [26, 69, 223, 163] (lit "video/webm"),
    .masked false (any 34 ++ all (lit "LP")) (lit "application/vnd.ms-fontobject"),
    .exact [0, 1, 0, 0] (lit "font/ttf"),
    .exact (lit "OTTO") (lit "font/otf"),
    .exact (lit "ttcf") (lit "font/collection"),
    .exact (lit "wOFF") (lit "font/woff"),
    .exact (lit "wOF2") (lit "font/woff2"),
    .exact [31, 139, 8] (lit "application/x-gzip"),
    .exact (lit "PK" ++ [3, 4]) (lit "application/zip"),
    .exact (lit "Rar!" ++ [26, 7, 0]) (lit "application/x-rar-compressed"),
    .exact (lit "Rar!" ++ [26, 7, 1, 0]) (lit "application/x-rar-compressed"),
    .exact [0, 97, 115, 109] (lit "application/wasm"),
    .text]

/-- `http.DetectContentType` -/
def detect (data : Bytes) : Bytes :=
  ((tags.map Sig.html ++ others).findSome? (Sig.matches (data.take 512))).getD (lit "application/octet-stream")

/-- `IsTextFile`, help/utils/files.go:254-259. -/
def isTextFile (data : Bytes) : Bool := data = [] ∨ Strings.contains (detect data) (lit "text/")

/-- `IsImageFile`, help/utils/files.go:265-267. -/
def isImageFile (data : Bytes) : Bool := Strings.contains (detect data) (lit "image/")

/-- `IsPDFFile`, help/utils/files.go:273-275. -/
def isPDFFile (data : Bytes) : Bool := Strings.contains (detect data) (lit "application/pdf")

/-- `IsVideoFile`, help/utils/files.go:281-283. -/
def isVideoFile (data : Bytes) : Bool := Strings.contains (detect data) (lit "video/")

end Verif.Sniff
