import Verif.Model.Sniff
import Mathlib.Data.List.Basic

/-!
# C121: telling texts, images, PDF documents and videos from their content
-/

namespace Verif

open Utf8

/-! ## What the formats look like -/

namespace Spec.Sniff

/-- The bytes begin with the pattern, where `none` stands for any byte. -/
def Starts (pat : List (Option Nat)) (d : Bytes) : Prop :=
  pat.length ≤ d.length ∧ ∀ i b : Nat, pat[i]? = some (some b) → d[i]? = some b

/-- A pattern without free bytes. -/
def str (s : String) : List (Option Nat) := (lit s).map some

/-- Four bytes that may be anything. -/
def gap : List (Option Nat) := [none, none, none, none]

/-- Capital letters as small ones. -/
def lower (c : Nat) : Nat := if 65 ≤ c ∧ c ≤ 90 then c + 32 else c

/-- White space of HTML. -/
def White (c : Nat) : Prop := c = 9 ∨ c = 10 ∨ c = 12 ∨ c = 13 ∨ c = 32

/-- A tag of HTML among the first 512 bytes, after white space. -/
def Tag (d : Bytes) : Prop :=
  ∃ ws t c rest, d.take 512 = ws ++ t ++ c :: rest ∧ (∀ b ∈ ws, White b) ∧ (c = 32 ∨ c = 62) ∧
    t.map lower ∈ [lit "<!doctype html", lit "<html", lit "<head", lit "<script", lit "<iframe", lit "<h1", lit "<div", lit "<font",
      lit "<table", lit "<a", lit "<style", lit "<title", lit "<b", lit "<body", lit "<br", lit "<p", lit "<!--"]

/-- `<?xml` among the first 512 bytes, after white space. -/
def Xml (d : Bytes) : Prop := ∃ ws rest, d.take 512 = ws ++ lit "<?xml" ++ rest ∧ ∀ b ∈ ws, White b

/-- A byte order mark (and four bytes at least). -/
def Bom (d : Bytes) : Prop := 4 ≤ d.length ∧ ([254, 255] <+: d ∨ [255, 254] <+: d ∨ [239, 187, 191] <+: d)

/-- Control characters other than tab, newline, form feed, carriage return and escape. -/
def Control (c : Nat) : Prop := c < 32 ∧ c ≠ 9 ∧ c ≠ 10 ∧ c ≠ 12 ∧ c ≠ 13 ∧ c ≠ 27

/-- The images. -/
def Image (d : Bytes) : Prop :=
  [0, 0, 1, 0] <+: d ∨ [0, 0, 2, 0] <+: d ∨ lit "BM" <+: d ∨ lit "GIF87a" <+: d ∨ lit "GIF89a" <+: d ∨
    Starts (str "RIFF" ++ gap ++ str "WEBPVP") d ∨ [137, 80, 78, 71, 13, 10, 26, 10] <+: d ∨ [255, 216, 255] <+: d

/-- An MP4 file: the first four bytes are the length of a box `ftyp` that is within the first 512 bytes and has a brand `mp4`. -/
def Mp4 (d : Bytes) : Prop :=
  ∃ a b, lit "ftyp" <+: d.drop 4 ∧ d.take 4 = [0, 0, a, b] ∧ (a * 256 + b) % 4 = 0 ∧ a * 256 + b ≤ 512 ∧ a * 256 + b ≤ d.length ∧
    12 ≤ d.length ∧ ∃ st, 8 ≤ st ∧ st ≠ 12 ∧ st % 4 = 0 ∧ st < a * 256 + b ∧ lit "mp4" <+: d.drop st

/-- Formats other than text that begin with characters of a text. -/
def Special (d : Bytes) : Prop :=
  lit "%PDF-" <+: d ∨ lit "%!PS-Adobe-" <+: d ∨ lit "BM" <+: d ∨ lit "GIF87a" <+: d ∨ lit "GIF89a" <+: d ∨
    Starts (str "RIFF" ++ gap ++ str "WEBPVP") d ∨ [255, 216, 255] <+: d ∨ Starts (str "FORM" ++ gap ++ str "AIFF") d ∨ lit "ID3" <+: d ∨
    Starts (str "RIFF" ++ gap ++ str "AVI ") d ∨ Starts (str "RIFF" ++ gap ++ str "WAVE") d ∨ Starts (List.replicate 34 none ++ str "LP") d ∨
    lit "OTTO" <+: d ∨ lit "ttcf" <+: d ∨ lit "wOFF" <+: d ∨ lit "wOF2" <+: d

end Spec.Sniff

namespace Sniff

open Spec.Sniff

/-! ## The table -/

/-- The types in the table. -/
def types : List Bytes :=
  [lit "text/html; charset=utf-8", lit "video/mp4", lit "text/plain; charset=utf-8", lit "text/xml; charset=utf-8", lit "application/pdf",
    lit "application/postscript", lit "text/plain; charset=utf-16be", lit "text/plain; charset=utf-16le", lit "image/x-icon", lit "image/bmp",
    lit "image/gif", lit "image/webp", lit "image/png", lit "image/jpeg", lit "audio/aiff", lit "audio/mpeg", lit "application/ogg",
    lit "audio/midi", lit "video/avi", lit "audio/wave", lit "video/webm", lit "application/vnd.ms-fontobject", lit "font/ttf", lit "font/otf",
    lit "font/collection", lit "font/woff", lit "font/woff2", lit "application/x-gzip", lit "application/zip",
    lit "application/x-rar-compressed", lit "application/wasm", lit "application/octet-stream"]

/-- The type a signature stands for. -/
def Sig.ct : Sig → Bytes
  | .html _ => lit "text/html; charset=utf-8"
  | .masked _ _ ct => ct
  | .exact _ ct => ct
  | .mp4 => lit "video/mp4"
  | .text => lit "text/plain; charset=utf-8"

theorem matches_ct (d : Bytes) (s : Sig) (ct : Bytes) (h : s.matches d = some ct) : ct = s.ct := by
  cases s <;> simp only [Sig.matches] at h <;> split at h <;> simp_all [Sig.ct]

def table : List Sig := tags.map Sig.html ++ others

theorem ct_types : ∀ s ∈ table, s.ct ∈ types := by
  intro s hs
  have : ∀ b ∈ table.map Sig.ct, b ∈ types := by decide +kernel
  exact this _ (List.mem_map_of_mem hs)

/-- The type is that of the first signature found. -/
theorem detect_cases (d : Bytes) :
    (∃ pre s post, table = pre ++ s :: post ∧ s.matches (d.take 512) = some s.ct ∧ (∀ t ∈ pre, t.matches (d.take 512) = none) ∧ detect d = s.ct) ∨
    ((∀ t ∈ table, t.matches (d.take 512) = none) ∧ detect d = lit "application/octet-stream") := by
  unfold detect
  change (∃ pre s post, _ ∧ _ ∧ _ ∧ (table.findSome? _).getD _ = _) ∨ (_ ∧ (table.findSome? _).getD _ = _)
  cases h : table.findSome? (Sig.matches (d.take 512)) with
  | none => exact Or.inr ⟨List.findSome?_eq_none_iff.1 h, rfl⟩
  | some ct =>
    obtain ⟨pre, s, post, h1, h2, h3⟩ := List.findSome?_eq_some_iff.1 h
    have := matches_ct _ _ _ h2
    subst this
    exact Or.inl ⟨pre, s, post, h1, h2, h3, rfl⟩

theorem detect_types (d : Bytes) : detect d ∈ types := by
  rcases detect_cases d with ⟨pre, s, post, h, -, -, h4⟩ | ⟨-, h⟩
  · rw [h4]
    exact ct_types s (by rw [h]; simp)
  · rw [h]
    decide +kernel

/-- **C121 (exclusive).** No data are two of text, image, PDF document and video. -/
theorem C121_exclusive (d : Bytes) :
    ([isTextFile d, isImageFile d, isPDFFile d, isVideoFile d].filter (· = true)).length ≤ 1 := by
  have h : ∀ ct ∈ types, ([Strings.contains ct (lit "text/"), Strings.contains ct (lit "image/"), Strings.contains ct (lit "application/pdf"),
      Strings.contains ct (lit "video/")].filter (· = true)).length ≤ 1 := by decide +kernel
  by_cases hd : d = []
  · subst hd
    decide +kernel
  · have : isTextFile d = Strings.contains (detect d) (lit "text/") := by
      unfold isTextFile
      simp [hd]
    rw [this]
    exact h _ (detect_types d)

/-- **C121 (first bytes).** Only the first 512 bytes matter. -/
theorem C121_first (a b c : Bytes) (h : a.length = 512) :
    isTextFile (a ++ b) = isTextFile (a ++ c) ∧ isImageFile (a ++ b) = isImageFile (a ++ c) ∧ isPDFFile (a ++ b) = isPDFFile (a ++ c) ∧
    isVideoFile (a ++ b) = isVideoFile (a ++ c) := by
  have hd : detect (a ++ b) = detect (a ++ c) := by
    unfold detect
    rw [List.take_append_of_le_length (by omega), List.take_append_of_le_length (by omega)]
  have hn : ∀ x, a ++ x ≠ [] := by
    intro x hx
    have : a = [] := (List.append_eq_nil_iff.1 hx).1
    rw [this] at h
    cases h
  unfold isTextFile isImageFile isPDFFile isVideoFile
  rw [hd]
  simp [hn]

/-! ## Patterns -/

theorem patMatches_iff (p : List (Option Nat)) (d : Bytes) : patMatches p d = true ↔ Starts p d := by
  induction p generalizing d with
  | nil => simp [patMatches, Starts]
  | cons x p ih =>
    cases d with
    | nil => simp [patMatches, Starts]
    | cons b d =>
      simp only [patMatches, Bool.and_eq_true, decide_eq_true_eq, ih]
      unfold Starts
      constructor
      · rintro ⟨h1, h2, h3⟩
        refine ⟨by simpa using h2, ?_⟩
        intro i c hi
        cases i with
        | zero =>
          simp at hi
          subst hi
          simp at h1
          simp [h1]
        | succ i => simpa using h3 i c (by simpa using hi)
      · rintro ⟨h2, h3⟩
        refine ⟨?_, by simpa using h2, fun i c hi => by simpa using h3 (i + 1) c (by simpa using hi)⟩
        cases x with
        | none => exact Or.inl rfl
        | some c =>
          right
          have := h3 0 c (by simp)
          simpa using this.symm

theorem starts_take (p : List (Option Nat)) (d : Bytes) (h : p.length ≤ 512) : Starts p (d.take 512) ↔ Starts p d := by
  unfold Starts
  rw [List.length_take]
  refine and_congr (by omega) (forall_congr' fun i => forall_congr' fun b => ?_)
  refine imp_congr_right fun hi => ?_
  have : i < p.length := by
    by_contra hc
    rw [List.getElem?_eq_none (by omega)] at hi
    cases hi
  rw [List.getElem?_take, if_pos (by omega)]

theorem prefix_take (p d : Bytes) (h : p.length ≤ 512) : p.isPrefixOf (d.take 512) = true ↔ p <+: d := by
  rw [List.isPrefixOf_iff_prefix, List.prefix_take_iff]
  exact ⟨fun h => h.1, fun h' => ⟨h', h⟩⟩

theorem starts_all (s : Bytes) (d : Bytes) : Starts (s.map some) d ↔ s <+: d := by
  rw [← patMatches_iff]
  induction s generalizing d with
  | nil => simp [patMatches]
  | cons c s ih =>
    cases d with
    | nil => simp [patMatches]
    | cons b d => simp [patMatches, ih, List.cons_prefix_cons]

/-- If a pattern is found there, the data begin with these bytes. -/
theorem starts_split (p q : List (Option Nat)) (d : Bytes) (h : Starts (p ++ q) d) : Starts p d ∧ Starts q (d.drop p.length) := by
  obtain ⟨h1, h2⟩ := h
  simp at h1
  refine ⟨⟨by omega, fun i b hi => h2 i b ?_⟩, by simp; omega, fun i b hi => ?_⟩
  · have : i < p.length := by
      by_contra hc
      rw [List.getElem?_eq_none (by omega)] at hi
      cases hi
    rw [List.getElem?_append_left this]
    exact hi
  · rw [List.getElem?_drop]
    apply h2
    rw [List.getElem?_append_right (by omega)]
    simpa using hi

/-! ## PDF documents -/

/-- **C121 (PDF documents).** They are exactly the data that begin with `%PDF-`. -/
theorem C121_pdf (d : Bytes) : isPDFFile d = true ↔ lit "%PDF-" <+: d := by
  unfold isPDFFile
  constructor
  · intro h
    have key : ∀ s ∈ table, Strings.contains s.ct (lit "application/pdf") = true → s = .exact (lit "%PDF-") (lit "application/pdf") := by
      decide +kernel
    rcases detect_cases d with ⟨pre, s, post, h1, h2, -, h4⟩ | ⟨-, h1⟩
    · rw [h4] at h
      have := key s (by rw [h1]; simp) h
      subst this
      simp only [Sig.matches] at h2
      split at h2
      · rename_i hp
        exact (prefix_take _ _ (by decide +kernel)).1 hp
      · cases h2
    · rw [h1] at h
      exact absurd h (by decide +kernel)
  · rintro ⟨rest, rfl⟩
    have : detect (lit "%PDF-" ++ rest) = lit "application/pdf" := rfl
    rw [this]
    decide +kernel

/-! ## Images -/

theorem exact_hit {p ct d c : Bytes} (hp : p.length ≤ 512) (h : (Sig.exact p ct).matches (d.take 512) = some c) : p <+: d := by
  simp only [Sig.matches] at h
  split at h
  · rename_i hm
    exact (prefix_take _ _ hp).1 hm
  · cases h

theorem masked_hit {p : List (Option Nat)} {ct d c : Bytes} (hp : p.length ≤ 512) (h : (Sig.masked false p ct).matches (d.take 512) = some c) :
    Starts p d := by
  simp only [Sig.matches, Bool.false_eq_true, if_false] at h
  split at h
  · rename_i hm
    exact (starts_take _ _ hp).1 ((patMatches_iff _ _).1 hm)
  · cases h

theorem starts_gap (x y : Bytes) (d : Bytes) (h : Starts (x.map some ++ gap ++ y.map some) d) :
    ∃ a b c e rest, d = x ++ [a, b, c, e] ++ y ++ rest := by
  obtain ⟨h1, h2⟩ := starts_split _ _ _ h
  obtain ⟨h3, -⟩ := starts_split _ _ _ h1
  obtain ⟨r1, rfl⟩ := (starts_all _ _).1 h3
  obtain ⟨r2, h4⟩ := (starts_all _ _).1 h2
  have hg : gap.length = 4 := rfl
  have hl : (x ++ r1).drop (x.map some ++ gap).length = r1.drop 4 := by
    rw [List.length_append, List.length_map, hg, List.drop_append]
    simp
  have hlen := h.1
  simp only [List.length_append, List.length_map, hg] at hlen
  rw [hl] at h4
  match r1, hlen, h4 with
  | a :: b :: c :: e :: r, _, h4 => exact ⟨a, b, c, e, r2, by rw [show r = y ++ r2 from h4.symm]; simp⟩
  | [], h, _ => simp at h; omega
  | [_], h, _ => simp at h; omega
  | [_, _], h, _ => simp at h; omega
  | [_, _, _], h, _ => simp at h; omega

/-- **C121 (images).** They are exactly the data that begin as icons, bitmaps, GIF, WebP, PNG or JPEG do. -/
theorem C121_image (d : Bytes) : isImageFile d = true ↔ Image d := by
  unfold isImageFile Image
  constructor
  · intro h
    have key : ∀ s ∈ table, Strings.contains s.ct (lit "image/") = true →
        s ∈ [Sig.exact [0, 0, 1, 0] (lit "image/x-icon"), .exact [0, 0, 2, 0] (lit "image/x-icon"), .exact (lit "BM") (lit "image/bmp"),
          .exact (lit "GIF87a") (lit "image/gif"), .exact (lit "GIF89a") (lit "image/gif"),
          .masked false (all (lit "RIFF") ++ any 4 ++ all (lit "WEBPVP")) (lit "image/webp"),
          .exact [137, 80, 78, 71, 13, 10, 26, 10] (lit "image/png"), .exact [255, 216, 255] (lit "image/jpeg")] := by
      decide +kernel
    rcases detect_cases d with ⟨pre, s, post, h1, h2, -, h4⟩ | ⟨-, h1⟩
    · rw [h4] at h
      have := key s (by rw [h1]; simp) h
      simp only [List.mem_cons, List.not_mem_nil, or_false] at this
      rcases this with rfl | rfl | rfl | rfl | rfl | rfl | rfl | rfl
      · exact Or.inl (exact_hit (by decide +kernel) h2)
      · exact Or.inr (Or.inl (exact_hit (by decide +kernel) h2))
      · exact Or.inr (Or.inr (Or.inl (exact_hit (by decide +kernel) h2)))
      · exact Or.inr (Or.inr (Or.inr (Or.inl (exact_hit (by decide +kernel) h2))))
      · exact Or.inr (Or.inr (Or.inr (Or.inr (Or.inl (exact_hit (by decide +kernel) h2)))))
      · exact Or.inr (Or.inr (Or.inr (Or.inr (Or.inr (Or.inl (masked_hit (by decide +kernel) h2))))))
      · exact Or.inr (Or.inr (Or.inr (Or.inr (Or.inr (Or.inr (Or.inl (exact_hit (by decide +kernel) h2)))))))
      · exact Or.inr (Or.inr (Or.inr (Or.inr (Or.inr (Or.inr (Or.inr (exact_hit (by decide +kernel) h2)))))))
    · rw [h1] at h
      exact absurd h (by decide +kernel)
  · rintro (⟨r, rfl⟩ | ⟨r, rfl⟩ | ⟨r, rfl⟩ | ⟨r, rfl⟩ | ⟨r, rfl⟩ | h | ⟨r, rfl⟩ | ⟨r, rfl⟩)
    · have : detect ([0, 0, 1, 0] ++ r) = lit "image/x-icon" := rfl
      rw [this]
      decide +kernel
    · have : detect ([0, 0, 2, 0] ++ r) = lit "image/x-icon" := rfl
      rw [this]
      decide +kernel
    · have : detect (lit "BM" ++ r) = lit "image/bmp" := rfl
      rw [this]
      decide +kernel
    · have : detect (lit "GIF87a" ++ r) = lit "image/gif" := rfl
      rw [this]
      decide +kernel
    · have : detect (lit "GIF89a" ++ r) = lit "image/gif" := rfl
      rw [this]
      decide +kernel
    · obtain ⟨a, b, c, e, r, rfl⟩ := starts_gap (lit "RIFF") (lit "WEBPVP") d h
      have : detect (lit "RIFF" ++ [a, b, c, e] ++ lit "WEBPVP" ++ r) = lit "image/webp" := rfl
      rw [this]
      decide +kernel
    · have : detect ([137, 80, 78, 71, 13, 10, 26, 10] ++ r) = lit "image/png" := rfl
      rw [this]
      decide +kernel
    · have : detect ([255, 216, 255] ++ r) = lit "image/jpeg" := rfl
      rw [this]
      decide +kernel

/-! ## Videos -/

/-- The first byte a signature needs. -/
def Sig.first : Sig → Option Nat
  | .html tag => tag.head?
  | .masked _ pat _ => pat.head?.join
  | .exact pat _ => pat.head?
  | .mp4 => none
  | .text => none

theorem first_hit (s : Sig) (x : Nat) (r : Bytes) (hx : isWS x = false) (h : s.matches (x :: r) ≠ none) : s.first = none ∨ s.first = some x ∨
    (∃ t ts, s = .html (t :: ts) ∧ (x = t ∨ x = t + 32)) := by
  have hd : (x :: r).dropWhile isWS = x :: r := by simp [hx]
  cases s with
  | html tag =>
    simp only [Sig.matches, hd] at h
    cases tag with
    | nil => exact Or.inl rfl
    | cons t ts =>
      right; right
      refine ⟨t, ts, rfl, ?_⟩
      have hm : tagMatches (t :: ts) (x :: r) = true := by
        by_contra hc
        rw [if_neg hc] at h
        exact h rfl
      rw [tagMatches, Bool.and_eq_true] at hm
      have h1 := hm.1
      split at h1
      · simpa using h1
      · left; simpa using h1
  | masked skip pat ct =>
    have he : (if skip then (x :: r).dropWhile isWS else x :: r) = x :: r := by split <;> simp [hd]
    simp only [Sig.matches, he] at h
    cases pat with
    | nil => exact Or.inl rfl
    | cons o pat =>
      cases o with
      | none => exact Or.inl rfl
      | some b =>
        right; left
        have hm : patMatches (some b :: pat) (x :: r) = true := by
          by_contra hc
          rw [if_neg hc] at h
          exact h rfl
        simp [patMatches] at hm
        simp [Sig.first, hm.1]
  | exact pat ct =>
    simp only [Sig.matches] at h
    cases pat with
    | nil => exact Or.inl rfl
    | cons b pat =>
      right; left
      split at h
      · rename_i hm
        simp [List.isPrefixOf] at hm
        simp [Sig.first, hm.1]
      · exact absurd rfl h
  | mp4 => exact Or.inl rfl
  | text => exact Or.inl rfl

/-- If a signature matches, the type is that of this one or of one before it. -/
theorem first_before (d : Bytes) (A B : List Sig) (x : Sig) (ht : table = A ++ x :: B) (hx : x.matches (d.take 512) ≠ none) :
    ∃ s, (s ∈ A ∨ s = x) ∧ s.matches (d.take 512) = some s.ct ∧ detect d = s.ct := by
  rcases detect_cases d with ⟨pre, s, post, h1, h2, h3, h4⟩ | ⟨h1, -⟩
  · refine ⟨s, ?_, h2, h4⟩
    rw [ht] at h1
    rcases List.append_eq_append_iff.1 h1 with ⟨l, h5, h6⟩ | ⟨l, h5, h6⟩
    · cases l with
      | nil =>
        simp at h6
        exact Or.inr h6.1.symm
      | cons y l =>
        simp at h6
        have : x ∈ pre := by rw [h5, ← h6.1]; simp
        exact absurd (h3 x this) hx
    · cases l with
      | nil =>
        simp at h6
        exact Or.inr h6.1
      | cons y l =>
        simp at h6
        left
        rw [h5, h6.1]
        simp
  · exact absurd (h1 x (by rw [ht]; simp)) hx

theorem mp4Brands_iff (d : Bytes) (fuel st : Nat) (h4 : st % 4 = 0) (hf : boxSize d ≤ st + 4 * fuel) :
    mp4Brands d fuel st = true ↔ ∃ k, st ≤ k ∧ k % 4 = 0 ∧ k < boxSize d ∧ k ≠ 12 ∧ (d.drop k).take 3 = lit "mp4" := by
  induction fuel generalizing st with
  | zero =>
    simp only [mp4Brands, Bool.false_eq_true, false_iff]
    rintro ⟨k, h1, -, h2, -⟩
    omega
  | succ fuel ih =>
    rw [mp4Brands]
    by_cases hs : st < boxSize d
    · rw [if_pos hs]
      by_cases hm : st ≠ 12 ∧ (d.drop st).take 3 = lit "mp4"
      · rw [if_pos hm]
        exact ⟨fun _ => ⟨st, Nat.le_refl _, h4, hs, hm⟩, fun _ => rfl⟩
      · rw [if_neg hm, ih (st + 4) (by omega) (by omega)]
        constructor
        · rintro ⟨k, h1, h2⟩
          exact ⟨k, by omega, h2⟩
        · rintro ⟨k, h1, h2, h3, h5⟩
          refine ⟨k, ?_, h2, h3, h5⟩
          by_contra hc
          have : k = st := by omega
          subst this
          exact hm h5
    · rw [if_neg hs]
      simp only [Bool.false_eq_true, false_iff]
      rintro ⟨k, h1, -, h2, -⟩
      omega

theorem take_eq_prefix (n : Nat) (a d : Bytes) (hn : a.length = n) : d.take n = a ↔ a <+: d := by
  constructor
  · intro h
    rw [← h]
    exact List.take_prefix _ _
  · rintro ⟨r, rfl⟩
    rw [← hn]
    simp

theorem four (d : Bytes) (h : 4 ≤ d.length) : ∃ w x y z r, d = w :: x :: y :: z :: r := by
  match d, h with
  | w :: x :: y :: z :: r, _ => exact ⟨w, x, y, z, r, rfl⟩
  | [], h => simp at h
  | [_], h => simp at h
  | [_, _], h => simp at h
  | [_, _, _], h => simp at h

theorem mp4_iff (d : Bytes) : mp4Matches (d.take 512) = true ↔ Mp4 d := by
  have lift : ∀ k n, k + n ≤ 512 → ((d.take 512).drop k).take n = (d.drop k).take n := by
    intro k n h
    rw [List.drop_take, List.take_take, Nat.min_eq_left (by omega)]
  unfold mp4Matches Mp4
  simp only [decide_eq_true_eq]
  constructor
  · rintro ⟨h1, h2, h3, h4, h5⟩
    rw [List.length_take] at h1 h2
    rw [lift 4 4 (by omega), take_eq_prefix 4 _ _ rfl] at h4
    obtain ⟨w, x, y, z, r, rfl⟩ := four d (by omega)
    have hb : boxSize ((w :: x :: y :: z :: r).take 512) = ((w * 256 + x) * 256 + y) * 256 + z := rfl
    rw [mp4Brands_iff _ _ _ (by omega) (by rw [List.length_take]; omega)] at h5
    obtain ⟨k, k1, k2, k3, k4, k5⟩ := h5
    rw [hb] at h2 h3 k3
    rw [lift k 3 (by omega), take_eq_prefix 3 _ _ rfl] at k5
    generalize hL : (w :: x :: y :: z :: r).length = L at h1 h2
    have hw : w = 0 := by omega
    have hx : x = 0 := by omega
    have hE : ((w * 256 + x) * 256 + y) * 256 + z = y * 256 + z := by rw [hw, hx]; omega
    rw [hE] at h2 h3 k3
    have hle := Nat.le_min.1 h2
    have hl12 := Nat.le_min.1 h1
    refine ⟨y, z, h4, by rw [hw, hx]; rfl, h3, hle.1, ?_, ?_, k, k1, k4, k2, k3, k5⟩
    · exact hle.2
    · exact hl12.2
  · rintro ⟨a, b, h1, h2, h3, h4, h5, h6, k, k1, k2, k3, k4, k5⟩
    have hb : boxSize (d.take 512) = a * 256 + b := by
      obtain ⟨r, rfl⟩ := (take_eq_prefix 4 _ _ rfl).1 h2
      show ((0 * 256 + 0) * 256 + a) * 256 + b = _
      omega
    rw [mp4Brands_iff _ _ _ (by omega) (by rw [List.length_take]; omega), hb, List.length_take]
    refine ⟨by omega, by omega, h3, ?_, k, k1, k3, k4, k2, ?_⟩
    · rw [lift 4 4 (by omega), take_eq_prefix 4 _ _ rfl]
      exact h1
    · rw [lift k 3 (by omega), take_eq_prefix 3 _ _ rfl]
      exact k5

/-- The table before `mp4Sig`. -/
def beforeMp4 : List Sig := tags.map Sig.html ++ others.take 20

theorem tag_first : ∀ s ∈ beforeMp4, ∀ t ts, s = .html (t :: ts) → t = 60 := by
  have : ∀ s ∈ beforeMp4, (match s with | .html (t :: _) => t == 60 | _ => true) = true := by decide +kernel
  intro s hs t ts he
  subst he
  simpa using this _ hs

/-- **C121 (videos, partial).** They are exactly the data that begin as AVI or WebM files do, and MP4 files that do not look like icons. Missing:
MP4 files with a first box of 256 or 512 bytes. -/
theorem C121_video_partial (d : Bytes) : isVideoFile d = true ↔
    Starts (str "RIFF" ++ gap ++ str "AVI ") d ∨ [26, 69, 223, 163] <+: d ∨ (Mp4 d ∧ ¬ [0, 0, 1, 0] <+: d ∧ ¬ [0, 0, 2, 0] <+: d) := by
  unfold isVideoFile
  constructor
  · intro h
    have key : ∀ s ∈ table, Strings.contains s.ct (lit "video/") = true →
        s ∈ [Sig.masked false (all (lit "RIFF") ++ any 4 ++ all (lit "AVI ")) (lit "video/avi"), .exact [26, 69, 223, 163] (lit "video/webm"),
          .mp4] := by
      decide +kernel
    rcases detect_cases d with ⟨pre, s, post, h1, h2, -, h4⟩ | ⟨-, h1⟩
    · have := key s (by rw [h1]; simp) (h4 ▸ h)
      simp only [List.mem_cons, List.not_mem_nil, or_false] at this
      rcases this with rfl | rfl | rfl
      · exact Or.inl (masked_hit (by decide +kernel) h2)
      · exact Or.inr (Or.inl (exact_hit (by decide +kernel) h2))
      · refine Or.inr (Or.inr ⟨?_, ?_, ?_⟩)
        · rw [← mp4_iff]
          simp only [Sig.matches] at h2
          split at h2
          · rename_i hm; exact hm
          · cases h2
        · rintro ⟨r, rfl⟩
          have : detect ([0, 0, 1, 0] ++ r) = lit "image/x-icon" := rfl
          rw [this] at h
          exact absurd h (by decide +kernel)
        · rintro ⟨r, rfl⟩
          have : detect ([0, 0, 2, 0] ++ r) = lit "image/x-icon" := rfl
          rw [this] at h
          exact absurd h (by decide +kernel)
    · rw [h1] at h
      exact absurd h (by decide +kernel)
  · rintro (h | ⟨r, rfl⟩ | ⟨h, h1, h2⟩)
    · obtain ⟨a, b, c, e, r, rfl⟩ := starts_gap (lit "RIFF") (lit "AVI ") d h
      have : detect (lit "RIFF" ++ [a, b, c, e] ++ lit "AVI " ++ r) = lit "video/avi" := rfl
      rw [this]
      decide +kernel
    · obtain ⟨s, hs, hm, hd⟩ := first_before ([26, 69, 223, 163] ++ r) (beforeMp4 ++ [.mp4]) (others.drop 22)
        (.exact [26, 69, 223, 163] (lit "video/webm")) rfl (by
          simp only [Sig.matches]
          rw [if_pos ((prefix_take _ _ (by decide)).2 (List.prefix_append _ _))]
          simp)
      rw [hd]
      rcases hs with hs | rfl
      · have hf := first_hit s 26 ((69 :: 223 :: 163 :: r).take 511) (by decide) (by
          change s.matches (26 :: (69 :: 223 :: 163 :: r).take 511) = _ at hm
          rw [hm]; simp)
        have key : ∀ s ∈ beforeMp4 ++ [.mp4], (s.first = none ∨ s.first = some 26 → s = .mp4) := by decide +kernel
        have key2 := tag_first
        have hicon : s.first = none ∨ s.first = some 26 := by
          rcases hf with hf | hf | ⟨t, ts, rfl, hf⟩
          · exact Or.inl hf
          · exact Or.inr hf
          · have := key2 _ (by simpa using hs) t ts rfl
            omega
        have := key s hs hicon
        subst this
        decide +kernel
      · decide +kernel
    · obtain ⟨s, hs, hm, hd⟩ := first_before d beforeMp4 (others.drop 21) .mp4 rfl (by
        simp only [Sig.matches]
        rw [if_pos ((mp4_iff d).2 h)]
        simp)
      rw [hd]
      rcases hs with hs | rfl
      · exfalso
        obtain ⟨a, b, -, h3, -⟩ := h
        obtain ⟨r, rfl⟩ := (take_eq_prefix 4 _ _ rfl).1 h3
        have hf := first_hit s 0 ((0 :: a :: b :: r).take 511) (by decide) (by
          change s.matches (0 :: (0 :: a :: b :: r).take 511) = _ at hm
          rw [hm]; simp)
        have key : ∀ s ∈ beforeMp4, (s.first = none ∨ s.first = some 0 →
            s ∈ [Sig.exact [0, 0, 1, 0] (lit "image/x-icon"), .exact [0, 0, 2, 0] (lit "image/x-icon")]) := by decide +kernel
        have key2 := tag_first
        have hicon : s.first = none ∨ s.first = some 0 := by
          rcases hf with hf | hf | ⟨t, ts, rfl, hf⟩
          · exact Or.inl hf
          · exact Or.inr hf
          · have := key2 _ hs t ts rfl
            omega
        have := key s hs hicon
        simp only [List.mem_cons, List.not_mem_nil, or_false] at this
        rcases this with rfl | rfl
        · exact h1 (exact_hit (by decide +kernel) hm)
        · exact h2 (exact_hit (by decide +kernel) hm)
      · decide +kernel

/-- **C121 (does not hold: MP4 files that are icons).** An MP4 file whose first box has 256 bytes is an image, and no video. -/
theorem C121_mp4_refuted : ∃ d : Bytes, Mp4 d ∧ isVideoFile d = false ∧ isImageFile d = true := by
  refine ⟨[0, 0, 1, 0] ++ lit "ftypmp42" ++ List.replicate 244 0, ?_, by decide +kernel, by decide +kernel⟩
  refine ⟨1, 0, by decide +kernel, by decide +kernel, by decide, by decide, by decide +kernel, by decide +kernel, 8, by decide, by decide,
    by decide, by decide, by decide +kernel⟩

/-! ## Texts -/

theorem isWS_iff (c : Nat) : isWS c = true ↔ White c := by simp [isWS, White]

theorem isBinary_iff (c : Nat) : isBinary c = true ↔ Control c := by
  simp only [isBinary, Control, decide_eq_true_eq]
  omega

theorem dropWhile_split (d : Bytes) : ∃ ws, d = ws ++ d.dropWhile isWS ∧ ∀ b ∈ ws, White b := by
  refine ⟨d.takeWhile isWS, (List.takeWhile_append_dropWhile).symm, ?_⟩
  intro b hb
  exact (isWS_iff b).1 (List.all_eq_true.1 List.all_takeWhile b hb)

theorem dropWhile_ws (ws t : Bytes) (c : Nat) (h : ∀ b ∈ ws, White b) (hc : isWS c = false) : (ws ++ c :: t).dropWhile isWS = c :: t := by
  rw [List.dropWhile_append_of_pos (fun b hb => (isWS_iff b).2 (h b hb))]
  simp [hc]

/-- No small letters. -/
def Upper (t : Bytes) : Prop := ∀ c ∈ t, ¬ (97 ≤ c ∧ c ≤ 122)

theorem tagMatches_iff (tag x : Bytes) (hu : Upper tag) :
    tagMatches tag x = true ↔ ∃ t c rest, x = t ++ c :: rest ∧ (c = 32 ∨ c = 62) ∧ t.map lower = tag.map lower := by
  induction tag generalizing x with
  | nil =>
    cases x with
    | nil => simp [tagMatches]
    | cons b x =>
      simp only [tagMatches, isTT, decide_eq_true_eq]
      constructor
      · intro h
        exact ⟨[], b, x, rfl, h, rfl⟩
      · rintro ⟨t, c, rest, h1, h2, h3⟩
        simp at h3
        subst h3
        simp at h1
        rw [h1.1]
        exact h2
  | cons a tag ih =>
    cases x with
    | nil => simp [tagMatches]
    | cons b x =>
      have hl : lower b = lower a ↔ (if 65 ≤ a ∧ a ≤ 90 then decide (b = a ∨ b = a + 32) else decide (b = a)) = true := by
        have := hu a (by simp)
        unfold lower
        split <;> split <;> simp <;> omega
      rw [tagMatches, Bool.and_eq_true, ← hl, ih x (fun c hc => hu c (by simp [hc]))]
      constructor
      · rintro ⟨h1, t, c, rest, rfl, h2, h3⟩
        exact ⟨b :: t, c, rest, rfl, h2, by simp [h1, h3]⟩
      · rintro ⟨t, c, rest, h1, h2, h3⟩
        cases t with
        | nil => simp at h3
        | cons b' t =>
          simp at h1 h3
          refine ⟨by rw [h1.1]; exact h3.1, t, c, rest, h1.2, h2, by simpa using h3.2⟩

theorem tags_upper : ∀ tag ∈ tags, Upper tag := by
  unfold Upper
  decide +kernel

theorem tag_iff (d : Bytes) : Tag d ↔ ∃ tag ∈ tags, (Sig.html tag).matches (d.take 512) ≠ none := by
  have hmap : ∀ l, l ∈ tags.map (fun t => t.map lower) ↔ l ∈ [lit "<!doctype html", lit "<html", lit "<head", lit "<script", lit "<iframe",
      lit "<h1", lit "<div", lit "<font", lit "<table", lit "<a", lit "<style", lit "<title", lit "<b", lit "<body", lit "<br", lit "<p",
      lit "<!--"] := by
    intro l
    have : tags.map (fun t => t.map lower) = [lit "<!doctype html", lit "<html", lit "<head", lit "<script", lit "<iframe",
      lit "<h1", lit "<div", lit "<font", lit "<table", lit "<a", lit "<style", lit "<title", lit "<b", lit "<body", lit "<br", lit "<p",
      lit "<!--"] := by decide +kernel
    rw [this]
  have hhit : ∀ tag ∈ tags, (Sig.html tag).matches (d.take 512) ≠ none ↔ tagMatches tag ((d.take 512).dropWhile isWS) = true := by
    intro tag _
    simp only [Sig.matches]
    split <;> simp_all
  constructor
  · rintro ⟨ws, t, c, rest, h1, h2, h3, h4⟩
    obtain ⟨tag, ht, he⟩ := List.mem_map.1 ((hmap _).2 h4)
    refine ⟨tag, ht, (hhit tag ht).2 ?_⟩
    rw [tagMatches_iff _ _ (tags_upper tag ht), h1]
    have hne : ∀ l ∈ tags, l.head? = some 60 := by decide +kernel
    obtain ⟨ts, hts⟩ : ∃ ts, tag = 60 :: ts := by
      have := hne tag ht
      cases tag with
      | nil => cases this
      | cons a ts => simp at this; exact ⟨ts, by rw [this]⟩
    cases t with
    | nil => rw [hts] at he; cases he
    | cons b t =>
      have hb : b = 60 := by
        rw [hts] at he
        simp [lower] at he
        have := he.1
        split at this <;> omega
      refine ⟨b :: t, c, rest, ?_, h3, he.symm⟩
      rw [List.append_assoc, List.cons_append, dropWhile_ws _ _ _ h2 (by rw [hb]; decide)]
  · rintro ⟨tag, ht, h⟩
    rw [hhit tag ht, tagMatches_iff _ _ (tags_upper tag ht)] at h
    obtain ⟨t, c, rest, h1, h2, h3⟩ := h
    obtain ⟨ws, h4, h5⟩ := dropWhile_split (d.take 512)
    refine ⟨ws, t, c, rest, ?_, h5, h2, (hmap _).1 (List.mem_map.2 ⟨tag, ht, h3.symm⟩)⟩
    rw [List.append_assoc, ← h1]
    exact h4

/-- The signature of XML. -/
def xmlSig : Sig := .masked true (all (lit "<?xml")) (lit "text/xml; charset=utf-8")

theorem xml_iff (d : Bytes) : Xml d ↔ xmlSig.matches (d.take 512) ≠ none := by
  have hhit : xmlSig.matches (d.take 512) ≠ none ↔ lit "<?xml" <+: (d.take 512).dropWhile isWS := by
    rw [← starts_all, ← patMatches_iff]
    change (if patMatches (all (lit "<?xml")) ((d.take 512).dropWhile isWS) = true then _ else _) ≠ none ↔
      patMatches (all (lit "<?xml")) ((d.take 512).dropWhile isWS) = true
    split <;> simp_all
  rw [hhit]
  constructor
  · rintro ⟨ws, rest, h1, h2⟩
    rw [h1]
    have : ws ++ lit "<?xml" ++ rest = ws ++ 60 :: (lit "?xml" ++ rest) := by
      rw [List.append_assoc]; rfl
    rw [this, dropWhile_ws _ _ _ h2 (by decide)]
    exact ⟨rest, rfl⟩
  · rintro ⟨rest, h⟩
    obtain ⟨ws, h4, h5⟩ := dropWhile_split (d.take 512)
    exact ⟨ws, rest, by rw [List.append_assoc, h]; exact h4, h5⟩

theorem text_iff (d : Bytes) : Sig.text.matches (d.take 512) ≠ none ↔ ∀ b ∈ d.take 512, ¬ Control b := by
  have h1 : Sig.text.matches (d.take 512) ≠ none ↔ ((d.take 512).dropWhile isWS).any isBinary = false := by
    simp only [Sig.matches]
    split <;> simp_all
  rw [h1]
  obtain ⟨ws, h4, h5⟩ := dropWhile_split (d.take 512)
  rw [List.any_eq_false]
  constructor
  · intro h b hb hc
    rw [h4] at hb
    rcases List.mem_append.1 hb with hb | hb
    · have := h5 b hb
      unfold White at this
      unfold Control at hc
      omega
    · exact h b hb ((isBinary_iff b).2 hc)
  · intro h b hb hc
    exact h b ((List.dropWhile_sublist _).subset hb) ((isBinary_iff b).1 hc)

/-- Signatures with a control character. -/
def Sig.control : Sig → Bool
  | .exact p _ => p.any isBinary
  | .masked false p _ => p.any (fun o => o.any isBinary)
  | .mp4 => true
  | _ => false

theorem control_hit (s : Sig) (d : Bytes) (hs : s.control = true) (h : s.matches (d.take 512) ≠ none) : ∃ b ∈ d.take 512, Control b := by
  cases s with
  | html => cases hs
  | text => cases hs
  | exact p ct =>
    have hp : p.isPrefixOf (d.take 512) = true := by
      by_contra hc
      simp only [Sig.matches, if_neg hc] at h
      exact h rfl
    rw [List.isPrefixOf_iff_prefix] at hp
    obtain ⟨b, hb, hbin⟩ := List.any_eq_true.1 hs
    exact ⟨b, hp.subset hb, (isBinary_iff b).1 hbin⟩
  | masked skip p ct =>
    cases skip with
    | true => cases hs
    | false =>
      have hp : patMatches p (d.take 512) = true := by
        by_contra hc
        simp only [Sig.matches, Bool.false_eq_true, if_false, if_neg hc] at h
        exact h rfl
      obtain ⟨o, ho, hbin⟩ := List.any_eq_true.1 hs
      cases o with
      | none => cases hbin
      | some b =>
        obtain ⟨i, hi, hi2⟩ := List.getElem_of_mem ho
        have := ((patMatches_iff _ _).1 hp).2 i b (by rw [List.getElem?_eq_getElem hi, hi2])
        exact ⟨b, List.mem_of_getElem? this, (isBinary_iff b).1 hbin⟩
  | mp4 =>
    have hp : mp4Matches (d.take 512) = true := by
      by_contra hc
      simp only [Sig.matches, if_neg hc] at h
      exact h rfl
    obtain ⟨a, b, -, h3, -⟩ := (mp4_iff d).1 hp
    obtain ⟨r, rfl⟩ := (take_eq_prefix 4 _ _ rfl).1 h3
    exact ⟨0, List.mem_cons_self, by unfold Control; omega⟩

/-- Signatures of formats that begin as a text might. -/
def specials : List Sig :=
  [.exact (lit "%PDF-") (lit "application/pdf"), .exact (lit "%!PS-Adobe-") (lit "application/postscript"), .exact (lit "BM") (lit "image/bmp"),
    .exact (lit "GIF87a") (lit "image/gif"), .exact (lit "GIF89a") (lit "image/gif"),
    .masked false (all (lit "RIFF") ++ any 4 ++ all (lit "WEBPVP")) (lit "image/webp"), .exact [255, 216, 255] (lit "image/jpeg"),
    .masked false (all (lit "FORM") ++ any 4 ++ all (lit "AIFF")) (lit "audio/aiff"), .masked false (all (lit "ID3")) (lit "audio/mpeg"),
    .masked false (all (lit "RIFF") ++ any 4 ++ all (lit "AVI ")) (lit "video/avi"),
    .masked false (all (lit "RIFF") ++ any 4 ++ all (lit "WAVE")) (lit "audio/wave"),
    .masked false (any 34 ++ all (lit "LP")) (lit "application/vnd.ms-fontobject"), .exact (lit "OTTO") (lit "font/otf"),
    .exact (lit "ttcf") (lit "font/collection"), .exact (lit "wOFF") (lit "font/woff"), .exact (lit "wOF2") (lit "font/woff2")]

theorem exact_iff {p ct d : Bytes} (hp : p.length ≤ 512) : (Sig.exact p ct).matches (d.take 512) ≠ none ↔ p <+: d := by
  rw [← prefix_take p d hp]
  simp only [Sig.matches]
  split <;> simp_all

theorem masked_iff {p : List (Option Nat)} {ct d : Bytes} (hp : p.length ≤ 512) :
    (Sig.masked false p ct).matches (d.take 512) ≠ none ↔ Starts p d := by
  rw [← starts_take p d hp, ← patMatches_iff]
  simp only [Sig.matches, Bool.false_eq_true, if_false]
  split <;> simp_all

theorem special_iff (d : Bytes) : Special d ↔ ∃ s ∈ specials, s.matches (d.take 512) ≠ none := by
  have hid3 : lit "ID3" <+: d ↔ (Sig.masked false (all (lit "ID3")) (lit "audio/mpeg")).matches (d.take 512) ≠ none := by
    rw [masked_iff (by decide +kernel)]
    exact (starts_all _ _).symm
  unfold specials Special
  simp only [List.mem_cons, List.not_mem_nil, or_false, exists_eq_or_imp, exists_eq_left]
  rw [← hid3, exact_iff (by decide +kernel), exact_iff (by decide +kernel), exact_iff (by decide +kernel), exact_iff (by decide +kernel),
    exact_iff (by decide +kernel), masked_iff (by decide +kernel), exact_iff (by decide +kernel), masked_iff (by decide +kernel),
    masked_iff (by decide +kernel), masked_iff (by decide +kernel), masked_iff (by decide +kernel), exact_iff (by decide +kernel),
    exact_iff (by decide +kernel), exact_iff (by decide +kernel), exact_iff (by decide +kernel)]
  exact Iff.rfl

/-- **C121 (texts, partial).** Exactly these are texts: what begins with a tag of HTML or with `<?xml`, after white space, or with a byte
order mark, whatever follows; and what has no control characters in its first 512 bytes and does not begin as another format does. -/
theorem C121_text_partial (d : Bytes) : isTextFile d = true ↔
    Tag d ∨ Xml d ∨ Bom d ∨ ((∀ b ∈ d.take 512, ¬ Control b) ∧ ¬ Special d) := by
  have hnil : isTextFile d = Strings.contains (detect d) (lit "text/") := by
    unfold isTextFile
    by_cases hd : d = []
    · subst hd
      decide +kernel
    · simp [hd]
  rw [hnil]
  constructor
  · intro h
    rcases detect_cases d with ⟨pre, s, post, h1, h2, h3, h4⟩ | ⟨-, h1⟩
    · rw [h4] at h
      have key : ∀ s ∈ table, Strings.contains s.ct (lit "text/") = true →
          s ∈ tags.map Sig.html ∨ s = xmlSig ∨ s ∈ [Sig.masked false ([some 254, some 255] ++ any 2) (lit "text/plain; charset=utf-16be"),
            .masked false ([some 255, some 254] ++ any 2) (lit "text/plain; charset=utf-16le"),
            .masked false ([some 239, some 187, some 191] ++ any 1) (lit "text/plain; charset=utf-8")] ∨ s = .text := by
        decide +kernel
      rcases key s (by rw [h1]; simp) h with hs | rfl | hs | rfl
      · left
        obtain ⟨tag, ht, rfl⟩ := List.mem_map.1 hs
        exact (tag_iff d).2 ⟨tag, ht, by rw [h2]; simp⟩
      · right; left
        exact (xml_iff d).2 (by rw [h2]; simp)
      · right; right; left
        simp only [List.mem_cons, List.not_mem_nil, or_false] at hs
        rcases hs with rfl | rfl | rfl
        · have := masked_hit (by decide +kernel) h2
          exact ⟨this.1, Or.inl ((starts_all [254, 255] d).1 (starts_split _ _ _ this).1)⟩
        · have := masked_hit (by decide +kernel) h2
          exact ⟨this.1, Or.inr (Or.inl ((starts_all [255, 254] d).1 (starts_split _ _ _ this).1))⟩
        · have := masked_hit (by decide +kernel) h2
          exact ⟨this.1, Or.inr (Or.inr ((starts_all [239, 187, 191] d).1 (starts_split _ _ _ this).1))⟩
      · right; right; right
        refine ⟨(text_iff d).1 (by rw [h2]; simp), ?_⟩
        rw [special_iff]
        rintro ⟨t, ht, hm⟩
        have hT : table = table.dropLast ++ [.text] := rfl
        have hno : Sig.text ∉ table.dropLast := by decide +kernel
        have hpre : table.dropLast ⊆ pre := by
          rw [hT] at h1
          rcases List.append_eq_append_iff.1 h1 with ⟨l, h5, h6⟩ | ⟨l, h5, h6⟩
          · rw [h5]; exact List.subset_append_left _ _
          · cases l with
            | nil => rw [h5]; simp
            | cons y l =>
              simp at h6
              exact absurd (by rw [h5, h6.1]; simp) hno
        have hsub : ∀ s ∈ specials, s ∈ table.dropLast := by decide +kernel
        exact hm (h3 t (hpre (hsub t ht)))
    · rw [h1] at h
      exact absurd h (by decide +kernel)
  · have htag : ∀ s ∈ tags.map Sig.html, Strings.contains s.ct (lit "text/") = true := by decide +kernel
    rintro (h | h | ⟨h4, h⟩ | ⟨h1, h2⟩)
    · obtain ⟨tag, ht, hm⟩ := (tag_iff d).1 h
      obtain ⟨A, B, hAB⟩ := List.append_of_mem ht
      obtain ⟨s, hs, -, hd⟩ := first_before d (A.map Sig.html) (B.map Sig.html ++ others) (.html tag) (by unfold table; rw [hAB]; simp) hm
      rw [hd]
      apply htag
      rw [hAB]
      rcases hs with hs | rfl
      · rw [List.map_append]
        exact List.mem_append_left _ hs
      · simp
    · obtain ⟨s, hs, -, hd⟩ := first_before d (tags.map Sig.html) (others.drop 1) xmlSig rfl ((xml_iff d).1 h)
      rw [hd]
      rcases hs with hs | rfl
      · exact htag s hs
      · decide +kernel
    · obtain ⟨w, x, y, z, r, rfl⟩ := four d h4
      rcases h with h | h | h
      · simp [List.cons_prefix_cons] at h
        obtain ⟨rfl, rfl⟩ := h
        have : detect (254 :: 255 :: y :: z :: r) = lit "text/plain; charset=utf-16be" := rfl
        rw [this]
        decide +kernel
      · simp [List.cons_prefix_cons] at h
        obtain ⟨rfl, rfl⟩ := h
        have : detect (255 :: 254 :: y :: z :: r) = lit "text/plain; charset=utf-16le" := rfl
        rw [this]
        decide +kernel
      · simp [List.cons_prefix_cons] at h
        obtain ⟨rfl, rfl, rfl⟩ := h
        have : detect (239 :: 187 :: 191 :: z :: r) = lit "text/plain; charset=utf-8" := rfl
        rw [this]
        decide +kernel
    · obtain ⟨s, hs, hm, hd⟩ := first_before d table.dropLast [] .text rfl ((text_iff d).2 h1)
      rw [hd]
      rcases hs with hs | rfl
      · have key : ∀ s ∈ table.dropLast, Strings.contains s.ct (lit "text/") = true ∨ s ∈ specials ∨ s.control = true := by decide +kernel
        rcases key s hs with h | h | h
        · exact h
        · exact absurd ((special_iff d).2 ⟨s, h, by rw [hm]; simp⟩) h2
        · obtain ⟨b, hb, hc⟩ := control_hit s d h (by rw [hm]; simp)
          exact absurd hc (h1 b hb)
      · decide +kernel

/-- **C121 (does not hold: texts).** A text that begins with `BM` is an image; one with `LP` as its characters 35 and 36 is no text either; and
after a tag of HTML anything is a text. -/
theorem C121_text_refuted : isTextFile (lit "BMI is a ratio") = false ∧ isImageFile (lit "BMI is a ratio") = true ∧
    isTextFile (lit "This is about the gramophone, the LP and the CD") = false ∧
    ∀ r, isTextFile (lit "<p>" ++ [0, 1, 2, 3] ++ r) = true := by
  refine ⟨by decide +kernel, by decide +kernel, by decide +kernel, fun r => ?_⟩
  rw [C121_text_partial]
  left
  exact ⟨[], lit "<p", 62, ([0, 1, 2, 3] ++ r).take 509, rfl, by simp, Or.inr rfl, by decide +kernel⟩

example : isTextFile (lit "hello") = true ∧ isTextFile [104, 0] = false ∧ isPDFFile (lit "%PDF-1.4") = true := by decide +kernel


end Sniff
end Verif
