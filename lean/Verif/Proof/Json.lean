import Verif.Model.Json
import Verif.Proof.Utf8
import Verif.Props.Strconv
import Mathlib.Data.List.Basic

/-!
# JSON: lemmas
-/

namespace Verif.Json

open Utf8

/-! ## Escaping -/

theorem escLoop_fuel (f g : Nat) (s : Bytes) (hf : s.length ≤ f) (hg : s.length ≤ g) : escLoop f s = escLoop g s := by
  induction f generalizing g s with
  | zero =>
    have : s = [] := by cases s <;> simp_all
    subst this
    cases g <;> simp [escLoop]
  | succ f ih =>
    cases s with
    | nil => cases g <;> simp [escLoop]
    | cons b t =>
      cases g with
      | zero => simp at hg
      | succ g =>
        have hw := decode1_width (b :: t) (by simp)
        rw [escLoop, escLoop]
        · congr 1
          apply ih <;> simp at * <;> omega
        · simp
        · simp

/-- The text of a string, without the quotes. -/
def esc (s : Bytes) : Bytes := escLoop s.length s

theorem esc_nil : esc [] = [] := rfl

/-- What is written for the first rune. -/
def block (s : Bytes) : Bytes := if decode1 s = (runeError, 1) then lit "\\ufffd" else escRune (decode1 s).1

theorem esc_cons (s : Bytes) (h : s ≠ []) : esc s = block s ++ esc (s.drop (decode1 s).2) := by
  obtain ⟨b, t, rfl⟩ := List.exists_cons_of_ne_nil h
  have hw := decode1_width (b :: t) (by simp)
  unfold esc block
  rw [show (b :: t).length = t.length + 1 from rfl, escLoop]
  · congr 1
    apply escLoop_fuel <;> simp at * <;> omega
  · simp

/-- The texts written for single runes. -/
inductive Piece : Bytes → Nat → Prop
  | plain (r) : 32 ≤ r → r < 128 → r ≠ 34 → r ≠ 92 → r ≠ 38 → r ≠ 60 → r ≠ 62 → Piece [r] r
  | escape (c) : isEscape c = true → c ≠ 117 → Piece [92, c] (unescape c)
  | unicode (a b c d) : isHex a = true → isHex b = true → isHex c = true → isHex d = true →
      ¬ (0xD800 ≤ hexVal a * 4096 + hexVal b * 256 + hexVal c * 16 + hexVal d ∧
        hexVal a * 4096 + hexVal b * 256 + hexVal c * 16 + hexVal d < 0xE000) →
      Piece [92, 117, a, b, c, d] (hexVal a * 4096 + hexVal b * 256 + hexVal c * 16 + hexVal d)
  | multi (r) : 128 ≤ r → Valid r → Piece (encode1 r) r

theorem hexDigit_spec (n : Nat) (h : n < 16) : isHex (hexDigit n) = true ∧ hexVal (hexDigit n) = n := by
  have : ∀ n < 16, isHex (hexDigit n) = true ∧ hexVal (hexDigit n) = n := by decide
  exact this n h

theorem escRune_piece (r : Nat) (hv : Valid r) : Piece (escRune r) r := by
  unfold escRune
  split
  · rename_i h
    split
    · rename_i h1
      rcases h1 with rfl | rfl
      · exact Piece.escape 34 (by decide) (by decide)
      · exact Piece.escape 92 (by decide) (by decide)
    · split
      · rename_i h1; subst h1; exact Piece.escape 110 (by decide) (by decide)
      · split
        · rename_i h1; subst h1; exact Piece.escape 114 (by decide) (by decide)
        · split
          · rename_i h1; subst h1; exact Piece.escape 116 (by decide) (by decide)
          · split
            · obtain ⟨a1, a2⟩ := hexDigit_spec (r / 16) (by omega)
              obtain ⟨b1, b2⟩ := hexDigit_spec (r % 16) (by omega)
              have := Piece.unicode 48 48 _ _ (by decide) (by decide) a1 b1
                (by rw [a2, b2]; simp [hexVal]; omega)
              rw [a2, b2] at this
              simp only [hexVal] at this
              rw [show lit "\\u00" = [92, 117, 48, 48] by decide]
              simpa [show r / 16 * 16 + r % 16 = r by omega] using this
            · rename_i h1 _ _ _ h2
              exact Piece.plain r (by omega) (by omega) (by omega) (by omega) (by omega) (by omega) (by omega)
  · split
    · rename_i h1
      rcases h1 with rfl | rfl
      · exact Piece.unicode 50 48 50 56 (by decide) (by decide) (by decide) (by decide) (by decide)
      · exact Piece.unicode 50 48 50 57 (by decide) (by decide) (by decide) (by decide) (by decide)
    · exact Piece.multi r (by omega) hv

theorem block_piece (s : Bytes) : Piece (block s) (decode1 s).1 := by
  unfold block
  split
  · rename_i h
    rw [h]
    exact Piece.unicode 102 102 102 100 (by decide) (by decide) (by decide) (by decide) (by decide)
  · exact escRune_piece _ (decode1_valid s)

theorem encode1_high (r : Nat) (h : 128 ≤ r) : ∀ b ∈ encode1 r, 128 ≤ b := by
  unfold encode1
  rw [if_neg (by omega)]
  split
  · simp; omega
  · split
    · simp
    · split
      · simp; omega
      · simp; omega

theorem scanString_high (bs : Bytes) (h : ∀ b ∈ bs, 128 ≤ b) (t : Bytes) :
    scanString (bs ++ t) = (scanString t).map (fun p => (bs ++ p.1, p.2)) := by
  induction bs with
  | nil => rw [List.nil_append]; cases scanString t <;> rfl
  | cons b bs ih =>
    have hb := h b (by simp)
    rw [List.cons_append, scanString, ih (fun x hx => h x (by simp [hx]))]
    · rw [if_neg (by omega)]
      cases scanString t <;> simp
    · omega
    · rintro _ _ _ _ _ rfl; omega
    · rintro _ _ rfl; omega

theorem scanString_piece (p : Bytes) (r : Nat) (hp : Piece p r) (t : Bytes) :
    scanString (p ++ t) = (scanString t).map (fun q => (p ++ q.1, q.2)) := by
  cases hp with
  | plain =>
    rename_i h1 h2 h3 h4 h5 h6 h7
    rw [List.singleton_append, scanString]
    · rw [if_neg (by omega)]; rfl
    · omega
    · rintro _ _ _ _ _ rfl; omega
    · rintro _ _ rfl; omega
  | escape c h1 h2 =>
    simp only [List.cons_append, List.nil_append]
    rw [scanString]
    · rw [if_pos h1]
    · intro a b c d s e; omega
  | unicode a b c d h1 h2 h3 h4 h5 =>
    simp only [List.cons_append, List.nil_append]
    rw [scanString, if_pos ⟨h1, h2, h3, h4⟩]
  | multi _ h1 h2 => exact scanString_high _ (encode1_high r h1) t

theorem piece_ne_nil (p : Bytes) (r : Nat) (hp : Piece p r) : p ≠ [] := by
  cases hp with
  | multi _ h1 h2 =>
    have := encode1_length r
    intro h
    rw [h] at this
    simp at this
  | _ => simp

theorem unescape_lt (c : Nat) (h : isEscape c = true) : unescape c < 128 := by
  unfold isEscape at h
  simp at h
  unfold unescape
  repeat' split
  all_goals omega

theorem unquote_piece (p : Bytes) (r : Nat) (hp : Piece p r) (t : Bytes) (f : Nat) :
    unquoteLoop (f + 1) (p ++ t) = encode1 r ++ unquoteLoop f t := by
  cases hp with
  | plain =>
    rename_i h1 h2 h3 h4 h5 h6 h7
    rw [List.singleton_append, unquoteLoop]
    · rw [if_pos h2, encode1, if_pos (by omega)]; rfl
    · rintro _ rfl; omega
    · rintro _ _ rfl; omega
  | escape c h1 h2 =>
    simp only [List.cons_append, List.nil_append]
    rw [unquoteLoop]
    · rw [encode1, if_pos (by have := unescape_lt c h1; omega)]; rfl
    · omega
  | unicode a b c d h1 h2 h3 h4 h5 =>
    simp only [List.cons_append, List.nil_append]
    rw [unquoteLoop, getu4, if_pos ⟨h1, h2, h3, h4⟩]
    dsimp only
    rw [if_neg h5]
    rfl
  | multi _ h1 h2 =>
    have hd := decode1_encode1 r h2 t
    have hl := encode1_length r
    have hh := encode1_high r h1
    obtain ⟨c, s, hc⟩ : ∃ c s, encode1 r = c :: s := by
      cases hx : encode1 r with
      | nil => rw [hx] at hl; simp at hl
      | cons c s => exact ⟨c, s, rfl⟩
    have h128 : 128 ≤ c := hh c (by simp [hc])
    rw [hc, List.cons_append, unquoteLoop]
    · rw [hc, List.cons_append] at hd
      rw [if_neg (by omega), hd, ← List.cons_append, ← hc, List.drop_left]
    · rintro _ rfl; omega
    · rintro _ _ rfl; omega

theorem scanString_esc (s rest : Bytes) : scanString (esc s ++ 34 :: rest) = some (esc s, rest) := by
  induction s using runes_induct with
  | nil => simp [esc_nil, scanString]
  | cons s hs ih =>
    rw [esc_cons s hs, List.append_assoc, scanString_piece _ _ (block_piece s), ih]
    simp

theorem unquoteLoop_esc (s : Bytes) (f : Nat) (hf : (esc s).length ≤ f) : unquoteLoop f (esc s) = ofRunes (runes s) := by
  induction s using runes_induct generalizing f with
  | nil => cases f <;> simp [esc_nil, unquoteLoop, runes_nil, ofRunes]
  | cons s hs ih =>
    have hp := block_piece s
    have hn := piece_ne_nil _ _ hp
    rw [esc_cons s hs] at hf ⊢
    rw [List.length_append] at hf
    have : 1 ≤ (block s).length := by cases hb : block s <;> simp_all
    obtain ⟨g, rfl⟩ : ∃ g, f = g + 1 := ⟨f - 1, by omega⟩
    rw [unquote_piece _ _ hp, ih g (by omega), runes_cons s hs]
    simp [ofRunes]

/-- Writing a string and reading it back replaces every byte that is no UTF-8. -/
theorem unquote_esc (s : Bytes) : unquote (esc s) = ofRunes (runes s) := unquoteLoop_esc s _ (Nat.le_refl _)

open Strconv Spec.Decimal

/-! ## Numbers -/

/-- A 32-bit number. -/
def InI32 (v : Int) : Prop := - 2 ^ 31 ≤ v ∧ v < 2 ^ 31

instance (v : Int) : Decidable (InI32 v) := by unfold InI32; infer_instance

theorem InI32.i64 {v : Int} (h : InI32 v) : InI64 v := by
  unfold InI32 InI64 at *
  omega

theorem parseInt_formatInt (v : Int) (h : InI64 v) : parseInt (formatInt v) = (v, none) := by
  unfold InI64 at h
  obtain ⟨h1, h2⟩ := digits_spec v.natAbs (by omega)
  obtain ⟨h3, -⟩ := parseUint_digits _ h1
  obtain ⟨h5, h6⟩ := digits_head _ h1
  have hu := h3 (by rw [h2]; omega)
  rw [h2] at hu
  by_cases hv : v < 0
  · rw [formatInt, if_pos hv, parseInt, if_neg (by simp)]
    simp only [List.head?_cons, or_true, if_true, List.drop_succ_cons, List.drop_zero, hu]
    rw [if_neg (by simp), if_neg (by simp), if_neg (by simp; omega)]
    simp only [Prod.mk.injEq, and_true]
    omega
  · rw [formatInt, if_neg hv, parseInt, if_neg h1.1]
    simp only [h5, h6, or_self, if_false, hu]
    rw [if_neg (by simp), if_neg (by simp; omega), if_neg (by simp)]
    simp only [Prod.mk.injEq, and_true]
    omega

theorem digits_append (ds : Bytes) (h : ∀ d ∈ ds, 48 ≤ d ∧ d ≤ 57) (c : Nat) (hc : ¬ (48 ≤ c ∧ c ≤ 57)) (t : Bytes) :
    digits (ds ++ c :: t) = (ds, c :: t) := by
  unfold digits
  have hc' : isDigit c = false := by simp [isDigit]; omega
  have h' : ∀ d ∈ ds, isDigit d = true := fun d hd => by simpa [isDigit] using h d hd
  have e1 : ∀ ds : Bytes, (∀ d ∈ ds, isDigit d = true) → (ds ++ c :: t).takeWhile isDigit = ds := by
    intro ds
    induction ds with
    | nil => intro _; simp [hc']
    | cons d ds ih =>
      intro h
      rw [List.cons_append, List.takeWhile_cons, if_pos (h d (by simp)), ih (fun x hx => h x (by simp [hx]))]
  have e2 : ∀ ds : Bytes, (∀ d ∈ ds, isDigit d = true) → (ds ++ c :: t).dropWhile isDigit = c :: t := by
    intro ds
    induction ds with
    | nil => intro _; simp [hc']
    | cons d ds ih =>
      intro h
      rw [List.cons_append, List.dropWhile_cons, if_pos (h d (by simp)), ih (fun x hx => h x (by simp [hx]))]
  rw [e1 ds h', e2 ds h']

theorem digitsFuel_zero : digitsFuel 20 0 = [48] := by decide

/-- Reading a number that was written, before something that cannot continue it. -/
theorem scanNumber_formatInt (v : Int) (h : InI64 v) (c : Nat) (hc : c = 44 ∨ c = 125) (t : Bytes) :
    scanNumber (formatInt v ++ c :: t) = some (formatInt v, c :: t) := by
  have hc' : ¬ (48 ≤ c ∧ c ≤ 57) := by omega
  have hf : scanFrac (c :: t) = some ([], c :: t) := by
    rcases hc with rfl | rfl <;> rfl
  have he : scanExp (c :: t) = some ([], c :: t) := by
    rcases hc with rfl | rfl <;> rfl
  have hb : v.natAbs ≤ 2 ^ 63 := by unfold InI64 at h; omega
  obtain ⟨h1, -⟩ := digits_spec v.natAbs hb
  obtain ⟨h5, h6⟩ := digits_head _ h1
  have hnz : v.natAbs ≠ 0 → (digitsFuel 20 v.natAbs).head? ≠ some 48 := by
    intro hv
    by_cases hm : v.natAbs = 2 ^ 63
    · rw [hm]; decide
    have := C71_no_leading_zero v.natAbs (by unfold InI64 at *; omega) (by omega)
    unfold intToString formatInt at this
    rw [if_neg (by omega)] at this
    simpa using this.1
  have hint : scanInt (digitsFuel 20 v.natAbs ++ c :: t) = some (digitsFuel 20 v.natAbs, c :: t) := by
    by_cases hv : v.natAbs = 0
    · rw [hv, digitsFuel_zero]; rfl
    · have hd := digits_append _ h1.2 c hc' t
      have hz := hnz hv
      unfold scanInt
      split
      · rename_i s hs
        exfalso
        cases hx : digitsFuel 20 v.natAbs with
        | nil => exact h1.1 hx
        | cons a b =>
          rw [hx] at hs hz
          simp at hs hz
          exact hz hs.1
      · rw [hd, if_neg h1.1]
  by_cases hv : v < 0
  · rw [formatInt, if_pos hv]
    unfold scanNumber
    simp [hint, hf, he]
  · rw [formatInt, if_neg hv]
    have hh : (digitsFuel 20 v.natAbs ++ c :: t).head? ≠ some 45 := by
      cases hx : digitsFuel 20 v.natAbs with
      | nil => exact absurd hx h1.1
      | cons a b => rw [hx] at h6; simpa using h6
    unfold scanNumber
    rw [if_neg hh]
    simp [hint, hf, he]

/-- A number written is read as that number. -/
theorem scalar_formatInt (v : Int) (h : InI64 v) (c : Nat) (hc : c = 44 ∨ c = 125) (t : Bytes) :
    scalar (formatInt v ++ c :: t) = some (.num (formatInt v), c :: t) := by
  have hd : ∃ a b, formatInt v = a :: b ∧ (a = 45 ∨ 48 ≤ a ∧ a ≤ 57) := by
    have hb : v.natAbs ≤ 2 ^ 63 := by unfold InI64 at h; omega
    obtain ⟨h1, -⟩ := digits_spec v.natAbs hb
    unfold formatInt
    split
    · exact ⟨_, _, rfl, Or.inl rfl⟩
    · cases hx : digitsFuel 20 v.natAbs with
      | nil => exact absurd hx h1.1
      | cons a b => exact ⟨a, b, rfl, Or.inr (h1.2 a (by rw [hx]; simp))⟩
  obtain ⟨a, b, hab, ha⟩ := hd
  have hs := scanNumber_formatInt v h c hc t
  rw [hab] at hs ⊢
  rw [List.cons_append] at hs ⊢
  rw [scalar]
  · rw [hs]; rfl
  all_goals
    intro s e
    injection e with e1 _
    omega

/-! ## Objects -/

theorem skipWs_cons (c : Nat) (t : Bytes) (h : isWs c = false) : skipWs (c :: t) = c :: t := by
  unfold skipWs
  rw [List.dropWhile_cons, if_neg (by simp [h])]

theorem formatInt_cons (v : Int) (h : InI64 v) : ∃ a b, formatInt v = a :: b ∧ (a = 45 ∨ 48 ≤ a ∧ a ≤ 57) := by
  have hb : v.natAbs ≤ 2 ^ 63 := by unfold InI64 at h; omega
  obtain ⟨h1, -⟩ := digits_spec v.natAbs hb
  unfold formatInt
  split
  · exact ⟨_, _, rfl, Or.inl rfl⟩
  · cases hx : digitsFuel 20 v.natAbs with
    | nil => exact absurd hx h1.1
    | cons a b => exact ⟨a, b, rfl, Or.inr (h1.2 a (by rw [hx]; simp))⟩

theorem value_formatInt (d : Nat) (v : Int) (h : InI64 v) (c : Nat) (hc : c = 44 ∨ c = 125) (t : Bytes) :
    value d (skipWs (formatInt v ++ c :: t)) = some (.num (formatInt v), c :: t) := by
  have hs := scalar_formatInt v h c hc t
  obtain ⟨a, b, hab, ha⟩ := formatInt_cons v h
  rw [hab] at hs ⊢
  rw [List.cons_append] at hs ⊢
  rw [skipWs_cons _ _ (by simp [isWs]; omega)]
  cases d with
  | zero => exact hs
  | succ d =>
    rw [value]
    · exact hs
    all_goals
      intro s e
      injection e with e1 _
      omega

/-- The members of an object with its closing brace, and what follows. -/
def body (t : Bytes) : List (Bytes × Int) → Bytes
  | [] => 125 :: t
  | [e] => member e ++ 125 :: t
  | e :: es => member e ++ 44 :: body t es

theorem body_eq (t : Bytes) (es : List (Bytes × Int)) : [44].intercalate (es.map member) ++ 125 :: t = body t es := by
  induction es with
  | nil => rfl
  | cons e es ih =>
    cases es with
    | nil => simp [body, List.intercalate]
    | cons e' es =>
      rw [body, ← ih]
      · simp [List.intercalate]
      · simp

theorem member_cons (e : Bytes × Int) (t : Bytes) : member e ++ t = 34 :: (esc e.1 ++ 34 :: 58 :: (formatInt e.2 ++ t)) := by
  simp [member, quote, esc]

theorem body_cons (t : Bytes) (e : Bytes × Int) (es : List (Bytes × Int)) : ∃ s, body t (e :: es) = 34 :: s := by
  cases es with
  | nil => exact ⟨_, by rw [body, member_cons]⟩
  | cons e' es => exact ⟨_, by rw [body, member_cons]; simp⟩

theorem members_body (d : Nat) (t : Bytes) (e : Bytes × Int) (es : List (Bytes × Int)) (h : ∀ x ∈ e :: es, InI64 x.2) (f : Nat)
    (hf : es.length < f) :
    members (value d) f (body t (e :: es)) = some ((e :: es).map (fun x => (esc x.1, .num (formatInt x.2))), t) := by
  induction es generalizing e f with
  | nil =>
    obtain ⟨f, rfl⟩ : ∃ g, f = g + 1 := ⟨f - 1, by omega⟩
    rw [body, member_cons, members, scanString_esc]
    simp only [Option.bind_eq_bind, Option.bind_some]
    rw [skipWs_cons _ _ (by decide)]
    simp only
    rw [value_formatInt d _ (h e (by simp)) 125 (Or.inr rfl)]
    simp only [Option.bind_some]
    rw [skipWs_cons _ _ (by decide)]
    rfl
  | cons e' es ih =>
    obtain ⟨f, rfl⟩ : ∃ g, f = g + 1 := ⟨f - 1, by omega⟩
    obtain ⟨s, hs⟩ := body_cons t e' es
    have ih := ih e' (fun x hx => h x (List.mem_cons_of_mem _ hx)) f (by simpa using hf)
    rw [body, member_cons, members, scanString_esc]
    · simp only [Option.bind_eq_bind, Option.bind_some]
      rw [skipWs_cons _ _ (by decide)]
      simp only
      rw [value_formatInt d _ (h e (by simp)) 44 (Or.inl rfl)]
      simp only [Option.bind_some]
      rw [skipWs_cons _ _ (by decide)]
      simp only
      rw [hs, skipWs_cons _ _ (by decide), ← hs, ih]
      rfl
    · simp

theorem body_length (t : Bytes) (es : List (Bytes × Int)) : es.length < (body t es).length := by
  induction es with
  | nil => simp [body]
  | cons e es ih =>
    cases es with
    | nil => rw [body, member_cons]; simp; omega
    | cons e' es =>
      rw [body, member_cons]
      · simp at ih ⊢; omega
      · simp

/-- The text of an object with these members, in this order. -/
theorem parse_object (es : List (Bytes × Int)) (h : ∀ x ∈ es, InI64 x.2) :
    parse (123 :: ([44].intercalate (es.map member) ++ [125])) = some (.obj (es.map (fun x => (esc x.1, .num (formatInt x.2))))) := by
  unfold parse
  rw [skipWs_cons _ _ (by decide), show maxDepth = 9999 + 1 from rfl, body_eq]
  cases es with
  | nil => rfl
  | cons e es =>
    obtain ⟨s, hs⟩ := body_cons [] e es
    have hl := body_length [] (e :: es)
    have hm := members_body 9999 [] e es h (body [] (e :: es)).length (by simp at hl; omega)
    rw [value, hs, skipWs_cons _ _ (by decide)]
    simp only
    rw [← hs, hm]
    rfl

/-! ## Enough fuel: the loops of the parser never run out -/

/-- Reading consumes something. -/
def Shrinks {α : Type} (p : Bytes → Option (α × Bytes)) : Prop := ∀ s v r, p s = some (v, r) → r.length < s.length

theorem skipWs_length (s : Bytes) : (skipWs s).length ≤ s.length := by
  unfold skipWs
  exact (List.dropWhile_suffix _).length_le

theorem scanString_shrinks : Shrinks scanString := by
  intro s
  induction s using scanString.induct with
  | case1 => intro v r h; simp [scanString] at h
  | case2 s => intro v r h; simp [scanString] at h; simp [h.2]
  | case3 a b c d s hx ih =>
    intro v r h
    rw [scanString, if_pos hx] at h
    obtain ⟨⟨v', r'⟩, h1, h2⟩ := Option.map_eq_some_iff.1 h
    have := ih v' r' h1
    simp at h2
    rw [← h2.2]
    simp
    omega
  | case4 a b c d s hx =>
    intro v r h
    rw [scanString, if_neg hx] at h
    simp at h
  | case5 c s hn hx ih =>
    intro v r h
    rw [scanString, if_pos hx] at h
    · obtain ⟨⟨v', r'⟩, h1, h2⟩ := Option.map_eq_some_iff.1 h
      have := ih v' r' h1
      simp at h2
      rw [← h2.2]
      simp
      omega
    · exact hn
  | case6 c s hn hx =>
    intro v r h
    rw [scanString, if_neg hx] at h
    · simp at h
    · exact hn
  | case7 c s h1 h2 h3 hx =>
    intro v r h
    rw [scanString, if_pos hx] at h
    · simp at h
    · exact h1
    · exact h2
    · exact h3
  | case8 c s h1 h2 h3 hx ih =>
    intro v r h
    rw [scanString, if_neg hx] at h
    · obtain ⟨⟨v', r'⟩, e1, e2⟩ := Option.map_eq_some_iff.1 h
      have := ih v' r' e1
      simp at e2
      rw [← e2.2]
      simp
      omega
    · exact h1
    · exact h2
    · exact h3

theorem digits_length (s : Bytes) : (digits s).1.length + (digits s).2.length = s.length := by
  unfold digits
  rw [← List.length_append, List.takeWhile_append_dropWhile]

theorem scanInt_shrinks : Shrinks scanInt := by
  intro s v r h
  unfold scanInt at h
  split at h
  · simp at h; simp [h.2]
  · have := digits_length s
    split at h
    · simp at h
    · rename_i hne
      have : 1 ≤ (digits s).1.length := by
        cases hx : (digits s).1 with
        | nil => exact absurd hx hne
        | cons a b => simp
      simp at h
      have h2 : (digits s).2 = r := by rw [h]
      rw [← h2]
      omega

theorem scanFrac_length (s v r : Bytes) (h : scanFrac s = some (v, r)) : r.length ≤ s.length := by
  unfold scanFrac at h
  split at h
  · rename_i t
    have := digits_length t
    split at h
    · simp at h
    · simp at h
      rw [← h.2]
      simp
      omega
  · simp at h
    simp [h.2]

theorem scanExp_length (s v r : Bytes) (h : scanExp s = some (v, r)) : r.length ≤ s.length := by
  unfold scanExp at h
  split at h
  · split at h
    · split at h
      · rename_i c t
        have := digits_length t
        have := digits_length (c :: t)
        split at h
        · split at h
          · simp at h
          · simp at h
            rw [← h.2]
            simp
            omega
        · split at h
          · simp at h
          · simp at h
            rw [← h.2]
            simp at *
            omega
      · simp at h
    · simp at h
      simp [← h.2]
  · simp at h
    simp [h.2]

theorem scanNumber_shrinks : Shrinks scanNumber := by
  intro s v r h
  unfold scanNumber at h
  simp only [Option.bind_eq_bind, Option.bind_eq_some_iff, Prod.exists] at h
  obtain ⟨i, s1, h1, f, s2, h2, e, s3, h3, h4⟩ := h
  have a := scanInt_shrinks _ _ _ h1
  have b := scanFrac_length _ _ _ h2
  have c := scanExp_length _ _ _ h3
  simp at h4
  rw [← h4.2]
  simp at a
  omega

theorem scalar_shrinks : Shrinks scalar := by
  intro s v r h
  unfold scalar at h
  split at h
  · obtain ⟨⟨v', r'⟩, h1, h2⟩ := Option.map_eq_some_iff.1 h
    have := scanString_shrinks _ _ _ h1
    simp at h2
    rw [← h2.2]
    simp
    omega
  · simp at h; simp [← h.2]; omega
  · simp at h; simp [← h.2]; omega
  · simp at h; simp [← h.2]; omega
  · obtain ⟨⟨v', r'⟩, h1, h2⟩ := Option.map_eq_some_iff.1 h
    have := scanNumber_shrinks _ _ _ h1
    simp at h2
    rw [← h2.2]
    exact this

theorem members_shrinks (val : Bytes → Option (Val × Bytes)) (hv : Shrinks val) (f : Nat) : Shrinks (members val f) := by
  induction f with
  | zero => intro s v r h; simp [members] at h
  | succ f ih =>
    intro s v r h
    unfold members at h
    split at h
    · rename_i t
      simp only [Option.bind_eq_bind, Option.bind_eq_some_iff, Prod.exists] at h
      obtain ⟨k, s1, h1, h2⟩ := h
      have a := scanString_shrinks _ _ _ h1
      split at h2
      · rename_i s2 hs2
        have b := skipWs_length s1
        rw [hs2] at b
        simp only [Option.bind_eq_some_iff, Prod.exists] at h2
        obtain ⟨w, s3, h3, h4⟩ := h2
        have c := hv _ _ _ h3
        have c' := skipWs_length s2
        split at h4
        · rename_i s4 hs4
          have e := skipWs_length s3
          rw [hs4] at e
          simp at h4
          rw [← h4.2]
          simp at *
          omega
        · rename_i s4 hs4
          have e := skipWs_length s3
          rw [hs4] at e
          simp only [Option.bind_eq_some_iff, Prod.exists] at h4
          obtain ⟨ms, s5, h5, h6⟩ := h4
          have g := ih _ _ _ h5
          have g' := skipWs_length s4
          simp at h6
          rw [← h6.2]
          simp at *
          omega
        · simp at h4
      · simp at h2
    · simp at h

theorem elements_shrinks (val : Bytes → Option (Val × Bytes)) (hv : Shrinks val) (f : Nat) : Shrinks (elements val f) := by
  induction f with
  | zero => intro s v r h; simp [elements] at h
  | succ f ih =>
    intro s v r h
    unfold elements at h
    simp only [Option.bind_eq_bind, Option.bind_eq_some_iff, Prod.exists] at h
    obtain ⟨w, s1, h1, h2⟩ := h
    have a := hv _ _ _ h1
    have b := skipWs_length s1
    split at h2
    · rename_i s2 hs2
      rw [hs2] at b
      simp at h2 b
      rw [← h2.2]
      omega
    · rename_i s2 hs2
      rw [hs2] at b
      simp only [Option.bind_eq_some_iff, Prod.exists] at h2
      obtain ⟨vs, s3, h3, h4⟩ := h2
      have c := ih _ _ _ h3
      have c' := skipWs_length s2
      simp at b h4
      rw [← h4.2]
      omega
    · simp at h2

theorem value_shrinks (d : Nat) : Shrinks (value d) := by
  induction d with
  | zero => exact scalar_shrinks
  | succ d ih =>
    intro s v r h
    unfold value at h
    split at h
    · rename_i t
      have a := skipWs_length t
      split at h
      · rename_i s1 hs1
        rw [hs1] at a
        simp at h a
        rw [← h.2]
        simp
        omega
      · obtain ⟨⟨v', r'⟩, h1, h2⟩ := Option.map_eq_some_iff.1 h
        have b := members_shrinks _ ih _ _ _ _ h1
        simp at h2
        rw [← h2.2]
        simp
        omega
    · rename_i t
      have a := skipWs_length t
      split at h
      · rename_i s1 hs1
        rw [hs1] at a
        simp at h a
        rw [← h.2]
        simp
        omega
      · obtain ⟨⟨v', r'⟩, h1, h2⟩ := Option.map_eq_some_iff.1 h
        have b := elements_shrinks _ ih _ _ _ _ h1
        simp at h2
        rw [← h2.2]
        simp
        omega
    · exact scalar_shrinks _ _ _ h

/-- More fuel makes no difference: the length of the text is enough. -/
theorem members_fuel (val : Bytes → Option (Val × Bytes)) (hv : Shrinks val) (f g : Nat) (s : Bytes) (hf : s.length ≤ f) (hg : s.length ≤ g) :
    members val f s = members val g s := by
  induction f generalizing g s with
  | zero =>
    have : s = [] := by cases s <;> simp_all
    subst this
    cases g <;> simp [members]
  | succ f ih =>
    cases g with
    | zero =>
      have : s = [] := by cases s <;> simp_all
      subst this
      simp [members]
    | succ g =>
      unfold members
      split
      · rename_i t
        cases h1 : scanString t with
        | none => rfl
        | some p =>
          obtain ⟨k, s1⟩ := p
          have a := scanString_shrinks _ _ _ h1
          simp only [Option.bind_eq_bind, Option.bind_some]
          have b := skipWs_length s1
          split
          · rename_i s2 hs2
            rw [hs2] at b
            cases h2 : val (skipWs s2) with
            | none => rfl
            | some q =>
              obtain ⟨w, s3⟩ := q
              have c := hv _ _ _ h2
              have c' := skipWs_length s2
              have e := skipWs_length s3
              simp only [Option.bind_some]
              split
              · rfl
              · rename_i s4 hs4
                rw [hs4] at e
                have e' := skipWs_length s4
                simp at *
                rw [ih g (skipWs s4) (by omega) (by omega)]
              · rfl
          · rfl
      · rfl

theorem elements_fuel (val : Bytes → Option (Val × Bytes)) (hv : Shrinks val) (f g : Nat) (s : Bytes) (hf : s.length ≤ f) (hg : s.length ≤ g)
    (hs : s ≠ []) : elements val f s = elements val g s := by
  induction f generalizing g s with
  | zero => exact absurd (List.length_eq_zero_iff.1 (Nat.le_zero.1 hf)) hs
  | succ f ih =>
    cases g with
    | zero => exact absurd (List.length_eq_zero_iff.1 (Nat.le_zero.1 hg)) hs
    | succ g =>
      unfold elements
      cases h1 : val s with
      | none => rfl
      | some p =>
        obtain ⟨w, s1⟩ := p
        have a := hv _ _ _ h1
        have b := skipWs_length s1
        simp only [Option.bind_eq_bind, Option.bind_some]
        split
        · rfl
        · rename_i s2 hs2
          rw [hs2] at b
          have c := skipWs_length s2
          simp at b
          by_cases he : skipWs s2 = []
          · rw [he]
            have hn : val [] = none := by
              cases hx : val [] with
              | none => rfl
              | some p => exact absurd (hv _ _ _ hx) (by simp)
            cases f <;> cases g <;> simp [elements, hn]
          · rw [ih g _ (by omega) (by omega) he]
        · rfl

end Verif.Json
