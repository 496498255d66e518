import Verif.Model.Misc
import Mathlib.Tactic.Linarith
import Mathlib.Tactic.FieldSimp
import Mathlib.Tactic.Ring
import Mathlib.Tactic.NormNum
import Mathlib.Tactic.Push
import Mathlib.Tactic.ByContra
import Mathlib.Algebra.Order.Floor.Ring

/-!
# C91, C93, C96: random strings, option switches, rounding
-/

namespace Verif.Misc

open Utf8

/-! ## C91 -/

/-- The characters of a kind: digits, lower-case letters, upper-case letters, all three. -/
def InKind (kind : Int) (c : Nat) : Prop :=
  if kind = 0 then 48 ≤ c ∧ c ≤ 57
  else if kind = 1 then 97 ≤ c ∧ c ≤ 122
  else if kind = 2 then 65 ≤ c ∧ c ≤ 90
  else (48 ≤ c ∧ c ≤ 57) ∨ (97 ≤ c ∧ c ≤ 122) ∨ (65 ≤ c ∧ c ≤ 90)

/-- A character made from row `j` of the table. -/
theorem row_kind (rnd : Rnd) (h : rnd.Ok) (j calls : Nat) (hj : j < 3) :
    ∃ row, Go.idx kinds j = .ok row ∧ InKind j ((row.2 + rnd calls row.1) % 256) := by
  match j, hj with
  | 0, _ => exact ⟨(10, 48), rfl, by have := h calls 10 (by decide); unfold InKind; rw [if_pos (by decide)]; dsimp only; omega⟩
  | 1, _ => exact ⟨(26, 97), rfl, by have := h calls 26 (by decide); unfold InKind; rw [if_neg (by decide), if_pos (by decide)]; dsimp only; omega⟩
  | 2, _ =>
    exact ⟨(26, 65), rfl, by
      have := h calls 26 (by decide); unfold InKind; rw [if_neg (by decide), if_neg (by decide), if_pos (by decide)]; dsimp only; omega⟩

theorem randLoop_spec (rnd : Rnd) (h : rnd.Ok) (kind : Int) (isAll : Bool) (hall : isAll = true ↔ kind < 0 ∨ 2 < kind)
    (left i calls ikind : Nat) (hk : isAll = false → (ikind : Int) = kind) (result : Bytes) (hlen : result.length = i + left)
    (hpre : ∀ c ∈ result.take i, InKind kind c) :
    ∃ r, randLoop rnd isAll left i calls ikind result = .ok r ∧ r.length = i + left ∧ ∀ c ∈ r, InKind kind c := by
  induction left generalizing i calls ikind result with
  | zero =>
    refine ⟨result, rfl, hlen, ?_⟩
    rwa [List.take_of_length_le (by omega)] at hpre
  | succ left ih =>
    rw [randLoop]
    obtain ⟨j, hj⟩ : ∃ j, j = if isAll then rnd calls 3 else ikind := ⟨_, rfl⟩
    obtain ⟨k, hkk⟩ : ∃ k, k = if isAll then calls + 1 else calls := ⟨_, rfl⟩
    rw [← hj, ← hkk]
    have hj3 : j < 3 := by
      cases hia : isAll with
      | true => rw [hia, if_pos rfl] at hj; rw [hj]; exact h calls 3 (by decide)
      | false =>
        have h1 := hk hia
        have h2 : ¬ (kind < 0 ∨ 2 < kind) := fun hx => by rw [hall.2 hx] at hia; cases hia
        rw [hia] at hj
        simp only [Bool.false_eq_true, if_false] at hj
        omega
    have hkind : ∀ c, InKind j c → InKind kind c := by
      intro c hc
      cases hia : isAll with
      | false =>
        rw [hia] at hj
        simp only [Bool.false_eq_true, if_false] at hj
        rw [hj, hk hia] at hc
        exact hc
      | true =>
        have h1 := hall.1 hia
        unfold InKind at hc ⊢
        rw [if_neg (by omega), if_neg (by omega), if_neg (by omega)]
        split at hc
        · exact Or.inl hc
        · split at hc
          · exact Or.inr (Or.inl hc)
          · split at hc
            · exact Or.inr (Or.inr hc)
            · omega
    obtain ⟨row, h1, h2⟩ := row_kind rnd h j k hj3
    rw [h1, Go.bind_ok, Go.set_of_lt _ _ _ (by omega), Go.bind_ok]
    obtain ⟨r, e1, e2, e3⟩ := ih (i + 1) (k + 1) j (fun hia => by
      rw [hia] at hj
      simp only [Bool.false_eq_true, if_false] at hj
      rw [hj]
      exact hk hia) (result.set i ((row.2 + rnd k row.1) % 256)) (by rw [List.length_set]; omega) (by
        intro c hc
        rw [List.take_add_one] at hc
        rcases List.mem_append.1 hc with hc | hc
        · rw [List.take_set_of_le (Nat.le_refl i)] at hc
          exact hpre c hc
        · rw [List.getElem?_set_self (by omega)] at hc
          simp only [Option.toList_some, List.mem_singleton] at hc
          rw [hc]
          exact hkind _ h2)
    exact ⟨r, e1, by omega, e3⟩

/-- **C91.** For every random source, size and kind, `RandStr` returns `size` characters, all of the kind. -/
theorem C91_shape (rnd : Rnd) (h : rnd.Ok) (size kind : Int) (hs : 0 ≤ size) :
    ∃ r, randStr rnd size kind = .ok r ∧ (r.length : Int) = size ∧ ∀ c ∈ r, InKind kind c := by
  unfold randStr
  rw [if_neg (by omega)]
  dsimp only
  have hall : (decide (kind > 2) || decide (kind < 0)) = true ↔ kind < 0 ∨ 2 < kind := by
    rw [Bool.or_eq_true, decide_eq_true_eq, decide_eq_true_eq]
    omega
  obtain ⟨r, h1, h2, h3⟩ := randLoop_spec rnd h kind _ hall size.toNat 0 0 kind.toNat (by
    intro hf
    have : ¬ (kind < 0 ∨ 2 < kind) := fun hx => by rw [hall.2 hx] at hf; cases hf
    omega) (List.replicate size.toNat 0) (by simp) (by simp)
  exact ⟨r, h1, by omega, h3⟩

/-- **C91.** A negative size panics. -/
theorem C91_negative (rnd : Rnd) (size kind : Int) (hs : size < 0) : randStr rnd size kind = .error .makeLen := by
  unfold randStr
  rw [if_pos hs]

/-- **C91.** Every string of digits can come out (likewise for the letters): nothing is lost. -/
theorem C91_every_digit_string (s : Bytes) (hs : ∀ c ∈ s, 48 ≤ c ∧ c ≤ 57) :
    ∃ rnd : Rnd, rnd.Ok ∧ randStr rnd s.length 0 = .ok s := by
  refine ⟨fun k n => if n = 10 then (s.getD k 48 - 48) % 10 else 0, ?_, ?_⟩
  · intro k n hn
    dsimp only
    split
    · omega
    · exact hn
  · unfold randStr
    rw [if_neg (by omega)]
    dsimp only
    have hl : ∀ left i (result : Bytes), i + left = s.length → result.length = s.length → result.take i = s.take i →
        randLoop (fun k n => if n = 10 then (s.getD k 48 - 48) % 10 else 0) false left i i 0 result = .ok s := by
      intro left
      induction left with
      | zero =>
        intro i result h1 h2 h3
        rw [randLoop]
        rw [List.take_of_length_le (by omega), List.take_of_length_le (by omega)] at h3
        rw [h3]
        rfl
      | succ left ih =>
        intro i result h1 h2 h3
        rw [randLoop]
        simp only [Bool.false_eq_true, if_false]
        have hi : i < s.length := by omega
        have hc := hs s[i] (List.getElem_mem hi)
        have hval : (48 + (s.getD i 48 - 48) % 10) % 256 = s[i] := by
          rw [show s.getD i 48 = s[i] by simp [hi]]
          omega
        rw [show Go.idx kinds 0 = .ok (10, 48) from rfl, Go.bind_ok, Go.set_of_lt _ _ _ (by omega), Go.bind_ok]
        simp only [if_true]
        rw [hval]
        apply ih (i + 1) _ (by omega) (by rw [List.length_set]; exact h2)
        rw [List.take_add_one, List.take_add_one, List.take_set_of_le (Nat.le_refl i), h3, List.getElem?_set_self (by omega),
          List.getElem?_eq_getElem hi]
    have := hl s.length 0 (List.replicate s.length 0) (by omega) (by simp) (by simp)
    simpa using this

example : randStr (fun k n => k % n) 5 7 = .ok (lit "1Df7J") := by rfl

/-! ## C93 -/

/-- **C93.** Keys that are not there, and all keys of a `nil` map, are on; others are as stored. -/
theorem C93_default (o : Options) (key : Bytes) :
    getSwitch o key = false ↔ ∃ m, o = some m ∧ m key = some false := by
  unfold getSwitch
  cases o with
  | none => simp
  | some m =>
    cases h : m key with
    | none => simp [h]
    | some b => simp [h]

/-- **C93 (partial).** After a `Set` on a map that is not `nil`, `Get` returns the value set, and other keys are unchanged. Missing: the
`nil` map, see below. -/
theorem C93_set_partial (m : Bytes → Option Bool) (key : Bytes) (value : Bool) :
    getSwitch (setSwitch (some m) key value) key = value ∧
    ∀ k, k ≠ key → getSwitch (setSwitch (some m) key value) k = getSwitch (some m) k := by
  constructor
  · simp [setSwitch, getSwitch]
  · intro k hk
    simp [setSwitch, getSwitch, hk]

/-- **C93 (refuted).** On a `nil` map, `Set` to false is lost. -/
theorem C93_nil_refuted (key : Bytes) : getSwitch (setSwitch none key false) key = true := rfl

/-! ## C96 -/

theorem pow_pos10 (n : Int) : (0 : Rat) < (10 : Rat) ^ n := zpow_pos (by norm_num) n

/-- In units of `10^-n`: what is truncated. -/
theorem round_units (f : Rat) (n : Int) : round f n * (10 : Rat) ^ n = trunc (f * (10 : Rat) ^ n + 1 / 2) := by
  have hp := pow_pos10 n
  unfold round
  dsimp only
  rw [div_mul_cancel₀ _ hp.ne']
  congr 2
  rw [add_mul, div_mul_cancel₀ _ hp.ne']

/-- **C96.** The result is a multiple of `10^-n`. -/
theorem C96_multiple (f : Rat) (n : Int) : ∃ k : Int, round f n = k / (10 : Rat) ^ n := ⟨_, rfl⟩

/-- **C96 (partial).** For values that are not negative (or not less than half a unit below zero), the result is within half a unit.
Missing: other negative values, see below. -/
theorem C96_nearest_partial (f : Rat) (n : Int) (hf : -(1 / 2) ≤ f * (10 : Rat) ^ n) :
    |round f n - f| * (10 : Rat) ^ n ≤ 1 / 2 := by
  have hp := pow_pos10 n
  rw [← abs_of_pos hp, ← abs_mul, sub_mul, round_units]
  unfold trunc
  rw [if_neg (by linarith)]
  have h1 := Int.floor_le (f * (10 : Rat) ^ n + 1 / 2)
  have h2 := Int.lt_floor_add_one (f * (10 : Rat) ^ n + 1 / 2)
  rw [abs_le]
  constructor <;> linarith

/-- **C96 (what happens below zero).** Other negative values are rounded up: the result is off by at least half a unit and less than one
and a half. -/
theorem C96_negative_exact (f : Rat) (n : Int) (hf : f * (10 : Rat) ^ n < -(1 / 2)) :
    1 / 2 ≤ (round f n - f) * (10 : Rat) ^ n ∧ (round f n - f) * (10 : Rat) ^ n < 3 / 2 := by
  rw [sub_mul, round_units]
  unfold trunc
  rw [if_pos (by linarith)]
  have h1 := Int.le_ceil (f * (10 : Rat) ^ n + 1 / 2)
  have h2 := Int.ceil_lt_add_one (f * (10 : Rat) ^ n + 1 / 2)
  constructor <;> linarith

/-- **C96 (refuted).** Negative integers are not even kept: `Round(-3, 0)` is `-2`. For every `k ≥ 1`, `Round(-k, 0) = -k + 1`. -/
theorem C96_negative_refuted (k : Nat) (hk : 1 ≤ k) : round (-(k : Rat)) 0 = -(k : Rat) + 1 := by
  have h := round_units (-(k : Rat)) 0
  rw [zpow_zero, mul_one, mul_one] at h
  rw [h]
  unfold trunc
  have hk' : (1 : Rat) ≤ k := by exact_mod_cast hk
  rw [if_pos (by linarith)]
  have : ⌈(-(k : Rat) + 1 / 2)⌉ = -(k : Int) + 1 := by
    rw [Int.ceil_eq_iff]
    push_cast
    constructor <;> linarith
  rw [this]
  push_cast
  ring

example : round (314159 / 100000) 2 = 314 / 100 := by
  unfold round trunc
  norm_num

end Verif.Misc
