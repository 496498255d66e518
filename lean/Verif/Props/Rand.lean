import Verif.Model.Rand
import Verif.Props.Misc
import Mathlib.Data.Fintype.Pi
import Mathlib.Data.Fintype.Card
import Mathlib.Data.List.OfFn
import Mathlib.Data.Set.Function
import Mathlib.Data.Fintype.BigOperators

/-!
# C170: the strings of `RandStr` with the source it uses
-/

namespace Verif.Rand

open Misc

/-! ## The string, character by character -/

/-- The characters that the loop appends. -/
def gen (fuel : Nat) (isAll : Bool) : (left : Nat) → (ikind : Nat) → Source → Go Bytes
  | 0, _, _ => .ok []
  | left + 1, ikind, s => do
    let (s, ikind) ← pick fuel isAll s ikind
    let row ← Go.idx kinds ikind
    let (s, v) ← intn fuel s row.1
    let r ← gen fuel isAll left ikind s
    pure ((row.2 + v) % 256 :: r)

theorem loop_eq (fuel : Nat) (isAll : Bool) (left i ikind : Nat) (result : Bytes) (s : Source) (hl : result.length = i + left) :
    loop fuel isAll left i ikind result s = (do let r ← gen fuel isAll left ikind s; pure (result.take i ++ r)) := by
  induction left generalizing i ikind result s with
  | zero =>
    rw [loop, gen, Go.bind_ok, List.take_of_length_le (by omega), List.append_nil]
  | succ left ih =>
    rw [loop, gen]
    cases pick fuel isAll s ikind with
    | error e => rfl
    | ok x =>
      obtain ⟨s, ikind⟩ := x
      simp only [Go.bind_ok]
      cases Go.idx kinds ikind with
      | error e => rfl
      | ok row =>
        simp only [Go.bind_ok]
        cases intn fuel s row.1 with
        | error e => rfl
        | ok x =>
          obtain ⟨s, v⟩ := x
          simp only [Go.bind_ok]
          rw [Go.set_of_lt _ _ _ (by omega), Go.bind_ok, ih _ _ _ _ (by rw [List.length_set]; omega)]
          cases gen fuel isAll left ikind s with
          | error e => rfl
          | ok r =>
            simp only [Go.bind_ok, Go.pure_eq]
            rw [List.take_add_one, List.take_set_of_le (Nat.le_refl i), List.getElem?_set_self (by omega)]
            simp

theorem randStr_eq (cooked : Nat → BitVec 64) (fuel : Nat) (now : Int) (size : Nat) (kind : Int) :
    randStr cooked fuel now size kind =
      gen fuel (decide (kind > 2) || decide (kind < 0)) size kind.toNat (seedSource cooked now) := by
  unfold randStr
  rw [if_neg (by omega)]
  dsimp only
  rw [loop_eq _ _ _ _ _ _ _ (by simp)]
  simp only [Int.toNat_natCast, List.take_zero, List.nil_append]
  cases gen fuel (decide (kind > 2) || decide (kind < 0)) size kind.toNat (seedSource cooked now) <;> rfl

theorem int31nLoop_mono {max n fuel : Nat} {s : Source} {x : Source × Nat} (h : int31nLoop max n fuel s = .ok x) (more : Nat) :
    int31nLoop max n (fuel + more) s = .ok x := by
  induction fuel generalizing s with
  | zero => cases h
  | succ fuel ih =>
    rw [show fuel + 1 + more = fuel + more + 1 by omega, int31nLoop]
    rw [int31nLoop] at h
    dsimp only at h ⊢
    split
    · next hv => rw [if_pos hv] at h; exact ih h
    · next hv => rw [if_neg hv] at h; exact h

theorem intn_mono {n fuel : Nat} {s : Source} {x : Source × Nat} (h : intn fuel s n = .ok x) (more : Nat) : intn (fuel + more) s n = .ok x := by
  unfold intn at h ⊢
  split
  · next hn => rw [if_pos hn] at h; exact h
  · next hn => rw [if_neg hn] at h; exact int31nLoop_mono h more

theorem bind_eq_ok {α β : Type} {x : Go α} {f : α → Go β} {b : β} (h : (x >>= f) = .ok b) : ∃ a, x = .ok a ∧ f a = .ok b := by
  cases x with
  | error e => cases h
  | ok a => exact ⟨a, rfl, h⟩

theorem gen_succ {fuel : Nat} {isAll : Bool} {left ikind : Nat} {s : Source} {r : Bytes} (h : gen fuel isAll (left + 1) ikind s = .ok r) :
    ∃ s1 k row s2 v r', pick fuel isAll s ikind = .ok (s1, k) ∧ Go.idx kinds k = .ok row ∧
      intn fuel s1 row.1 = .ok (s2, v) ∧ gen fuel isAll left k s2 = .ok r' ∧ r = (row.2 + v) % 256 :: r' := by
  rw [gen] at h
  obtain ⟨⟨s1, k⟩, h1, h⟩ := bind_eq_ok h
  obtain ⟨row, h2, h⟩ := bind_eq_ok h
  obtain ⟨⟨s2, v⟩, h3, h⟩ := bind_eq_ok h
  obtain ⟨r', h4, h⟩ := bind_eq_ok h
  cases h
  exact ⟨s1, k, row, s2, v, r', h1, h2, h3, h4, rfl⟩

theorem gen_intro {fuel : Nat} {isAll : Bool} {left ikind : Nat} {s s1 s2 : Source} {k v : Nat} {row : Nat × Nat} {r' : Bytes}
    (h1 : pick fuel isAll s ikind = .ok (s1, k)) (h2 : Go.idx kinds k = .ok row)
    (h3 : intn fuel s1 row.1 = .ok (s2, v)) (h4 : gen fuel isAll left k s2 = .ok r') :
    gen fuel isAll (left + 1) ikind s = .ok ((row.2 + v) % 256 :: r') := by
  rw [gen, h1]
  simp only [Go.bind_ok, h2, h3, h4]
  rfl

theorem gen_mono {fuel : Nat} {isAll : Bool} {left ikind : Nat} {s : Source} {r : Bytes} (h : gen fuel isAll left ikind s = .ok r) (more : Nat) :
    gen (fuel + more) isAll left ikind s = .ok r := by
  induction left generalizing ikind s r with
  | zero => rw [gen] at h ⊢; exact h
  | succ left ih =>
    obtain ⟨s1, k, row, s2, v, r', h1, h2, h3, h4, rfl⟩ := gen_succ h
    refine gen_intro (s1 := s1) (k := k) ?_ h2 (intn_mono h3 more) (ih h4)
    cases isAll with
    | false => exact h1
    | true => exact intn_mono (n := 3) h1 more

theorem gen_prefix {fuel : Nat} {isAll : Bool} {a b ikind : Nat} {s : Source} {r : Bytes} (h : gen fuel isAll (a + b) ikind s = .ok r) :
    gen fuel isAll a ikind s = .ok (r.take a) := by
  induction a generalizing ikind s r with
  | zero => simp [gen]
  | succ a ih =>
    rw [show a + 1 + b = a + b + 1 by omega] at h
    obtain ⟨s1, k, row, s2, v, r', h1, h2, h3, h4, rfl⟩ := gen_succ h
    rw [List.take_succ_cons]
    exact gen_intro h1 h2 h3 (ih h4)

/-! ## The generator -/

/-- Numbers the linear congruential generator may hold. -/
def Lcg (x : Int) : Prop := 1 ≤ x ∧ x ≤ 2147483646

/-- **C170 (generator).** `seedrand` is multiplication by 48271 modulo the prime 2^31-1, without overflow of its products, and stays between 1
and 2^31-2. -/
theorem C170_lcg (x : Int) (h : Lcg x) :
    seedrand x = 48271 * x % 2147483647 ∧ Lcg (seedrand x) ∧
      -2 ^ 31 < 48271 * x.tmod 44488 - 3399 * x.tdiv 44488 ∧ 48271 * x.tmod 44488 - 3399 * x.tdiv 44488 < 2 ^ 31 := by
  obtain ⟨h1, h2⟩ := h
  have e1 : x.tdiv 44488 = x / 44488 := Int.tdiv_eq_ediv_of_nonneg (by omega)
  have e2 : x.tmod 44488 = x % 44488 := Int.tmod_eq_emod_of_nonneg (by omega)
  have key : ∃ q : Int, seedrand x = 48271 * x - q * 2147483647 ∧ 0 ≤ seedrand x ∧ seedrand x < 2147483647 := by
    unfold seedrand int32max
    dsimp only
    rw [e1, e2]
    split
    · exact ⟨x / 44488 - 1, by omega, by omega, by omega⟩
    · exact ⟨x / 44488, by omega, by omega, by omega⟩
  obtain ⟨q, k1, k2, k3⟩ := key
  have k4 : seedrand x = 48271 * x % 2147483647 := by
    rw [k1, show 48271 * x - q * 2147483647 = 48271 * x + -q * 2147483647 by omega] at *
    rw [← Int.add_mul_emod_self_right (48271 * x) (-q), Int.emod_eq_of_lt k2 k3]
  refine ⟨k4, ⟨?_, by omega⟩, by rw [e1, e2]; omega, by rw [e1, e2]; omega⟩
  by_contra hc
  have h0 : 48271 * x - q * 2147483647 = 0 := by omega
  -- 1899818559 is the inverse of 48271
  have hinv : x = 2147483647 * (q * 1899818559 - x * 42704) := by omega
  omega

/-- **C170 (generator).** Different numbers stay different. -/
theorem C170_lcg_injective {x y : Int} (hx : Lcg x) (hy : Lcg y) (h : seedrand x = seedrand y) : x = y := by
  rw [(C170_lcg x hx).1, (C170_lcg y hy).1] at h
  unfold Lcg at hx hy
  have h1 := Int.emod_add_mul_ediv (48271 * x) 2147483647
  have h2 := Int.emod_add_mul_ediv (48271 * y) 2147483647
  generalize 48271 * x / 2147483647 = q at *
  generalize 48271 * y / 2147483647 = q' at *
  have hinv : x - y = 2147483647 * ((q - q') * 1899818559 - (x - y) * 42704) := by omega
  omega

theorem normSeed_eq (t : Int) : normSeed t = if t % 2147483647 = 0 then 89482311 else t % 2147483647 := by
  unfold normSeed int32max
  dsimp only
  have h := Int.tmod_eq_emod (a := t) (b := 2147483647)
  have h1 := Int.emod_nonneg t (show (2147483647 : Int) ≠ 0 by decide)
  have h2 := Int.emod_lt_of_pos t (show (0 : Int) < 2147483647 by decide)
  have : (if t.tmod 2147483647 < 0 then t.tmod 2147483647 + 2147483647 else t.tmod 2147483647) = t % 2147483647 := by
    rw [h]
    split <;> split <;> omega
  rw [this]

theorem normSeed_lcg (t : Int) : Lcg (normSeed t) := by
  rw [normSeed_eq]
  have h1 := Int.emod_nonneg t (show (2147483647 : Int) ≠ 0 by decide)
  have h2 := Int.emod_lt_of_pos t (show (0 : Int) < 2147483647 by decide)
  unfold Lcg
  split <;> omega

theorem normSeed_norm (t : Int) : normSeed (normSeed t) = normSeed t := by
  obtain ⟨h1, h2⟩ := normSeed_lcg t
  rw [normSeed_eq (normSeed t), Int.emod_eq_of_lt (by omega) (by omega), if_neg (by omega)]

theorem seedSource_norm (cooked : Nat → BitVec 64) (t : Int) : seedSource cooked t = seedSource cooked (normSeed t) := by
  unfold seedSource
  rw [normSeed_norm]

/-! ## Properties -/

variable (cooked : Nat → BitVec 64)

/-- At the time `now` the string `r` is returned. -/
def Returns (now size kind : Int) (r : Bytes) : Prop := ∃ fuel, randStr cooked fuel now size kind = .ok r

theorem Returns.eq {now size kind : Int} {r r' : Bytes} (h : Returns cooked now size kind r) (h' : Returns cooked now size kind r') : r = r' := by
  obtain ⟨f, h⟩ := h
  obtain ⟨f', h'⟩ := h'
  by_cases hs : size < 0
  · unfold randStr at h
    rw [if_pos hs] at h
    cases h
  · obtain ⟨n, rfl⟩ : ∃ n : Nat, size = n := ⟨size.toNat, by omega⟩
    rw [randStr_eq] at h h'
    have a := gen_mono h f'
    have b := gen_mono h' f
    rw [Nat.add_comm] at b
    rw [a] at b
    exact Except.ok.inj b

theorem int31nLoop_lt {max n fuel : Nat} (hn : 0 < n) {s s' : Source} {v : Nat} (h : int31nLoop max n fuel s = .ok (s', v)) : v < n := by
  induction fuel generalizing s with
  | zero => cases h
  | succ fuel ih =>
    rw [int31nLoop] at h
    dsimp only at h
    split at h
    · exact ih h
    · cases h
      exact Nat.mod_lt _ hn

theorem intn_lt {n fuel : Nat} (hn : 0 < n) {s s' : Source} {v : Nat} (h : intn fuel s n = .ok (s', v)) : v < n := by
  unfold intn at h
  split at h
  · cases h
    exact Nat.lt_of_le_of_lt Nat.and_le_right (by omega)
  · exact int31nLoop_lt hn h

theorem randLoop_congr {rnd rnd' : Rnd} {isAll : Bool} {left i calls ikind : Nat} {result : Bytes} (h : ∀ k, calls ≤ k → ∀ n, rnd k n = rnd' k n) :
    randLoop rnd isAll left i calls ikind result = randLoop rnd' isAll left i calls ikind result := by
  induction left generalizing i calls ikind result with
  | zero => rfl
  | succ left ih =>
    rw [randLoop, randLoop, h calls (Nat.le_refl _) 3]
    have hc : calls ≤ (if isAll then calls + 1 else calls) := by split <;> omega
    generalize (if isAll then calls + 1 else calls) = c at *
    generalize (if isAll then rnd' calls 3 else ikind) = k
    cases Go.idx kinds k with
    | error e => rfl
    | ok row =>
      simp only [Go.bind_ok]
      rw [h c hc]
      cases Go.set result i ((row.2 + rnd' c row.1) % 256) with
      | error e => rfl
      | ok res => exact ih fun k hk n => h k (by omega) n

theorem kinds_pos {k : Nat} {row : Nat × Nat} (h : Go.idx kinds k = .ok row) : 0 < row.1 := by
  match k, h with
  | 0, h => cases h; decide
  | 1, h => cases h; decide
  | 2, h => cases h; decide

theorem gen_instance {fuel : Nat} {isAll : Bool} {left ikind : Nat} {s : Source} {r : Bytes} (h : gen fuel isAll left ikind s = .ok r) (i calls : Nat)
    (result : Bytes) (hl : result.length = i + left) :
    ∃ rnd : Rnd, rnd.Ok ∧ randLoop rnd isAll left i calls ikind result = .ok (result.take i ++ r) := by
  induction left generalizing ikind s r i calls result with
  | zero =>
    rw [gen] at h
    cases h
    exact ⟨fun _ _ => 0, fun _ _ h => h, by rw [randLoop, List.take_of_length_le (by omega), List.append_nil]; rfl⟩
  | succ left ih =>
    obtain ⟨s1, k, row, s2, v, r', h1, h2, h3, h4, rfl⟩ := gen_succ h
    have hv := intn_lt (kinds_pos h2) h3
    obtain ⟨c, hc⟩ : ∃ c, c = if isAll then calls + 1 else calls := ⟨_, rfl⟩
    have hcc : calls ≤ c := by rw [hc]; split <;> omega
    obtain ⟨rnd, ok, e⟩ := ih h4 (i + 1) (c + 1) (result.set i ((row.2 + v) % 256)) (by rw [List.length_set]; omega)
    refine ⟨fun j n => if j = c then v % n else if j < c then k % n else rnd j n, ?_, ?_⟩
    · intro j n hn
      dsimp only
      split
      · exact Nat.mod_lt _ hn
      · split
        · exact Nat.mod_lt _ hn
        · exact ok j n hn
    · rw [randLoop, ← hc]
      have hk : (if isAll then (if calls = c then v % 3 else if calls < c then k % 3 else rnd calls 3) else ikind) = k := by
        cases isAll with
        | false => cases h1; rfl
        | true =>
          have := intn_lt (n := 3) (by decide) h1
          simp only [if_true] at hc ⊢
          rw [if_neg (by omega), if_pos (by omega), Nat.mod_eq_of_lt this]
      rw [hk, h2, Go.bind_ok]
      simp only [if_true]
      rw [Nat.mod_eq_of_lt hv, Go.set_of_lt _ _ _ (by omega), Go.bind_ok]
      rw [randLoop_congr (rnd' := rnd) (by intro j hj n; rw [if_neg (by omega), if_neg (by omega)]), e]
      rw [List.take_add_one, List.take_set_of_le (Nat.le_refl i), List.getElem?_set_self (by omega)]
      simp

/-- **C170 (instance).** The source is one of those of C91, so the string has the wanted size and only characters of the kind. -/
theorem C170_shape {now size kind : Int} {r : Bytes} (h : Returns cooked now size kind r) :
    (∃ rnd : Rnd, rnd.Ok ∧ Misc.randStr rnd size kind = .ok r) ∧ (r.length : Int) = size ∧ ∀ c ∈ r, InKind kind c := by
  have key : 0 ≤ size ∧ ∃ rnd : Rnd, rnd.Ok ∧ Misc.randStr rnd size kind = .ok r := by
    obtain ⟨fuel, h⟩ := h
    by_cases hs : size < 0
    · unfold randStr at h
      rw [if_pos hs] at h
      cases h
    · obtain ⟨n, rfl⟩ : ∃ n : Nat, size = n := ⟨size.toNat, by omega⟩
      rw [randStr_eq] at h
      obtain ⟨rnd, ok, e⟩ := gen_instance h 0 0 (List.replicate n 0) (by simp)
      refine ⟨by omega, rnd, ok, ?_⟩
      unfold Misc.randStr
      rw [if_neg (by omega)]
      simpa using e
  obtain ⟨hs, rnd, ok, e⟩ := key
  obtain ⟨r', e', h2, h3⟩ := C91_shape rnd ok size kind hs
  cases e.symm.trans e'
  exact ⟨⟨rnd, ok, e⟩, h2, h3⟩

/-- **C170 (refuted: fresh strings).** Calls at times that agree modulo 2^31-1 nanoseconds, in particular at the same time, return the same
string; that is every 2.1 seconds. -/
theorem C170_fresh_refuted {now now' size kind : Int} (h : now % 2147483647 = now' % 2147483647) (r : Bytes) :
    Returns cooked now size kind r ↔ Returns cooked now' size kind r := by
  have : normSeed now = normSeed now' := by rw [normSeed_eq, normSeed_eq, h]
  unfold Returns randStr
  rw [seedSource_norm cooked now, seedSource_norm cooked now', this]

/-- **C170 (prefix).** At the same time a shorter string is the beginning of a longer one. -/
theorem C170_prefix {now kind : Int} {a b : Nat} (hab : a ≤ b) {r : Bytes} (h : Returns cooked now b kind r) : Returns cooked now a kind (r.take a) := by
  obtain ⟨fuel, h⟩ := h
  rw [randStr_eq] at h
  refine ⟨fuel, ?_⟩
  rw [randStr_eq]
  rw [show b = a + (b - a) by omega] at h
  exact gen_prefix h

/-- **C170 (few strings).** Of each size and kind there are at most 2^31-2 strings, which can be listed. -/
theorem C170_few (size kind : Int) : ∃ L : List Bytes, L.length ≤ 2 ^ 31 - 2 ∧ ∀ now r, Returns cooked now size kind r → r ∈ L := by
  classical
  refine ⟨(List.range (2 ^ 31 - 2)).map fun i : Nat =>
    if h : ∃ r, Returns cooked ((i : Int) + 1) size kind r then h.choose else [], ?_, ?_⟩
  · rw [List.length_map, List.length_range]
  · intro now r h
    have hl := normSeed_lcg now
    unfold Lcg at hl
    have h' : Returns cooked ((((normSeed now).toNat - 1 : Nat) : Int) + 1) size kind r := by
      rw [show (((normSeed now).toNat - 1 : Nat) : Int) + 1 = normSeed now by omega]
      unfold Returns randStr at h ⊢
      rwa [← seedSource_norm]
    have hlt : (normSeed now).toNat - 1 < 2 ^ 31 - 2 := by omega
    refine List.mem_map.2 ⟨(normSeed now).toNat - 1, List.mem_range.2 hlt, ?_⟩
    have hex : ∃ r, Returns cooked ((((normSeed now).toNat - 1 : Nat) : Int) + 1) size kind r := ⟨r, h'⟩
    rw [dif_pos hex]
    exact Returns.eq cooked hex.choose_spec h'

/-- The strings of `size` characters from `base`, `base+1`, …, `base+c-1`. -/
theorem card_strings (size c base : Nat) :
    ∃ S : Finset Bytes, S.card = c ^ size ∧ ∀ s ∈ S, s.length = size ∧ ∀ x ∈ s, base ≤ x ∧ x < base + c := by
  classical
  refine ⟨(Finset.univ : Finset (Fin size → Fin c)).image fun f => List.ofFn fun i => base + (f i).val, ?_, ?_⟩
  · rw [Finset.card_image_of_injective, Finset.card_univ, Fintype.card_pi_const, Fintype.card_fin]
    intro f g h
    have := List.ofFn_injective h
    funext i
    have := congrFun this i
    exact Fin.ext (by omega)
  · intro s hs
    obtain ⟨f, _, rfl⟩ := Finset.mem_image.1 hs
    refine ⟨List.length_ofFn, fun x hx => ?_⟩
    obtain ⟨i, rfl⟩ := List.mem_ofFn.1 hx
    have := (f i).isLt
    omega

/-- **C170 (refuted: every string).** From ten digits or seven letters on there is a string of the wanted size and kind that is returned at no
time, whatever the table of the generator. -/
theorem C170_every_refuted (size : Nat) (kind : Nat) (row : Nat × Nat) (hk : kinds[kind]? = some row) (hs : 2 ^ 31 - 2 < row.1 ^ size) :
    ∃ s : Bytes, s.length = size ∧ (∀ c ∈ s, InKind kind c) ∧ ∀ now, ¬ Returns cooked now size kind s := by
  classical
  obtain ⟨L, hL, hmem⟩ := C170_few cooked size kind
  obtain ⟨S, hc, hS⟩ := card_strings size row.1 row.2
  have : L.toFinset.card < S.card := by
    have := List.toFinset_card_le L
    omega
  obtain ⟨s, hs1, hs2⟩ := Finset.exists_mem_notMem_of_card_lt_card this
  refine ⟨s, (hS s hs1).1, ?_, fun now h => hs2 (List.mem_toFinset.2 (hmem now s h))⟩
  intro c hcs
  have := (hS s hs1).2 c hcs
  match kind, hk with
  | 0, hk => cases hk; unfold InKind; rw [if_pos (by decide)]; dsimp only at this; omega
  | 1, hk => cases hk; unfold InKind; rw [if_neg (by decide), if_pos (by decide)]; dsimp only at this; omega
  | 2, hk => cases hk; unfold InKind; rw [if_neg (by decide), if_neg (by decide), if_pos (by decide)]; dsimp only at this; omega

/-- Ten digits, seven letters. -/
example : kinds[0]? = some (10, 48) ∧ 2 ^ 31 - 2 < 10 ^ 10 ∧ kinds[1]? = some (26, 97) ∧ 2 ^ 31 - 2 < 26 ^ 7 := by decide

/-! ## The state in closed form -/

/-- Number `n` after `x`. -/
def lcgAt (x : Int) (n : Nat) : Int := 48271 ^ n * x % 2147483647

theorem warm_eq (n : Nat) (x : Int) (h : Lcg x) : warm n x = lcgAt x n ∧ Lcg (warm n x) := by
  induction n generalizing x with
  | zero =>
    unfold Lcg at h
    refine ⟨?_, h⟩
    rw [warm, lcgAt, pow_zero, one_mul, Int.emod_eq_of_lt (by omega) (by omega)]
  | succ n ih =>
    obtain ⟨h1, h2, _⟩ := C170_lcg x h
    obtain ⟨h3, h4⟩ := ih _ h2
    refine ⟨?_, h4⟩
    rw [warm, h3, h1, lcgAt, lcgAt, Int.mul_emod (48271 ^ n) (48271 * x % 2147483647), Int.emod_emod, ← Int.mul_emod, ← mul_assoc, ← pow_succ]

theorem warm_add (a b : Nat) (x : Int) : warm (a + b) x = warm b (warm a x) := by
  induction a generalizing x with
  | zero => rw [Nat.zero_add, warm]
  | succ a ih => rw [Nat.add_right_comm, warm, warm, ih]

theorem fill_get (cooked : Nat → BitVec 64) {left i j : Nat} {x : Int} (h : j < left) : (fill cooked left i x)[j]? = some
    (BitVec.ofInt 64 (warm (3 * j + 1) x) <<< 40 ^^^ BitVec.ofInt 64 (warm (3 * j + 2) x) <<< 20 ^^^ BitVec.ofInt 64 (warm (3 * j + 3) x) ^^^
      cooked (i + j)) := by
  induction left generalizing i j x with
  | zero => omega
  | succ left ih =>
    rw [fill]
    cases j with
    | zero => rfl
    | succ j =>
      rw [List.getElem?_cons_succ, ih (by omega)]
      have e : ∀ k, warm (3 * j + k) (seedrand (seedrand (seedrand x))) = warm (3 * (j + 1) + k) x := by
        intro k
        rw [show 3 * (j + 1) + k = 3 + (3 * j + k) by omega, warm_add 3]
        rfl
      rw [e, e, e, show i + 1 + j = i + (j + 1) by omega]

/-- **C170 (state).** The entries of the seeded source in closed form. -/
theorem C170_state (now : Int) {j : Nat} (h : j < 607) : (seedSource cooked now).vec[j]? = some
    (BitVec.ofInt 64 (lcgAt (normSeed now) (3 * j + 21)) <<< 40 ^^^ BitVec.ofInt 64 (lcgAt (normSeed now) (3 * j + 22)) <<< 20 ^^^
      BitVec.ofInt 64 (lcgAt (normSeed now) (3 * j + 23)) ^^^ cooked j) := by
  unfold seedSource rngLen
  dsimp only
  rw [fill_get cooked h, ← warm_add, ← warm_add, ← warm_add]
  have hl := normSeed_lcg now
  rw [(warm_eq _ _ hl).1, (warm_eq _ _ hl).1, (warm_eq _ _ hl).1, show 20 + (3 * j + 1) = 3 * j + 21 by omega,
    show 20 + (3 * j + 2) = 3 * j + 22 by omega, show 20 + (3 * j + 3) = 3 * j + 23 by omega, Nat.zero_add]

/-- The first number drawn, from entries 333 and 606. -/
theorem int31_first (now : Int) : (int31 (seedSource cooked now)).2 =
    ((seedSource cooked now).vec.getD 333 0 + (seedSource cooked now).vec.getD 606 0).toNat % 2 ^ 63 / 2 ^ 32 := rfl

/-- One digit. -/
theorem gen_digit {s : Source} {v : Nat} (h : (int31 s).2 = v) (hv : v ≤ 2147483639) : gen 1 false 1 0 s = .ok [(48 + v % 10) % 256] := by
  have h3 : intn 1 s 10 = .ok ((int31 s).1, v % 10) := by
    unfold intn
    rw [if_neg (by decide), int31nLoop]
    dsimp only
    rw [h, if_neg (by omega)]
  exact gen_intro (row := (10, 48)) (r' := []) rfl rfl h3 rfl

theorem first_at_one : (int31 (seedSource (fun _ => 0) 1)).2 = 949497664 := by
  rw [int31_first, List.getD_eq_getElem?_getD, List.getD_eq_getElem?_getD, C170_state _ _ (by decide), C170_state _ _ (by decide)]
  decide +kernel

/-- At time 1, for a table of zeros, a digit is returned, and by `C170_fresh_refuted` again 2^31-1 nanoseconds later. -/
example : Returns (fun _ => 0) 1 1 0 (Utf8.lit "4") ∧ Returns (fun _ => 0) 2147483648 1 0 (Utf8.lit "4") := by
  have key : Returns (fun _ => 0) 1 1 0 (Utf8.lit "4") := ⟨1, (randStr_eq (fun _ => 0) 1 1 1 0).trans (gen_digit first_at_one (by decide))⟩
  exact ⟨key, (C170_fresh_refuted _ (by decide) _).1 key⟩

end Verif.Rand
