import Verif.Model.Md5

/-!
# C75: the MD5 helpers
-/

namespace Verif.Md5

/-- What is assumed of the hash function: 16 bytes. -/
def DigestOk (md5 : Bytes → Bytes) : Prop := ∀ s, (md5 s).length = 16 ∧ ∀ b ∈ md5 s, IsByte b

/-- The value of a lower-case hexadecimal digit. -/
def digitVal (c : Nat) : Option Nat :=
  if 48 ≤ c ∧ c ≤ 57 then some (c - 48) else if 97 ≤ c ∧ c ≤ 102 then some (c - 87) else none

/-- Reading hexadecimal digits in pairs. -/
def unhex : Bytes → Option Bytes
  | [] => some []
  | a :: b :: s => do
    let x ← digitVal a
    let y ← digitVal b
    let r ← unhex s
    return (x * 16 + y) :: r
  | [_] => none

theorem digitVal_hexDigit (n : Nat) (h : n < 16) : digitVal (hexDigit n) = some n := by
  have : ∀ n < 16, digitVal (hexDigit n) = some n := by decide
  exact this n h

theorem unhex_hex (bs : Bytes) (h : ∀ b ∈ bs, IsByte b) : unhex (hex bs) = some bs := by
  induction bs with
  | nil => rfl
  | cons b bs ih =>
    have hb : b < 256 := h b List.mem_cons_self
    rw [hex, unhex, digitVal_hexDigit _ (by omega), digitVal_hexDigit _ (by omega), ih (fun x hx => h x (List.mem_cons_of_mem _ hx))]
    simp only [Option.pure_def, Option.bind_eq_bind, Option.bind_some]
    congr 2
    omega

theorem hex_append (a b : Bytes) : hex (a ++ b) = hex a ++ hex b := by
  induction a with
  | nil => rfl
  | cons x a ih => simp [hex, ih]

theorem hex_shape (bs : Bytes) (h : ∀ b ∈ bs, IsByte b) :
    (hex bs).length = 2 * bs.length ∧ ∀ c ∈ hex bs, (48 ≤ c ∧ c ≤ 57) ∨ (97 ≤ c ∧ c ≤ 102) := by
  induction bs with
  | nil => exact ⟨rfl, by simp [hex]⟩
  | cons b bs ih =>
    obtain ⟨h1, h2⟩ := ih (fun x hx => h x (List.mem_cons_of_mem _ hx))
    have hb : b < 256 := h b List.mem_cons_self
    have hd : ∀ n < 16, (48 ≤ hexDigit n ∧ hexDigit n ≤ 57) ∨ (97 ≤ hexDigit n ∧ hexDigit n ≤ 102) := by
      intro n hn
      unfold hexDigit
      split <;> omega
    refine ⟨by simp only [hex, List.length_cons, h1]; omega, ?_⟩
    intro c hc
    simp only [hex, List.mem_cons] at hc
    rcases hc with rfl | rfl | hc
    · exact hd _ (by omega)
    · exact hd _ (by omega)
    · exact h2 c hc

theorem copy_written (ps : List Bytes) (h : Hash) : (copy ps h).written = h.written ++ ps.flatten := by
  induction ps generalizing h with
  | nil => simp [copy]
  | cons p ps ih => rw [copy, ih]; simp [Hash.write]

/-- All helpers give the hexadecimal text of the digest, however a reader cuts the content into pieces. -/
theorem C75_agree (md5 : Bytes → Bytes) (s : Bytes) (pieces : List Bytes) (h : pieces.flatten = s) :
    md5Crypt md5 s = hex (md5 s) ∧ md5String md5 s = hex (md5 s) ∧ md5V md5 s [] = hex (md5 s) ∧ computeFileMD5 md5 pieces = hex (md5 s) := by
  refine ⟨rfl, rfl, rfl, ?_⟩
  unfold computeFileMD5 Hash.sum
  rw [copy_written, h]
  rfl

/-- That text has 32 characters, digits and lower-case letters up to `f`, and can be read back. -/
theorem C75_shape (md5 : Bytes → Bytes) (hm : DigestOk md5) (s : Bytes) :
    (md5String md5 s).length = 32 ∧ (∀ c ∈ md5String md5 s, (48 ≤ c ∧ c ≤ 57) ∨ (97 ≤ c ∧ c ≤ 102)) ∧
    unhex (md5String md5 s) = some (md5 s) := by
  obtain ⟨h1, h2⟩ := hm s
  obtain ⟨h3, h4⟩ := hex_shape (md5 s) h2
  exact ⟨by unfold md5String; omega, h4, unhex_hex _ h2⟩

/-- `CheckMd5` accepts exactly that text; a text in upper case, with blanks or cut is refused. -/
theorem C75_check (md5 : Bytes → Bytes) (content chunk : Bytes) : checkMd5 md5 content chunk = true ↔ chunk = md5String md5 content := by
  unfold checkMd5
  dsimp only
  rw [show md5V md5 content [] = md5String md5 content from rfl]
  split
  · rename_i h; simp [h]
  · rename_i h
    simp only [Bool.false_eq_true, false_iff]
    exact fun h' => h h'.symm

/-- A content passes the check of another content exactly if the digests collide. -/
theorem C75_collision (md5 : Bytes → Bytes) (hm : DigestOk md5) (a b : Bytes) :
    checkMd5 md5 a (md5String md5 b) = true ↔ md5 a = md5 b := by
  rw [C75_check]
  constructor
  · intro h
    have := congrArg unhex h
    rw [(C75_shape md5 hm b).2.2, (C75_shape md5 hm a).2.2] at this
    exact (Option.some.inj this).symm
  · intro h
    unfold md5String
    rw [h]

/-- Further bytes given to `MD5V` are not hashed but put in front of the digest. -/
theorem C75_extra (md5 : Bytes → Bytes) (s b : Bytes) : md5V md5 s b = hex b ++ md5String md5 s := by
  unfold md5V Hash.sum md5String
  rw [hex_append]
  rfl

/-- A function as assumed, with two different digests. -/
example : ∃ md5, DigestOk md5 ∧ checkMd5 md5 [1] (md5String md5 [1]) = true ∧ checkMd5 md5 [1] (md5String md5 [2]) = false := by
  refine ⟨fun s => List.replicate 16 (s.sum % 256), fun s => ⟨by simp, fun b hb => ?_⟩, by decide, by decide⟩
  rw [(List.mem_replicate.1 hb).2]
  exact Nat.mod_lt _ (by omega)

end Verif.Md5
