import Verif.Model.SlidingError
import Verif.Proof.Json
import Verif.Proof.Upload

/-!
# C131: the error of the sliding log
-/

namespace Verif.Limiter.Log

open Utf8 Strconv

theorem split_space (a b x y : Bytes) (ha : 32 ∉ a) (hb : 32 ∉ b) (h : a ++ 32 :: x = b ++ 32 :: y) : a = b ∧ x = y := by
  induction a generalizing b with
  | nil =>
    cases b with
    | nil => simp only [List.nil_append, List.cons.injEq, true_and] at h; exact ⟨rfl, h⟩
    | cons c b =>
      simp only [List.nil_append, List.cons_append, List.cons.injEq] at h
      exact absurd (h.1 ▸ List.mem_cons_self) hb
  | cons c a ih =>
    cases b with
    | nil =>
      simp only [List.nil_append, List.cons_append, List.cons.injEq] at h
      exact absurd (h.1 ▸ List.mem_cons_self) ha
    | cons d b =>
      simp only [List.cons_append, List.cons.injEq] at h
      obtain ⟨e1, e2⟩ := ih b (fun hm => ha (List.mem_cons_of_mem _ hm)) (fun hm => hb (List.mem_cons_of_mem _ hm)) h.2
      exact ⟨by rw [h.1, e1], e2⟩

/-- **C131.** The text tells which strategy was violated: errors with the same text have the same limit and the same window. -/
theorem C131_injective (a b : Violation) (ha : InI64 a.limit ∧ InI64 a.window) (hb : InI64 b.limit ∧ InI64 b.window)
    (h : a.error = b.error) : a = b := by
  have free : ∀ n : Int, 32 ∉ formatInt n := by
    intro n hm
    rcases Fs.formatInt_chars n 32 hm with h | h <;> omega
  have inj : ∀ m n : Int, InI64 m → InI64 n → formatInt m = formatInt n → m = n := by
    intro m n hm hn h
    have := Json.parseInt_formatInt m hm
    rw [h, Json.parseInt_formatInt n hn] at this
    exact (congrArg Prod.fst this).symm
  unfold Violation.error at h
  rw [List.append_assoc, List.append_assoc, List.append_assoc, List.append_assoc] at h
  have h := List.append_cancel_left h
  rw [show lit " and window = " = 32 :: lit "and window = " by decide, List.cons_append, List.cons_append] at h
  obtain ⟨e1, e2⟩ := split_space _ _ _ _ (free _) (free _) h
  have e2 := List.append_cancel_left e2
  have h1 := inj _ _ ha.1 hb.1 e1
  have h2 := inj _ _ ha.2 hb.2 e2
  cases a
  cases b
  simp only at h1 h2
  rw [h1, h2]

example : (⟨3, 1000000000⟩ : Violation).error = lit "violation strategy that limit = 3 and window = 1000000000" := by decide

end Verif.Limiter.Log
