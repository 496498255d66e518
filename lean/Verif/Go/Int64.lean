/-!
# Go's 64-bit `int`

`int`, `int64` and `time.Duration` values are integers in `[-2^63, 2^63)`; arithmetic wraps around (Go spec, "Integer
overflow"), division truncates towards zero.
-/

namespace Verif

/-- The `int64` congruent to `x` modulo 2^64. -/
def wrap64 (x : Int) : Int := Int.bmod x (2 ^ 64)

/-- `x` is an `int64` value. -/
def InI64 (x : Int) : Prop := -2 ^ 63 ≤ x ∧ x < 2 ^ 63

instance (x : Int) : Decidable (InI64 x) := by unfold InI64; infer_instance

theorem wrap64_of_in {x : Int} (h : InI64 x) : wrap64 x = x := by
  obtain ⟨h1, h2⟩ := h
  unfold wrap64
  apply Int.bmod_eq_of_le
  · omega
  · omega

theorem wrap64_in (x : Int) : InI64 (wrap64 x) := by
  have h1 : -((2 ^ 64 : Nat) / 2 : Int) ≤ Int.bmod x (2 ^ 64) := Int.le_bmod (by decide)
  have h2 : Int.bmod x (2 ^ 64) < (((2 ^ 64 : Nat) : Int) + 1) / 2 := Int.bmod_lt (by decide)
  unfold wrap64 InI64
  constructor
  · have : -((2 ^ 64 : Nat) / 2 : Int) = -2 ^ 63 := by decide
    rw [this] at h1; exact h1
  · have : (((2 ^ 64 : Nat) : Int) + 1) / 2 = 2 ^ 63 := by decide
    rw [this] at h2; exact h2

theorem wrap64_add_wrap64 (x y : Int) : wrap64 (wrap64 x + y) = wrap64 (x + y) := by
  unfold wrap64; exact Int.bmod_add_bmod

/-- One second as a `time.Duration`. -/
def second : Int := 1000000000

/-- `t.Sub(u)` on monotonic clock readings in nanoseconds: saturates at the limits of `Duration`
(package time, `Time.Sub`). -/
def timeSub (t u : Int) : Int :=
  if t - u > 2 ^ 63 - 1 then 2 ^ 63 - 1 else if t - u < -2 ^ 63 then -2 ^ 63 else t - u

theorem timeSub_in (t u : Int) : InI64 (timeSub t u) := by
  unfold timeSub InI64; split
  · omega
  · split <;> omega

theorem timeSub_le {t u : Int} (h : u ≤ t) : 0 ≤ timeSub t u ∧ timeSub t u ≤ t - u := by
  unfold timeSub; split
  · omega
  · split <;> omega

end Verif
