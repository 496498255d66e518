import Verif.Model.Bloom
import Mathlib.Analysis.SpecialFunctions.Log.Basic

/-!
# Model of the sizes in `New` (common/filter/bloom/bloom.go)

On real numbers: without the rounding errors of `float64`. For a capacity from 1 and a rate in (0, 1]; for others the conversions of
infinities, NaN or negative numbers to whole numbers are not defined by the language.
-/

namespace Verif.Bloom

/-- `bitCnt`, bloom.go:24-25. -/
noncomputable def idealBits (capacity : ℕ) (rate : ℝ) : ℕ := ⌈(capacity : ℝ) * (-Real.log rate / (Real.log 2 * Real.log 2))⌉₊

/-- `seedCnt`, bloom.go:29. -/
noncomputable def seedCnt (capacity bitCnt : ℕ) : ℕ := ⌈Real.log 2 * bitCnt / capacity⌉₊

/-- `New`, bloom.go:22-40. -/
noncomputable def newFor (capacity : ℕ) (rate : ℝ) (random : Nat → BitVec 64) : Go Filter :=
  let bitCnt := BitVec.ofNat 64 (idealBits capacity rate)
  new bitCnt (seedCnt capacity (roundUp bitCnt).toNat) random

end Verif.Bloom
