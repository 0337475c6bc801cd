import Mathlib.Data.Real.Basic

/-!
# Specification: floating point numbers with `p` bits
-/

namespace JaxSgmc.Spec

/-- A number with a significand of `p` bits (double: 53, single: 24).  The range of the exponent is not limited here; it
contains all exponents which occur for numbers covered by `RoundsToNearest`. -/
def Representable (p : ℕ) (x : ℝ) : Prop := ∃ (m : ℤ) (e : ℤ), |m| < 2 ^ p ∧ x = m * 2 ^ e

/-- `fl` rounds zero and numbers between 2⁻¹⁰⁰ and 2¹⁰⁰ (well inside of the range of normal doubles and singles) to a nearest
number with `p` bits, with any rule for ties. -/
def RoundsToNearest (p : ℕ) (fl : ℝ → ℝ) : Prop := ∀ x : ℝ, x = 0 ∨ ((2 : ℝ) ^ 100)⁻¹ ≤ x ∧ x ≤ 2 ^ 100 →
  Representable p (fl x) ∧ ∀ y, Representable p y → |fl x - x| ≤ |y - x|

end JaxSgmc.Spec
