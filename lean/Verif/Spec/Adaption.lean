import Mathlib.Data.Real.Basic
import Mathlib.Analysis.SpecialFunctions.Sqrt
import Mathlib.Algebra.BigOperators.Group.List.Basic
import Mathlib.Algebra.Order.BigOperators.Group.Finset

/-!
# Specification: SGLD, moving averages, sample moments
-/

namespace JaxSgmc.Spec

variable {ι : Type}

/-- The SGLD update (preconditioned by `G`) for one variable `x` with gradient `g` of the stochastic
potential, step size `h`, temperature `T` and standard normal number `z`. -/
noncomputable def sgldStep (G h T x g z : ℝ) : ℝ := x - h * G * g + Real.sqrt (2 * T * h * G) * z

/-- The moving average of the squared gradients: initial value 1, weight `α` of the past.  The gradients
are listed from the first to the last. -/
def movingSquares (α : ℝ) (gs : List ℝ) : ℝ := gs.foldl (fun v g => α * v + (1 - α) * (g * g)) 1

/-- Mean of a list of vectors. -/
noncomputable def sampleMean (xs : List (ι → ℝ)) (i : ι) : ℝ := (xs.map (fun x => x i)).sum / xs.length

/-- Population covariance of a list of vectors. -/
noncomputable def popCov (xs : List (ι → ℝ)) (i j : ι) : ℝ :=
  (xs.map (fun x => (x i - sampleMean xs i) * (x j - sampleMean xs j))).sum / xs.length

/-- Unbiased sample variance of `n` numbers. -/
noncomputable def sampleVar {n : ℕ} (g : Fin n → ℝ) : ℝ :=
  (∑ k, (g k - (∑ l, g l) / n) ^ 2) / ((n : ℝ) - 1)

end JaxSgmc.Spec
