import Mathlib.Analysis.SpecialFunctions.Pow.Real
import Mathlib.Algebra.BigOperators.Group.Finset.Basic

/-!
# Dual averaging

The scheme of Hoffman and Gelman (arXiv:1111.4246, section 3.2) for the step size: with acceptance ratios
`α 0, α 1, …`, the mean error after `m` updates is `(Σ (target - α i)) / (m + t₀)`, the proposed logarithmic
step size is `log (10 ε₀) - √m / γ * error`, and the step sizes are averaged with weights `m ^ (-κ)`.
-/

namespace JaxSgmc.Spec

/-- The averaged error after `m` updates. -/
noncomputable def averageError (t₀ target : ℝ) (α : ℕ → ℝ) (m : ℕ) : ℝ :=
  (∑ i ∈ Finset.range m, (target - α i)) / (m + t₀)

/-- The logarithm of the step size after `m` updates. -/
noncomputable def dualAverage (ε₀ t₀ κ γ target : ℝ) (α : ℕ → ℝ) : ℕ → ℝ
  | 0 => Real.log ε₀
  | m + 1 =>
    (1 - ((m + 1 : ℕ) : ℝ) ^ (-κ)) * dualAverage ε₀ t₀ κ γ target α m +
      ((m + 1 : ℕ) : ℝ) ^ (-κ) *
        (Real.log (10 * ε₀) - Real.sqrt (m + 1 : ℕ) / γ * averageError t₀ target α (m + 1))

end JaxSgmc.Spec
