import Mathlib.Analysis.SpecialFunctions.Exp

/-!
# Specification of Metropolis-Hastings and replica exchange
-/

namespace JaxSgmc.Spec

/-- The Metropolis acceptance probability of a proposal with energy error `dE`:
`min(1, exp(-dE))`. -/
noncomputable def acceptProb (dE : ℝ) : ℝ := min 1 (Real.exp (-dE))

/-- The logarithm of the swap rate of replica exchange SGLD (arXiv:2008.05367, equation 6): chains at
temperatures `t₁` and `t₂` with stochastic energies `u₁` and `u₂`, variance estimate `v` of the energy
estimator and correction factor `F`. -/
noncomputable def reSgldLogSwapRate (t₁ t₂ u₁ u₂ v F : ℝ) : ℝ :=
  (1 / t₁ - 1 / t₂) * (u₁ - u₂ - (1 / t₁ - 1 / t₂) * v / F)

end JaxSgmc.Spec
