import Verif.Spec.Potential
import Mathlib.Analysis.Calculus.Deriv.Basic
import Mathlib.Analysis.Calculus.FDeriv.Basic

/-!
# Vocabulary for gradients of potentials
-/

namespace JaxSgmc.Spec

/-- The partial derivative of `f` with respect to variable `i`. -/
noncomputable def partialDeriv {ι : Type} [DecidableEq ι] (f : (ι → ℝ) → ℝ) (x : ι → ℝ) (i : ι) : ℝ :=
  deriv (fun t => f (Function.update x i t)) (x i)

/-- The log-likelihood of every observation and the log-prior are differentiable at `x`. -/
def SmoothAt {ι ρ : Type} [Fintype ι] (ℓ : (ι → ℝ) → ρ → ℝ) (prior : (ι → ℝ) → ℝ) (x : ι → ℝ) : Prop :=
  (∀ r, DifferentiableAt ℝ (fun y => ℓ y r) x) ∧ DifferentiableAt ℝ prior x

end JaxSgmc.Spec
