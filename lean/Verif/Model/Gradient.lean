import Verif.Model.Potential
import Verif.Model.Integrator
import Mathlib.Analysis.Calculus.FDeriv.Basic

/-!
# Model of the gradient evaluation of the integrators

`value_and_grad(potential_fn, argnums=0, has_aux=True)`: automatic differentiation is modelled by its
specification, the derivative of the (mathematical) potential function.
-/

namespace JaxSgmc

section
variable {ι ρ S : Type} [Fintype ι] [DecidableEq ι]

/-- The gradient computed by `jax.grad` of a differentiable function of the latent variables
(integrator.py:166, 375, 593, 792). -/
noncomputable def gradOf (f : (ι → ℝ) → ℝ) (x : ι → ℝ) : ι → ℝ :=
  fun i => fderiv ℝ f x (Pi.single i 1)

/-- The value of the minibatch potential (potential.py:188-214) without the auxiliary results; where it raises
an exception the value does not matter. -/
noncomputable def potentialValue (prior : (ι → ℝ) → ℝ) (lik : Likelihood ℝ ρ S (ι → ℝ)) (strategy : Strategy)
    (T : ℝ) (rows : List ρ) (info : BatchInfo) (st : Option S) (x : ι → ℝ) : ℝ :=
  match minibatchPotential prior lik strategy T x rows info st none with
  | .ok (p, _, _) => p
  | .error _ => 0

/-- `value_and_grad(potential_fn, argnums=0, has_aux=True)` with `likelihoods=True` as used by
`langevin_diffusion` (integrator.py:792, 872-879).  If the potential raises an exception the run would
end; the model returns a dummy, and the theorems assume that it does not. -/
noncomputable def potentialGradLik (prior : (ι → ℝ) → ℝ) (lik : Likelihood ℝ ρ S (ι → ℝ))
    (strategy : Strategy) (T : ℝ) : StochGradLik ι (List ρ × BatchInfo) (Option S) := fun x b st =>
  match minibatchPotential prior lik strategy T x b.1 b.2 st none with
  | .ok (p, ls, st') => ((p, (ls, st')), gradOf (potentialValue prior lik strategy T b.1 b.2 st) x)
  | .error _ => ((0, ([], st)), 0)

/-- The same without the likelihoods of the observations, as used by the other integrators
(integrator.py:166, 375, 593). -/
noncomputable def potentialGrad (prior : (ι → ℝ) → ℝ) (lik : Likelihood ℝ ρ S (ι → ℝ))
    (strategy : Strategy) (T : ℝ) : StochGrad ι (List ρ × BatchInfo) (Option S) := fun x b st =>
  match minibatchPotential prior lik strategy T x b.1 b.2 st none with
  | .ok (p, _, st') => ((p, st'), gradOf (potentialValue prior lik strategy T b.1 b.2 st) x)
  | .error _ => ((0, st), 0)

end

end JaxSgmc
