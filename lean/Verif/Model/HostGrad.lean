import Verif.Model.HostRun
import Verif.Model.FullData
import Verif.Model.Gradient

/-!
# The gradient of a mini-batch of a host data loader
-/

namespace JaxSgmc

variable {ι ρ S : Type} [Fintype ι] [DecidableEq ι]

/-- What the mini-batch potential is evaluated on with a mini-batch of a host data loader: the observations are the rows of
the line of the cache, and the information consists of the observation count and the batch size of the loader and the mask of
the line (data/core.py:764-790). -/
def hostBatch (N mb : ℕ) (b : List (String × List ρ) × List Bool) : List (List (String × Option ρ)) × BatchInfo :=
  ((List.range mb).map (batchRow b.1), ⟨N, mb, b.2⟩)

/-- Value and gradient of the mini-batch potential (potential.py:56-171, integrator.py:861-873) of a mini-batch of a host data
loader. -/
noncomputable def hostGradLik (prior : (ι → ℝ) → ℝ) (lik : Likelihood ℝ (List (String × Option ρ)) S (ι → ℝ)) (strategy : Strategy)
    (T : ℝ) (N mb : ℕ) : StochGradLik ι (List (String × List ρ) × List Bool) (Option S) :=
  fun x b ms => potentialGradLik prior lik strategy T x (hostBatch N mb b) ms

/-- Gradient of the mini-batch potential as the leapfrog integrators use it (potential.py:56-171, integrator.py:205-243, 590-640). -/
noncomputable def hostGrad (prior : (ι → ℝ) → ℝ) (lik : Likelihood ℝ (List (String × Option ρ)) S (ι → ℝ)) (strategy : Strategy)
    (T : ℝ) (N mb : ℕ) : StochGrad ι (List (String × List ρ) × List Bool) (Option S) :=
  fun x b ms => potentialGrad prior lik strategy T x (hostBatch N mb b) ms

end JaxSgmc
