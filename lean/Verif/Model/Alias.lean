import Verif.Model.Integrator

/-!
# Alias solvers

Models the part of `jax_sgmc/alias.py` which starts several chains.
-/

namespace JaxSgmc

variable {ι κ δ β μ A : Type} [Fintype ι]

/-- `run_fn` of `alias.sgld` (alias.py:110-119) without saving: every chain is initialised without
passing a key, such that `langevin_diffusion` uses `random.PRNGKey(0)` for all of them
(integrator.py:804), here `key0`; every chain gets its own data state (`init_data`, here the list
`chains` of initial samples with data states).  The result is the final state of every chain. -/
noncomputable def aliasSgld (P : Prng κ) (key0 : κ) (lay : Layout ι) (ad : Option (AdaptStrategy ι β A))
    (getData : δ → δ × β) (sg : StochGradLik ι β μ) (adaptInit : (ι → ℝ) → Option A) (ms : μ)
    (chains : List ((ι → ℝ) × δ)) (schedules : List Params) : List (LangevinState ι κ δ μ A) :=
  chains.map fun c =>
    schedules.foldl (langevinUpdate P lay ad getData sg)
      (langevinInit c.2 c.1 key0 (adaptInit c.1) ms)

end JaxSgmc
