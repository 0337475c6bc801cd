import Verif.Model.AliasRun

/-!
# Runs of SGLD with `polynomial_step_size`

The program a user writes without the ready to use solvers: `mcmc(sgmc(langevin_diffusion(...)), scheduler)` where
`scheduler = init_scheduler(step_size=polynomial_step_size(a, b, gamma), temperature=constant_temperature(T),
burn_in=initial_burn_in(n), thinning=...)`.
-/

namespace JaxSgmc

variable {ι κ δ β μ A H σ ρ : Type}

/-- `init_scheduler` with `polynomial_step_size`, `constant_temperature`, `initial_burn_in` and `random_thinning` of the
same step sizes and burn in (scheduler.py:93-242, 245-272, 447-491, 567-596, 599-666; the progress bar with its default 20 lines). -/
noncomputable def polynomialThinned (gumbel : κ → Nat → ℝ) (thinKey : κ) (a b gamma temperature : ℝ)
    (burnIn accepted : Nat) (bar : Bool) :
    Scheduler PolyKw (List XF) XF (Option ℝ) ℝ ℝ (Option Int) Int (ThinKw κ) (List Nat) where
  stepSize := polynomialStepSize (.fin a) (.fin b) gamma
  temperature := constantTemperature temperature
  burnIn := initialBurnIn burnIn
  thinning := randomThinning gumbel (polynomialStepSize (.fin a) (.fin b) gamma) (initialBurnIn burnIn) accepted thinKey
  progressBar := bar
  barSteps := 20

/-- The same without thinning (scheduler.py:93-242). -/
noncomputable def polynomialAll (a b gamma temperature : ℝ) (burnIn : Nat) (bar : Bool) :
    Scheduler PolyKw (List XF) XF (Option ℝ) ℝ ℝ (Option Int) Int Unit Unit where
  stepSize := polynomialStepSize (.fin a) (.fin b) gamma
  temperature := constantTemperature temperature
  burnIn := initialBurnIn burnIn
  thinning := noThinning
  progressBar := bar
  barSteps := 20

/-- `mcmc(sgmc(langevin_diffusion(...)), scheduler)` (solver.py:65-185, 188-217), run with the given number of
iterations; `accepted = none` means that no thinning is used. -/
noncomputable def runSgldPolynomial [Fintype ι] (saving : Saving H σ ρ (OutLeaf ι μ)) (P : Prng κ) (key0 : κ)
    (lay : Layout ι) (ad : Option (AdaptStrategy ι β A)) (getData : δ → δ × β) (sg : StochGradLik ι β μ)
    (adaptInit : (ι → ℝ) → Option A) (ms : μ) (gumbel : κ → Nat → ℝ) (thinKey : κ) (a b gamma temperature : ℝ)
    (burnIn : Nat) (accepted : Option Nat) (bar : Bool) (iterations : Nat) (h : H) (chains : List ((ι → ℝ) × δ)) :
    Except PyErr (H × List ρ) :=
  match accepted with
  | some k => mcmcMap saving (sgmcSolver (langevinUpdate P lay ad getData sg) langevinTree)
      (polynomialThinned gumbel thinKey a b gamma temperature burnIn k bar) [] iterations h
      (chains.map fun c => langevinInit c.2 c.1 key0 (adaptInit c.1) ms)
  | none => mcmcMap saving (sgmcSolver (langevinUpdate P lay ad getData sg) langevinTree)
      (polynomialAll a b gamma temperature burnIn bar) [] iterations h
      (chains.map fun c => langevinInit c.2 c.1 key0 (adaptInit c.1) ms)

end JaxSgmc
