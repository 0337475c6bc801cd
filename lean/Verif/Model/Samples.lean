import Verif.Model.Solver

/-!
# What the samplers report: the `get` functions of integrators and solvers
-/

namespace JaxSgmc

variable {ι E κ δ μ φ Ms A : Type}

/-- The dictionary returned by `get_fn` of `langevin_diffusion` (integrator.py:851-855). -/
structure LikelihoodSample (ι μ : Type) where
  vars : ι → ℝ
  likelihood : ℝ
  modelState : μ

/-- `get_fn` of `langevin_diffusion` (integrator.py:851-855). -/
def langevinGet (s : LangevinState ι κ δ μ A) : LikelihoodSample ι μ :=
  ⟨s.latent, -s.potential, s.modelState⟩

/-- The dictionary returned by `get_fn` of the other integrators (integrator.py:340-344, 555-558,
759-763). -/
structure EnergySample (ι E μ : Type) where
  vars : ι → ℝ
  energy : E
  modelState : μ

/-- `get_fn` of `reversible_leapfrog` and `friction_leapfrog` (integrator.py:555-558, 759-763). -/
def leapfrogGet (s : LeapfrogState ι E κ δ μ) : EnergySample ι E μ :=
  ⟨s.positions, s.potential, s.modelState⟩

/-- `get_fn` of `obabo` (integrator.py:340-344). -/
def obaboGet (s : ObaboState ι E κ δ μ) : EnergySample ι ℝ μ :=
  ⟨s.positions, s.potential, s.modelState⟩

/-- The dictionary returned by `get` of `amagold` (solver.py:426-430). -/
structure AmagoldSample (ι μ : Type) extends EnergySample ι XF μ where
  acceptanceRatio : XF
  stepSize : ℝ

/-- `get` of `amagold` (solver.py:426-430). -/
def amagoldGet (s : AmagoldState ι κ δ μ φ Ms) : AmagoldSample ι μ :=
  { leapfrogGet s.integratorState with
    acceptanceRatio := s.acceptanceRatio.1
    stepSize := s.acceptanceRatio.2 }

/-- The dictionary returned by `get` of `sggmc` (solver.py:569-575). -/
structure SggmcSample (ι μ : Type) extends EnergySample ι ℝ μ where
  acceptanceRatio : XF
  stepSize : ℝ
  kineticEnergy : XF
  potential : XF

/-- `get` of `sggmc` (solver.py:569-575). -/
def sggmcGet (s : SggmcState ι κ δ μ φ Ms) : SggmcSample ι μ :=
  { obaboGet s.integratorState with
    acceptanceRatio := s.acceptanceRatio.1
    stepSize := s.acceptanceRatio.2.1
    kineticEnergy := s.acceptanceRatio.2.2
    potential := s.potential }

/-- A run of `parallel_tempering`: the state after updates with the given pairs of schedules of the normal
and the hot chain (solver.py:109-120, 153-160). -/
noncomputable def ptRun (P : Prng κ) (saSchedule : ℕ → ℝ)
    (updateIntegrator : LangevinState ι κ δ μ A → Params → LangevinState ι κ δ μ A)
    (s : PtState ι κ δ μ A) (schedules : List (Params × Params)) : PtState ι κ δ μ A :=
  schedules.foldl (fun s p => ptUpdate P saSchedule updateIntegrator s p.1 p.2) s

end JaxSgmc
