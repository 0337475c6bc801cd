import Verif.Model.Mcmc
import Verif.Model.Samples

/-!
# The ready to use solvers of `jax_sgmc/alias.py`

All of them combine a solver, a polynomial step size schedule, a burn in, (random) thinning and a way to
save the samples, and run one chain after the other.  The data source is a pure function (`getData`) with
one initial state per chain; see `Model/Requests.lean` for the data source itself.  The sample (a pytree) is
one leaf of the saved tree.
-/

namespace JaxSgmc

variable {ι κ δ β μ φ A H σ ρ α S : Type}

/-- The value of a finite number.  (The integrators compute with real numbers, see `Params`; the step sizes
passed to them are finite under the conditions of C35.  scheduler.py:536-540) -/
noncomputable def XF.toReal : XF → ℝ
  | .fin r => r
  | _ => 0

/-- What an integrator reads of a schedule (integrator.py:858-905: `step_size` and `temperature`). -/
noncomputable def toParams (s : Schedule XF ℝ) : Params := ⟨s.stepSize.toReal, s.temperature⟩

/-- The leaves of the dictionaries returned by the solvers (integrator.py:340-344, 555-558, 759-763,
851-855, solver.py:426-430, 569-575). -/
inductive OutLeaf (ι μ : Type)
  | scalar (x : XF)
  | vector (v : ι → ℝ)
  | model (m : μ)

/-- The tree with the entries of `get_fn` of `langevin_diffusion` (integrator.py:851-855). -/
def langevinTree (s : LangevinState ι κ δ μ A) : Tree (OutLeaf ι μ) :=
  .node (.dict ["likelihood".toList, "model_state".toList, "variables".toList])
    [.leaf (.scalar (.fin (langevinGet s).likelihood)), .leaf (.model (langevinGet s).modelState),
      .leaf (.vector (langevinGet s).vars)]

/-- The tree with the entries of `get_fn` of `friction_leapfrog` (integrator.py:759-763). -/
def leapfrogTree (s : LeapfrogState ι ℝ κ δ μ) : Tree (OutLeaf ι μ) :=
  .node (.dict ["energy".toList, "model_state".toList, "variables".toList])
    [.leaf (.scalar (.fin (leapfrogGet s).energy)), .leaf (.model (leapfrogGet s).modelState),
      .leaf (.vector (leapfrogGet s).vars)]

/-- The tree with the entries of `get_fn` of `obabo` (integrator.py:340-344). -/
def obaboTree (s : ObaboState ι ℝ κ δ μ) : Tree (OutLeaf ι μ) :=
  .node (.dict ["energy".toList, "model_state".toList, "variables".toList])
    [.leaf (.scalar (.fin (obaboGet s).energy)), .leaf (.model (obaboGet s).modelState),
      .leaf (.vector (obaboGet s).vars)]

/-- The tree with the entries of `get` of `amagold` (solver.py:426-430). -/
def amagoldTree {Ms : Type} (s : AmagoldState ι κ δ μ φ Ms) : Tree (OutLeaf ι μ) :=
  .node (.dict ["acceptance_ratio".toList, "energy".toList, "model_state".toList, "step_size".toList,
      "variables".toList])
    [.leaf (.scalar (amagoldGet s).acceptanceRatio), .leaf (.scalar (amagoldGet s).energy),
      .leaf (.model (amagoldGet s).modelState), .leaf (.scalar (.fin (amagoldGet s).stepSize)),
      .leaf (.vector (amagoldGet s).vars)]

/-- The tree with the entries of `get` of `sggmc` (solver.py:569-575). -/
def sggmcTree {Ms : Type} (s : SggmcState ι κ δ μ φ Ms) : Tree (OutLeaf ι μ) :=
  .node (.dict ["acceptance_ratio".toList, "energy".toList, "kinetic_energy".toList,
      "model_state".toList, "potential".toList, "step_size".toList, "variables".toList])
    [.leaf (.scalar (sggmcGet s).acceptanceRatio), .leaf (.scalar (.fin (sggmcGet s).energy)),
      .leaf (.scalar (sggmcGet s).kineticEnergy), .leaf (.model (sggmcGet s).modelState),
      .leaf (.scalar (sggmcGet s).potential), .leaf (.scalar (.fin (sggmcGet s).stepSize)),
      .leaf (.vector (sggmcGet s).vars)]

/-- `sgmc` (solver.py:188-217): the integrator with the main schedule, no statistics.  (`mcmc` passes one
schedule per scheduler; without any the call would fail.) -/
noncomputable def sgmcSolver (update : S → Params → S) (get : S → Tree α) : Solver S XF ℝ α where
  update s schedules :=
    match schedules with
    | [] => (s, none)
    | main :: _ => (update s (toParams main), none)
  get := get

/-- `parallel_tempering` (solver.py:219-299) as solver with the normal and the hot schedule. -/
noncomputable def ptSolver (update : S → Params → Params → S) (get : S → Tree α) : Solver S XF ℝ α where
  update s schedules :=
    match schedules with
    | normal :: hot :: _ => (update s (toParams normal) (toParams hot), none)
    | _ => (s, none)
  get := get

/-- `amagold` and `sggmc` (solver.py:422-424, 565-567) as solvers which return the acceptance ratio. -/
noncomputable def mhSolver (update : S → Params → S × XF) (get : S → Tree α) : Solver S XF ℝ α where
  update s schedules :=
    match schedules with
    | [] => (s, none)
    | main :: _ =>
      let r := update s (toParams main)
      (r.1, some r.2.toReal)
  get := get

/-- The scheduler of `sgld`, `re_sgld`, `sghmc` and `obabo` (alias.py:89-99, 177-189, 512-522, 591-601), and
of `amagold` and `sggmc` with `accepted_samples` (alias.py:296-309, 419-432): `polynomial_step_size_first_last`
with its default `gamma = 0.33` (scheduler.py:496), `initial_burn_in`, `random_thinning` with its default
key and the default temperature 1. -/
noncomputable def aliasThinned (gumbel : κ → Nat → ℝ) (thinKey : κ) (first last : ℝ) (burnIn accepted : Nat)
    (bar : Bool) :
    Scheduler FirstLastKw (List XF) XF (Option ℝ) ℝ ℝ (Option Int) Int (ThinKw κ) (List Nat) where
  stepSize := polynomialFirstLast first last 0.33
  temperature := constantTemperature 1
  burnIn := initialBurnIn burnIn
  thinning := randomThinning gumbel (polynomialFirstLast first last 0.33) (initialBurnIn burnIn) accepted
    thinKey
  progressBar := bar
  barSteps := 20

/-- The scheduler of `amagold` and `sggmc` without `accepted_samples` (alias.py:296-309, 419-432). -/
noncomputable def aliasAll (first last : ℝ) (burnIn : Nat) (bar : Bool) :
    Scheduler FirstLastKw (List XF) XF (Option ℝ) ℝ ℝ (Option Int) Int Unit Unit where
  stepSize := polynomialFirstLast first last 0.33
  temperature := constantTemperature 1
  burnIn := initialBurnIn burnIn
  thinning := noThinning
  progressBar := bar
  barSteps := 20

/-- `run_fn` of `sgld` (alias.py:110-119). -/
noncomputable def runSgld [Fintype ι] (saving : Saving H σ ρ (OutLeaf ι μ)) (P : Prng κ) (key0 : κ)
    (lay : Layout ι) (ad : Option (AdaptStrategy ι β A)) (getData : δ → δ × β) (sg : StochGradLik ι β μ)
    (adaptInit : (ι → ℝ) → Option A) (ms : μ) (gumbel : κ → Nat → ℝ) (first last : ℝ)
    (burnIn accepted : Nat) (bar : Bool) (iterations : Nat) (h : H) (chains : List ((ι → ℝ) × δ)) :
    Except PyErr (H × List ρ) :=
  mcmcMap saving (sgmcSolver (langevinUpdate P lay ad getData sg) langevinTree)
    (aliasThinned gumbel key0 first last burnIn accepted bar) [] iterations h
    (chains.map fun c => langevinInit c.2 c.1 key0 (adaptInit c.1) ms)

/-- `run_fn` of `re_sgld` (alias.py:200-207): the hot chain gets the schedule with the temperature
`temperature`; the other arguments of `init` have their defaults (solver.py:248-253).  Every chain is a pair of samples; each of the two Langevin chains has its own data state. -/
noncomputable def runReSgld [Fintype ι] (saving : Saving H σ ρ (OutLeaf ι μ)) (P : Prng κ) (key0 : κ)
    (lay : Layout ι) (getData : δ → δ × β) (sg : StochGradLik ι β μ) (ms : μ) (gumbel : κ → Nat → ℝ)
    (temperature first last : ℝ) (burnIn accepted : Nat) (iterations : Nat) (h : H)
    (chains : List (((ι → ℝ) × δ) × ((ι → ℝ) × δ))) : Except PyErr (H × List ρ) :=
  mcmcMap saving
    (ptSolver (ptUpdate P (fun n => 1 / n)
      (langevinUpdate P lay (none : Option (AdaptStrategy ι β Unit)) getData sg)) (ptGet langevinTree))
    (aliasThinned gumbel key0 first last burnIn accepted false)
    [⟨default, some temperature, default, default, none, none⟩] iterations h
    (chains.map fun c =>
      ptInit P (fun (x : (ι → ℝ) × δ) key => langevinInit x.2 x.1 key none ms) c.1 c.2 0 key0 1)

/-- `run_fn` of `sghmc` (alias.py:536-539). -/
noncomputable def runSghmc [Fintype ι] (saving : Saving H σ ρ (OutLeaf ι μ)) (P : Prng κ) (key0 : κ)
    (lay : Layout ι) (nm : Option (NoiseFn ι β μ)) (friction : ℝ ⊕ (ι → ℝ)) (mass : Option (ι → ℝ))
    (steps : ℕ) (getData : δ → δ × β) (sg : StochGrad ι β μ) (ms : μ) (gumbel : κ → Nat → ℝ)
    (first last : ℝ) (burnIn accepted : Nat) (bar : Bool) (iterations : Nat) (h : H)
    (chains : List ((ι → ℝ) × δ)) : Except PyErr (H × List ρ) :=
  mcmcMap saving
    (sgmcSolver (fun s p => fricIntegrate P lay nm friction mass steps getData sg s p none) leapfrogTree)
    (aliasThinned gumbel key0 first last burnIn accepted bar) [] iterations h
    (chains.map fun c => fricInit c.2 c.1 key0 ms)

/-- `run_fn` of `obabo` (alias.py:615-618). -/
noncomputable def runObabo [Fintype ι] (saving : Saving H σ ρ (OutLeaf ι μ)) (P : Prng κ) (key0 : κ)
    (lay : Layout ι) (friction : ℝ) (mass : Option (ι → ℝ)) (steps : ℕ) (getData : δ → δ × β)
    (sg : StochGrad ι β μ) (ms : μ) (gumbel : κ → Nat → ℝ) (first last : ℝ) (burnIn accepted : Nat)
    (bar : Bool) (iterations : Nat) (h : H) (chains : List ((ι → ℝ) × δ)) : Except PyErr (H × List ρ) :=
  mcmcMap saving
    (sgmcSolver (fun s p => obaboIntegrate P lay friction mass steps getData sg s p none) obaboTree)
    (aliasThinned gumbel key0 first last burnIn accepted bar) [] iterations h
    (chains.map fun c => obaboInit c.2 c.1 key0 ms)

/-- `run_fn` of `amagold` (alias.py:322-327) without adaptive step size: with thinning if
`accepted_samples` is given. -/
noncomputable def runAmagold [Fintype ι] (saving : Saving H σ ρ (OutLeaf ι μ)) (P : Prng κ) (key0 : κ)
    (lay : Layout ι) (friction : ℝ) (mass : Option (ι → ℝ)) (steps : ℕ) (getData : δ → δ × β)
    (sg : StochGrad ι β μ) (fullPot : FullPotFn ι φ μ) (ms : μ) (gumbel : κ → Nat → ℝ)
    (first last : ℝ) (burnIn : Nat) (accepted : Option Nat) (bar : Bool) (iterations : Nat) (h : H)
    (chains : List ((ι → ℝ) × δ × φ)) : Except PyErr (H × List ρ) :=
  let solver := mhSolver (amagoldUpdate P (none : Option (MassAdaption ι Unit))
    (revForAmagold P lay friction mass steps getData sg) fullPot) amagoldTree
  let states := chains.map fun c =>
    amagoldInit P none (revInitForAmagold P lay mass c.2.1) fullPot c.2.2 c.1 key0 ms
  match accepted with
  | some k => mcmcMap saving solver (aliasThinned gumbel key0 first last burnIn k bar) [] iterations h states
  | none => mcmcMap saving solver (aliasAll first last burnIn bar) [] iterations h states

/-- `run_fn` of `sggmc` (alias.py:445-448) without adaptive step size. -/
noncomputable def runSggmc [Fintype ι] (saving : Saving H σ ρ (OutLeaf ι μ)) (P : Prng κ) (key0 : κ)
    (lay : Layout ι) (friction : ℝ) (mass : Option (ι → ℝ)) (steps : ℕ) (getData : δ → δ × β)
    (sg : StochGrad ι β μ) (fullPot : FullPotFn ι φ μ) (ms : μ) (gumbel : κ → Nat → ℝ)
    (first last : ℝ) (burnIn : Nat) (accepted : Option Nat) (bar : Bool) (iterations : Nat) (h : H)
    (chains : List ((ι → ℝ) × δ × φ)) : Except PyErr (H × List ρ) :=
  let solver := mhSolver (sggmcUpdate P (none : Option (MassAdaption ι Unit))
    (obaboForSggmc P lay friction mass steps getData sg) fullPot) sggmcTree
  let states := chains.map fun c =>
    sggmcInit P none (obaboInitForSggmc c.2.1) fullPot c.2.2 c.1 key0 ms
  match accepted with
  | some k => mcmcMap saving solver (aliasThinned gumbel key0 first last burnIn k bar) [] iterations h states
  | none => mcmcMap saving solver (aliasAll first last burnIn bar) [] iterations h states

/-- As `mhSolver`, with the real valued step sizes of `adaptive_step_size` (solver.py:422-424, 565-567,
scheduler.py:440-442). -/
noncomputable def mhSolverReal (update : S → Params → S × XF) (get : S → Tree α) : Solver S ℝ ℝ α where
  update s schedules :=
    match schedules with
    | [] => (s, none)
    | main :: _ =>
      let r := update s ⟨main.stepSize, main.temperature⟩
      (r.1, some r.2.toReal)
  get := get

/-- The scheduler of `amagold` and `sggmc` with `adaptive_step_size` (alias.py:285-295, 305-309, 408-418,
428-432). -/
noncomputable def aliasAdaptive (first stab decay speed target : ℝ) (burnIn : Nat) (bar : Bool) :
    Scheduler AdaptiveKw AdaptiveState ℝ (Option ℝ) ℝ ℝ (Option Int) Int Unit Unit where
  stepSize := adaptiveStepSize ⟨burnIn, first, stab, decay, speed, target⟩
  temperature := constantTemperature 1
  burnIn := initialBurnIn burnIn
  thinning := noThinning
  progressBar := bar
  barSteps := 20

/-- `amagold` with `adaptive_step_size=True` (alias.py:285-295, 322-327): thinning is rejected. -/
noncomputable def runAmagoldAdaptive [Fintype ι] (saving : Saving H σ ρ (OutLeaf ι μ)) (P : Prng κ)
    (key0 : κ) (lay : Layout ι) (friction : ℝ) (mass : Option (ι → ℝ)) (steps : ℕ) (getData : δ → δ × β)
    (sg : StochGrad ι β μ) (fullPot : FullPotFn ι φ μ) (ms : μ) (first stab decay speed target : ℝ)
    (burnIn : Nat) (accepted : Option Nat) (bar : Bool) (iterations : Nat) (h : H)
    (chains : List ((ι → ℝ) × δ × φ)) : Except PyErr (H × List ρ) :=
  if accepted.isSome then .error .assertionError else
  mcmcMap saving (mhSolverReal (amagoldUpdate P (none : Option (MassAdaption ι Unit))
      (revForAmagold P lay friction mass steps getData sg) fullPot) amagoldTree)
    (aliasAdaptive first stab decay speed target burnIn bar) [] iterations h
    (chains.map fun c =>
      amagoldInit P none (revInitForAmagold P lay mass c.2.1) fullPot c.2.2 c.1 key0 ms)

/-- `sggmc` with `adaptive_step_size=True` (alias.py:408-418, 445-448): thinning is rejected. -/
noncomputable def runSggmcAdaptive [Fintype ι] (saving : Saving H σ ρ (OutLeaf ι μ)) (P : Prng κ)
    (key0 : κ) (lay : Layout ι) (friction : ℝ) (mass : Option (ι → ℝ)) (steps : ℕ) (getData : δ → δ × β)
    (sg : StochGrad ι β μ) (fullPot : FullPotFn ι φ μ) (ms : μ) (first stab decay speed target : ℝ)
    (burnIn : Nat) (accepted : Option Nat) (bar : Bool) (iterations : Nat) (h : H)
    (chains : List ((ι → ℝ) × δ × φ)) : Except PyErr (H × List ρ) :=
  if accepted.isSome then .error .assertionError else
  mcmcMap saving (mhSolverReal (sggmcUpdate P (none : Option (MassAdaption ι Unit))
      (obaboForSggmc P lay friction mass steps getData sg) fullPot) sggmcTree)
    (aliasAdaptive first stab decay speed target burnIn bar) [] iterations h
    (chains.map fun c =>
      sggmcInit P none (obaboInitForSggmc c.2.1) fullPot c.2.2 c.1 key0 ms)

end JaxSgmc
