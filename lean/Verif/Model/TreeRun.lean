import Verif.Model.TreeSolver
import Verif.Model.AliasRun

/-!
# Complete runs on pytrees

`mcmc` (`jax_sgmc/solver.py:65-185`, `strategy="map"`) with solvers which work on trees of arrays and can raise
exceptions, and the ready to use solvers of `jax_sgmc/alias.py` with such samples.  The sample is a subtree of the
saved dictionary.  Property C113 relates them to the runs on vectors (C92, C95).
-/

namespace JaxSgmc

variable {κ δ β μ φ A S H σ ρ α : Type}

/-- The functions `update` and `get` of a solver; `update` can raise an exception (solver.py:65-93, 109-120). -/
structure SolverT (S Vs Vt α : Type) where
  update : S → List (Schedule Vs Vt) → Except PyErr (S × Stats)
  get : S → Tree α

section
variable {Ks σs Vs Kt σt Vt Kb σb Kh σh : Type}

/-- `_uninitialized_update` (solver.py:94-122) without the saving: new state, `keep` and sample. -/
def mcmcStepT (solver : SolverT S Vs Vt α) (sched : Scheduler Ks σs Vs Kt σt Vt Kb σb Kh σh)
    (x : S × List (SchedState σs σt σb σh)) :
    Except PyErr ((S × List (SchedState σs σt σb σh)) × Bool × Tree α) := do
  let schedules := x.2.map (schedGet sched)
  let r ← solver.update x.1 schedules
  return ((r.1, x.2.map (fun s => (schedUpdate sched s r.2).1)),
    (schedules.head?.map Schedule.keep).getD false, solver.get r.1)

/-- `_init` (solver.py:130-150). -/
def mcmcInitT [Inhabited Ks] [Inhabited Kt] [Inhabited Kb] [Inhabited Kh]
    (saving : Saving H σ ρ α) (solver : SolverT S Vs Vt α)
    (sched : Scheduler Ks σs Vs Kt σt Vt Kb σb Kh σh) (helpers : List (SchedKw Ks Kt Kb Kh))
    (iterations : Nat) (h : H) (s : S) :
    Except PyErr (H × (S × List (SchedState σs σt σb σh)) × σ) := do
  let scheds ← mcmcSchedulers sched iterations helpers
  let r ← saving.init h (solver.get s) scheds.2
  return (r.1, (s, scheds.1), r.2)

/-- `lax.scan` of the update (solver.py:153-160) for a single chain. -/
def mcmcScanT (saving : Saving H σ ρ α) (solver : SolverT S Vs Vt α)
    (sched : Scheduler Ks σs Vs Kt σt Vt Kb σb Kh σh) :
    Nat → H → (S × List (SchedState σs σt σb σh)) → σ → Except PyErr (H × σ)
  | 0, h, _, sv => .ok (h, sv)
  | n + 1, h, x, sv => do
    let r ← mcmcStepT solver sched x
    let saved ← saving.save h sv r.2.1 r.2.2
    mcmcScanT saving solver sched n saved.1 r.1 saved.2

/-- `run` with `strategy="map"` (solver.py:165-171): one chain after the other. -/
def mcmcMapT [Inhabited Ks] [Inhabited Kt] [Inhabited Kb] [Inhabited Kh]
    (saving : Saving H σ ρ α) (solver : SolverT S Vs Vt α)
    (sched : Scheduler Ks σs Vs Kt σt Vt Kb σb Kh σh) (helpers : List (SchedKw Ks Kt Kb Kh))
    (iterations : Nat) : H → List S → Except PyErr (H × List ρ)
  | h, [] => .ok (h, [])
  | h, s :: states => do
    let init ← mcmcInitT saving solver sched helpers iterations h s
    let fin ← mcmcScanT saving solver sched iterations init.1 init.2.1 init.2.2
    let res ← saving.post fin.1 fin.2
    let rest ← mcmcMapT saving solver sched helpers iterations res.1 states
    return (rest.1, res.2 :: rest.2)

end

/-! ## The solvers -/

/-- The leaves of the dictionaries returned by the solvers (integrator.py:340-344, 555-558, 759-763, 851-855,
solver.py:426-430, 569-575); the model state is one leaf. -/
inductive OutLeafT (μ : Type)
  | scalar (x : XF)
  | array (a : Arr ℝ)
  | model (m : μ)

/-- `get_fn` of `langevin_diffusion` (integrator.py:851-855). -/
def langevinGetT (s : LangevinStateT κ δ μ A) : Tree (OutLeafT μ) :=
  .node (.dict ["likelihood".toList, "model_state".toList, "variables".toList])
    [.leaf (.scalar (.fin (-s.potential))), .leaf (.model s.modelState), s.latent.map .array]

/-- `get_fn` of `friction_leapfrog` (integrator.py:759-763). -/
def leapfrogGetT (s : LeapfrogStateT κ δ μ) : Tree (OutLeafT μ) :=
  .node (.dict ["energy".toList, "model_state".toList, "variables".toList])
    [.leaf (.scalar (.fin s.potential)), .leaf (.model s.modelState), s.positions.map .array]

/-- `get_fn` of `obabo` (integrator.py:340-344). -/
def obaboGetT (s : ObaboStateT κ δ μ) : Tree (OutLeafT μ) :=
  .node (.dict ["energy".toList, "model_state".toList, "variables".toList])
    [.leaf (.scalar (.fin s.potential)), .leaf (.model s.modelState), s.positions.map .array]

/-- `get` of `amagold` (solver.py:426-430): the dictionary of `reversible_leapfrog` (integrator.py:555-558) with
acceptance ratio and step size. -/
def amagoldGetT (s : AmagoldStateT κ δ μ φ S) : Tree (OutLeafT μ) :=
  .node (.dict ["acceptance_ratio".toList, "energy".toList, "model_state".toList, "step_size".toList,
      "variables".toList])
    [.leaf (.scalar s.acceptanceRatio.1), .leaf (.scalar (.fin s.integratorState.potential)),
      .leaf (.model s.integratorState.modelState), .leaf (.scalar (.fin s.acceptanceRatio.2)),
      s.integratorState.positions.map .array]

/-- `get` of `sggmc` (solver.py:569-575). -/
def sggmcGetT (s : SggmcStateT κ δ μ φ S) : Tree (OutLeafT μ) :=
  .node (.dict ["acceptance_ratio".toList, "energy".toList, "kinetic_energy".toList,
      "model_state".toList, "potential".toList, "step_size".toList, "variables".toList])
    [.leaf (.scalar s.acceptanceRatio.1), .leaf (.scalar (.fin s.integratorState.potential)),
      .leaf (.scalar s.acceptanceRatio.2.2), .leaf (.model s.integratorState.modelState),
      .leaf (.scalar s.potential), .leaf (.scalar (.fin s.acceptanceRatio.2.1)),
      s.integratorState.positions.map .array]

/-- `sgmc` (solver.py:188-217).  (`mcmc` passes one schedule per scheduler; without any the call would fail.) -/
noncomputable def sgmcSolverT (update : S → Params → Except PyErr S) (get : S → Tree α) : SolverT S XF ℝ α where
  update s schedules :=
    match schedules with
    | [] => .ok (s, none)
    | main :: _ => (update s (toParams main)).map fun t => (t, none)
  get := get

/-- `parallel_tempering` (solver.py:219-299) as solver with the normal and the hot schedule. -/
noncomputable def ptSolverT (update : S → Params → Params → Except PyErr S) (get : S → Tree α) :
    SolverT S XF ℝ α where
  update s schedules :=
    match schedules with
    | normal :: hot :: _ => (update s (toParams normal) (toParams hot)).map fun t => (t, none)
    | _ => .ok (s, none)
  get := get

/-- `amagold` and `sggmc` (solver.py:422-424, 565-567) as solvers which return the acceptance ratio. -/
noncomputable def mhSolverT (update : S → Params → Except PyErr (S × XF)) (get : S → Tree α) :
    SolverT S XF ℝ α where
  update s schedules :=
    match schedules with
    | [] => .ok (s, none)
    | main :: _ => (update s (toParams main)).map fun r => (r.1, some r.2.toReal)
  get := get

/-- As `mhSolverT`, with the real valued step sizes of `adaptive_step_size` (solver.py:422-424, 565-567,
scheduler.py:440-442). -/
noncomputable def mhSolverRealT (update : S → Params → Except PyErr (S × XF)) (get : S → Tree α) :
    SolverT S ℝ ℝ α where
  update s schedules :=
    match schedules with
    | [] => .ok (s, none)
    | main :: _ => (update s ⟨main.stepSize, main.temperature⟩).map fun r => (r.1, some r.2.toReal)
  get := get

/-! ## The functions of `alias.py` -/

/-- `sgld` (alias.py:80-119): with `rms_prop` the strategy `ad` is RMSprop (alias.py:82-85, 111-118). -/
noncomputable def runSgldT (saving : Saving H σ ρ (OutLeafT μ)) (P : Prng κ) (key0 : κ)
    (ad : Option (FlatStrategy A)) (flatBatch : β → List ℝ) (getData : δ → δ × β) (sg : StochGradLikT β μ) (ms : μ)
    (gumbel : κ → Nat → ℝ) (first last : ℝ) (burnIn accepted : Nat) (bar : Bool) (iterations : Nat) (h : H)
    (chains : List (Tree (Arr ℝ) × δ)) : Except PyErr (H × List ρ) :=
  mcmcMapT saving (sgmcSolverT (langevinUpdateT P ad flatBatch getData sg) langevinGetT)
    (aliasThinned gumbel key0 first last burnIn accepted bar) [] iterations h
    (chains.map fun c => langevinInitT ad c.2 c.1 key0 ms)

/-- `re_sgld` (alias.py:171-208); the defaults of `parallel_tempering` are the schedule `1 / n` (solver.py:221-222),
`ssq_init = 0` and `F = 1` (solver.py:248-253). -/
noncomputable def runReSgldT (saving : Saving H σ ρ (OutLeafT μ)) (P : Prng κ) (key0 : κ)
    (flatBatch : β → List ℝ) (getData : δ → δ × β) (sg : StochGradLikT β μ) (ms : μ) (gumbel : κ → Nat → ℝ)
    (temperature first last : ℝ) (burnIn accepted : Nat) (iterations : Nat) (h : H)
    (chains : List ((Tree (Arr ℝ) × δ) × (Tree (Arr ℝ) × δ))) : Except PyErr (H × List ρ) :=
  mcmcMapT saving
    (ptSolverT (ptUpdateT P (fun n => 1 / n)
      (langevinUpdateT P (none : Option (FlatStrategy Unit)) flatBatch getData sg)) (fun s => langevinGetT s.normal))
    (aliasThinned gumbel key0 first last burnIn accepted false)
    [⟨default, some temperature, default, default, none, none⟩] iterations h
    (chains.map fun c => ptInitT P (fun d x k => langevinInitT none d x k ms) c.1 c.2 0 key0 1)

/-- `sghmc` (alias.py:504-540): the constant mass is prepared when the integrator is constructed. -/
noncomputable def runSghmcT (saving : Saving H σ ρ (OutLeafT μ)) (P : Prng κ) (key0 : κ)
    (nm : Option (NoiseFnT β μ)) (friction : ℝ ⊕ Tree (Arr ℝ)) (mass : Tree (Arr ℝ)) (steps : ℕ)
    (getData : δ → δ × β) (sg : StochGradT β μ) (ms : μ) (gumbel : κ → Nat → ℝ) (first last : ℝ)
    (burnIn accepted : Nat) (bar : Bool) (iterations : Nat) (h : H) (chains : List (Tree (Arr ℝ) × δ)) :
    Except PyErr (H × List ρ) := do
  let constMass ← prepareMass mass
  mcmcMapT saving
    (sgmcSolverT (fun s p => fricIntegrateT P nm friction constMass steps getData sg s p none) leapfrogGetT)
    (aliasThinned gumbel key0 first last burnIn accepted bar) [] iterations h
    (chains.map fun c => fricInitT c.2 c.1 key0 ms)

/-- `obabo` (alias.py:588-619). -/
noncomputable def runObaboT (saving : Saving H σ ρ (OutLeafT μ)) (P : Prng κ) (key0 : κ) (friction : ℝ)
    (mass : Tree (Arr ℝ)) (steps : ℕ) (getData : δ → δ × β) (sg : StochGradT β μ) (ms : μ) (gumbel : κ → Nat → ℝ)
    (first last : ℝ) (burnIn accepted : Nat) (bar : Bool) (iterations : Nat) (h : H)
    (chains : List (Tree (Arr ℝ) × δ)) : Except PyErr (H × List ρ) := do
  let constMass ← prepareMass mass
  mcmcMapT saving
    (sgmcSolverT (fun s p => obaboIntegrateT P friction constMass steps getData sg s p none) obaboGetT)
    (aliasThinned gumbel key0 first last burnIn accepted bar) [] iterations h
    (chains.map fun c => obaboInitT c.2 c.1 key0 ms)

/-- The run with the schedule of `amagold` and `sggmc` (alias.py:296-309, 419-432). -/
noncomputable def runMhT (saving : Saving H σ ρ α) (key0 : κ) (update : S → Params → Except PyErr (S × XF))
    (get : S → Tree α) (gumbel : κ → Nat → ℝ) (first last : ℝ) (burnIn : Nat) (accepted : Option Nat) (bar : Bool)
    (iterations : Nat) (h : H) (states : List S) : Except PyErr (H × List ρ) :=
  match accepted with
  | some k => mcmcMapT saving (mhSolverT update get) (aliasThinned gumbel key0 first last burnIn k bar) []
      iterations h states
  | none => mcmcMapT saving (mhSolverT update get) (aliasAll first last burnIn bar) [] iterations h states

/-- `amagold` (alias.py:279-328) without adaptive step size; no mass adaption. -/
noncomputable def runAmagoldT (saving : Saving H σ ρ (OutLeafT μ)) (P : Prng κ) (key0 : κ) (friction : ℝ)
    (mass : Tree (Arr ℝ)) (steps : ℕ) (getData : δ → δ × β) (sg : StochGradT β μ) (fullPot : FullPotFnT φ μ) (ms : μ)
    (gumbel : κ → Nat → ℝ) (first last : ℝ) (burnIn : Nat) (accepted : Option Nat) (bar : Bool) (iterations : Nat)
    (h : H) (chains : List (Tree (Arr ℝ) × δ × φ)) : Except PyErr (H × List ρ) := do
  let constMass ← prepareMass mass
  let states ← mapExcept (fun c => amagoldInitT P (none : Option (FlatMass Unit)) (revInitT P constMass c.2.1)
    fullPot c.2.2 c.1 .none key0 ms) chains
  runMhT saving key0 (amagoldUpdateT P none (revIntegrateT P friction constMass steps getData sg) fullPot)
    amagoldGetT gumbel first last burnIn accepted bar iterations h states

/-- `sggmc` (alias.py:401-449) without adaptive step size; no mass adaption. -/
noncomputable def runSggmcT (saving : Saving H σ ρ (OutLeafT μ)) (P : Prng κ) (key0 : κ) (friction : ℝ)
    (mass : Tree (Arr ℝ)) (steps : ℕ) (getData : δ → δ × β) (sg : StochGradT β μ) (fullPot : FullPotFnT φ μ) (ms : μ)
    (gumbel : κ → Nat → ℝ) (first last : ℝ) (burnIn : Nat) (accepted : Option Nat) (bar : Bool) (iterations : Nat)
    (h : H) (chains : List (Tree (Arr ℝ) × δ × φ)) : Except PyErr (H × List ρ) := do
  let constMass ← prepareMass mass
  let states ← mapExcept (fun c => sggmcInitT P (none : Option (FlatMass Unit)) (obaboInitT c.2.1)
    fullPot c.2.2 c.1 .none key0 ms) chains
  runMhT saving key0 (sggmcUpdateT P none (obaboIntegrateT P friction constMass steps getData sg) fullPot)
    sggmcGetT gumbel first last burnIn accepted bar iterations h states

/-- The run with adaptive step size (alias.py:285-295, 408-418): thinning is rejected. -/
noncomputable def runMhAdaptiveT (saving : Saving H σ ρ α) (update : S → Params → Except PyErr (S × XF))
    (get : S → Tree α) (first stab decay speed target : ℝ) (burnIn : Nat) (bar : Bool)
    (iterations : Nat) (h : H) (states : List S) : Except PyErr (H × List ρ) :=
  mcmcMapT saving (mhSolverRealT update get) (aliasAdaptive first stab decay speed target burnIn bar) []
    iterations h states

/-- `assert accepted_samples is None` (alias.py:294-295, 417-418). -/
def assertNoThinning (accepted : Option Nat) : Except PyErr Unit :=
  if accepted.isSome then .error .assertionError else .ok ()

/-- `amagold` with `adaptive_step_size=True` (alias.py:279-328). -/
noncomputable def runAmagoldAdaptiveT (saving : Saving H σ ρ (OutLeafT μ)) (P : Prng κ) (key0 : κ) (friction : ℝ)
    (mass : Tree (Arr ℝ)) (steps : ℕ) (getData : δ → δ × β) (sg : StochGradT β μ) (fullPot : FullPotFnT φ μ) (ms : μ)
    (first stab decay speed target : ℝ) (burnIn : Nat) (accepted : Option Nat) (bar : Bool) (iterations : Nat)
    (h : H) (chains : List (Tree (Arr ℝ) × δ × φ)) : Except PyErr (H × List ρ) := do
  let constMass ← prepareMass mass
  assertNoThinning accepted
  let states ← mapExcept (fun c => amagoldInitT P (none : Option (FlatMass Unit)) (revInitT P constMass c.2.1)
    fullPot c.2.2 c.1 .none key0 ms) chains
  runMhAdaptiveT saving (amagoldUpdateT P none (revIntegrateT P friction constMass steps getData sg) fullPot)
    amagoldGetT first stab decay speed target burnIn bar iterations h states

/-- `sggmc` with `adaptive_step_size=True` (alias.py:401-449). -/
noncomputable def runSggmcAdaptiveT (saving : Saving H σ ρ (OutLeafT μ)) (P : Prng κ) (key0 : κ) (friction : ℝ)
    (mass : Tree (Arr ℝ)) (steps : ℕ) (getData : δ → δ × β) (sg : StochGradT β μ) (fullPot : FullPotFnT φ μ) (ms : μ)
    (first stab decay speed target : ℝ) (burnIn : Nat) (accepted : Option Nat) (bar : Bool) (iterations : Nat)
    (h : H) (chains : List (Tree (Arr ℝ) × δ × φ)) : Except PyErr (H × List ρ) := do
  let constMass ← prepareMass mass
  assertNoThinning accepted
  let states ← mapExcept (fun c => sggmcInitT P (none : Option (FlatMass Unit)) (obaboInitT c.2.1)
    fullPot c.2.2 c.1 .none key0 ms) chains
  runMhAdaptiveT saving (sggmcUpdateT P none (obaboIntegrateT P friction constMass steps getData sg) fullPot)
    sggmcGetT first stab decay speed target burnIn bar iterations h states

end JaxSgmc
