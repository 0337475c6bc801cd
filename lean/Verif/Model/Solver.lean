import Verif.Model.Integrator
import Verif.Model.XFloat

/-!
# Solvers

Models the solvers of `jax_sgmc/solver.py`.  Energies are extended floating point numbers (`XF`), such
that infinite potentials and NaN are covered.
-/

namespace JaxSgmc

namespace XF

/-- `a - b`.
(float arithmetic of solver.py:278-290, 374-391, 514-532) -/
noncomputable def sub (a b : XF) : XF := add a (neg b)

/-- `a < b`; false if one of the numbers is NaN.
(float comparison of solver.py:287-288, 391, 532) -/
def Lt : XF → XF → Prop
  | fin a, fin b => a < b
  | fin _, pinf => True
  | ninf, fin _ => True
  | ninf, pinf => True
  | _, _ => False

/-- `a <= b`; false if one of the numbers is NaN.
(float comparison of solver.py:385-386, 523-526) -/
def Le : XF → XF → Prop
  | fin a, fin b => a ≤ b
  | fin _, pinf => True
  | ninf, fin _ => True
  | ninf, pinf => True
  | pinf, pinf => True
  | ninf, ninf => True
  | _, _ => False

/-- `jnp.exp`.
(solver.py:419, 563) -/
noncomputable def exp : XF → XF
  | fin a => fin (Real.exp a)
  | pinf => pinf
  | ninf => fin 0
  | nan => nan

open Classical in
/-- `jnp.log` of a finite number.
(solver.py:284, 391, 532) -/
noncomputable def logOf (u : ℝ) : XF :=
  if 0 < u then fin (Real.log u) else if u = 0 then ninf else nan

end XF

variable {ι κ δ μ φ Ms : Type}

/-! ## parallel_tempering -/

/-- The state of `parallel_tempering` (solver.py:259): normal chain, hot chain, variance estimate, `F`,
step and key; `drawn` records the keys with which the solver itself draws random numbers. -/
structure PtState (ι κ δ μ A : Type) where
  normal : LangevinState ι κ δ μ A
  hot : LangevinState ι κ δ μ A
  ssq : ℝ
  F : ℝ
  step : ℕ
  key : κ
  drawn : List κ

section
variable {A : Type}

/-- `init` of `parallel_tempering` (solver.py:248-259).  `X` are the initial samples (in a complete run they
come with the data state which `init_data()` returns for the chain, integrator.py:834). -/
def ptInit {X : Type} (P : Prng κ) (initIntegrator : X → κ → LangevinState ι κ δ μ A)
    (normalSample temperedSample : X) (ssqInit : ℝ) (key : κ) (F : ℝ) : PtState ι κ δ μ A :=
  { normal := initIntegrator normalSample (P.split key 3 1)
    hot := initIntegrator temperedSample (P.split key 3 2)
    ssq := ssqInit
    F := F
    step := 0
    key := P.split key 3 0
    drawn := [] }

/-- `log_s` (solver.py:275-283) after the variance estimate has been updated. -/
noncomputable def ptLogS (normal hot : LangevinState ι κ δ μ A) (ssq F : ℝ)
    (normalSched hotSched : Params) : ℝ :=
  let temps := 1 / normalSched.temperature - 1 / hotSched.temperature
  let correction := temps * ssq / F
  temps * (normal.potential - hot.potential - correction)

open Classical in
/-- `update` of `parallel_tempering` (solver.py:264-293).  `saSchedule` is `1 / n` by default. -/
noncomputable def ptUpdate (P : Prng κ) (saSchedule : ℕ → ℝ)
    (updateIntegrator : LangevinState ι κ δ μ A → Params → LangevinState ι κ δ μ A)
    (s : PtState ι κ δ μ A) (normalSched hotSched : Params) : PtState ι κ δ μ A :=
  let step := s.step + 1
  let normal := updateIntegrator s.normal normalSched
  let hot := updateIntegrator s.hot hotSched
  let stepSize := saSchedule step
  let ssq := (1 - stepSize) * s.ssq + stepSize * normal.variance
  let logS := ptLogS normal hot ssq s.F normalSched hotSched
  let key := P.split s.key 2 0
  let split := P.split s.key 2 1
  let logU := XF.logOf (P.uniform split)
  let chains := if XF.Lt logU (.fin logS) then (normal, hot) else (hot, normal)
  { normal := chains.1
    hot := chains.2
    ssq := ssq
    F := s.F
    step := step
    key := key
    drawn := s.drawn ++ [split] }

/-- `get` of `parallel_tempering` (solver.py:296-297). -/
def ptGet {α : Type} (getIntegrator : LangevinState ι κ δ μ A → α) (s : PtState ι κ δ μ A) : α :=
  getIntegrator s.normal

end

/-! ## amagold -/

/-- A mass adaption (`mass_matrix`, adaption.py:297-369) as seen by the solvers. -/
structure MassAdaption (ι Ms : Type) where
  init : (ι → ℝ) → Ms
  update : Ms → (ι → ℝ) → Ms
  get : Ms → MassMatrix ι

/-- A full potential (potential.py:219-293): value, new state of the data mapper, new model state. -/
abbrev FullPotFn (ι φ μ : Type) := (ι → ℝ) → φ → μ → XF × (φ × μ)

/-- `AMAGOLDState` (solver.py:27-44). -/
structure AmagoldState (ι κ δ μ φ Ms : Type) where
  integratorState : LeapfrogState ι XF κ δ μ
  potential : XF
  fullDataState : φ
  key : κ
  acceptanceRatio : XF × ℝ
  massState : Option Ms
  drawn : List κ

/-- `init` of `amagold` (solver.py:301-362). -/
def amagoldInit (P : Prng κ) (massAdaption : Option (MassAdaption ι Ms))
    (initIntegrator : (ι → ℝ) → κ → μ → Option (MassMatrix ι) → LeapfrogState ι XF κ δ μ)
    (fullPotential : FullPotFn ι φ μ) (initFullData : φ) (sample : ι → ℝ) (key : κ) (modelState : μ) :
    AmagoldState ι κ δ μ φ Ms :=
  let massState := massAdaption.map (fun m => m.init sample)
  let mass := massAdaption.map (fun m => m.get (m.init sample))
  let pot := fullPotential sample initFullData modelState
  { integratorState := initIntegrator sample (P.split key 2 0) pot.2.2 mass
    potential := pot.1
    fullDataState := pot.2.1
    key := P.split key 2 1
    acceptanceRatio := (.fin 0, 0)
    massState := massState
    drawn := [] }

/-- The mass passed to the integrator (solver.py:366-369, 503-506). -/
def currentMass (massAdaption : Option (MassAdaption ι Ms)) (massState : Option Ms) :
    Option (MassMatrix ι) :=
  match massAdaption, massState with
  | some m, some st => some (m.get st)
  | _, _ => none

/-- Update of the mass state (solver.py:408-412, 551-555). -/
def nextMassState (massAdaption : Option (MassAdaption ι Ms)) (massState : Option Ms)
    (positions : ι → ℝ) : Option Ms :=
  match massAdaption, massState with
  | some m, some st => some (m.update st positions)
  | _, _ => none

open Classical in
/-- `log_alpha` of `amagold` (solver.py:385-386), limited to 0. -/
noncomputable def amagoldLogAlpha (oldPotential newPotential proposalPotential : XF) : XF :=
  let logAlpha := XF.add (XF.sub oldPotential newPotential) proposalPotential
  if XF.Lt (.fin 0) logAlpha then .fin 0 else logAlpha

open Classical in
/-- `update` of `amagold` (solver.py:365-424), returning the state and the statistics. -/
noncomputable def amagoldUpdate (P : Prng κ) (massAdaption : Option (MassAdaption ι Ms))
    (updateIntegrator : LeapfrogState ι XF κ δ μ → Params → Option (MassMatrix ι) →
      LeapfrogState ι XF κ δ μ)
    (fullPotential : FullPotFn ι φ μ) (s : AmagoldState ι κ δ μ φ Ms) (schedule : Params) :
    AmagoldState ι κ δ μ φ Ms × XF :=
  let mass := currentMass massAdaption s.massState
  let key := P.split s.key 2 0
  let split := P.split s.key 2 1
  let proposal := updateIntegrator s.integratorState schedule mass
  let pot := fullPotential proposal.positions s.fullDataState proposal.modelState
  let logAlpha := amagoldLogAlpha s.potential pot.1 proposal.potential
  let slice := P.uniform split
  let mh := if XF.Lt (XF.logOf slice) logAlpha
    then (proposal, pot.1, (1.0 : ℝ), pot.2.2)
    else (s.integratorState, s.potential, -1.0, s.integratorState.modelState)
  let newIntegratorState : LeapfrogState ι XF κ δ μ :=
    { positions := mh.1.positions
      momentum := vscale mh.2.2.1 mh.1.momentum
      modelState := mh.2.2.2
      potential := mh.1.potential
      dataState := proposal.dataState
      key := proposal.key
      drawn := proposal.drawn }
  ({ key := key
     integratorState := newIntegratorState
     potential := mh.2.1
     fullDataState := pot.2.1
     acceptanceRatio := (XF.exp logAlpha, schedule.stepSize)
     massState := nextMassState massAdaption s.massState mh.1.positions
     drawn := s.drawn ++ [split] },
   XF.exp logAlpha)

/-- A run of AMAGOLD: the states after the updates with the given schedules (solver.py:153-160). -/
noncomputable def amagoldRun (P : Prng κ) (massAdaption : Option (MassAdaption ι Ms))
    (updateIntegrator : LeapfrogState ι XF κ δ μ → Params → Option (MassMatrix ι) →
      LeapfrogState ι XF κ δ μ)
    (fullPotential : FullPotFn ι φ μ) (s : AmagoldState ι κ δ μ φ Ms) (schedules : List Params) :
    AmagoldState ι κ δ μ φ Ms :=
  schedules.foldl (fun s p => (amagoldUpdate P massAdaption updateIntegrator fullPotential s p).1) s

/-- The reversible leapfrog integrator as integrator of AMAGOLD: its finite energy is an extended
number.  `integrate` overwrites the potential of the state it gets (integrator.py:527-533). -/
noncomputable def revForAmagold [Fintype ι] {β : Type} (P : Prng κ) (lay : Layout ι) (friction : ℝ)
    (constMass : Option (ι → ℝ)) (steps : ℕ) (getData : δ → δ × β) (sg : StochGrad ι β μ)
    (s : LeapfrogState ι XF κ δ μ) (prm : Params) (mass : Option (MassMatrix ι)) :
    LeapfrogState ι XF κ δ μ :=
  let r := revIntegrate P lay friction constMass steps getData sg
    ⟨0, s.key, s.positions, s.momentum, s.dataState, s.modelState, s.drawn⟩ prm mass
  ⟨.fin r.potential, r.key, r.positions, r.momentum, r.dataState, r.modelState, r.drawn⟩

/-- `init_fn` of the reversible leapfrog integrator as used by AMAGOLD.
(integrator.py:460-508, called at solver.py:351-353) -/
noncomputable def revInitForAmagold [Fintype ι] (P : Prng κ) (lay : Layout ι)
    (constMass : Option (ι → ℝ)) (initData : δ) (sample : ι → ℝ) (key : κ) (modelState : μ)
    (mass : Option (MassMatrix ι)) : LeapfrogState ι XF κ δ μ :=
  let r := revInit P lay constMass initData sample key modelState mass
  ⟨.fin r.potential, r.key, r.positions, r.momentum, r.dataState, r.modelState, r.drawn⟩

/-! ## sggmc -/

/-- `SGGMCState` (solver.py:46-63). -/
structure SggmcState (ι κ δ μ φ Ms : Type) where
  integratorState : ObaboState ι XF κ δ μ
  potential : XF
  fullDataState : φ
  key : κ
  acceptanceRatio : XF × ℝ × XF
  massState : Option Ms
  drawn : List κ

/-- `init` of `sggmc` (solver.py:434-498). -/
def sggmcInit (P : Prng κ) (massAdaption : Option (MassAdaption ι Ms))
    (initIntegrator : (ι → ℝ) → κ → μ → ObaboState ι XF κ δ μ)
    (fullPotential : FullPotFn ι φ μ) (initFullData : φ) (sample : ι → ℝ) (key : κ) (modelState : μ) :
    SggmcState ι κ δ μ φ Ms :=
  let pot := fullPotential sample initFullData modelState
  { integratorState := initIntegrator sample (P.split key 2 0) pot.2.2
    potential := pot.1
    fullDataState := pot.2.1
    key := P.split key 2 1
    acceptanceRatio := (.fin 0, 0, .fin 0)
    massState := massAdaption.map (fun m => m.init sample)
    drawn := [] }

open Classical in
/-- `log_alpha` of `sggmc` (solver.py:521-526), limited to 0. -/
noncomputable def sggmcLogAlpha (temperature : ℝ) (oldPotential newPotential kineticStart kineticEnd : XF) :
    XF :=
  let logAlpha := XF.mul (XF.div (.fin (-1)) (.fin temperature))
    (XF.sub (XF.add (XF.sub newPotential oldPotential) kineticEnd) kineticStart)
  if XF.Le logAlpha (.fin 0) then logAlpha else .fin 0

open Classical in
/-- `update` of `sggmc` (solver.py:501-567), returning the state and the statistics. -/
noncomputable def sggmcUpdate (P : Prng κ) (massAdaption : Option (MassAdaption ι Ms))
    (updateIntegrator : ObaboState ι XF κ δ μ → Params → Option (MassMatrix ι) →
      ObaboState ι XF κ δ μ)
    (fullPotential : FullPotFn ι φ μ) (s : SggmcState ι κ δ μ φ Ms) (schedule : Params) :
    SggmcState ι κ δ μ φ Ms × XF :=
  let mass := currentMass massAdaption s.massState
  let key := P.split s.key 2 0
  let split := P.split s.key 2 1
  let proposal := updateIntegrator s.integratorState schedule mass
  let pot := fullPotential proposal.positions s.fullDataState proposal.modelState
  let logAlpha := sggmcLogAlpha schedule.temperature s.potential pot.1
    proposal.kineticStart proposal.kineticEnd
  let slice := P.uniform split
  let mh := if XF.Lt (XF.logOf slice) logAlpha
    then (proposal, pot.1, pot.2.2)
    else (s.integratorState, s.potential, s.integratorState.modelState)
  let newIntegratorState : ObaboState ι XF κ δ μ :=
    { positions := mh.1.positions
      momentum := mh.1.momentum
      modelState := mh.2.2
      potential := mh.1.potential
      dataState := proposal.dataState
      key := proposal.key
      kineticStart := .fin 0
      kineticEnd := .fin 0
      drawn := proposal.drawn }
  ({ key := key
     integratorState := newIntegratorState
     potential := mh.2.1
     fullDataState := pot.2.1
     acceptanceRatio := (XF.exp logAlpha, schedule.stepSize,
       XF.sub proposal.kineticEnd proposal.kineticStart)
     massState := nextMassState massAdaption s.massState mh.1.positions
     drawn := s.drawn ++ [split] },
   XF.exp logAlpha)

/-- A run of SGGMC: the state after the updates with the given schedules (solver.py:153-160). -/
noncomputable def sggmcRun (P : Prng κ) (massAdaption : Option (MassAdaption ι Ms))
    (updateIntegrator : ObaboState ι XF κ δ μ → Params → Option (MassMatrix ι) →
      ObaboState ι XF κ δ μ)
    (fullPotential : FullPotFn ι φ μ) (s : SggmcState ι κ δ μ φ Ms) (schedules : List Params) :
    SggmcState ι κ δ μ φ Ms :=
  schedules.foldl (fun s p => (sggmcUpdate P massAdaption updateIntegrator fullPotential s p).1) s

/-- The OBABO integrator as integrator of SGGMC.  SGGMC only calls it with kinetic energies 0
(solver.py:548-549, integrator.py:306-307), which is used here: the energies of the given state are
ignored. -/
noncomputable def obaboForSggmc [Fintype ι] {β : Type} (P : Prng κ) (lay : Layout ι) (friction : ℝ)
    (constMass : Option (ι → ℝ)) (steps : ℕ) (getData : δ → δ × β) (sg : StochGrad ι β μ)
    (s : ObaboState ι XF κ δ μ) (prm : Params) (mass : Option (MassMatrix ι)) :
    ObaboState ι XF κ δ μ :=
  let r := obaboIntegrate P lay friction constMass steps getData sg
    ⟨s.potential, s.key, s.positions, s.momentum, s.dataState, s.modelState, 0, 0, s.drawn⟩ prm mass
  ⟨r.potential, r.key, r.positions, r.momentum, r.dataState, r.modelState, .fin r.kineticStart,
    .fin r.kineticEnd, r.drawn⟩

/-- `init_fn` of the OBABO integrator as used by SGGMC.
(integrator.py:275-316, called at solver.py:483-484) -/
def obaboInitForSggmc [Fintype ι] (initData : δ) (sample : ι → ℝ) (key : κ) (modelState : μ) :
    ObaboState ι XF κ δ μ :=
  let r := obaboInit initData sample key modelState
  ⟨r.potential, r.key, r.positions, r.momentum, r.dataState, r.modelState, .fin 0, .fin 0, r.drawn⟩

end JaxSgmc
