import Verif.Model.TreeLeapfrog
import Verif.Model.Samples
import Verif.Model.Adaption

/-!
# The solvers on pytrees

`amagold`, `sggmc` and `parallel_tempering` (`jax_sgmc/solver.py`) with samples which are trees of arrays, together
with the decorated strategy `mass_matrix` (`jax_sgmc/adaption.py`), which works on flat arrays.  Properties C111 and
C112 relate them to the solvers on vectors.
-/

namespace JaxSgmc

variable {κ δ β μ φ A S : Type}

/-! ## mass_matrix -/

/-- A strategy for the mass on one-dimensional arrays, before it is decorated (adaption.py:297-369): `init` from the
flat sample and the flat initial covariance, `update` from state and flat sample, `get`. -/
structure FlatMass (S : Type) where
  init : List ℝ → List ℝ → Except PyErr S
  update : S → List ℝ → Except PyErr S
  get : S → Except PyErr (List (List ℝ ⊕ List (List ℝ)))

/-- `new_init` (adaption.py:128-162) of the mass adaption, called with the sample and `initial_mass` (solver.py:331,
487).  `None` is the tree without leaves. -/
def massInitT (F : FlatMass S) (x0 initialMass : Tree (Arr ℝ)) : Except PyErr (AdaptionStateT S) := do
  let s ← F.init (ravel x0) (ravel initialMass)
  return ⟨s, x0⟩

/-- `new_update` (adaption.py:164-193) of the mass adaption. -/
def massUpdateT (F : FlatMass S) (s : AdaptionStateT S) (sample : Tree (Arr ℝ)) :
    Except PyErr (AdaptionStateT S) := do
  let s' ← F.update s.state (ravel sample)
  return ⟨s', s.template⟩

/-- `MassMatrix(*quantities)` (adaption.py:221): exactly two quantities. -/
def massOfQuantities : List (Tensor ℝ) → Except PyErr MassMatrixT
  | [a, b] => .ok ⟨a, b⟩
  | _ => .error .typeError

/-- `new_get` (adaption.py:195-221) of the mass adaption. -/
def massGetT (F : FlatMass S) (s : AdaptionStateT S) : Except PyErr MassMatrixT := do
  let qs ← F.get s.state
  let ts ← mapExcept (unravelQuantity s.template) qs
  massOfQuantities ts

/-- The state of `mass_matrix(diagonal=True)` on flat arrays (adaption.py:339). -/
structure FlatDiagState where
  iteration : ℕ
  mean : List ℝ
  ssq : List ℝ
  inv : List ℝ
  sqrt : List ℝ

/-- The new mean (adaption.py:348). -/
noncomputable def flatMean (iteration : ℕ) (mean sample : List ℝ) : Except PyErr (List ℝ) :=
  flatZip (fun m x => ((iteration : ℝ) - 1) / iteration * m + 1 / iteration * x) mean sample

/-- `lax.cond` of `update` of `mass_matrix(diagonal=True)` (adaption.py:354-360, 309-319): both branches must have the
same shapes. -/
noncomputable def flatDiagCond (burnIn iteration : ℕ) (ssq inv sqrt : List ℝ) :
    Except PyErr (List ℝ × List ℝ) :=
  if ssq.length = inv.length ∧ ssq.length = sqrt.length then
    if iteration = burnIn then
      .ok (ssq.map fun q => q / iteration, ssq.map fun q => Real.sqrt (iteration / q))
    else .ok (inv, sqrt)
  else .error .typeError

/-- `update` of `mass_matrix(diagonal=True)` (adaption.py:341-362). -/
noncomputable def flatDiagUpdate (burnIn : ℕ) (s : FlatDiagState) (sample : List ℝ) : Except PyErr FlatDiagState := do
  let iteration := s.iteration + 1
  let newMean ← flatMean iteration s.mean sample
  let d1 ← flatZip (fun x m => x - m) sample s.mean
  let d2 ← flatZip (fun x m => x - m) sample newMean
  let prod ← flatZip (fun a b => a * b) d1 d2
  let ssq ← flatZip (fun a b => a + b) s.ssq prod
  let new ← flatDiagCond burnIn iteration ssq s.inv s.sqrt
  return ⟨iteration, newMean, ssq, new.1, new.2⟩

/-- `mass_matrix(diagonal=True, burn_in=burnIn)` on flat arrays (adaption.py:297-369). -/
noncomputable def diagMassFlat (burnIn : ℕ) : FlatMass FlatDiagState where
  init x cov := .ok ⟨0, x.map fun _ => 0, x.map fun _ => 0, cov, cov.map fun c => 1 / Real.sqrt c⟩
  update := flatDiagUpdate burnIn
  get s := .ok [.inl s.inv, .inl s.sqrt]

/-- The state of `mass_matrix(diagonal=False)` on flat arrays; matrices are lists of rows (adaption.py:339). -/
structure FlatFullState where
  iteration : ℕ
  mean : List ℝ
  ssq : List (List ℝ)
  inv : List (List ℝ)
  sqrt : List (List ℝ)

/-- `jnp.diag` of a vector (adaption.py:318, 336-337). -/
def diagRows (v : List ℝ) : List (List ℝ) :=
  (List.range v.length).map fun i => (List.range v.length).map fun j => if i = j then (v[i]?).getD 0 else 0

/-- `jnp.outer` (adaption.py:352). -/
def outerRows (a b : List ℝ) : List (List ℝ) := a.map fun x => b.map fun y => x * y

/-- `jnp.transpose` of a square matrix (adaption.py:318). -/
def transposeRows (m : List (List ℝ)) : List (List ℝ) :=
  (List.range m.length).map fun j => m.map fun row => (row[j]?).getD 0

/-- `jnp.matmul` of square matrices (adaption.py:318). -/
def matmulRows (a b : List (List ℝ)) : List (List ℝ) :=
  a.map fun row => (transposeRows b).map fun col => dotList row col

/-- An element-wise operation on matrices of the same shape (adaption.py:314, 352). -/
def rowsZip (f : ℝ → ℝ → ℝ) (a b : List (List ℝ)) : Except PyErr (List (List ℝ)) :=
  if a.map List.length = b.map List.length then .ok (List.zipWith (List.zipWith f) a b) else .error .typeError

/-- The new matrices of `_update_matrix` with `diagonal=False` (adaption.py:314-319).  `eigh` is `jnp.linalg.eigh`:
eigenvalues and the matrix whose columns are the eigenvectors. -/
noncomputable def flatFullMatrix (eigh : List (List ℝ) → List ℝ × List (List ℝ)) (iteration : ℕ)
    (ssq : List (List ℝ)) : List (List ℝ) × List (List ℝ) :=
  let inv := ssq.map fun row => row.map fun q => q / iteration
  let e := eigh inv
  (inv, matmulRows (transposeRows e.2) (matmulRows (diagRows (e.1.map Real.sqrt)) e.2))

/-- `lax.cond` of `update` of `mass_matrix(diagonal=False)` (adaption.py:354-360): both branches must have the same
shapes. -/
noncomputable def flatFullCond (eigh : List (List ℝ) → List ℝ × List (List ℝ)) (burnIn iteration : ℕ)
    (ssq inv sqrt : List (List ℝ)) : Except PyErr (List (List ℝ) × List (List ℝ)) :=
  if ssq.map List.length = inv.map List.length ∧ ssq.map List.length = sqrt.map List.length then
    if iteration = burnIn then .ok (flatFullMatrix eigh iteration ssq) else .ok (inv, sqrt)
  else .error .typeError

/-- `update` of `mass_matrix(diagonal=False)` (adaption.py:341-362). -/
noncomputable def flatFullUpdate (eigh : List (List ℝ) → List ℝ × List (List ℝ)) (burnIn : ℕ) (s : FlatFullState)
    (sample : List ℝ) : Except PyErr FlatFullState := do
  let iteration := s.iteration + 1
  let newMean ← flatMean iteration s.mean sample
  let d1 ← flatZip (fun x m => x - m) sample s.mean
  let d2 ← flatZip (fun x m => x - m) sample newMean
  let ssq ← rowsZip (fun a b => a + b) s.ssq (outerRows d1 d2)
  let new ← flatFullCond eigh burnIn iteration ssq s.inv s.sqrt
  return ⟨iteration, newMean, ssq, new.1, new.2⟩

/-- `mass_matrix(diagonal=False, burn_in=burnIn)` on flat arrays (adaption.py:297-369). -/
noncomputable def fullMassFlat (eigh : List (List ℝ) → List ℝ × List (List ℝ)) (burnIn : ℕ) :
    FlatMass FlatFullState where
  init x cov := .ok ⟨0, x.map fun _ => 0, x.map fun _ => x.map fun _ => 0, diagRows cov,
    diagRows (cov.map fun c => 1 / Real.sqrt c)⟩
  update := flatFullUpdate eigh burnIn
  get s := .ok [.inr s.inv, .inr s.sqrt]

/-! ## Common parts of amagold and sggmc -/

/-- The full potential with a tree as sample (potential.py:219-293). -/
abbrev FullPotFnT (φ μ : Type) := Tree (Arr ℝ) → φ → μ → XF × (φ × μ)

/-- `init_mass(init_sample, initial_mass)` if a mass adaption is used (solver.py:330-335, 486-489). -/
def initialMassStateT (massAdaption : Option (FlatMass S)) (sample initialMass : Tree (Arr ℝ)) :
    Except PyErr (Option (AdaptionStateT S)) :=
  match massAdaption with
  | none => .ok none
  | some F => do
    let s ← massInitT F sample initialMass
    return some s

/-- The mass passed to the integrator (solver.py:332, 366-369, 503-506). -/
def currentMassT (massAdaption : Option (FlatMass S)) (massState : Option (AdaptionStateT S)) :
    Except PyErr (Option MassMatrixT) :=
  match massAdaption, massState with
  | none, _ => .ok none
  | some _, none => .error .attributeError
  | some F, some s => do
    let m ← massGetT F s
    return some m

/-- Update of the mass state (solver.py:408-412, 551-555). -/
def nextMassStateT (massAdaption : Option (FlatMass S)) (massState : Option (AdaptionStateT S))
    (positions : Tree (Arr ℝ)) : Except PyErr (Option (AdaptionStateT S)) :=
  match massAdaption, massState with
  | none, _ => .ok none
  | some _, none => .error .attributeError
  | some F, some s => do
    let s' ← massUpdateT F s positions
    return some s'

/-! ## amagold -/

/-- `AMAGOLDState` (solver.py:27-44) with trees. -/
structure AmagoldStateT (κ δ μ φ S : Type) where
  integratorState : LeapfrogStateT κ δ μ
  potential : XF
  fullDataState : φ
  key : κ
  acceptanceRatio : XF × ℝ
  massState : Option (AdaptionStateT S)
  drawn : List κ

/-- `init` of `amagold` (solver.py:325-362).  `initIntegrator` takes sample, key, model state and mass. -/
noncomputable def amagoldInitT (P : Prng κ) (massAdaption : Option (FlatMass S))
    (initIntegrator : Tree (Arr ℝ) → κ → μ → Option MassMatrixT → Except PyErr (LeapfrogStateT κ δ μ))
    (fullPotential : FullPotFnT φ μ) (initFullData : φ) (sample : Tree (Arr ℝ)) (initialMass : Tree (Arr ℝ))
    (key : κ) (modelState : μ) : Except PyErr (AmagoldStateT κ δ μ φ S) := do
  let massState ← initialMassStateT massAdaption sample initialMass
  let mass ← currentMassT massAdaption massState
  let pot := fullPotential sample initFullData modelState
  let integratorState ← initIntegrator sample (P.split key 2 0) pot.2.2 mass
  return { integratorState := integratorState
           potential := pot.1
           fullDataState := pot.2.1
           key := P.split key 2 1
           acceptanceRatio := (.fin 0, 0)
           massState := massState
           drawn := [] }

open Classical in
/-- The choice between proposal and current state (solver.py:388-396): integrator state, potential, direction and
model state. -/
noncomputable def amagoldChoiceT (slice : ℝ) (logAlpha : XF) (proposal current : LeapfrogStateT κ δ μ)
    (newPotential oldPotential : XF) (newModelState : μ) : LeapfrogStateT κ δ μ × XF × ℝ × μ :=
  if XF.Lt (XF.logOf slice) logAlpha then (proposal, newPotential, (1.0 : ℝ), newModelState)
  else (current, oldPotential, -1.0, current.modelState)

/-- `update` of `amagold` (solver.py:365-424), returning the state and the statistics. -/
noncomputable def amagoldUpdateT (P : Prng κ) (massAdaption : Option (FlatMass S))
    (updateIntegrator : LeapfrogStateT κ δ μ → Params → Option MassMatrixT → Except PyErr (LeapfrogStateT κ δ μ))
    (fullPotential : FullPotFnT φ μ) (s : AmagoldStateT κ δ μ φ S) (schedule : Params) :
    Except PyErr (AmagoldStateT κ δ μ φ S × XF) := do
  let mass ← currentMassT massAdaption s.massState
  let proposal ← updateIntegrator s.integratorState schedule mass
  let pot := fullPotential proposal.positions s.fullDataState proposal.modelState
  let logAlpha := amagoldLogAlpha s.potential pot.1 (.fin proposal.potential)
  let mh := amagoldChoiceT (P.uniform (P.split s.key 2 1)) logAlpha proposal s.integratorState pot.1 s.potential
    pot.2.2
  let massState ← nextMassStateT massAdaption s.massState mh.1.positions
  return ({ key := P.split s.key 2 0
            integratorState :=
              { positions := mh.1.positions
                momentum := treeScale mh.2.2.1 mh.1.momentum
                modelState := mh.2.2.2
                potential := mh.1.potential
                dataState := proposal.dataState
                key := proposal.key
                drawn := proposal.drawn }
            potential := mh.2.1
            fullDataState := pot.2.1
            acceptanceRatio := (XF.exp logAlpha, schedule.stepSize)
            massState := massState
            drawn := s.drawn ++ [P.split s.key 2 1] },
          XF.exp logAlpha)

/-! ## sggmc -/

/-- `SGGMCState` (solver.py:46-63) with trees. -/
structure SggmcStateT (κ δ μ φ S : Type) where
  integratorState : ObaboStateT κ δ μ
  potential : XF
  fullDataState : φ
  key : κ
  acceptanceRatio : XF × ℝ × XF
  massState : Option (AdaptionStateT S)
  drawn : List κ

/-- `init` of `sggmc` (solver.py:462-498). -/
noncomputable def sggmcInitT (P : Prng κ) (massAdaption : Option (FlatMass S))
    (initIntegrator : Tree (Arr ℝ) → κ → μ → ObaboStateT κ δ μ)
    (fullPotential : FullPotFnT φ μ) (initFullData : φ) (sample : Tree (Arr ℝ)) (initialMass : Tree (Arr ℝ))
    (key : κ) (modelState : μ) : Except PyErr (SggmcStateT κ δ μ φ S) := do
  let pot := fullPotential sample initFullData modelState
  let integratorState := initIntegrator sample (P.split key 2 0) pot.2.2
  let massState ← initialMassStateT massAdaption sample initialMass
  return { integratorState := integratorState
           potential := pot.1
           fullDataState := pot.2.1
           key := P.split key 2 1
           acceptanceRatio := (.fin 0, 0, .fin 0)
           massState := massState
           drawn := [] }

open Classical in
/-- The choice between proposal and current state (solver.py:528-538): integrator state, potential and model
state. -/
noncomputable def sggmcChoiceT (slice : ℝ) (logAlpha : XF) (proposal current : ObaboStateT κ δ μ)
    (newPotential oldPotential : XF) (newModelState : μ) : ObaboStateT κ δ μ × XF × μ :=
  if XF.Lt (XF.logOf slice) logAlpha then (proposal, newPotential, newModelState)
  else (current, oldPotential, current.modelState)

/-- `update` of `sggmc` (solver.py:501-567), returning the state and the statistics. -/
noncomputable def sggmcUpdateT (P : Prng κ) (massAdaption : Option (FlatMass S))
    (updateIntegrator : ObaboStateT κ δ μ → Params → Option MassMatrixT → Except PyErr (ObaboStateT κ δ μ))
    (fullPotential : FullPotFnT φ μ) (s : SggmcStateT κ δ μ φ S) (schedule : Params) :
    Except PyErr (SggmcStateT κ δ μ φ S × XF) := do
  let mass ← currentMassT massAdaption s.massState
  let proposal ← updateIntegrator s.integratorState schedule mass
  let pot := fullPotential proposal.positions s.fullDataState proposal.modelState
  let logAlpha := sggmcLogAlpha schedule.temperature s.potential pot.1 (.fin proposal.kineticStart)
    (.fin proposal.kineticEnd)
  let mh := sggmcChoiceT (P.uniform (P.split s.key 2 1)) logAlpha proposal s.integratorState pot.1 s.potential
    pot.2.2
  let massState ← nextMassStateT massAdaption s.massState mh.1.positions
  return ({ key := P.split s.key 2 0
            integratorState :=
              { positions := mh.1.positions
                momentum := mh.1.momentum
                modelState := mh.2.2
                potential := mh.1.potential
                dataState := proposal.dataState
                key := proposal.key
                kineticStart := 0
                kineticEnd := 0
                drawn := proposal.drawn }
            potential := mh.2.1
            fullDataState := pot.2.1
            acceptanceRatio := (XF.exp logAlpha, schedule.stepSize,
              XF.sub (.fin proposal.kineticEnd) (.fin proposal.kineticStart))
            massState := massState
            drawn := s.drawn ++ [P.split s.key 2 1] },
          XF.exp logAlpha)

/-! ## parallel_tempering -/

/-- The state of `parallel_tempering` (solver.py:259) with trees. -/
structure PtStateT (κ δ μ A : Type) where
  normal : LangevinStateT κ δ μ A
  hot : LangevinStateT κ δ μ A
  ssq : ℝ
  F : ℝ
  step : ℕ
  key : κ
  drawn : List κ

/-- `init` of `parallel_tempering` (solver.py:248-259).  Every chain gets its own data state (integrator.py:834). -/
def ptInitT (P : Prng κ) (initIntegrator : δ → Tree (Arr ℝ) → κ → LangevinStateT κ δ μ A)
    (normalSample temperedSample : Tree (Arr ℝ) × δ) (ssqInit : ℝ) (key : κ) (F : ℝ) : PtStateT κ δ μ A :=
  { normal := initIntegrator normalSample.2 normalSample.1 (P.split key 3 1)
    hot := initIntegrator temperedSample.2 temperedSample.1 (P.split key 3 2)
    ssq := ssqInit
    F := F
    step := 0
    key := P.split key 3 0
    drawn := [] }

open Classical in
/-- The swap (solver.py:287-291): `lax.cond` needs chains with the same structure and the same shapes, because one
branch returns the chains in the other order.  Simplification: only the shapes of the samples are compared. -/
noncomputable def ptSwapT (slice : ℝ) (logS : ℝ) (normal hot : LangevinStateT κ δ μ A) :
    Except PyErr (LangevinStateT κ δ μ A × LangevinStateT κ δ μ A) :=
  if normal.latent.map Arr.shape = hot.latent.map Arr.shape then
    if XF.Lt (XF.logOf slice) (.fin logS) then .ok (normal, hot) else .ok (hot, normal)
  else .error .typeError

/-- `update` of `parallel_tempering` (solver.py:264-293). -/
noncomputable def ptUpdateT (P : Prng κ) (saSchedule : ℕ → ℝ)
    (updateIntegrator : LangevinStateT κ δ μ A → Params → Except PyErr (LangevinStateT κ δ μ A))
    (s : PtStateT κ δ μ A) (normalSched hotSched : Params) : Except PyErr (PtStateT κ δ μ A) := do
  let step := s.step + 1
  let normal ← updateIntegrator s.normal normalSched
  let hot ← updateIntegrator s.hot hotSched
  let stepSize := saSchedule step
  let ssq := (1 - stepSize) * s.ssq + stepSize * normal.variance
  let temps := 1 / normalSched.temperature - 1 / hotSched.temperature
  let correction := temps * ssq / s.F
  let logS := temps * (normal.potential - hot.potential - correction)
  let chains ← ptSwapT (P.uniform (P.split s.key 2 1)) logS normal hot
  return { normal := chains.1
           hot := chains.2
           ssq := ssq
           F := s.F
           step := step
           key := P.split s.key 2 0
           drawn := s.drawn ++ [P.split s.key 2 1] }

/-! ## Runs -/

/-- A run of AMAGOLD: the updates with the given schedules (solver.py:153-160). -/
noncomputable def amagoldRunT (P : Prng κ) (massAdaption : Option (FlatMass S))
    (updateIntegrator : LeapfrogStateT κ δ μ → Params → Option MassMatrixT → Except PyErr (LeapfrogStateT κ δ μ))
    (fullPotential : FullPotFnT φ μ) (s : AmagoldStateT κ δ μ φ S) (schedules : List Params) :
    Except PyErr (AmagoldStateT κ δ μ φ S) :=
  schedules.foldlM (fun s p => do
    let r ← amagoldUpdateT P massAdaption updateIntegrator fullPotential s p
    return r.1) s

/-- A run of SGGMC: the updates with the given schedules (solver.py:153-160). -/
noncomputable def sggmcRunT (P : Prng κ) (massAdaption : Option (FlatMass S))
    (updateIntegrator : ObaboStateT κ δ μ → Params → Option MassMatrixT → Except PyErr (ObaboStateT κ δ μ))
    (fullPotential : FullPotFnT φ μ) (s : SggmcStateT κ δ μ φ S) (schedules : List Params) :
    Except PyErr (SggmcStateT κ δ μ φ S) :=
  schedules.foldlM (fun s p => do
    let r ← sggmcUpdateT P massAdaption updateIntegrator fullPotential s p
    return r.1) s

/-- A run of parallel tempering (solver.py:153-160). -/
noncomputable def ptRunT (P : Prng κ) (saSchedule : ℕ → ℝ)
    (updateIntegrator : LangevinStateT κ δ μ A → Params → Except PyErr (LangevinStateT κ δ μ A))
    (s : PtStateT κ δ μ A) (schedules : List (Params × Params)) : Except PyErr (PtStateT κ δ μ A) :=
  schedules.foldlM (fun s p => ptUpdateT P saSchedule updateIntegrator s p.1 p.2) s

end JaxSgmc
