import Verif.Model.TreeIntegrator

/-!
# The integrators with momenta on pytrees

`obabo`, `reversible_leapfrog` and `friction_leapfrog` (`jax_sgmc/integrator.py`) on trees of arrays, with the
exceptions of the functions of `util/tree_util.py` and of the truth value of the constant mass.
Properties C109 and C110 relate them to the vectors of entries.
-/

namespace JaxSgmc

variable {κ δ β μ : Type}

/-! ## Masses -/

/-- `MassMatrix` (adaption.py:67-76) with tensors on trees. -/
structure MassMatrixT where
  inv : Tensor ℝ
  sqrt : Tensor ℝ

/-- `init_mass` (integrator.py:99-116). -/
noncomputable def initMassT (mass : Tree (Arr ℝ)) : MassMatrixT :=
  ⟨.diagonal (mass.map (Arr.map fun x => x ^ (-1 : ℝ))), .diagonal (mass.map (Arr.map Real.sqrt))⟩

/-- `tree_map(jnp.ones_like, tree)` (integrator.py:325, 485, 521, 727). -/
def onesLike (t : Tree (Arr ℝ)) : Tree (Arr ℝ) := t.map (Arr.map fun _ => 1)

/-- `tree_map(jnp.zeros_like, tree)` (integrator.py:303). -/
def zerosLike (t : Tree (Arr ℝ)) : Tree (Arr ℝ) := t.map (Arr.map fun _ => 0)

open Classical in
/-- The truth value of a pytree, as in `if const_mass:` (integrator.py:169, 378, 598): `None` and empty containers
are false, an array with one entry is true if the entry is not zero, an array with several entries has no truth
value (`ValueError`); an empty array counts as false. -/
noncomputable def treeTruth : Tree (Arr ℝ) → Except PyErr Bool
  | .none => .ok false
  | .node _ ts => .ok (!ts.isEmpty)
  | .leaf a =>
    match a.data with
    | [] => .ok false
    | [x] => .ok (decide (x ≠ 0))
    | _ => .error .valueError

/-- The preparation of the constant mass when an integrator is constructed (integrator.py:168-172, 377-381,
597-601). -/
noncomputable def prepareMass (constMass : Tree (Arr ℝ)) : Except PyErr (Option MassMatrixT) := do
  let b ← treeTruth constMass
  return if b then some (initMassT constMass) else none

/-- The mass used by `integrate` (integrator.py:323-331, 479-485, 516-521, 722-727). -/
noncomputable def resolveMassT (mass constMass : Option MassMatrixT) (positions : Tree (Arr ℝ)) : MassMatrixT :=
  match mass with
  | some m => m
  | none =>
    match constMass with
    | some c => c
    | none => initMassT (onesLike positions)

/-! ## Common parts -/

/-- The stochastic gradient with a tree as argument (integrator.py:166, 375, 593). -/
abbrev StochGradT (β μ : Type) := Tree (Arr ℝ) → β → μ → (ℝ × μ) × Tree (Arr ℝ)

/-- `LeapfrogState` (integrator.py:35-52). -/
structure LeapfrogStateT (κ δ μ : Type) where
  potential : ℝ
  key : κ
  positions : Tree (Arr ℝ)
  momentum : Tree (Arr ℝ)
  dataState : δ
  modelState : μ
  drawn : List κ

/-- `_position_update` (integrator.py:181-184, 383-388). -/
noncomputable def positionUpdateT (scale : ℝ) (mass : MassMatrixT) (position momentum : Tree (Arr ℝ)) :
    Except PyErr (Tree (Arr ℝ)) := do
  let scaled ← tensorMatmul mass.inv momentum
  treeAdd position (treeScale scale scaled)

/-- `_cov_scaled_noise` (integrator.py:390-393), with the keys from which numbers are drawn. -/
noncomputable def covScaledNoise (P : Prng κ) (split : κ) (mass : MassMatrixT) (tree : Tree (Arr ℝ)) :
    Except PyErr (Tree (Arr ℝ) × List κ) := do
  let noise ← randomTreeT P split tree
  let scaled ← tensorMatmul mass.sqrt noise.1
  return (scaled, noise.2)

/-! ## reversible_leapfrog -/

/-- `_energy` (integrator.py:395-400). -/
noncomputable def leapEnergyT (oldMomentum newMomentum : Tree (Arr ℝ)) (mass : MassMatrixT)
    (gradient : Tree (Arr ℝ)) (scale : ℝ) : Except PyErr ℝ := do
  let sum ← treeAdd oldMomentum newMomentum
  let scaled ← tensorMatmul mass.inv gradient
  let energy ← treeDot sum scaled
  return scale * energy

/-- The positions at which `_body_fun` of `reversible_leapfrog` evaluates the gradient (integrator.py:406-415). -/
noncomputable def revPositionsT (prm : Params) (mass : MassMatrixT) (s : LeapfrogStateT κ δ μ) (step : ℕ) :
    Except PyErr (Tree (Arr ℝ)) :=
  if step = 0 then .ok s.positions else positionUpdateT prm.stepSize mass s.positions s.momentum

/-- `_body_fun` of `reversible_leapfrog` (integrator.py:402-458). -/
noncomputable def revBodyT (P : Prng κ) (friction : ℝ) (getData : δ → δ × β) (sg : StochGradT β μ) (prm : Params)
    (mass : MassMatrixT) (s : LeapfrogStateT κ δ μ) (step : ℕ) : Except PyErr (LeapfrogStateT κ δ μ) := do
  let positions ← revPositionsT prm mass s step
  let noise ← covScaledNoise P (P.split s.key 2 1) mass s.momentum
  let scaledNoise := treeScale (Real.sqrt (4 * friction * prm.stepSize)) noise.1
  let data := getData s.dataState
  let res := sg positions data.2 s.modelState
  let decayed := treeScale (1 - prm.stepSize * friction) s.momentum
  let negGradient := treeScale (-1.0 * prm.stepSize) res.2
  let sum ← treeAdd decayed negGradient
  let unscaled ← treeAdd sum scaledNoise
  let updated := treeScale (1 / (1 + prm.stepSize * friction)) unscaled
  let energy ← leapEnergyT s.momentum updated mass res.2 (0.5 * prm.stepSize)
  return { potential := energy + s.potential
           key := P.split s.key 2 0
           positions := positions
           momentum := updated
           dataState := data.1
           modelState := res.1.2
           drawn := s.drawn ++ noise.2 }

/-- `init_fn` of `reversible_leapfrog` (integrator.py:460-507). -/
noncomputable def revInitT (P : Prng κ) (constMass : Option MassMatrixT) (initData : δ) (sample : Tree (Arr ℝ))
    (key : κ) (modelState : μ) (mass : Option MassMatrixT) : Except PyErr (LeapfrogStateT κ δ μ) := do
  let m := resolveMassT mass constMass sample
  let noise ← covScaledNoise P (P.split key 2 1) m sample
  return { potential := 0
           key := P.split key 2 0
           positions := sample
           momentum := noise.1
           dataState := initData
           modelState := modelState
           drawn := noise.2 }

/-- `lax.scan(body, state, onp.arange(steps))` (integrator.py:333-336, 534-538, 750-756). -/
def scanSteps {S : Type} (body : S → ℕ → Except PyErr S) (steps : ℕ) (s : S) : Except PyErr S :=
  (List.range steps).foldlM body s

/-- `integrate` of `reversible_leapfrog` (integrator.py:510-553). -/
noncomputable def revIntegrateT (P : Prng κ) (friction : ℝ) (constMass : Option MassMatrixT) (steps : ℕ)
    (getData : δ → δ × β) (sg : StochGradT β μ) (s : LeapfrogStateT κ δ μ) (prm : Params)
    (mass : Option MassMatrixT) : Except PyErr (LeapfrogStateT κ δ μ) := do
  let m := resolveMassT mass constMass s.positions
  let positions ← positionUpdateT (0.5 * prm.stepSize) m s.positions s.momentum
  let fin ← scanSteps (revBodyT P friction getData sg prm m) steps
    { s with positions := positions, potential := 0 }
  let last ← positionUpdateT (0.5 * prm.stepSize) m fin.positions fin.momentum
  return { fin with positions := last }

/-! ## obabo -/

/-- `ObaboState` (integrator.py:55-75). -/
structure ObaboStateT (κ δ μ : Type) where
  potential : ℝ
  key : κ
  positions : Tree (Arr ℝ)
  momentum : Tree (Arr ℝ)
  dataState : δ
  modelState : μ
  kineticStart : ℝ
  kineticEnd : ℝ
  drawn : List κ

/-- `_kinetic_energy` (integrator.py:177-179). -/
noncomputable def kineticEnergyT (mass : MassMatrixT) (momentum : Tree (Arr ℝ)) : Except PyErr ℝ := do
  let scaled ← tensorMatmul mass.inv momentum
  let d ← treeDot momentum scaled
  return 0.5 * d

/-- `_momentum_update` (integrator.py:187-189). -/
noncomputable def momentumUpdateT (scale : ℝ) (gradient momentum : Tree (Arr ℝ)) :
    Except PyErr (Tree (Arr ℝ)) :=
  treeAdd (treeScale (-1.0 * scale) gradient) momentum

/-- `_momentum_resampling` (integrator.py:192-200), with the keys from which numbers are drawn. -/
noncomputable def momentumResamplingT (P : Prng κ) (friction : ℝ) (prm : Params) (mass : MassMatrixT)
    (momentum : Tree (Arr ℝ)) (split : κ) : Except PyErr (Tree (Arr ℝ) × List κ) := do
  let noise ← randomTreeT P split momentum
  let scaledNoise ← tensorMatmul mass.sqrt noise.1
  let permanence := Real.exp (-friction * prm.stepSize)
  let momentumNoise := treeScale (Real.sqrt ((1 - permanence) * prm.temperature)) scaledNoise
  let decayed := treeScale (Real.sqrt permanence) momentum
  let sum ← treeAdd decayed momentumNoise
  return (sum, noise.2)

/-- `_leapfrog_steps` of `obabo` (integrator.py:203-273). -/
noncomputable def obaboStepT (P : Prng κ) (friction : ℝ) (getData : δ → δ × β) (sg : StochGradT β μ)
    (prm : Params) (mass : MassMatrixT) (s : ObaboStateT κ δ μ) (_step : ℕ) :
    Except PyErr (ObaboStateT κ δ μ) := do
  let refreshed ← momentumResamplingT P friction prm mass s.momentum (P.split s.key 3 1)
  let energy1 ← kineticEnergyT mass refreshed.1
  let data1 := getData s.dataState
  let res1 := sg s.positions data1.2 s.modelState
  let first ← momentumUpdateT (0.5 * prm.stepSize) res1.2 refreshed.1
  let positions ← positionUpdateT prm.stepSize mass s.positions first
  let data2 := getData data1.1
  let res2 := sg positions data2.2 res1.1.2
  let second ← momentumUpdateT (0.5 * prm.stepSize) res2.2 first
  let final ← momentumResamplingT P friction prm mass second (P.split s.key 3 2)
  let energy2 ← kineticEnergyT mass second
  return { potential := 0.5 * (res1.1.1 + res2.1.1)
           key := P.split s.key 3 0
           positions := positions
           momentum := final.1
           dataState := data2.1
           modelState := res2.1.2
           kineticStart := s.kineticStart + energy1
           kineticEnd := s.kineticEnd + energy2
           drawn := s.drawn ++ refreshed.2 ++ final.2 }

/-- `init_fn` of `obabo` (integrator.py:275-315). -/
def obaboInitT (initData : δ) (sample : Tree (Arr ℝ)) (key : κ) (modelState : μ) : ObaboStateT κ δ μ :=
  { potential := 0
    key := key
    positions := sample
    momentum := zerosLike sample
    dataState := initData
    modelState := modelState
    kineticStart := 0
    kineticEnd := 0
    drawn := [] }

/-- `integrate` of `obabo` (integrator.py:318-338). -/
noncomputable def obaboIntegrateT (P : Prng κ) (friction : ℝ) (constMass : Option MassMatrixT) (steps : ℕ)
    (getData : δ → δ × β) (sg : StochGradT β μ) (s : ObaboStateT κ δ μ) (prm : Params)
    (mass : Option MassMatrixT) : Except PyErr (ObaboStateT κ δ μ) :=
  scanSteps (obaboStepT P friction getData sg prm (resolveMassT mass constMass s.positions)) steps s

/-! ## friction_leapfrog -/

/-- A noise model on trees (adaption.py:372-457): `cb_diff_sqrt` from positions, gradient, friction, mini-batch,
step size and model state.  Its state is always `None`. -/
abbrev NoiseFnT (β μ : Type) :=
  Tree (Arr ℝ) → Tree (Arr ℝ) → Tree (Arr ℝ) → β → ℝ → μ → Except PyErr (Tensor ℝ)

/-- The noise of `_body_fun` of `friction_leapfrog` (integrator.py:631-654). -/
noncomputable def fricNoiseT (noiseModel : Option (NoiseFnT β μ)) (prm : Params)
    (positions gradient friction noise : Tree (Arr ℝ)) (batch : β) (modelState : μ) :
    Except PyErr (Tree (Arr ℝ)) :=
  match noiseModel with
  | some nm => do
    let t ← nm positions gradient friction batch prm.stepSize modelState
    let reduced ← tensorMatmul t noise
    return treeScale (Real.sqrt (2 * prm.stepSize)) reduced
  | none => treeMultiply friction (treeScale (Real.sqrt (2 * prm.stepSize)) noise)

/-- `_body_fun` of `friction_leapfrog` (integrator.py:603-666). -/
noncomputable def fricBodyT (P : Prng κ) (noiseModel : Option (NoiseFnT β μ)) (getData : δ → δ × β)
    (sg : StochGradT β μ) (prm : Params) (friction : Tree (Arr ℝ)) (mass : MassMatrixT)
    (s : LeapfrogStateT κ δ μ) (_step : ℕ) : Except PyErr (LeapfrogStateT κ δ μ) := do
  let scaledMomentum ← tensorMatmul mass.inv s.momentum
  let positions ← treeAdd s.positions (treeScale prm.stepSize scaledMomentum)
  let decay ← treeMultiply (treeScale (-prm.stepSize) friction) scaledMomentum
  let momentum1 ← treeAdd s.momentum decay
  let data := getData s.dataState
  let res := sg positions data.2 s.modelState
  let momentum2 ← treeAdd momentum1 (treeScale (-prm.stepSize) res.2)
  let noise ← randomTreeT P (P.split s.key 2 1) s.momentum
  let scaledNoise ← fricNoiseT noiseModel prm positions res.2 friction noise.1 data.2 s.modelState
  let momentum3 ← treeAdd momentum2 scaledNoise
  return { potential := res.1.1
           key := P.split s.key 2 0
           positions := positions
           momentum := momentum3
           dataState := data.1
           modelState := res.1.2
           drawn := s.drawn ++ noise.2 }

/-- `init_fn` of `friction_leapfrog` (integrator.py:668-713). -/
def fricInitT (initData : δ) (sample : Tree (Arr ℝ)) (key : κ) (modelState : μ) : LeapfrogStateT κ δ μ :=
  { potential := 0
    key := key
    positions := sample
    momentum := sample
    dataState := initData
    modelState := modelState
    drawn := [] }

/-- `jnp.broadcast_to(a, shape)`: `ValueError` if the array does not fit.
(used by `jnp.full_like` at integrator.py:731) -/
def Arr.broadcastTo (shape : List Nat) (a : Arr ℝ) : Except PyErr (Arr ℝ) :=
  if Arr.bcast a.shape.reverse shape.reverse = some shape.reverse then .ok ⟨shape, Arr.broadcastData shape a⟩
  else .error .valueError

/-- The friction per entry (integrator.py:729-734): a number is used for all entries, an array is broadcast to every leaf,
a tree which is not a leaf is used as it is. -/
def multiscalarFriction (friction : ℝ ⊕ Tree (Arr ℝ)) (positions : Tree (Arr ℝ)) : Except PyErr (Tree (Arr ℝ)) :=
  match friction with
  | .inl f => .ok (positions.map (Arr.map fun _ => f))
  | .inr (.leaf a) =>
    match mapExcept (fun y : Arr ℝ => Arr.broadcastTo y.shape a) positions.leaves with
    | .error e => .error e
    | .ok ls => Tree.unflatten positions ls
  | .inr t => .ok t

/-- `integrate` of `friction_leapfrog` (integrator.py:716-757). -/
noncomputable def fricIntegrateT (P : Prng κ) (noiseModel : Option (NoiseFnT β μ)) (friction : ℝ ⊕ Tree (Arr ℝ))
    (constMass : Option MassMatrixT) (steps : ℕ) (getData : δ → δ × β) (sg : StochGradT β μ)
    (s : LeapfrogStateT κ δ μ) (prm : Params) (mass : Option MassMatrixT) :
    Except PyErr (LeapfrogStateT κ δ μ) := do
  let m := resolveMassT mass constMass s.positions
  let fr ← multiscalarFriction friction s.positions
  let noise ← covScaledNoise P (P.split s.key 2 1) m s.momentum
  scanSteps (fricBodyT P noiseModel getData sg prm fr m) steps
    { s with momentum := noise.1, key := P.split s.key 2 0, potential := 0, drawn := s.drawn ++ noise.2 }

/-! ## Runs -/

/-- Consecutive calls of `integrate` with the given schedules and adapted masses (solver.py:153-160). -/
def runT {S : Type} (integrate : S → Params → Option MassMatrixT → Except PyErr S) (s : S)
    (ps : List (Params × Option MassMatrixT)) : Except PyErr S :=
  ps.foldlM (fun s p => integrate s p.1 p.2) s

end JaxSgmc
