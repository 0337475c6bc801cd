import Verif.Model.Prelude
import Mathlib.Analysis.SpecialFunctions.Exp
import Mathlib.Analysis.SpecialFunctions.Pow.Real
import Mathlib.Data.Matrix.Mul

/-!
# Integrators

Models `jax_sgmc/integrator.py`.  Numbers are real numbers (no rounding).  A pytree of arrays is
represented by the vector of all its entries, indexed by a finite type `ι`: the functions of
`util/tree_util.py` act entry-wise on it (`Verif.Model.TreeUtil`, properties C56 and C57), and
exceptions for trees of different structure are not modelled here.  The gradient function and the data
source are arbitrary functions, the pseudo random number generator is a parameter.  The field `drawn` of
the states is not part of the program: it records with which keys random numbers have been drawn.
-/

namespace JaxSgmc

/-- `jax.random`: `split k n i` is `random.split(k, n)[i]`, `normal k n i` is the `i`-th entry of
`random.normal(k, shape)` for a shape with `n` entries, `uniform k` is `random.uniform(k)`.
(the functions of `jax.random` used at integrator.py:119-135 and solver.py:284, 388-391, 528-532) -/
structure Prng (κ : Type) where
  split : κ → ℕ → ℕ → κ
  normal : κ → ℕ → ℕ → ℝ
  uniform : κ → ℝ

/-- The shape of a pytree of arrays: number of leaves, the leaf to which an entry belongs, the position
of the entry in that leaf, and the number of entries of a leaf.
(the pytrees flattened at integrator.py:130-134) -/
structure Layout (ι : Type) where
  leaves : ℕ
  leaf : ι → ℕ
  pos : ι → ℕ
  size : ℕ → ℕ

variable {ι κ δ β μ : Type}

/-- `random_tree` (integrator.py:119-135), with the keys from which numbers are drawn. -/
def randomTree (P : Prng κ) (lay : Layout ι) (key : κ) : (ι → ℝ) × List κ :=
  (fun i => P.normal (P.split key lay.leaves (lay.leaf i)) (lay.size (lay.leaf i)) (lay.pos i),
    (List.range lay.leaves).map (P.split key lay.leaves))

/-- `Tensor` (util/tree_util.py:27-36) with `ndim` 1 or 2. -/
inductive VTensor (ι : Type)
  | diag (d : ι → ℝ)
  | full (m : Matrix ι ι ℝ)

/-- `tensor_matmul` (util/tree_util.py:38-56). -/
def VTensor.mul [Fintype ι] : VTensor ι → (ι → ℝ) → (ι → ℝ)
  | .diag d, v => fun i => d i * v i
  | .full m, v => m.mulVec v

/-- `tree_scale` (util/tree_util.py:72-86). -/
def vscale (c : ℝ) (v : ι → ℝ) : ι → ℝ := fun i => c * v i

/-- `tree_add` (util/tree_util.py:89-102). -/
def vadd (a b : ι → ℝ) : ι → ℝ := fun i => a i + b i

/-- `tree_multiply` (util/tree_util.py:58-69). -/
def vmul (a b : ι → ℝ) : ι → ℝ := fun i => a i * b i

/-- `tree_dot` (util/tree_util.py:119-133). -/
def vdot [Fintype ι] (a b : ι → ℝ) : ℝ := ∑ i, a i * b i

/-- `MassMatrix` (adaption.py:67-76). -/
structure MassMatrix (ι : Type) where
  inv : VTensor ι
  sqrt : VTensor ι

/-- `init_mass` (integrator.py:99-116). -/
noncomputable def initMass (mass : ι → ℝ) : MassMatrix ι :=
  ⟨.diag (fun i => mass i ^ (-1 : ℝ)), .diag (fun i => Real.sqrt (mass i))⟩

/-- The mass used by `integrate` (integrator.py:323-331, 516-521, 722-727): the adapted mass if given,
otherwise the constant mass if given, otherwise ones. -/
noncomputable def resolveMass (mass : Option (MassMatrix ι)) (constMass : Option (ι → ℝ)) :
    MassMatrix ι :=
  match mass with
  | some m => m
  | none =>
    match constMass with
    | some c => initMass c
    | none => initMass (fun _ => 1)

/-- The fields of `schedule` (scheduler.py:48-61) used by integrators. -/
structure Params where
  stepSize : ℝ
  temperature : ℝ

/-- `LeapfrogState` (integrator.py:35-52); the potential may be a real or an extended number.  The field
`extra_fields` holds the state of the noise model, which is always `None` (adaption.py:387-392). -/
structure LeapfrogState (ι E κ δ μ : Type) where
  potential : E
  key : κ
  positions : ι → ℝ
  momentum : ι → ℝ
  dataState : δ
  modelState : μ
  drawn : List κ

/-- A stochastic potential with its gradient: `value_and_grad(potential_fn, has_aux=True)`.
(integrator.py:166, 375, 593) -/
abbrev StochGrad (ι β μ : Type) := (ι → ℝ) → β → μ → (ℝ × μ) × (ι → ℝ)

section
variable [Fintype ι]

/-- `_position_update` (integrator.py:181-184, 383-388). -/
def positionUpdate (scale : ℝ) (mass : MassMatrix ι) (position momentum : ι → ℝ) : ι → ℝ :=
  vadd position (vscale scale (mass.inv.mul momentum))

/-! ## reversible_leapfrog -/

/-- `_energy` (integrator.py:395-400). -/
noncomputable def leapEnergy (oldMomentum newMomentum : ι → ℝ) (mass : MassMatrix ι) (gradient : ι → ℝ)
    (scale : ℝ) : ℝ :=
  scale * vdot (vadd oldMomentum newMomentum) (mass.inv.mul gradient)

/-- `_body_fun` of `reversible_leapfrog` (integrator.py:402-458). -/
noncomputable def revBody (P : Prng κ) (lay : Layout ι) (friction : ℝ) (getData : δ → δ × β)
    (sg : StochGrad ι β μ) (prm : Params) (mass : MassMatrix ι) (s : LeapfrogState ι ℝ κ δ μ)
    (step : ℕ) : LeapfrogState ι ℝ κ δ μ :=
  let positions := if step = 0 then s.positions
    else positionUpdate prm.stepSize mass s.positions s.momentum
  let key := P.split s.key 2 0
  let split := P.split s.key 2 1
  let tree := randomTree P lay split
  let noise := mass.sqrt.mul tree.1
  let scaledNoise := vscale (Real.sqrt (4 * friction * prm.stepSize)) noise
  let data := getData s.dataState
  let res := sg positions data.2 s.modelState
  let gradient := res.2
  let decayed := vscale (1 - prm.stepSize * friction) s.momentum
  let negGradient := vscale (-1.0 * prm.stepSize) gradient
  let unscaled := vadd (vadd decayed negGradient) scaledNoise
  let updated := vscale (1 / (1 + prm.stepSize * friction)) unscaled
  let energy := leapEnergy s.momentum updated mass gradient (0.5 * prm.stepSize)
  { potential := energy + s.potential
    key := key
    positions := positions
    momentum := updated
    dataState := data.1
    modelState := res.1.2
    drawn := s.drawn ++ tree.2 }

/-- `init_fn` of `reversible_leapfrog` (integrator.py:460-507). -/
noncomputable def revInit (P : Prng κ) (lay : Layout ι) (constMass : Option (ι → ℝ)) (initData : δ)
    (sample : ι → ℝ) (key : κ) (modelState : μ) (mass : Option (MassMatrix ι)) :
    LeapfrogState ι ℝ κ δ μ :=
  let m := resolveMass mass constMass
  let tree := randomTree P lay (P.split key 2 1)
  { potential := 0
    key := P.split key 2 0
    positions := sample
    momentum := m.sqrt.mul tree.1
    dataState := initData
    modelState := modelState
    drawn := tree.2 }

/-- `integrate` of `reversible_leapfrog` (integrator.py:510-553): half step, `steps` steps, half
step. -/
noncomputable def revIntegrate (P : Prng κ) (lay : Layout ι) (friction : ℝ)
    (constMass : Option (ι → ℝ)) (steps : ℕ) (getData : δ → δ × β) (sg : StochGrad ι β μ)
    (s : LeapfrogState ι ℝ κ δ μ) (prm : Params) (mass : Option (MassMatrix ι)) :
    LeapfrogState ι ℝ κ δ μ :=
  let m := resolveMass mass constMass
  let start := { s with
    positions := positionUpdate (0.5 * prm.stepSize) m s.positions s.momentum
    potential := 0 }
  let fin := (List.range steps).foldl (revBody P lay friction getData sg prm m) start
  { fin with positions := positionUpdate (0.5 * prm.stepSize) m fin.positions fin.momentum }

/-! ## obabo -/

/-- `ObaboState` (integrator.py:55-75). -/
structure ObaboState (ι E κ δ μ : Type) where
  potential : ℝ
  key : κ
  positions : ι → ℝ
  momentum : ι → ℝ
  dataState : δ
  modelState : μ
  kineticStart : E
  kineticEnd : E
  drawn : List κ

/-- `_kinetic_energy` (integrator.py:177-179). -/
noncomputable def kineticEnergy (mass : MassMatrix ι) (momentum : ι → ℝ) : ℝ :=
  0.5 * vdot momentum (mass.inv.mul momentum)

/-- `_momentum_update` (integrator.py:187-189). -/
def momentumUpdate (scale : ℝ) (gradient momentum : ι → ℝ) : ι → ℝ :=
  vadd (vscale (-1.0 * scale) gradient) momentum

/-- `_momentum_resampling` (integrator.py:192-200) for a given draw of the noise. -/
noncomputable def momentumResampling (friction : ℝ) (prm : Params) (mass : MassMatrix ι)
    (momentum noise : ι → ℝ) : ι → ℝ :=
  let scaledNoise := mass.sqrt.mul noise
  let permanence := Real.exp (-friction * prm.stepSize)
  let momentumNoise := vscale (Real.sqrt ((1 - permanence) * prm.temperature)) scaledNoise
  let decayed := vscale (Real.sqrt permanence) momentum
  vadd decayed momentumNoise

/-- `_leapfrog_steps` of `obabo` (integrator.py:203-273). -/
noncomputable def obaboStep (P : Prng κ) (lay : Layout ι) (friction : ℝ) (getData : δ → δ × β)
    (sg : StochGrad ι β μ) (prm : Params) (mass : MassMatrix ι) (s : ObaboState ι ℝ κ δ μ)
    (_step : ℕ) : ObaboState ι ℝ κ δ μ :=
  let key := P.split s.key 3 0
  let tree1 := randomTree P lay (P.split s.key 3 1)
  let refreshed := momentumResampling friction prm mass s.momentum tree1.1
  let startEnergy := s.kineticStart + kineticEnergy mass refreshed
  let data1 := getData s.dataState
  let res1 := sg s.positions data1.2 s.modelState
  let first := momentumUpdate (0.5 * prm.stepSize) res1.2 refreshed
  let positions := positionUpdate prm.stepSize mass s.positions first
  let data2 := getData data1.1
  let res2 := sg positions data2.2 res1.1.2
  let second := momentumUpdate (0.5 * prm.stepSize) res2.2 first
  let tree2 := randomTree P lay (P.split s.key 3 2)
  let final := momentumResampling friction prm mass second tree2.1
  let endEnergy := s.kineticEnd + kineticEnergy mass second
  { potential := 0.5 * (res1.1.1 + res2.1.1)
    key := key
    positions := positions
    momentum := final
    dataState := data2.1
    modelState := res2.1.2
    kineticStart := startEnergy
    kineticEnd := endEnergy
    drawn := s.drawn ++ tree1.2 ++ tree2.2 }

/-- `init_fn` of `obabo` (integrator.py:275-315). -/
def obaboInit (initData : δ) (sample : ι → ℝ) (key : κ) (modelState : μ) :
    ObaboState ι ℝ κ δ μ :=
  { potential := 0
    key := key
    positions := sample
    momentum := fun _ => 0
    dataState := initData
    modelState := modelState
    kineticStart := 0
    kineticEnd := 0
    drawn := [] }

/-- `integrate` of `obabo` (integrator.py:318-338). -/
noncomputable def obaboIntegrate (P : Prng κ) (lay : Layout ι) (friction : ℝ)
    (constMass : Option (ι → ℝ)) (steps : ℕ) (getData : δ → δ × β) (sg : StochGrad ι β μ)
    (s : ObaboState ι ℝ κ δ μ) (prm : Params) (mass : Option (MassMatrix ι)) :
    ObaboState ι ℝ κ δ μ :=
  (List.range steps).foldl
    (obaboStep P lay friction getData sg prm (resolveMass mass constMass)) s

/-! ## friction_leapfrog -/

/-- A noise model (`fisher_information`, adaption.py:372-457): from positions, gradient, friction,
mini-batch, step size and model state the tensor `cb_diff_sqrt`.  Its state is always `None`. -/
abbrev NoiseFn (ι β μ : Type) := (ι → ℝ) → (ι → ℝ) → (ι → ℝ) → β → ℝ → μ → VTensor ι

/-- `_body_fun` of `friction_leapfrog` (integrator.py:603-666). -/
noncomputable def fricBody (P : Prng κ) (lay : Layout ι) (noiseModel : Option (NoiseFn ι β μ))
    (getData : δ → δ × β) (sg : StochGrad ι β μ) (prm : Params) (friction : ι → ℝ)
    (mass : MassMatrix ι) (s : LeapfrogState ι ℝ κ δ μ) (_step : ℕ) : LeapfrogState ι ℝ κ δ μ :=
  let scaledMomentum := mass.inv.mul s.momentum
  let positions := vadd s.positions (vscale prm.stepSize scaledMomentum)
  let momentum1 := vadd s.momentum (vmul (vscale (-prm.stepSize) friction) scaledMomentum)
  let data := getData s.dataState
  let res := sg positions data.2 s.modelState
  let momentum2 := vadd momentum1 (vscale (-prm.stepSize) res.2)
  let tree := randomTree P lay (P.split s.key 2 1)
  let scaledNoise := match noiseModel with
    | some nm =>
      vscale (Real.sqrt (2 * prm.stepSize))
        ((nm positions res.2 friction data.2 prm.stepSize s.modelState).mul tree.1)
    | none => vmul friction (vscale (Real.sqrt (2 * prm.stepSize)) tree.1)
  { potential := res.1.1
    key := P.split s.key 2 0
    positions := positions
    momentum := vadd momentum2 scaledNoise
    dataState := data.1
    modelState := res.1.2
    drawn := s.drawn ++ tree.2 }

/-- `init_fn` of `friction_leapfrog` (integrator.py:668-713): the momentum is a copy of the sample. -/
def fricInit (initData : δ) (sample : ι → ℝ) (key : κ) (modelState : μ) :
    LeapfrogState ι ℝ κ δ μ :=
  { potential := 0
    key := key
    positions := sample
    momentum := sample
    dataState := initData
    modelState := modelState
    drawn := [] }

/-- `integrate` of `friction_leapfrog` (integrator.py:716-757): resamples the momentum, then runs the
steps.  `friction` is a number or one number per entry (integrator.py:730-734). -/
noncomputable def fricIntegrate (P : Prng κ) (lay : Layout ι) (noiseModel : Option (NoiseFn ι β μ))
    (friction : ℝ ⊕ (ι → ℝ)) (constMass : Option (ι → ℝ)) (steps : ℕ) (getData : δ → δ × β)
    (sg : StochGrad ι β μ) (s : LeapfrogState ι ℝ κ δ μ) (prm : Params)
    (mass : Option (MassMatrix ι)) : LeapfrogState ι ℝ κ δ μ :=
  let m := resolveMass mass constMass
  let fr : ι → ℝ := match friction with
    | .inl f => fun _ => f
    | .inr f => f
  let tree := randomTree P lay (P.split s.key 2 1)
  let start := { s with
    momentum := m.sqrt.mul tree.1
    key := P.split s.key 2 0
    potential := 0
    drawn := s.drawn ++ tree.2 }
  (List.range steps).foldl (fricBody P lay noiseModel getData sg prm fr m) start

/-! ## langevin_diffusion -/

/-- `Manifold` (adaption.py:53-64). -/
structure Manifold (ι : Type) where
  gInv : VTensor ι
  sqrtGInv : VTensor ι
  gamma : ι → ℝ

/-- An adaption strategy as seen by the integrator (adaption.py:164-222): update and get from state,
sample, gradient and mini-batch. -/
structure AdaptStrategy (ι β A : Type) where
  update : A → (ι → ℝ) → (ι → ℝ) → β → A
  get : A → (ι → ℝ) → (ι → ℝ) → β → Manifold ι

/-- `LangevinState` (integrator.py:78-96). -/
structure LangevinState (ι κ δ μ A : Type) where
  latent : ι → ℝ
  modelState : μ
  key : κ
  adaptState : Option A
  dataState : δ
  potential : ℝ
  variance : ℝ
  drawn : List κ

/-- `jnp.var` of a list: mean of the squared deviations from the mean.
(semantics of `jnp.var` used at integrator.py:880) -/
noncomputable def jnpVar (l : List ℝ) : ℝ :=
  let m := l.sum / l.length
  (l.map (fun x => (x - m) ^ 2)).sum / l.length

/-- `value_and_grad(potential_fn, argnums=0, has_aux=True)` with `likelihoods=True`: potential,
per-observation likelihoods, new model state and gradient.
(integrator.py:792, 875-878) -/
abbrev StochGradLik (ι β μ : Type) := (ι → ℝ) → β → μ → (ℝ × (List ℝ × μ)) × (ι → ℝ)

/-- `init_fn` of `langevin_diffusion` (integrator.py:767-845). -/
def langevinInit {A : Type} (initData : δ) (sample : ι → ℝ) (key : κ) (adaptState : Option A)
    (modelState : μ) : LangevinState ι κ δ μ A :=
  { latent := sample
    modelState := modelState
    key := key
    adaptState := adaptState
    dataState := initData
    potential := 0
    variance := 1
    drawn := [] }

/-- `update_fn` of `langevin_diffusion` (integrator.py:860-922).  If an adaption is used, the state
contains an adaption state. -/
noncomputable def langevinUpdate {A : Type} (P : Prng κ) (lay : Layout ι)
    (adaption : Option (AdaptStrategy ι β A)) (getData : δ → δ × β) (sg : StochGradLik ι β μ)
    (s : LangevinState ι κ δ μ A) (prm : Params) : LangevinState ι κ δ μ A :=
  let tree := randomTree P lay (P.split s.key 2 1)
  let data := getData s.dataState
  let res := sg s.latent data.2 s.modelState
  let scaledGradient := vscale (-prm.stepSize) res.2
  let scaledNoise := vscale (Real.sqrt (2 * prm.temperature * prm.stepSize)) tree.1
  let upd : (ι → ℝ) × Option A := match adaption, s.adaptState with
    | some ad, some a =>
      let a' := ad.update a s.latent res.2 data.2
      let manifold := ad.get a' s.latent res.2 data.2
      (vadd (vadd (vscale prm.stepSize manifold.gamma) (manifold.gInv.mul scaledGradient))
        (manifold.sqrtGInv.mul scaledNoise), some a')
    | _, _ => (vadd scaledGradient scaledNoise, none)
  { latent := vadd s.latent upd.1
    modelState := res.1.2.2
    key := P.split s.key 2 0
    adaptState := upd.2
    dataState := data.1
    potential := res.1.1
    variance := jnpVar res.1.2.1
    drawn := s.drawn ++ tree.2 }

end

end JaxSgmc
