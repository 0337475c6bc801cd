import Verif.Model.TreeUtil
import Verif.Model.Integrator

/-!
# The integrators on pytrees

`Verif.Model.Integrator` represents a pytree of arrays by the vector of its entries.  Here the functions of
`jax_sgmc/integrator.py` and the decorator of `jax_sgmc/adaption.py` are modelled on trees, with the exceptions
of the functions of `util/tree_util.py`.  Property C108 relates both.
-/

namespace JaxSgmc

variable {κ δ β μ : Type}

/-! ## random_tree, init_mass -/

/-- `random.normal(key, shape)` for an array of the shape of `a` (integrator.py:132-133). -/
def normalLike (P : Prng κ) (key : κ) (a : Arr ℝ) : Arr ℝ :=
  ⟨a.shape, (List.range a.shape.prod).map (P.normal key a.shape.prod)⟩

/-- `random_tree` (integrator.py:119-135), with the keys from which numbers are drawn. -/
def randomTreeT (P : Prng κ) (key : κ) (a : Tree (Arr ℝ)) : Except PyErr (Tree (Arr ℝ) × List κ) :=
  let leaves := a.leaves
  let splits := (List.range leaves.length).map (P.split key leaves.length)
  match Tree.unflatten a (List.zipWith (normalLike P) splits leaves) with
  | .error e => .error e
  | .ok t => .ok (t, splits)

/-! ## The decorator `adaption` and `rms_prop` -/

/-- A strategy on one-dimensional arrays, before it is decorated (for example adaption.py:238-294): `init` from
the flat sample, `update` from state and flat positional arguments, `get` from the same.  A result of `get` is
one- or two-dimensional. -/
structure FlatStrategy (A : Type) where
  init : List ℝ → A
  update : A → List (List ℝ) → Except PyErr A
  get : A → List (List ℝ) → Except PyErr (List (List ℝ ⊕ List (List ℝ)))

/-- `AdaptionState` (adaption.py:38-50): the state and the tree from which `unravel_fn` has been built. -/
structure AdaptionStateT (A : Type) where
  state : A
  template : Tree (Arr ℝ)

/-- `new_init` (adaption.py:128-162) without further positional arguments and without a potential. -/
def adaptInitT {A : Type} (S : FlatStrategy A) (x0 : Tree (Arr ℝ)) : AdaptionStateT A :=
  ⟨S.init (ravel x0), x0⟩

/-- `new_update` (adaption.py:164-193) for a strategy without potential.  The positional arguments are
flattened. -/
def adaptUpdateT {A : Type} (S : FlatStrategy A) (s : AdaptionStateT A) (args : List (List ℝ)) :
    Except PyErr (AdaptionStateT A) :=
  match S.update s.state args with
  | .error e => .error e
  | .ok a => .ok ⟨a, s.template⟩

/-- `unravel_quantities` (adaption.py:214-219): a one-dimensional quantity becomes a tree, a two-dimensional
one stays a matrix. -/
def unravelQuantity (template : Tree (Arr ℝ)) : List ℝ ⊕ List (List ℝ) → Except PyErr (Tensor ℝ)
  | .inl q =>
    match unravel template q with
    | .error e => .error e
    | .ok t => .ok (.diagonal t)
  | .inr m => .ok (.full m)

/-- `new_get` (adaption.py:195-221) for a strategy without potential. -/
def adaptGetT {A : Type} (S : FlatStrategy A) (s : AdaptionStateT A) (args : List (List ℝ)) :
    Except PyErr (List (Tensor ℝ)) :=
  match S.get s.state args with
  | .error e => .error e
  | .ok qs => mapExcept (unravelQuantity s.template) qs

/-- An element-wise operation on two flat arrays, with broadcasting (adaption.py:271). -/
def flatZip (f : ℝ → ℝ → ℝ) (a b : List ℝ) : Except PyErr (List ℝ) :=
  (Arr.zipWith f ⟨[a.length], a⟩ ⟨[b.length], b⟩).map Arr.data

/-- `rms_prop` (adaption.py:225-294) on flat arrays: the state is `v`; the arguments of `update` and `get` are
sample, gradient and anything else. -/
noncomputable def rmsFlat (alpha lmbd : ℝ) : FlatStrategy (List ℝ) where
  init x := x.map fun _ => 1
  update v args :=
    match args with
    | _ :: grad :: _ => flatZip (fun v g => alpha * v + (1 - alpha) * (g * g)) v grad
    | _ => .error .typeError
  get v args :=
    match args with
    | _ :: _ :: _ =>
      let g := v.map fun v => (lmbd + Real.sqrt v) ^ (-1 : ℝ)
      .ok [.inl g, .inl (g.map Real.sqrt), .inl (g.map fun _ => 0)]
    | _ => .error .typeError

/-! ## langevin_diffusion -/

/-- The stochastic gradient with a tree as argument: value, likelihoods, model state and the tree of the
gradient (integrator.py:792, 873-879). -/
abbrev StochGradLikT (β μ : Type) := Tree (Arr ℝ) → β → μ → (ℝ × (List ℝ × μ)) × Tree (Arr ℝ)

/-- `LangevinState` (integrator.py:78-96) with trees. -/
structure LangevinStateT (κ δ μ A : Type) where
  latent : Tree (Arr ℝ)
  modelState : μ
  key : κ
  adaptState : Option (AdaptionStateT A)
  dataState : δ
  potential : ℝ
  variance : ℝ
  drawn : List κ

/-- `init_fn` of `langevin_diffusion` (integrator.py:803-845). -/
def langevinInitT {A : Type} (adaption : Option (FlatStrategy A)) (initData : δ) (sample : Tree (Arr ℝ))
    (key : κ) (modelState : μ) : LangevinStateT κ δ μ A :=
  ⟨sample, modelState, key, adaption.map fun S => adaptInitT S sample, initData, 0, 1, []⟩

/-- The step of `update_fn` of `langevin_diffusion` (integrator.py:885-908) and the new adaption state. -/
noncomputable def langevinStepT {A : Type} (adaption : Option (FlatStrategy A)) (flatBatch : β → List ℝ)
    (latent gradient scaledGradient scaledNoise : Tree (Arr ℝ)) (batch : β) (stepSize : ℝ)
    (adaptState : Option (AdaptionStateT A)) :
    Except PyErr (Tree (Arr ℝ) × Option (AdaptionStateT A)) :=
  match adaption, adaptState with
  | some S, some a =>
    let args := [ravel latent, ravel gradient, flatBatch batch]
    match adaptUpdateT S a args with
    | .error e => .error e
    | .ok a' =>
      match adaptGetT S a' args with
      | .error e => .error e
      | .ok [gInv, sqrtGInv, .diagonal gamma] =>
        match tensorMatmul gInv scaledGradient with
        | .error e => .error e
        | .ok adaptedGradient =>
          match tensorMatmul sqrtGInv scaledNoise with
          | .error e => .error e
          | .ok adaptedNoise =>
            match treeAdd (treeScale stepSize gamma) adaptedGradient with
            | .error e => .error e
            | .ok sum =>
              match treeAdd sum adaptedNoise with
              | .error e => .error e
              | .ok step => .ok (step, some a')
      | .ok _ => .error .typeError
  | some _, none => .error .attributeError
  | none, _ =>
    match treeAdd scaledGradient scaledNoise with
    | .error e => .error e
    | .ok step => .ok (step, none)

/-- `update_fn` of `langevin_diffusion` (integrator.py:860-922) on trees.  The mini-batch is a positional
argument of the adaption (integrator.py:890-900) and is flattened as well (`flatBatch`). -/
noncomputable def langevinUpdateT {A : Type} (P : Prng κ) (adaption : Option (FlatStrategy A))
    (flatBatch : β → List ℝ) (getData : δ → δ × β) (sg : StochGradLikT β μ) (s : LangevinStateT κ δ μ A)
    (prm : Params) : Except PyErr (LangevinStateT κ δ μ A) :=
  let data := getData s.dataState
  match randomTreeT P (P.split s.key 2 1) s.latent with
  | .error e => .error e
  | .ok (noise, keys) =>
    let res := sg s.latent data.2 s.modelState
    let scaledGradient := treeScale (-prm.stepSize) res.2
    let scaledNoise := treeScale (Real.sqrt (2 * prm.temperature * prm.stepSize)) noise
    match langevinStepT adaption flatBatch s.latent res.2 scaledGradient scaledNoise data.2 prm.stepSize
        s.adaptState with
    | .error e => .error e
    | .ok (step, adaptState) =>
      match treeAdd s.latent step with
      | .error e => .error e
      | .ok latent =>
        .ok { latent := latent
              modelState := res.1.2.2
              key := P.split s.key 2 0
              adaptState := adaptState
              dataState := data.1
              potential := res.1.1
              variance := jnpVar res.1.2.1
              drawn := s.drawn ++ keys }

/-- A run of the integrator: the updates with the given schedules (solver.py:153-160). -/
noncomputable def langevinRunT {A : Type} (P : Prng κ) (adaption : Option (FlatStrategy A))
    (flatBatch : β → List ℝ) (getData : δ → δ × β) (sg : StochGradLikT β μ) (s : LangevinStateT κ δ μ A) :
    List Params → Except PyErr (LangevinStateT κ δ μ A)
  | [] => .ok s
  | p :: ps =>
    match langevinUpdateT P adaption flatBatch getData sg s p with
    | .error e => .error e
    | .ok s' => langevinRunT P adaption flatBatch getData sg s' ps

end JaxSgmc
