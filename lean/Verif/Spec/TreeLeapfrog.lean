import Verif.Spec.TreeIntegrator
import Verif.Model.TreeLeapfrog

/-! # Vocabulary: integrators with momenta on trees and on vectors -/

namespace JaxSgmc.Spec

open JaxSgmc

/-- A mass on trees of the shape of `x0` and the same mass on vectors. -/
def SameMass (x0 : Tree (Arr ℝ)) (m : MassMatrixT) (m' : MassMatrix (Fin (ravel x0).length)) : Prop :=
  SameTensor x0 m.inv m'.inv ∧ SameTensor x0 m.sqrt m'.sqrt

/-- The masses given to `integrate`: both `None` or the same. -/
def SameMassOpt (x0 : Tree (Arr ℝ)) : Option MassMatrixT → Option (MassMatrix (Fin (ravel x0).length)) → Prop
  | none, none => True
  | some m, some m' => SameMass x0 m m'
  | _, _ => False

/-- The sample is a container (dict, list, tuple), not a single array. -/
def Container (x0 : Tree (Arr ℝ)) : Prop := ∃ k ts, x0 = .node k ts

/-- The constant mass given by the user: `None`, or a tree like the sample with the entries `v`. -/
def SameConstMass (x0 : Tree (Arr ℝ)) (c : Tree (Arr ℝ)) (v : Option (Fin (ravel x0).length → ℝ)) : Prop :=
  match v with
  | none => c = .none
  | some v => Entries x0 c v

/-- A stochastic gradient on trees of the shape of `x0` and the same on vectors. -/
def SameStochGrad {β μ : Type} (x0 : Tree (Arr ℝ)) (sgT : StochGradT β μ)
    (sg : StochGrad (Fin (ravel x0).length) β μ) : Prop :=
  ∀ t v, Entries x0 t v → ∀ b m, (sgT t b m).1 = (sg v b m).1 ∧ Entries x0 (sgT t b m).2 (sg v b m).2

/-- A noise model on trees of the shape of `x0` and the same on vectors. -/
def SameNoise {β μ : Type} (x0 : Tree (Arr ℝ)) :
    Option (NoiseFnT β μ) → Option (NoiseFn (Fin (ravel x0).length) β μ) → Prop
  | none, none => True
  | some f, some f' => ∀ t v, Entries x0 t v → ∀ g w, Entries x0 g w → ∀ c u, Entries x0 c u → ∀ b e m,
      ∃ T, f t g c b e m = .ok T ∧ SameTensor x0 T (f' v w u b e m)
  | _, _ => False

/-- The friction: the same number, a tree like the sample and its entries, or an array which is broadcast to every leaf of
the sample. -/
def SameFriction (x0 : Tree (Arr ℝ)) : ℝ ⊕ Tree (Arr ℝ) → ℝ ⊕ (Fin (ravel x0).length → ℝ) → Prop
  | .inl f, .inl f' => f = f'
  | .inr t, .inr v => Entries x0 t v ∨
      ∃ a u, t = .leaf a ∧ Entries x0 u v ∧ u.leaves.map .ok = x0.leaves.map fun y => Arr.broadcastTo y.shape a
  | _, _ => False

/-- A leapfrog state on trees of the shape of `x0` and the same on vectors. -/
structure SameLeapfrog {κ δ μ : Type} (x0 : Tree (Arr ℝ)) (t : LeapfrogStateT κ δ μ)
    (s : LeapfrogState (Fin (ravel x0).length) ℝ κ δ μ) : Prop where
  positions : Entries x0 t.positions s.positions
  momentum : Entries x0 t.momentum s.momentum
  potential : t.potential = s.potential
  key : t.key = s.key
  dataState : t.dataState = s.dataState
  modelState : t.modelState = s.modelState
  drawn : t.drawn = s.drawn

/-- A state of the OBABO integrator on trees of the shape of `x0` and the same on vectors. -/
structure SameObabo {κ δ μ : Type} (x0 : Tree (Arr ℝ)) (t : ObaboStateT κ δ μ)
    (s : ObaboState (Fin (ravel x0).length) ℝ κ δ μ) : Prop where
  positions : Entries x0 t.positions s.positions
  momentum : Entries x0 t.momentum s.momentum
  potential : t.potential = s.potential
  key : t.key = s.key
  dataState : t.dataState = s.dataState
  modelState : t.modelState = s.modelState
  kineticStart : t.kineticStart = s.kineticStart
  kineticEnd : t.kineticEnd = s.kineticEnd
  drawn : t.drawn = s.drawn

/-- Schedules and adapted masses of the calls of `integrate` in a run. -/
def SameCalls (x0 : Tree (Arr ℝ)) (ps : List (Params × Option MassMatrixT))
    (ps' : List (Params × Option (MassMatrix (Fin (ravel x0).length)))) : Prop :=
  List.Forall₂ (fun p p' => p.1 = p'.1 ∧ SameMassOpt x0 p.2 p'.2) ps ps'

end JaxSgmc.Spec
