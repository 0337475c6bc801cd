import Verif.Spec.TreeLeapfrog
import Verif.Model.TreeSolver

/-! # Vocabulary: solvers on trees and on vectors -/

namespace JaxSgmc.Spec

open JaxSgmc

variable {κ δ μ φ S Ms A A' : Type}

/-- A mass adaption on flat arrays with the flat initial covariance `cov` and the same adaption on vectors with `n`
entries; `rel` relates their states. -/
structure SameMassAdaption (n : Nat) (cov : List ℝ) (F : FlatMass S) (M : MassAdaption (Fin n) Ms)
    (rel : S → Ms → Prop) : Prop where
  init : ∀ x : Fin n → ℝ, ∃ a, F.init (List.ofFn x) cov = .ok a ∧ rel a (M.init x)
  update : ∀ a a' (x : Fin n → ℝ), rel a a' → ∃ a2, F.update a (List.ofFn x) = .ok a2 ∧ rel a2 (M.update a' x)
  get : ∀ a a', rel a a' → ∃ q1 q2, F.get a = .ok [q1, q2] ∧
    SameQuantity q1 (M.get a').inv ∧ SameQuantity q2 (M.get a').sqrt

/-- Both solvers without mass adaption, or both with the same. -/
def SameMassChoice (n : Nat) (cov : List ℝ) (rel : S → Ms → Prop) :
    Option (FlatMass S) → Option (MassAdaption (Fin n) Ms) → Prop
  | none, none => True
  | some F, some M => SameMassAdaption n cov F M rel
  | _, _ => False

/-- The states of the mass adaption: absent in both solvers, or related. -/
def SameMassState (x0 : Tree (Arr ℝ)) (rel : S → Ms → Prop) : Option (AdaptionStateT S) → Option Ms → Prop
  | none, none => True
  | some a, some a' => a.template = x0 ∧ rel a.state a'
  | _, _ => False

/-- The full potential on trees of the shape of `x0` and on vectors. -/
def SameFullPot (x0 : Tree (Arr ℝ)) (fT : FullPotFnT φ μ) (f : FullPotFn (Fin (ravel x0).length) φ μ) : Prop :=
  ∀ t v, Entries x0 t v → ∀ d m, fT t d m = f v d m

/-- A state of AMAGOLD on trees of the shape of `x0` and the same on vectors. -/
structure SameAmagold (x0 : Tree (Arr ℝ)) (rel : S → Ms → Prop) (t : AmagoldStateT κ δ μ φ S)
    (s : AmagoldState (Fin (ravel x0).length) κ δ μ φ Ms) : Prop where
  positions : Entries x0 t.integratorState.positions s.integratorState.positions
  momentum : Entries x0 t.integratorState.momentum s.integratorState.momentum
  energy : s.integratorState.potential = .fin t.integratorState.potential
  integratorKey : t.integratorState.key = s.integratorState.key
  dataState : t.integratorState.dataState = s.integratorState.dataState
  modelState : t.integratorState.modelState = s.integratorState.modelState
  integratorDrawn : t.integratorState.drawn = s.integratorState.drawn
  potential : t.potential = s.potential
  fullDataState : t.fullDataState = s.fullDataState
  key : t.key = s.key
  acceptanceRatio : t.acceptanceRatio = s.acceptanceRatio
  massState : SameMassState x0 rel t.massState s.massState
  drawn : t.drawn = s.drawn

/-- A state of SGGMC on trees of the shape of `x0` and the same on vectors. -/
structure SameSggmc (x0 : Tree (Arr ℝ)) (rel : S → Ms → Prop) (t : SggmcStateT κ δ μ φ S)
    (s : SggmcState (Fin (ravel x0).length) κ δ μ φ Ms) : Prop where
  positions : Entries x0 t.integratorState.positions s.integratorState.positions
  momentum : Entries x0 t.integratorState.momentum s.integratorState.momentum
  energy : t.integratorState.potential = s.integratorState.potential
  integratorKey : t.integratorState.key = s.integratorState.key
  dataState : t.integratorState.dataState = s.integratorState.dataState
  modelState : t.integratorState.modelState = s.integratorState.modelState
  kineticStart : t.integratorState.kineticStart = 0 ∧ s.integratorState.kineticStart = .fin 0
  kineticEnd : t.integratorState.kineticEnd = 0 ∧ s.integratorState.kineticEnd = .fin 0
  integratorDrawn : t.integratorState.drawn = s.integratorState.drawn
  potential : t.potential = s.potential
  fullDataState : t.fullDataState = s.fullDataState
  key : t.key = s.key
  acceptanceRatio : t.acceptanceRatio = s.acceptanceRatio
  massState : SameMassState x0 rel t.massState s.massState
  drawn : t.drawn = s.drawn

/-- A state of parallel tempering on trees of the shape of `x0` and the same on vectors. -/
structure SamePt (x0 : Tree (Arr ℝ)) (rel : A → A' → Prop) (t : PtStateT κ δ μ A)
    (s : PtState (Fin (ravel x0).length) κ δ μ A') : Prop where
  normal : SameLangevin x0 rel t.normal s.normal
  hot : SameLangevin x0 rel t.hot s.hot
  ssq : t.ssq = s.ssq
  F : t.F = s.F
  step : t.step = s.step
  key : t.key = s.key
  drawn : t.drawn = s.drawn

/-- `jnp.linalg.eigh` on lists of rows and on matrices. -/
def SameEigh (n : Nat) (eighT : List (List ℝ) → List ℝ × List (List ℝ))
    (eigh : Matrix (Fin n) (Fin n) ℝ → (Fin n → ℝ) × Matrix (Fin n) (Fin n) ℝ) : Prop :=
  ∀ a : Matrix (Fin n) (Fin n) ℝ, eighT (List.ofFn fun i => List.ofFn (a i)) =
    (List.ofFn (eigh a).1, List.ofFn fun i => List.ofFn ((eigh a).2 i))

end JaxSgmc.Spec
