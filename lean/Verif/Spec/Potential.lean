import Verif.Model.Potential
import Mathlib.Algebra.BigOperators.Group.Finset.Basic

/-!
# Vocabulary for stating properties of potentials
-/

namespace JaxSgmc.Spec

open JaxSgmc

/-- The log-likelihood of observation `r` for the sample `x` is `ℓ r`, whatever the model state is. -/
def LogLik {K ρ S θ : Type} (lik : Likelihood K ρ S θ) (x : θ) (ℓ : ρ → K) : Prop :=
  match lik with
  | .plain f => ∀ r, f x r = ℓ r
  | .stateful f => ∀ st r, (f st x r).1 = ℓ r
  | .batched f => ∀ rows, f x rows = rows.map ℓ
  | .batchedStateful f => ∀ st rows, (f st x rows).1 = rows.map ℓ

/-- The model state fits to the likelihood: a likelihood without state is used without state, a
likelihood with state returns a state if it got one. -/
def StateFits {K ρ S θ : Type} (lik : Likelihood K ρ S θ) (x : θ) (st : Option S) : Prop :=
  match lik with
  | .plain _ => st = none
  | .stateful f => ∀ st' r, st'.isSome = st.isSome → (f st' x r).2.isSome = st.isSome
  | .batched _ => st = none
  | .batchedStateful f => ∀ st' rows, st'.isSome = st.isSome → (f st' x rows).2.isSome = st.isSome

/-- The batch size fits to the likelihood: a batched likelihood needs at least two observations (the result of a
single one is squeezed to a scalar, of which no mean over the first axis can be taken). -/
def BatchFits {K ρ S θ : Type} (lik : Likelihood K ρ S θ) (n : Nat) : Prop :=
  match lik with
  | .plain _ | .stateful _ => 1 ≤ n
  | .batched _ | .batchedStateful _ => 2 ≤ n

/-- The exact potential (negative log-posterior at temperature `T`) of a dataset. -/
def exactPotential {K ρ : Type} [Field K] (ℓ : ρ → K) (logPrior T : K) (obs : List ρ) : K :=
  -((obs.map ℓ).sum + logPrior) / T

end JaxSgmc.Spec
