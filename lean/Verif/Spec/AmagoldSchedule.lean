import Verif.Spec.Oracle
import Verif.Spec.Gradient

/-!
# Vocabulary for averages over chosen samples of runs with changing step sizes
-/

namespace JaxSgmc.Spec

variable {ι β : Type}

/-- The gradients of all mini-batches are bounded on bounded sets of positions, by a bound common to all mini-batches. -/
def LocallyBounded [Fintype ι] (G : (ι → ℝ) → β → (ι → ℝ)) : Prop :=
  ∀ R : ℝ, ∃ B : ℝ, ∀ b q, ‖q‖ ≤ R → ‖G q b‖ ≤ B

/-- The mean of `f` over the samples with the numbers `I`. -/
noncomputable def meanOn (f : (ι → ℝ) → ℝ) (I : Finset ℕ) (xs : List (ι → ℝ)) : ℝ :=
  (∑ i ∈ I, f (xs.getD i 0)) / I.card

/-- All updates use step sizes between `l` and `u`. -/
def StepsBetween (l u : ℝ) (prms : List Params) : Prop := ∀ p ∈ prms, l ≤ p.stepSize ∧ p.stepSize ≤ u

/-- The log-likelihoods of the observations and the log-prior have continuous partial derivatives. -/
structure ContinuousGradients [DecidableEq ι] {ρ : Type} {N : ℕ} (ℓ : (ι → ℝ) → ρ → ℝ) (prior : (ι → ℝ) → ℝ) (obs : Fin N → ρ) :
    Prop where
  likelihood : ∀ j i, Continuous fun x => partialDeriv (fun y => ℓ y (obs j)) x i
  prior : ∀ i, Continuous fun x => partialDeriv prior x i

end JaxSgmc.Spec
