import Verif.Spec.Invariance
import Verif.Spec.Scheduler
import Mathlib.Probability.Independence.Basic

/-!
# Specification: weighted drawing without replacement
-/

namespace JaxSgmc.Spec

open MeasureTheory ProbabilityTheory

/-- The probability of drawing the numbers `l` in this order from the urn `S` without replacement, if
in every draw each remaining number `i` is drawn with a probability proportional to its weight `p i`. -/
noncomputable def drawProb (p : ℕ → ℝ) : Finset ℕ → List ℕ → ℝ
  | _, [] => 1
  | S, i :: l => (if i ∈ S then p i / ∑ j ∈ S, p j else 0) * drawProb p (S.erase i) l

/-- Ideal Gumbel noise: for every key the numbers are `-log (-log u)` of independent numbers `u`
uniformly distributed on `[0, 1)` (as `jax.random.gumbel` computes them). -/
def IdealGumbel {κ Ω : Type} [MeasurableSpace Ω] (prob : Measure Ω) (gumbel : Ω → κ → ℕ → ℝ) : Prop :=
  ∀ key, ∃ U : ℕ → Ω → ℝ, iIndepFun U prob ∧ (∀ i, Measurable (U i)) ∧
    (∀ i, prob.map (U i) = unif) ∧ ∀ ω i, gumbel ω key i = -Real.log (-Real.log (U i ω))

end JaxSgmc.Spec
