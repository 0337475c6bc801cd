import Verif.Model.Solver
import Mathlib.MeasureTheory.Measure.Lebesgue.Basic

/-!
# Vocabulary for the swaps of parallel tempering
-/

namespace JaxSgmc.Spec

open JaxSgmc MeasureTheory

variable {X : Type}

/-- The weights of the pairs (normal, hot) after one step, if the pairs had the weights `w` before and the
step depends on a uniform random number: `step x y u` is the pair reached from `(x, y)`. -/
noncomputable def weightsAfter (S : Finset X) (w : X → X → ℝ) (step : X → X → ℝ → X × X) (x' y' : X) : ℝ :=
  ∑ x ∈ S, ∑ y ∈ S, w x y * (volume {u : ℝ | (0 ≤ u ∧ u < 1) ∧ step x y u = (x', y')}).toReal

/-- The joint weights of a chain at temperature `t₁` and a chain at temperature `t₂` for the
potential `U`. -/
noncomputable def tempered (U : X → ℝ) (t₁ t₂ : ℝ) (x y : X) : ℝ :=
  Real.exp (-(U x) / t₁) * Real.exp (-(U y) / t₂)

/-- The exchange of replica exchange Monte Carlo: swap if the uniform number is below the ratio of the
weights. -/
noncomputable def exactSwap (U : X → ℝ) (t₁ t₂ : ℝ) (x y : X) (u : ℝ) : X × X :=
  if u < Real.exp ((1 / t₁ - 1 / t₂) * (U x - U y)) then (y, x) else (x, y)

/-- The positions of the normal and the hot chain after one update of `parallel_tempering`, if the
integrator does not move the chains and computes the exact potential `U` (without variance), the uniform
random number being `u`. -/
noncomputable def restUpdate {ι : Type} (U : (ι → ℝ) → ℝ) (t₁ t₂ : ℝ) (x y : ι → ℝ) (u : ℝ) :
    (ι → ℝ) × (ι → ℝ) :=
  let chain (x : ι → ℝ) : LangevinState ι Unit Unit Unit Unit := ⟨x, (), (), none, (), U x, 0, []⟩
  let P : Prng Unit := ⟨fun _ _ _ => (), fun _ _ _ => 0, fun _ => u⟩
  let s := ptUpdate P (fun n => 1 / n) (fun s _ => s) ⟨chain x, chain y, 0, 1, 0, (), []⟩ ⟨1, t₁⟩ ⟨1, t₂⟩
  (s.normal.latent, s.hot.latent)

end JaxSgmc.Spec
