import Verif.Spec.Oracle
import Verif.Model.Adaption

/-!
# Specification: runs of AMAGOLD with mass adaption
-/

namespace JaxSgmc.Spec

open JaxSgmc

variable {ι κ δ β φ μ : Type}

/-- The state of AMAGOLD (`amagold` with `reversible_leapfrog`, `L` leapfrog steps and
`mass_matrix(diagonal=True, burn_in=burnIn)` with the initial variances `cov`) after the updates with parameters
`prms`, started with the sample `x₀` and the key `key`. -/
noncomputable def massAdaptedState [Fintype ι] (P : Prng κ) (lay : Layout ι) (γ : ℝ) (burnIn : ℕ) (cov : ι → ℝ)
    (cm : Option (ι → ℝ)) (L : ℕ) (data : δ → δ × β) (d₀ : δ) (sg : StochGrad ι β μ) (fullPot : FullPotFn ι φ μ) (f₀ : φ)
    (ms : μ) (x₀ : ι → ℝ) (key : κ) (prms : List Params) : AmagoldState ι κ δ μ φ (DiagMassState ι) :=
  amagoldRun P (some (diagMassAdaption burnIn cov)) (revForAmagold P lay γ cm L data sg) fullPot
    (amagoldInit P (some (diagMassAdaption burnIn cov)) (revInitForAmagold P lay cm d₀) fullPot f₀ x₀ key ms) prms

/-- The samples reported after each of the updates. -/
noncomputable def massAdaptedSamples [Fintype ι] (P : Prng κ) (lay : Layout ι) (γ : ℝ) (burnIn : ℕ) (cov : ι → ℝ)
    (cm : Option (ι → ℝ)) (L : ℕ) (data : δ → δ × β) (d₀ : δ) (sg : StochGrad ι β μ) (fullPot : FullPotFn ι φ μ) (f₀ : φ)
    (ms : μ) (x₀ : ι → ℝ) (key : κ) (prms : List Params) : List (ι → ℝ) :=
  (List.range prms.length).map fun k =>
    (amagoldGet (massAdaptedState P lay γ burnIn cov cm L data d₀ sg fullPot f₀ ms x₀ key (prms.take (k + 1)))).vars

end JaxSgmc.Spec
