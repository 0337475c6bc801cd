import Verif.Model.XFloat

/-! # Vocabulary: potentials of densities which may be zero -/

namespace JaxSgmc.Spec

open JaxSgmc

/-- The value is the logarithm of a density: a number or `-inf`. -/
def IsLogDensity : XF → Prop
  | .fin _ => True
  | .ninf => True
  | _ => False

/-- `v` is the negative logarithm of the posterior density (at temperature `T`): the number given by the usual
formula if the prior density and the densities of all observations are positive, `+inf` if one of them is
zero. -/
def IsPotential {ρ : Type} (ℓ : ρ → XF) (logPrior : XF) (T : ℝ) (obs : List ρ) (v : XF) : Prop :=
  (∃ (f : ρ → ℝ) (g : ℝ), (∀ r ∈ obs, ℓ r = .fin (f r)) ∧ logPrior = .fin g ∧
    v = .fin (-((obs.map f).sum + g) / T)) ∨
  (((∃ r ∈ obs, ℓ r = .ninf) ∨ logPrior = .ninf) ∧ v = .pinf)

end JaxSgmc.Spec
