import Verif.Model.Integrator

/-!
# Specification: temperature scales the noise
-/

namespace JaxSgmc.Spec

/-- The generator with the same keys and uniform numbers whose normal numbers are multiplied by `c`. -/
def scaledNoise {κ : Type} (c : ℝ) (P : Prng κ) : Prng κ := ⟨P.split, fun k n i => c * P.normal k n i, P.uniform⟩

/-- "Temperature scales the magnitude of the additional noise" (variance proportional to the temperature) for the
updates `step P p` of an integrator, given a generator and parameters: an update at temperature `T` is the update at
temperature one with all normal numbers multiplied by `√T`. -/
def TemperatureScalesNoise {κ S : Type} (step : Prng κ → S → Params → S) : Prop :=
  ∀ (P : Prng κ) (s : S) (h T : ℝ), 0 ≤ h → 0 ≤ T →
    step P s ⟨h, T⟩ = step (scaledNoise (Real.sqrt T) P) s ⟨h, 1⟩

/-- The temperature has no influence on the updates of an integrator. -/
def IgnoresTemperature {κ S : Type} (step : Prng κ → S → Params → S) : Prop :=
  ∀ (P : Prng κ) (s : S) (h T T' : ℝ), step P s ⟨h, T⟩ = step P s ⟨h, T'⟩

end JaxSgmc.Spec
