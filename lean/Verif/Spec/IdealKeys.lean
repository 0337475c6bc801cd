import Verif.Spec.Oracle
import Verif.Spec.Gradient
import Verif.Model.DeviceLoader

/-!
# Specification: an ideal random number generator, and data sets

A probability space on which `jax.random` is ideal: the keys are split deterministically, different keys returned by one
call of `random.split` never lead to a common key, numbers drawn with different keys are independent, and the numbers
drawn with one key by `normal`, `uniform` or `randint` have the distribution requested.  Nothing is said about the joint
distribution of the results of several calls with the same key.
-/

namespace JaxSgmc.Spec

open MeasureTheory ProbabilityTheory

variable {ι κ ρ Ω : Type}

/-- What can be known from the numbers drawn with one key. -/
@[instance_reducible]
def keyDrawn (P : Ω → Prng κ) (I : Ω → Randint κ) (k : κ) : MeasurableSpace Ω :=
  MeasurableSpace.comap (fun ω => ((P ω).normal k, (P ω).uniform k)) inferInstance ⊔
    ⨆ (n : ℕ) (N : ℕ), MeasurableSpace.comap (fun ω => (I ω).randint k n N) ⊤

/-- An ideal generator. -/
structure IdealKeys [MeasurableSpace Ω] (prob : Measure Ω) (P : Ω → Prng κ) (I : Ω → Randint κ)
    (split : κ → ℕ → ℕ → κ) : Prop where
  split_eq : ∀ ω, (P ω).split = split
  ideal : ∀ ω, IdealSplit (P ω)
  lawful : ∀ ω, (I ω).Lawful
  measurable : ∀ k, keyDrawn P I k ≤ (inferInstance : MeasurableSpace Ω)
  normal_law : ∀ k n, prob.map (fun ω (i : Fin n) => (P ω).normal k n i) = normals (Fin n)
  uniform_law : ∀ k, prob.map (fun ω => (P ω).uniform k) = unif
  randint_law : ∀ k n N (d : Fin n → Fin N), prob {ω | (I ω).randint k n N = List.ofFn fun i => (d i : ℕ)} = ((N : ENNReal) ^ n)⁻¹
  independent : iIndep (keyDrawn P I) prob

/-- The keys `a` and `b` have no common descendants. -/
def KeysApart (split : κ → ℕ → ℕ → κ) (a b : κ) : Prop := Independent ⟨split, fun _ _ _ => 0, fun _ => 0⟩ a b

/-- The observations of a data set: observation `j` consists of the rows `j` of all arrays. -/
structure IsDataset (data : List (String × List ρ)) (N : ℕ) (obs : Fin N → List (String × ρ)) : Prop where
  length : ∀ c ∈ data, c.2.length = N
  rows : ∀ j : Fin N, List.Forall₂ (fun c r => r.1 = c.1 ∧ c.2[(j : ℕ)]? = some r.2) data (obs j)

/-- The negative log-posterior density (up to a constant) of the data set. -/
noncomputable def dataPotential {N : ℕ} (ℓ : (ι → ℝ) → List (String × ρ) → ℝ) (prior : (ι → ℝ) → ℝ) (obs : Fin N → List (String × ρ))
    (y : ι → ℝ) : ℝ := -((∑ j, ℓ y (obs j)) + prior y)

end JaxSgmc.Spec
