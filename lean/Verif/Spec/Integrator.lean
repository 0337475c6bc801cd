import Verif.Model.Integrator

/-!
# Specification: mass matrices, noises and mini-batches of a run
-/

namespace JaxSgmc.Spec

variable {ι κ δ β : Type} [Fintype ι]

/-- `inv` and `sqrt` belong to the same mass matrix `M`: `inv` is symmetric, `sqrt` is invertible, and
`sqrtᵀ inv sqrt = 1`, i.e. `sqrt * noise` has covariance `M = inv⁻¹`. -/
structure MassOk (m : MassMatrix ι) : Prop where
  symm : ∀ a b : ι → ℝ, ∑ i, a i * m.inv.mul b i = ∑ i, b i * m.inv.mul a i
  surj : ∀ r : ι → ℝ, ∃ w : ι → ℝ, m.sqrt.mul w = r
  root : ∀ v w : ι → ℝ, ∑ i, m.sqrt.mul v i * m.inv.mul (m.sqrt.mul w) i = ∑ i, v i * w i

/-- The mass matrix a run is supposed to use: the adapted one if there is one; otherwise the diagonal matrix
with the constant masses the user gave, or ones. -/
noncomputable def usedMass {ι : Type} (adapted : Option (MassMatrix ι)) (const : Option (ι → ℝ)) :
    MassMatrix ι :=
  adapted.getD ⟨.diag fun i => (const.getD (fun _ => 1) i)⁻¹,
    .diag fun i => Real.sqrt (const.getD (fun _ => 1) i)⟩

/-- Kinetic energy `½ pᵀ M⁻¹ p`. -/
noncomputable def kinetic (m : MassMatrix ι) (p : ι → ℝ) : ℝ := (∑ i, p i * m.inv.mul p i) / 2

/-- The exponent `½ Σᵢ |ξᵢ|²` of the density of `n` independent standard normal noise vectors. -/
noncomputable def noiseEnergy (ξ : ℕ → ι → ℝ) (n : ℕ) : ℝ :=
  (∑ k ∈ Finset.range n, ∑ i, ξ k i * ξ k i) / 2

/-- The `i`-th mini-batch delivered from data state `d` on. -/
def nthBatch (getData : δ → δ × β) (d : δ) (i : ℕ) : β :=
  (getData ((fun d => (getData d).1)^[i] d)).2

/-- The `i`-th noise vector of a leapfrog run started with key `k`: every step splits the key in a new
key and a key for the noise. -/
def leapNoise {ι : Type} (P : Prng κ) (lay : Layout ι) (k : κ) (i : ℕ) : ι → ℝ :=
  (randomTree P lay (P.split ((fun k => P.split k 2 0)^[i] k) 2 1)).1

/-- The noise vectors of an OBABO run started with key `k`: every step splits the key in a new key and
two keys for noise; noises `2 i` and `2 i + 1` belong to step `i`. -/
def obaboNoise {ι : Type} (P : Prng κ) (lay : Layout ι) (k : κ) (i : ℕ) : ι → ℝ :=
  (randomTree P lay (P.split ((fun k => P.split k 3 0)^[i / 2] k) 3 (1 + i % 2))).1

end JaxSgmc.Spec
