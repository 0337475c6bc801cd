import Verif.Model.FisherFull
import Mathlib.LinearAlgebra.Matrix.PosDef

/-!
# Vocabulary for the noise of SGHMC
-/

namespace JaxSgmc.Spec

open JaxSgmc

variable {ι : Type} [Fintype ι] [DecidableEq ι]

/-- The law of the singular value decomposition: `u` and `vh` are orthogonal, the singular values are not
negative and `u * diag(s) * vh` is the matrix. -/
structure IsSvd (M : Matrix ι ι ℝ) (r : SvdResult ι) : Prop where
  orthU : r.u.transpose * r.u = 1
  orthV : r.vh * r.vh.transpose = 1
  nonneg : ∀ i, 0 ≤ r.s i
  eq : M = r.u * Matrix.diagonal r.s * r.vh

/-- The momentum after a step is `mean + A z` for the standard normal numbers `z` drawn in the step, whatever
they are; the covariance of the injected noise is then `A Aᵀ`. -/
def InjectsCov (momentum : (ι → ℝ) → ι → ℝ) (C : Matrix ι ι ℝ) : Prop :=
  ∃ (mean : ι → ℝ) (A : Matrix ι ι ℝ), (∀ z, momentum z = mean + A.mulVec z) ∧ A * A.transpose = C

/-- The estimate `B` of the gradient noise as documented (Chen et al. 2014): `h / 2` times the second moments of
the deviations of the gradients `g` of the single observations from the centre `c`, divided by `n - 1`. -/
noncomputable def noiseEstimate {n : ℕ} (h : ℝ) (g : Fin n → ι → ℝ) (c : ι → ℝ) : Matrix ι ι ℝ :=
  (h / 2 / ((n : ℝ) - 1)) • ∑ k, Matrix.vecMulVec (g k - c) (g k - c)

/-- A source of random numbers for which a tree of the single vector `ι` of length `d` receives the numbers
`z`. -/
def fixedNormals {d : ℕ} (z : Fin d → ℝ) : Prng Unit :=
  ⟨fun _ _ _ => (), fun _ _ i => if h : i < d then z ⟨i, h⟩ else 0, fun _ => 0⟩

/-- The layout of a single vector of length `d`. -/
def oneVector (d : ℕ) : Layout (Fin d) := ⟨1, fun _ => 0, fun i => i, fun _ => d⟩

end JaxSgmc.Spec
