import Verif.Model.Integrator

/-!
# `fisher_information(diagonal=False)`

Models the second branch of `fisher_information` in `jax_sgmc/adaption.py`.  The singular value
decomposition is a parameter; its law is stated in `Verif.Spec.FisherFull`.
-/

namespace JaxSgmc

variable {ι : Type}

/-- `v` of `fisher_information(diagonal=False)` (adaption.py:407, 416-425, 446): `N` and `n` are the numbers
of observations of dataset and mini-batch, `perObs` the gradients of the likelihoods of the single
observations, `sampleGrad` the gradient of the stochastic potential. -/
noncomputable def fisherFullV (N n : ℕ) (perObs : Fin n → ι → ℝ) (sampleGrad : ι → ℝ) : Matrix ι ι ℝ :=
  Matrix.of fun i j =>
    1 / ((n : ℝ) - 1) * ∑ k, (perObs k i - sampleGrad i / N) * (perObs k j - sampleGrad j / N)

/-- `b` of `fisher_information(diagonal=False)` (adaption.py:447). -/
noncomputable def fisherFullB (N n : ℕ) (perObs : Fin n → ι → ℝ) (sampleGrad : ι → ℝ) (stepSize : ℝ) :
    Matrix ι ι ℝ :=
  Matrix.of fun i j => 0.5 * stepSize * fisherFullV N n perObs sampleGrad i j

/-- The result of `jnp.linalg.svd`: `u`, `s` and `vh` (adaption.py:450). -/
structure SvdResult (ι : Type) where
  u : Matrix ι ι ℝ
  s : ι → ℝ
  vh : Matrix ι ι ℝ

/-- The tensor `cb_diff_sqrt` of `fisher_information(diagonal=False)` (adaption.py:445-453): the product of a
matrix and a vector, hence an array with one dimension, which the decorator (adaption.py:214-219) turns
into a tensor with `ndim == 1`. -/
noncomputable def fisherFullNoise [Fintype ι] [DecidableEq ι] (svd : Matrix ι ι ℝ → SvdResult ι) (N n : ℕ)
    (perObs : Fin n → ι → ℝ) (sampleGrad friction : ι → ℝ) (stepSize : ℝ) : VTensor ι :=
  let r := svd (Matrix.diagonal friction - fisherFullB N n perObs sampleGrad stepSize)
  .diag (r.u.mulVec fun i => Real.sqrt (r.s i))

/-- `fisher_information(diagonal=False)` as noise model of `friction_leapfrog` (adaption.py:394-455,
called at integrator.py:641-648).  A mini-batch is represented by the gradients of the likelihoods of its
observations, as functions of the positions (the model state is ignored). -/
noncomputable def fisherFullModel [Fintype ι] [DecidableEq ι] {μ : Type} (svd : Matrix ι ι ℝ → SvdResult ι)
    (N n : ℕ) : NoiseFn ι ((ι → ℝ) → Fin n → ι → ℝ) μ :=
  fun positions gradient friction batch stepSize _ =>
    fisherFullNoise svd N n (batch positions) gradient friction stepSize

end JaxSgmc
