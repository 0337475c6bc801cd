import Verif.Model.Solver
import Verif.Model.TreeUtil
import Mathlib.Data.Matrix.Diagonal

/-!
# Adaption strategies

Models `jax_sgmc/adaption.py`.  The decorator `adaption` (adaption.py:92-104, 107-222) flattens all arguments to
one-dimensional arrays and turns one-dimensional results back into trees; the strategies themselves work
on vectors indexed by `ι`.  The flattening of the optional initial mass is modelled with trees
(`massInitArg`).
-/

namespace JaxSgmc

variable {ι β μ : Type}

/-! ## rms_prop -/

/-- State of RMSprop: `v`, `alpha`, `lmbd` (adaption.py:251-252). -/
structure RmsState (ι : Type) where
  v : ι → ℝ
  alpha : ℝ
  lmbd : ℝ

/-- `init` of `rms_prop` (adaption.py:238-252). -/
def rmsInit (_sample : ι → ℝ) (alpha lmbd : ℝ) : RmsState ι := ⟨fun _ => 1, alpha, lmbd⟩

/-- `update` of `rms_prop` (adaption.py:254-272). -/
def rmsUpdate (s : RmsState ι) (grad : ι → ℝ) : RmsState ι :=
  ⟨fun i => s.alpha * s.v i + (1 - s.alpha) * (grad i * grad i), s.alpha, s.lmbd⟩

/-- `get` of `rms_prop` (adaption.py:274-291). -/
noncomputable def rmsGet (s : RmsState ι) : Manifold ι :=
  let g : ι → ℝ := fun i => (s.lmbd + Real.sqrt (s.v i)) ^ (-1 : ℝ)
  ⟨.diag g, .diag (fun i => Real.sqrt (g i)), fun _ => 0⟩

/-- `rms_prop` as used by `langevin_diffusion`: sample and mini-batch are ignored.
(adaption.py:226-294, called at integrator.py:864-905) -/
noncomputable def rmsStrategy : AdaptStrategy ι β (RmsState ι) :=
  ⟨fun s _ grad _ => rmsUpdate s grad, fun s _ _ _ => rmsGet s⟩

/-! ## mass_matrix -/

/-- State of the diagonal mass adaption: iteration, mean, sum of squares, inverse mass and square root
(adaption.py:339). -/
structure DiagMassState (ι : Type) where
  iteration : ℕ
  mean : ι → ℝ
  ssq : ι → ℝ
  inv : ι → ℝ
  sqrt : ι → ℝ

/-- `init` of `mass_matrix(diagonal=True)` (adaption.py:321-339) for a given initial covariance. -/
noncomputable def diagMassInit (initCov : ι → ℝ) : DiagMassState ι :=
  ⟨0, fun _ => 0, fun _ => 0, initCov, fun i => 1 / Real.sqrt (initCov i)⟩

/-- `update` of `mass_matrix(diagonal=True)` (adaption.py:309-319, 341-362). -/
noncomputable def diagMassUpdate (burnIn : ℕ) (s : DiagMassState ι) (sample : ι → ℝ) :
    DiagMassState ι :=
  let iteration := s.iteration + 1
  let newMean : ι → ℝ := fun i =>
    ((iteration : ℝ) - 1) / iteration * s.mean i + 1 / iteration * sample i
  let ssq : ι → ℝ := fun i => s.ssq i + (sample i - s.mean i) * (sample i - newMean i)
  if iteration = burnIn then
    ⟨iteration, newMean, ssq, fun i => ssq i / iteration, fun i => Real.sqrt (iteration / ssq i)⟩
  else ⟨iteration, newMean, ssq, s.inv, s.sqrt⟩

/-- `get` of `mass_matrix(diagonal=True)` (adaption.py:364-367). -/
def diagMassGet (s : DiagMassState ι) : MassMatrix ι := ⟨.diag s.inv, .diag s.sqrt⟩

/-- The diagonal mass adaption as used by the solvers.
(adaption.py:297-370, called at solver.py:408-412, 551-555) -/
noncomputable def diagMassAdaption (burnIn : ℕ) (initCov : ι → ℝ) :
    MassAdaption ι (DiagMassState ι) :=
  ⟨fun _ => diagMassInit initCov, diagMassUpdate burnIn, diagMassGet⟩

/-- State of the full mass adaption (adaption.py:339). -/
structure FullMassState (ι : Type) where
  iteration : ℕ
  mean : ι → ℝ
  ssq : Matrix ι ι ℝ
  inv : Matrix ι ι ℝ
  sqrt : Matrix ι ι ℝ

section
variable [Fintype ι] [DecidableEq ι]

/-- `init` of `mass_matrix(diagonal=False)` (adaption.py:321-339). -/
noncomputable def fullMassInit (initCov : ι → ℝ) : FullMassState ι :=
  ⟨0, fun _ => 0, 0, Matrix.diagonal initCov, Matrix.diagonal (fun i => 1 / Real.sqrt (initCov i))⟩

/-- `update` of `mass_matrix(diagonal=False)` (adaption.py:309-319, 341-362).  `eigh` is
`jnp.linalg.eigh`: eigenvalues and the matrix whose columns are the eigenvectors. -/
noncomputable def fullMassUpdate (eigh : Matrix ι ι ℝ → (ι → ℝ) × Matrix ι ι ℝ) (burnIn : ℕ)
    (s : FullMassState ι) (sample : ι → ℝ) : FullMassState ι :=
  let iteration := s.iteration + 1
  let newMean : ι → ℝ := fun i =>
    ((iteration : ℝ) - 1) / iteration * s.mean i + 1 / iteration * sample i
  let ssq : Matrix ι ι ℝ := fun i j => s.ssq i j + (sample i - s.mean i) * (sample j - newMean j)
  if iteration = burnIn then
    let inv : Matrix ι ι ℝ := fun i j => ssq i j / iteration
    let e := eigh inv
    ⟨iteration, newMean, ssq, inv,
      e.2.transpose * (Matrix.diagonal (fun i => Real.sqrt (e.1 i)) * e.2)⟩
  else ⟨iteration, newMean, ssq, s.inv, s.sqrt⟩

/-- `get` of `mass_matrix(diagonal=False)` (adaption.py:364-367). -/
def fullMassGet (s : FullMassState ι) : MassMatrix ι := ⟨.full s.inv, .full s.sqrt⟩

end

/-- The second argument of `init` after flattening by the decorator (adaption.py:132-138) for the
argument `initial_mass` of amagold and sggmc (solver.py:331, 487): every positional argument is
flattened, and `ravel_pytree(None)` is the empty vector because `None` is a tree without leaves. -/
def massInitArg {R : Type} (initialMass : Option (Tree (Arr R))) : Option (List R) :=
  match initialMass with
  | some t => some (ravel t)
  | none => some []

/-- `init` of `mass_matrix(diagonal=True)` followed by `get` (adaption.py:321-339, 364-367, 214-221) as
executed by the solvers: the inverse mass as a tree shaped like the sample. -/
def massInvTree {R : Type} [One R] (sample : Tree (Arr R)) (initialMass : Option (Tree (Arr R))) :
    Except PyErr (Tree (Arr R)) :=
  let initCov := match massInitArg initialMass with
    | some v => v
    | none => (ravel sample).map (fun _ => (1 : R))
  unravel sample initCov

/-! ## fisher_information -/

/-- `get` of `fisher_information(diagonal=True)` (adaption.py:394-444): the quantities `v` and `b`.
`N` and `n` are the numbers of observations of dataset and mini-batch, `perObs` the gradients of
the likelihoods of the single observations, `sampleGrad` the gradient of the stochastic potential. -/
noncomputable def fisherV (N n : ℕ) (perObs : Fin n → ι → ℝ) (sampleGrad : ι → ℝ) : ι → ℝ :=
  fun i => 1 / ((n : ℝ) - 1) * ∑ k, (perObs k i - sampleGrad i / N) ^ 2

open Classical in
/-- The tensor `cb_diff_sqrt` of `fisher_information(diagonal=True)` (adaption.py:428-443).  The smallest
positive correction is `+inf` if there is none; this is reported as `none` (infinite noise). -/
noncomputable def fisherNoise [Fintype ι] (N n : ℕ) (perObs : Fin n → ι → ℝ) (sampleGrad friction : ι → ℝ)
    (stepSize : ℝ) : Option (ι → ℝ) :=
  let b : ι → ℝ := fun i => 0.5 * stepSize * fisherV N n perObs sampleGrad i
  let correction : ι → ℝ := fun i => friction i - b i
  let positive : Finset ι := Finset.univ.filter (fun i => 0 < correction i)
  if h : positive.Nonempty then
    let smallest := positive.inf' h correction
    some (fun i => Real.sqrt (if correction i ≤ 0 then smallest else correction i))
  else if Nonempty ι then none else some (fun _ => 0)

end JaxSgmc
