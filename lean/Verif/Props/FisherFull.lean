import Verif.Spec.FisherFull
import Mathlib.Analysis.Matrix.Order
import Mathlib.Tactic.Linarith

/-!
# The Fisher information as full noise model: C125
-/

namespace JaxSgmc

open Spec Matrix
open scoped MatrixOrder ComplexOrder

variable {d : ℕ} {δ μ : Type}

theorem psd_trace_svd {ι : Type} [Fintype ι] [DecidableEq ι] (M : Matrix ι ι ℝ) (hM : M.PosSemidef) (r : SvdResult ι) (h : IsSvd M r) :
    M.trace = ∑ i, r.s i := by
  have hsym : M.transpose = M := by
    have := hM.isHermitian
    rw [Matrix.IsHermitian, Matrix.conjTranspose_eq_transpose_of_trivial] at this
    exact this
  set B : Matrix ι ι ℝ := r.u * Matrix.diagonal r.s * r.u.transpose with hB
  have hBpsd : B.PosSemidef := by
    have hd : (Matrix.diagonal r.s).PosSemidef := Matrix.PosSemidef.diagonal h.nonneg
    have := hd.mul_mul_conjTranspose_same r.u
    rwa [Matrix.conjTranspose_eq_transpose_of_trivial] at this
  have hBB : B * B = M * M := by
    have h1 : M * M = M * M.transpose := by rw [hsym]
    rw [h1, h.eq]
    simp only [hB, Matrix.transpose_mul, Matrix.diagonal_transpose]
    calc _ = r.u * Matrix.diagonal r.s * (r.u.transpose * r.u) * Matrix.diagonal r.s * r.u.transpose := by
          simp only [Matrix.mul_assoc]
      _ = r.u * Matrix.diagonal r.s * Matrix.diagonal r.s * r.u.transpose := by
          rw [h.orthU, Matrix.mul_one]
      _ = r.u * Matrix.diagonal r.s * (r.vh * r.vh.transpose) * Matrix.diagonal r.s * r.u.transpose := by
          rw [h.orthV, Matrix.mul_one]
      _ = _ := by simp only [Matrix.mul_assoc]
  have e1 : CFC.sqrt (M * M) = M := (CFC.sqrt_eq_iff _ _ (by
      rw [← hBB]
      have := hBpsd.1
      have h2 : B * B = B * B.conjTranspose := by rw [this.eq]
      rw [h2]; exact (Matrix.posSemidef_self_mul_conjTranspose B).nonneg) hM.nonneg).mpr rfl
  have e2 : CFC.sqrt (M * M) = B := (CFC.sqrt_eq_iff _ _ (by
      rw [← hBB]
      have := hBpsd.1
      have h2 : B * B = B * B.conjTranspose := by rw [this.eq]
      rw [h2]; exact (Matrix.posSemidef_self_mul_conjTranspose B).nonneg) hBpsd.nonneg).mpr hBB
  have e3 : M = B := e1.symm.trans e2
  rw [e3, hB, Matrix.trace_mul_comm, ← Matrix.mul_assoc, h.orthU, Matrix.one_mul, Matrix.trace_diagonal]

/-- The momentum after one step of `friction_leapfrog` with `fisher_information(diagonal=False)`, as function of
the standard normal numbers drawn in the step. -/
noncomputable def fisherMomentum (svd : Matrix (Fin d) (Fin d) ℝ → SvdResult (Fin d)) (N n : ℕ)
    (getData : δ → δ × ((Fin d → ℝ) → Fin n → Fin d → ℝ))
    (sg : StochGrad (Fin d) ((Fin d → ℝ) → Fin n → Fin d → ℝ) μ) (prm : Params) (friction : Fin d → ℝ)
    (mass : MassMatrix (Fin d)) (s : LeapfrogState (Fin d) ℝ Unit δ μ) (z : Fin d → ℝ) : Fin d → ℝ :=
  (fricBody (fixedNormals z) (oneVector d) (some (fisherFullModel svd N n)) getData sg prm friction mass s
    0).momentum

/-- Friction minus the estimated gradient noise `B` at the new positions of the step, for the mini-batch of
the step: `B` is estimated from the deviations of the gradients of the observations from the gradient of the
stochastic potential divided by `N`. -/
noncomputable def frictionMinusB (N n : ℕ) (getData : δ → δ × ((Fin d → ℝ) → Fin n → Fin d → ℝ))
    (sg : StochGrad (Fin d) ((Fin d → ℝ) → Fin n → Fin d → ℝ) μ) (prm : Params) (friction : Fin d → ℝ)
    (mass : MassMatrix (Fin d)) (s : LeapfrogState (Fin d) ℝ Unit δ μ) : Matrix (Fin d) (Fin d) ℝ :=
  let positions := fun i => s.positions i + prm.stepSize * mass.inv.mul s.momentum i
  let batch := (getData s.dataState).2
  Matrix.diagonal friction -
    Spec.noiseEstimate prm.stepSize (batch positions) ((N : ℝ)⁻¹ • (sg positions batch s.modelState).2)

theorem fisherFullB_eq (N n : ℕ) (g : Fin n → Fin d → ℝ) (c : Fin d → ℝ) (h : ℝ) :
    fisherFullB N n g c h = Spec.noiseEstimate h g ((N : ℝ)⁻¹ • c) := by
  ext i j
  simp only [fisherFullB, fisherFullV, Spec.noiseEstimate, Matrix.of_apply, Matrix.smul_apply, Matrix.sum_apply,
    Matrix.vecMulVec_apply, Pi.sub_apply, Pi.smul_apply, smul_eq_mul]
  rw [← mul_assoc]
  congr 1
  · rw [show (0.5 : ℝ) = 1 / 2 by norm_num]
    ring
  · exact Finset.sum_congr rfl fun k _ => by ring

/-- The full claim C125: if friction minus the estimated gradient noise `B` is positive semidefinite, SGHMC with
the full Fisher information injects noise with the covariance `2 * step_size * (friction - B)`. -/
def C125Statement : Prop :=
  ∀ (d N n : ℕ) (svd : Matrix (Fin d) (Fin d) ℝ → SvdResult (Fin d))
    (getData : Unit → Unit × ((Fin d → ℝ) → Fin n → Fin d → ℝ))
    (sg : StochGrad (Fin d) ((Fin d → ℝ) → Fin n → Fin d → ℝ) Unit) (prm : Params) (friction : Fin d → ℝ)
    (mass : MassMatrix (Fin d)) (s : LeapfrogState (Fin d) ℝ Unit Unit Unit), 0 ≤ prm.stepSize →
    let M := frictionMinusB N n getData sg prm friction mass s
    M.PosSemidef → IsSvd M (svd M) →
      InjectsCov (fisherMomentum svd N n getData sg prm friction mass s) ((2 * prm.stepSize) • M)

theorem injectsCov_unique (f : (Fin d → ℝ) → Fin d → ℝ) (C C' : Matrix (Fin d) (Fin d) ℝ)
    (h : InjectsCov f C) (h' : InjectsCov f C') : C = C' := by
  obtain ⟨m, A, hf, rfl⟩ := h
  obtain ⟨m', A', hf', rfl⟩ := h'
  have h0 : m = m' := by
    have := (hf 0).symm.trans (hf' 0)
    simpa using this
  subst h0
  have hA : A = A' := by
    ext i j
    have := congrFun ((hf (Pi.single j 1)).symm.trans (hf' (Pi.single j 1))) i
    simpa using this
  rw [hA]

/-- What the code injects, for every friction and every gradients: independent noise for every variable, with
the squares of `U sqrt(S)` as variances. -/
theorem c125_injected_partial (svd : Matrix (Fin d) (Fin d) ℝ → SvdResult (Fin d)) (N n : ℕ)
    (getData : δ → δ × ((Fin d → ℝ) → Fin n → Fin d → ℝ))
    (sg : StochGrad (Fin d) ((Fin d → ℝ) → Fin n → Fin d → ℝ) μ) (prm : Params) (friction : Fin d → ℝ)
    (mass : MassMatrix (Fin d)) (s : LeapfrogState (Fin d) ℝ Unit δ μ) (hh : 0 ≤ prm.stepSize) :
    let r := svd (frictionMinusB N n getData sg prm friction mass s)
    InjectsCov (fisherMomentum svd N n getData sg prm friction mass s)
      (Matrix.diagonal fun i => 2 * prm.stepSize * (∑ j, r.u i j * Real.sqrt (r.s j)) ^ 2) := by
  intro r
  refine ⟨fun i => s.momentum i + -prm.stepSize * friction i * mass.inv.mul s.momentum i +
      -prm.stepSize * (sg (fun i => s.positions i + prm.stepSize * mass.inv.mul s.momentum i)
        (getData s.dataState).2 s.modelState).2 i,
    Matrix.diagonal fun i => Real.sqrt (2 * prm.stepSize) * ∑ j, r.u i j * Real.sqrt (r.s j), ?_, ?_⟩
  · intro z
    funext i
    have hz : (randomTree (fixedNormals z) (oneVector d) ()).1 i = z i := by
      simp [randomTree, fixedNormals, oneVector]
    have hm : fisherMomentum svd N n getData sg prm friction mass s z i =
        s.momentum i + -prm.stepSize * friction i * mass.inv.mul s.momentum i +
          -prm.stepSize * (sg (fun i => s.positions i + prm.stepSize * mass.inv.mul s.momentum i)
            (getData s.dataState).2 s.modelState).2 i +
          Real.sqrt (2 * prm.stepSize) * ((∑ j, r.u i j * Real.sqrt (r.s j)) *
            (randomTree (fixedNormals z) (oneVector d) ()).1 i) := by
      simp only [r, frictionMinusB, ← fisherFullB_eq]
      rfl
    rw [hm, hz, Pi.add_apply, Matrix.mulVec_diagonal]
    ring
  · rw [Matrix.diagonal_transpose, Matrix.diagonal_mul_diagonal]
    congr 1
    funext i
    rw [mul_mul_mul_comm, Real.mul_self_sqrt (by linarith), sq]

/-- In no step the noise has the claimed covariance if two variables are correlated, whatever decomposition is
found. -/
theorem c125_never (svd : Matrix (Fin d) (Fin d) ℝ → SvdResult (Fin d)) (N n : ℕ)
    (getData : δ → δ × ((Fin d → ℝ) → Fin n → Fin d → ℝ))
    (sg : StochGrad (Fin d) ((Fin d → ℝ) → Fin n → Fin d → ℝ) μ) (prm : Params) (friction : Fin d → ℝ)
    (mass : MassMatrix (Fin d)) (s : LeapfrogState (Fin d) ℝ Unit δ μ) (hh : 0 < prm.stepSize)
    (i j : Fin d) (hij : i ≠ j) (hc : frictionMinusB N n getData sg prm friction mass s i j ≠ 0) :
    ¬ InjectsCov (fisherMomentum svd N n getData sg prm friction mass s)
      ((2 * prm.stepSize) • frictionMinusB N n getData sg prm friction mass s) := by
  intro h
  have h1 := injectsCov_unique _ _ _ (c125_injected_partial svd N n getData sg prm friction mass s hh.le) h
  have h2 := congrFun (congrFun h1 i) j
  rw [Matrix.diagonal_apply_ne _ hij, Matrix.smul_apply, smul_eq_mul] at h2
  exact (mul_ne_zero (by linarith) hc) h2.symm

/-- The total noise is the claimed one: the covariance has the right trace. -/
theorem c125_trace_partial (svd : Matrix (Fin d) (Fin d) ℝ → SvdResult (Fin d)) (N n : ℕ)
    (getData : δ → δ × ((Fin d → ℝ) → Fin n → Fin d → ℝ))
    (sg : StochGrad (Fin d) ((Fin d → ℝ) → Fin n → Fin d → ℝ) μ) (prm : Params) (friction : Fin d → ℝ)
    (mass : MassMatrix (Fin d)) (s : LeapfrogState (Fin d) ℝ Unit δ μ) (hh : 0 ≤ prm.stepSize)
    (hM : (frictionMinusB N n getData sg prm friction mass s).PosSemidef)
    (hsvd : IsSvd (frictionMinusB N n getData sg prm friction mass s)
      (svd (frictionMinusB N n getData sg prm friction mass s))) :
    ∃ C, InjectsCov (fisherMomentum svd N n getData sg prm friction mass s) C ∧
      C.trace = ((2 * prm.stepSize) • frictionMinusB N n getData sg prm friction mass s).trace := by
  refine ⟨_, c125_injected_partial svd N n getData sg prm friction mass s hh, ?_⟩
  rw [Matrix.trace_smul, psd_trace_svd _ hM _ hsvd, Matrix.trace_diagonal, ← Finset.mul_sum, smul_eq_mul]
  congr 1
  set r := svd (frictionMinusB N n getData sg prm friction mass s) with hr
  have h1 : ∑ i, (∑ j, r.u i j * Real.sqrt (r.s j)) ^ 2 =
      (r.u.mulVec fun j => Real.sqrt (r.s j)) ⬝ᵥ (r.u.mulVec fun j => Real.sqrt (r.s j)) := by
    simp only [dotProduct, Matrix.mulVec, sq]
  rw [h1, Matrix.dotProduct_mulVec, Matrix.vecMul_mulVec, hsvd.orthU, Matrix.vecMul_one]
  simp only [dotProduct]
  exact Finset.sum_congr rfl fun i _ => Real.mul_self_sqrt (hsvd.nonneg i)

/-- With a single variable, the claim holds. -/
theorem c125_single_partial (svd : Matrix (Fin 1) (Fin 1) ℝ → SvdResult (Fin 1)) (N n : ℕ)
    (getData : δ → δ × ((Fin 1 → ℝ) → Fin n → Fin 1 → ℝ))
    (sg : StochGrad (Fin 1) ((Fin 1 → ℝ) → Fin n → Fin 1 → ℝ) μ) (prm : Params) (friction : Fin 1 → ℝ)
    (mass : MassMatrix (Fin 1)) (s : LeapfrogState (Fin 1) ℝ Unit δ μ) (hh : 0 ≤ prm.stepSize)
    (hM : 0 ≤ frictionMinusB N n getData sg prm friction mass s 0 0)
    (hsvd : IsSvd (frictionMinusB N n getData sg prm friction mass s)
      (svd (frictionMinusB N n getData sg prm friction mass s))) :
    InjectsCov (fisherMomentum svd N n getData sg prm friction mass s)
      ((2 * prm.stepSize) • frictionMinusB N n getData sg prm friction mass s) := by
  have hp : (frictionMinusB N n getData sg prm friction mass s).PosSemidef := by
    have : frictionMinusB N n getData sg prm friction mass s =
        Matrix.diagonal fun _ => frictionMinusB N n getData sg prm friction mass s 0 0 := by
      ext i j
      rw [Subsingleton.elim i 0, Subsingleton.elim j 0, Matrix.diagonal_apply_eq]
    rw [this]
    exact Matrix.PosSemidef.diagonal fun _ => hM
  obtain ⟨C, hC, ht⟩ := c125_trace_partial svd N n getData sg prm friction mass s hh hp hsvd
  have : C = (2 * prm.stepSize) • frictionMinusB N n getData sg prm friction mass s := by
    ext i j
    rw [Subsingleton.elim i 0, Subsingleton.elim j 0]
    simpa [Matrix.trace] using ht
  rwa [← this]

/-! A concrete case: two observations with opposite gradients `(1, 1)` and `(-1, -1)`, friction 3. -/

/-- The mini-batch. -/
def pairData : Unit → Unit × ((Fin 2 → ℝ) → Fin 2 → Fin 2 → ℝ) :=
  fun _ => ((), fun _ k _ => if k = 0 then 1 else -1)

/-- The decomposition of `[[2, -1], [-1, 2]]`. -/
noncomputable def pairSvd (_ : Matrix (Fin 2) (Fin 2) ℝ) : SvdResult (Fin 2) :=
  ⟨(Real.sqrt 2)⁻¹ • !![1, 1; 1, -1], ![1, 3], (Real.sqrt 2)⁻¹ • !![1, 1; 1, -1]⟩

/-- The state of the integrator. -/
def pairState : LeapfrogState (Fin 2) ℝ Unit Unit Unit := ⟨0, (), fun _ => 0, fun _ => 0, (), (), []⟩

theorem pair_matrix : frictionMinusB 2 2 pairData (fun _ _ _ => ((0, ()), fun _ => 0)) ⟨1, 1⟩ (fun _ => 3)
    (initMass fun _ => 1) pairState = !![2, -1; -1, 2] := by
  ext i j
  fin_cases i <;> fin_cases j <;>
    simp [frictionMinusB, Spec.noiseEstimate, pairData, Matrix.diagonal, Matrix.vecMulVec] <;> norm_num

theorem pair_psd : (!![2, -1; -1, 2] : Matrix (Fin 2) (Fin 2) ℝ).PosSemidef := by
  have h : (!![2, -1; -1, 2] : Matrix (Fin 2) (Fin 2) ℝ) =
      Matrix.diagonal (fun _ => 1) + (!![1, -1; 0, 0] : Matrix (Fin 2) (Fin 2) ℝ).conjTranspose * !![1, -1; 0, 0] := by
    ext i j
    fin_cases i <;> fin_cases j <;> simp [Matrix.mul_apply, Matrix.diagonal] <;> norm_num
  rw [h]
  exact (Matrix.PosSemidef.diagonal fun _ => zero_le_one).add (Matrix.posSemidef_conjTranspose_mul_self _)

theorem pair_svd : IsSvd (!![2, -1; -1, 2] : Matrix (Fin 2) (Fin 2) ℝ) (pairSvd !![2, -1; -1, 2]) := by
  have h2 : (Real.sqrt 2)⁻¹ * (Real.sqrt 2)⁻¹ = 1 / 2 := by
    rw [← mul_inv, Real.mul_self_sqrt (by norm_num)]; norm_num
  refine ⟨?_, ?_, ?_, ?_⟩
  · ext i j
    fin_cases i <;> fin_cases j <;> simp [pairSvd, Matrix.mul_apply, Fin.sum_univ_two] <;> linarith
  · ext i j
    fin_cases i <;> fin_cases j <;> simp [pairSvd, Matrix.mul_apply, Fin.sum_univ_two] <;> linarith
  · intro i
    fin_cases i <;> simp [pairSvd]
  · ext i j
    fin_cases i <;> fin_cases j <;>
      simp [pairSvd, Matrix.mul_apply, Fin.sum_univ_two, -Matrix.cons_mul] <;> linarith

/-- C125 is false: two variables with correlated gradient noise. -/
theorem c125_false : ¬ C125Statement := by
  intro h
  have h1 := h 2 2 2 pairSvd pairData (fun _ _ _ => ((0, ()), fun _ => 0)) ⟨1, 1⟩ (fun _ => 3)
    (initMass fun _ => 1) pairState (by norm_num)
  dsimp only at h1
  refine c125_never pairSvd 2 2 pairData (fun _ _ _ => ((0, ()), fun _ => 0)) ⟨1, 1⟩ (fun _ => 3)
    (initMass fun _ => 1) pairState (by norm_num) 0 1 (by decide) ?_ (h1 ?_ ?_)
  · rw [pair_matrix]; norm_num
  · rw [pair_matrix]; exact pair_psd
  · rw [pair_matrix]; exact pair_svd

/-- The hypotheses of the trace theorem hold in this case. -/
example : ∃ C, InjectsCov (fisherMomentum pairSvd 2 2 pairData (fun _ _ _ => ((0, ()), fun _ => 0)) ⟨1, 1⟩
    (fun _ => 3) (initMass fun _ => 1) pairState) C ∧ C.trace = 8 := by
  obtain ⟨C, h1, h2⟩ := c125_trace_partial pairSvd 2 2 pairData (fun _ _ _ => ((0, ()), fun _ => 0)) ⟨1, 1⟩
    (fun _ => 3) (initMass fun _ => 1) pairState (by norm_num) (by rw [pair_matrix]; exact pair_psd)
    (by rw [pair_matrix]; exact pair_svd)
  refine ⟨C, h1, ?_⟩
  rw [h2, pair_matrix]
  simp [Matrix.trace, Fin.sum_univ_two]
  norm_num

end JaxSgmc
