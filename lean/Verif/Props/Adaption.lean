import Verif.Model.Adaption
import Verif.Spec.Adaption
import Verif.Spec.Integrator
import Verif.Props.TreeUtil
import Mathlib.Data.List.Induction
import Mathlib.LinearAlgebra.Matrix.Determinant.Basic
import Mathlib.Tactic.FinCases

/-!
# Properties of the mass adaption and the Fisher information: C70, C71, C72, C73
-/

namespace JaxSgmc

variable {ι : Type}

/-! ## Welford's algorithm -/

/-- The invariant of Welford's algorithm for two coordinates. -/
theorem welford_step {n : ℕ} {Sa Sb Sab a b ma mb c : ℝ} (hma : ma * n = Sa) (hmb : mb * n = Sb)
    (hc : c = Sab - ma * Sb) :
    let ma' := (((n + 1 : ℕ) : ℝ) - 1) / ((n + 1 : ℕ) : ℝ) * ma + 1 / ((n + 1 : ℕ) : ℝ) * a
    let mb' := (((n + 1 : ℕ) : ℝ) - 1) / ((n + 1 : ℕ) : ℝ) * mb + 1 / ((n + 1 : ℕ) : ℝ) * b
    ma' * ((n + 1 : ℕ) : ℝ) = Sa + a ∧ mb' * ((n + 1 : ℕ) : ℝ) = Sb + b ∧
      c + (a - ma) * (b - mb') = (Sab + a * b) - ma' * (Sb + b) := by
  have hn : ((n + 1 : ℕ) : ℝ) ≠ 0 := by positivity
  have e1 : ((n + 1 : ℕ) : ℝ) - 1 = n := by push_cast; ring
  have h1 : ((((n + 1 : ℕ) : ℝ) - 1) / ((n + 1 : ℕ) : ℝ) * ma + 1 / ((n + 1 : ℕ) : ℝ) * a) *
      ((n + 1 : ℕ) : ℝ) = Sa + a := by
    rw [e1]; field_simp; linarith
  have h2 : ((((n + 1 : ℕ) : ℝ) - 1) / ((n + 1 : ℕ) : ℝ) * mb + 1 / ((n + 1 : ℕ) : ℝ) * b) *
      ((n + 1 : ℕ) : ℝ) = Sb + b := by
    rw [e1]; field_simp; linarith
  refine ⟨h1, h2, ?_⟩
  set ma' := (((n + 1 : ℕ) : ℝ) - 1) / ((n + 1 : ℕ) : ℝ) * ma + 1 / ((n + 1 : ℕ) : ℝ) * a
  set mb' := (((n + 1 : ℕ) : ℝ) - 1) / ((n + 1 : ℕ) : ℝ) * mb + 1 / ((n + 1 : ℕ) : ℝ) * b
  have e2 : ((n + 1 : ℕ) : ℝ) = n + 1 := by push_cast; ring
  rw [e2] at h1 h2
  rw [hc, ← h2]
  have h3 : ma' * (n + 1) = ma * n + a := by rw [h1, hma]
  have h4 : mb * n + b = mb' * (n + 1) := by rw [h2, hmb]
  have h5 : Sb = mb * n := hmb.symm
  rw [h5]
  linear_combination (-ma) * h4 + mb' * h3

/-- The sums of Welford's algorithm are those of the population covariance. -/
theorem popCov_eq (xs : List (ι → ℝ)) (i j : ι) :
    Spec.popCov xs i j * xs.length = (xs.map fun x => x i * x j).sum -
      Spec.sampleMean xs i * (xs.map fun x => x j).sum := by
  rcases Nat.eq_zero_or_pos xs.length with h | h
  · rw [List.length_eq_zero_iff] at h; subst h; simp [Spec.popCov]
  have hn : (xs.length : ℝ) ≠ 0 := by positivity
  have key : ∀ (ys : List (ι → ℝ)) (a b : ℝ), (ys.map fun x => (x i - a) * (x j - b)).sum =
      (ys.map fun x => x i * x j).sum - a * (ys.map fun x => x j).sum -
        b * (ys.map fun x => x i).sum + a * b * ys.length := by
    intro ys a b
    induction ys with
    | nil => simp
    | cons y ys ih =>
      simp only [List.map_cons, List.sum_cons, List.length_cons, ih]; push_cast; ring
  unfold Spec.popCov
  rw [div_mul_cancel₀ _ hn, key]
  have hi : Spec.sampleMean xs i * xs.length = (xs.map fun x => x i).sum := by
    unfold Spec.sampleMean; rw [div_mul_cancel₀ _ hn]
  rw [← hi]; ring

/-- The mean after one more sample. -/
noncomputable def welMean (n : ℕ) (m x : ι → ℝ) : ι → ℝ := fun i =>
  (((n + 1 : ℕ) : ℝ) - 1) / ((n + 1 : ℕ) : ℝ) * m i + 1 / ((n + 1 : ℕ) : ℝ) * x i

section
variable (b : ℕ) (s : DiagMassState ι) (x : ι → ℝ)

theorem diagUpd_iteration : (diagMassUpdate b s x).iteration = s.iteration + 1 := by
  unfold diagMassUpdate; dsimp only; split <;> rfl

theorem diagUpd_mean : (diagMassUpdate b s x).mean = welMean s.iteration s.mean x := by
  unfold diagMassUpdate; dsimp only; split <;> rfl

theorem diagUpd_ssq : (diagMassUpdate b s x).ssq = fun i => s.ssq i +
    (x i - s.mean i) * (x i - welMean s.iteration s.mean x i) := by
  unfold diagMassUpdate; dsimp only; split <;> rfl

theorem diagUpd_ne (h : s.iteration + 1 ≠ b) :
    (diagMassUpdate b s x).inv = s.inv ∧ (diagMassUpdate b s x).sqrt = s.sqrt := by
  unfold diagMassUpdate; dsimp only; rw [if_neg h]; exact ⟨rfl, rfl⟩

theorem diagUpd_eq (h : s.iteration + 1 = b) :
    ((diagMassUpdate b s x).inv = fun i => (diagMassUpdate b s x).ssq i / (b : ℝ)) ∧
    (diagMassUpdate b s x).sqrt = fun i => Real.sqrt ((b : ℝ) / (diagMassUpdate b s x).ssq i) := by
  subst h; unfold diagMassUpdate; dsimp only; rw [if_pos rfl]; exact ⟨rfl, rfl⟩

end

theorem diagMass_iteration (b : ℕ) (cov : ι → ℝ) (xs : List (ι → ℝ)) :
    (xs.foldl (diagMassUpdate b) (diagMassInit cov)).iteration = xs.length := by
  induction xs using List.reverseRecOn with
  | nil => rfl
  | append_singleton xs x ih =>
    rw [List.foldl_append, List.foldl_cons, List.foldl_nil, diagUpd_iteration, ih, List.length_append,
      List.length_singleton]

/-- State of the diagonal adaption after the samples `xs`. -/
theorem diagMass_sums (b : ℕ) (cov : ι → ℝ) (xs : List (ι → ℝ)) (i : ι) :
    (xs.foldl (diagMassUpdate b) (diagMassInit cov)).mean i * xs.length =
      (xs.map fun x => x i).sum ∧
    (xs.foldl (diagMassUpdate b) (diagMassInit cov)).ssq i =
      (xs.map fun x => x i * x i).sum -
        (xs.foldl (diagMassUpdate b) (diagMassInit cov)).mean i * (xs.map fun x => x i).sum := by
  induction xs using List.reverseRecOn with
  | nil => simp [diagMassInit]
  | append_singleton xs x ih =>
    obtain ⟨h2, h3⟩ := ih
    obtain ⟨w1, -, w3⟩ := welford_step (a := x i) (b := x i) h2 h2 h3
    simp only [List.map_append, List.sum_append, List.map_cons, List.map_nil, List.sum_singleton,
      List.length_append, List.length_singleton]
    rw [List.foldl_append, List.foldl_cons, List.foldl_nil, diagUpd_mean, diagUpd_ssq,
      diagMass_iteration]
    exact ⟨w1, w3⟩

theorem diagMass_var (b : ℕ) (cov : ι → ℝ) (xs : List (ι → ℝ)) (i : ι) :
    (xs.foldl (diagMassUpdate b) (diagMassInit cov)).ssq i = Spec.popCov xs i i * xs.length := by
  obtain ⟨h2, h3⟩ := diagMass_sums b cov xs i
  rw [popCov_eq, h3]
  congr 1
  rcases Nat.eq_zero_or_pos xs.length with h | h
  · rw [List.length_eq_zero_iff] at h; subst h; simp
  congr 1
  unfold Spec.sampleMean
  rw [← h2, mul_div_cancel_right₀]
  positivity

/-! ## C70 -/

/-- C70, before the adaption: for fewer than `burnIn` updates, the mass is the initial one. -/
theorem c70_before (burnIn : ℕ) (cov : ι → ℝ) (xs : List (ι → ℝ)) (h : xs.length < burnIn) :
    diagMassGet (xs.foldl (diagMassUpdate burnIn) (diagMassInit cov)) =
      ⟨.diag cov, .diag (fun i => 1 / Real.sqrt (cov i))⟩ := by
  suffices hs : (xs.foldl (diagMassUpdate burnIn) (diagMassInit cov)).inv = cov ∧
      (xs.foldl (diagMassUpdate burnIn) (diagMassInit cov)).sqrt =
        fun i => 1 / Real.sqrt (cov i) by
    simp only [diagMassGet, hs.1, hs.2]
  induction xs using List.reverseRecOn with
  | nil => exact ⟨rfl, rfl⟩
  | append_singleton xs x ih =>
    rw [List.length_append, List.length_singleton] at h
    rw [List.foldl_append, List.foldl_cons, List.foldl_nil]
    obtain ⟨h1, h2⟩ := diagUpd_ne burnIn (xs.foldl (diagMassUpdate burnIn) (diagMassInit cov)) x
      (by rw [diagMass_iteration]; omega)
    rw [h1, h2]
    exact ih (by omega)

/-- C70, from the adaption on: after at least `burnIn` updates, the inverse mass is the population
variance of the first `burnIn` samples, whatever samples follow; where it is positive, the square root is
the square root of the mass. -/
theorem c70_adapted (burnIn : ℕ) (hb : 0 < burnIn) (cov : ι → ℝ) (xs ys : List (ι → ℝ))
    (h : xs.length = burnIn) :
    ∃ inv sqrt : ι → ℝ,
      diagMassGet ((xs ++ ys).foldl (diagMassUpdate burnIn) (diagMassInit cov)) =
        ⟨.diag inv, .diag sqrt⟩ ∧
      (∀ i, inv i = Spec.popCov xs i i) ∧
      ∀ i, 0 < Spec.popCov xs i i → 0 < sqrt i ∧ sqrt i * sqrt i * inv i = 1 := by
  have hb' : (0 : ℝ) < burnIn := by exact_mod_cast hb
  induction ys using List.reverseRecOn with
  | nil =>
    rw [List.append_nil]
    obtain ⟨zs, x, rfl⟩ : ∃ zs x, xs = zs ++ [x] := by
      rcases List.eq_nil_or_concat xs with h0 | ⟨zs, x, h0⟩
      · subst h0; simp at h; omega
      · exact ⟨zs, x, by simpa using h0⟩
    have hv := fun i => diagMass_var burnIn cov (zs ++ [x]) i
    rw [List.foldl_append, List.foldl_cons, List.foldl_nil] at hv ⊢
    rw [List.length_append, List.length_singleton] at h
    obtain ⟨h1, h2⟩ := diagUpd_eq burnIn (zs.foldl (diagMassUpdate burnIn) (diagMassInit cov)) x
      (by rw [diagMass_iteration]; exact h)
    rw [List.length_append, List.length_singleton, h] at hv
    refine ⟨_, _, rfl, fun i => ?_, fun i hp => ?_⟩
    · rw [h1]; dsimp only; rw [hv, mul_div_cancel_right₀ _ hb'.ne']
    · rw [h1, h2]
      dsimp only
      rw [hv]
      have hq : 0 < (burnIn : ℝ) / (Spec.popCov (zs ++ [x]) i i * burnIn) := by positivity
      refine ⟨Real.sqrt_pos.mpr hq, ?_⟩
      rw [Real.mul_self_sqrt hq.le]
      field_simp
  | append_singleton ys y ih =>
    obtain ⟨inv, sqrt, he, h2⟩ := ih
    refine ⟨inv, sqrt, ?_, h2⟩
    rw [← List.append_assoc, List.foldl_append, List.foldl_cons, List.foldl_nil, ← he]
    obtain ⟨h3, h4⟩ := diagUpd_ne burnIn ((xs ++ ys).foldl (diagMassUpdate burnIn) (diagMassInit cov)) y
      (by rw [diagMass_iteration, List.length_append]; omega)
    simp only [diagMassGet, h3, h4]

/-- C70 as used by AMAGOLD and SGGMC: the adapted pair belongs to one mass matrix, if all variances are
positive. -/
theorem c70_massOk [Fintype ι] (burnIn : ℕ) (hb : 0 < burnIn) (cov : ι → ℝ) (xs ys : List (ι → ℝ))
    (h : xs.length = burnIn) (hp : ∀ i, 0 < Spec.popCov xs i i) :
    Spec.MassOk ((diagMassAdaption burnIn cov).get ((xs ++ ys).foldl (diagMassAdaption burnIn cov).update
      ((diagMassAdaption burnIn cov).init cov))) := by
  obtain ⟨inv, sqrt, he, -, h3⟩ := c70_adapted burnIn hb cov xs ys h
  have he' : (diagMassAdaption burnIn cov).get ((xs ++ ys).foldl (diagMassAdaption burnIn cov).update
      ((diagMassAdaption burnIn cov).init cov)) = ⟨.diag inv, .diag sqrt⟩ := he
  rw [he']
  refine ⟨fun a b => ?_, fun r => ⟨fun i => r i / sqrt i, ?_⟩, fun v w => ?_⟩
  · exact Finset.sum_congr rfl fun i _ => by simp only [VTensor.mul]; ring
  · funext i
    simp only [VTensor.mul]
    exact mul_div_cancel₀ _ (h3 i (hp i)).1.ne'
  · refine Finset.sum_congr rfl fun i _ => ?_
    simp only [VTensor.mul]
    have := (h3 i (hp i)).2
    linear_combination (v i * w i) * this

/-- A case of `c70_adapted` and `c70_massOk`: two samples of two variables with different values. -/
example : ∃ xs : List (Fin 2 → ℝ), xs.length = 2 ∧ ∀ i, 0 < Spec.popCov xs i i := by
  refine ⟨[![0, 1], ![2, 5]], rfl, fun i => ?_⟩
  fin_cases i <;> norm_num [Spec.popCov, Spec.sampleMean]

/-! ## C71 -/

section
variable [Fintype ι] [DecidableEq ι]

/-- The state of `mass_matrix(diagonal=False)` after the samples `xs`. -/
noncomputable def fullMassRun (eigh : Matrix ι ι ℝ → (ι → ℝ) × Matrix ι ι ℝ) (burnIn : ℕ) (cov : ι → ℝ)
    (xs : List (ι → ℝ)) : FullMassState ι :=
  xs.foldl (fullMassUpdate eigh burnIn) (fullMassInit cov)

variable (eigh : Matrix ι ι ℝ → (ι → ℝ) × Matrix ι ι ℝ)

theorem fullMassRun_snoc (b : ℕ) (cov : ι → ℝ) (xs : List (ι → ℝ)) (x : ι → ℝ) :
    fullMassRun eigh b cov (xs ++ [x]) = fullMassUpdate eigh b (fullMassRun eigh b cov xs) x := by
  simp [fullMassRun]

theorem fullUpd_iteration (b : ℕ) (s : FullMassState ι) (x : ι → ℝ) :
    (fullMassUpdate eigh b s x).iteration = s.iteration + 1 := by
  unfold fullMassUpdate; dsimp only; split <;> rfl

theorem fullUpd_mean (b : ℕ) (s : FullMassState ι) (x : ι → ℝ) :
    (fullMassUpdate eigh b s x).mean = welMean s.iteration s.mean x := by
  unfold fullMassUpdate; dsimp only; split <;> rfl

theorem fullUpd_ssq (b : ℕ) (s : FullMassState ι) (x : ι → ℝ) :
    (fullMassUpdate eigh b s x).ssq = fun i j => s.ssq i j +
      (x i - s.mean i) * (x j - welMean s.iteration s.mean x j) := by
  unfold fullMassUpdate; dsimp only; split <;> rfl

theorem fullUpd_ne (b : ℕ) (s : FullMassState ι) (x : ι → ℝ) (h : s.iteration + 1 ≠ b) :
    (fullMassUpdate eigh b s x).inv = s.inv ∧ (fullMassUpdate eigh b s x).sqrt = s.sqrt := by
  unfold fullMassUpdate; dsimp only; rw [if_neg h]; exact ⟨rfl, rfl⟩

theorem fullUpd_eq (b : ℕ) (s : FullMassState ι) (x : ι → ℝ) (h : s.iteration + 1 = b) :
    ((fullMassUpdate eigh b s x).inv = fun i j => (fullMassUpdate eigh b s x).ssq i j / (b : ℝ)) ∧
    (fullMassUpdate eigh b s x).sqrt =
      (eigh (fullMassUpdate eigh b s x).inv).2.transpose *
        (Matrix.diagonal (fun i => Real.sqrt ((eigh (fullMassUpdate eigh b s x).inv).1 i)) *
          (eigh (fullMassUpdate eigh b s x).inv).2) := by
  subst h; unfold fullMassUpdate; dsimp only; rw [if_pos rfl]; exact ⟨rfl, rfl⟩

theorem fullMass_iteration (b : ℕ) (cov : ι → ℝ) (xs : List (ι → ℝ)) :
    (fullMassRun eigh b cov xs).iteration = xs.length := by
  induction xs using List.reverseRecOn with
  | nil => rfl
  | append_singleton xs x ih =>
    rw [fullMassRun_snoc, fullUpd_iteration, ih, List.length_append, List.length_singleton]

theorem fullMass_sums (b : ℕ) (cov : ι → ℝ) (xs : List (ι → ℝ)) :
    (∀ i, (fullMassRun eigh b cov xs).mean i * xs.length = (xs.map fun x => x i).sum) ∧
    ∀ i j, (fullMassRun eigh b cov xs).ssq i j =
      (xs.map fun x => x i * x j).sum -
        (fullMassRun eigh b cov xs).mean i * (xs.map fun x => x j).sum := by
  induction xs using List.reverseRecOn with
  | nil => simp [fullMassRun, fullMassInit]
  | append_singleton xs x ih =>
    obtain ⟨h2, h3⟩ := ih
    simp only [List.map_append, List.sum_append, List.map_cons, List.map_nil, List.sum_singleton,
      List.length_append, List.length_singleton]
    rw [fullMassRun_snoc, fullUpd_mean, fullUpd_ssq, fullMass_iteration]
    exact ⟨fun i => (welford_step (a := x i) (b := x i) (h2 i) (h2 i) (h3 i i)).1,
      fun i j => (welford_step (a := x i) (b := x j) (h2 i) (h2 j) (h3 i j)).2.2⟩

theorem fullMass_cov (b : ℕ) (cov : ι → ℝ) (xs : List (ι → ℝ)) (i j : ι) :
    (fullMassRun eigh b cov xs).ssq i j = Spec.popCov xs i j * xs.length := by
  obtain ⟨h2, h3⟩ := fullMass_sums eigh b cov xs
  rw [popCov_eq, h3]
  congr 1
  rcases Nat.eq_zero_or_pos xs.length with h | h
  · rw [List.length_eq_zero_iff] at h; subst h; simp
  congr 1
  unfold Spec.sampleMean
  rw [← h2, mul_div_cancel_right₀]
  positivity

/-- `e` is an eigendecomposition of the symmetric matrix `m`: the columns of `e.2` are orthonormal
eigenvectors with eigenvalues `e.1` (`jnp.linalg.eigh`). -/
structure Spec.IsEigh (m : Matrix ι ι ℝ) (e : (ι → ℝ) × Matrix ι ι ℝ) : Prop where
  orth : e.2.transpose * e.2 = 1
  eigen : m * e.2 = e.2 * Matrix.diagonal e.1

/-- The inverse mass and the square root of the adapted full mass matrix are consistent. -/
def Spec.MassPair (inv sqrt : Matrix ι ι ℝ) : Prop := sqrt * sqrt.transpose * inv = 1

end

/-- The full claim C71. -/
def C71Statement : Prop :=
  ∀ (d : ℕ) (eigh : Matrix (Fin d) (Fin d) ℝ → (Fin d → ℝ) × Matrix (Fin d) (Fin d) ℝ)
    (burnIn : ℕ) (cov : Fin d → ℝ) (xs : List (Fin d → ℝ)),
    (∀ m : Matrix (Fin d) (Fin d) ℝ, m.transpose = m → Spec.IsEigh m (eigh m)) →
    (∀ i, 0 < cov i) →
    (0 < burnIn → burnIn ≤ xs.length → (Matrix.of (Spec.popCov (xs.take burnIn))).det ≠ 0) →
    Spec.MassPair (fullMassRun eigh burnIn cov xs).inv (fullMassRun eigh burnIn cov xs).sqrt

section
variable [Fintype ι] [DecidableEq ι]

/-- What holds of C71: before the adaption the pair is the initial one and consistent. -/
theorem c71_before_partial (eigh : Matrix ι ι ℝ → (ι → ℝ) × Matrix ι ι ℝ) (burnIn : ℕ) (cov : ι → ℝ)
    (hc : ∀ i, 0 < cov i) (xs : List (ι → ℝ)) (h : xs.length < burnIn) :
    (fullMassRun eigh burnIn cov xs).inv = Matrix.diagonal cov ∧
    Spec.MassPair (fullMassRun eigh burnIn cov xs).inv (fullMassRun eigh burnIn cov xs).sqrt := by
  have hs : (fullMassRun eigh burnIn cov xs).inv = Matrix.diagonal cov ∧
      (fullMassRun eigh burnIn cov xs).sqrt = Matrix.diagonal (fun i => 1 / Real.sqrt (cov i)) := by
    induction xs using List.reverseRecOn with
    | nil => exact ⟨rfl, rfl⟩
    | append_singleton xs x ih =>
      rw [List.length_append, List.length_singleton] at h
      obtain ⟨h1, h2⟩ := fullUpd_ne eigh burnIn (fullMassRun eigh burnIn cov xs) x
        (by rw [fullMass_iteration]; omega)
      rw [fullMassRun_snoc, h1, h2]
      exact ih (by omega)
  refine ⟨hs.1, ?_⟩
  unfold Spec.MassPair
  rw [hs.1, hs.2, Matrix.diagonal_transpose, Matrix.diagonal_mul_diagonal, Matrix.diagonal_mul_diagonal,
    ← Matrix.diagonal_one]
  congr 1
  funext i
  have h1 : Real.sqrt (cov i) ≠ 0 := (Real.sqrt_pos.mpr (hc i)).ne'
  have h2 := Real.mul_self_sqrt (hc i).le
  field_simp
  linarith

/-- What holds of C71: from the adaption on, the inverse mass is the population covariance of the first
`burnIn` samples. -/
theorem c71_inv_partial (eigh : Matrix ι ι ℝ → (ι → ℝ) × Matrix ι ι ℝ) (burnIn : ℕ) (hb : 0 < burnIn)
    (cov : ι → ℝ) (xs ys : List (ι → ℝ)) (h : xs.length = burnIn) (i j : ι) :
    (fullMassRun eigh burnIn cov (xs ++ ys)).inv i j = Spec.popCov xs i j := by
  have hb' : (0 : ℝ) < burnIn := by exact_mod_cast hb
  induction ys using List.reverseRecOn with
  | nil =>
    rw [List.append_nil]
    obtain ⟨zs, x, rfl⟩ : ∃ zs x, xs = zs ++ [x] := by
      rcases List.eq_nil_or_concat xs with h0 | ⟨zs, x, h0⟩
      · subst h0; simp at h; omega
      · exact ⟨zs, x, by simpa using h0⟩
    have hv := fullMass_cov eigh burnIn cov (zs ++ [x]) i j
    rw [fullMassRun_snoc] at hv ⊢
    rw [List.length_append, List.length_singleton] at h
    obtain ⟨h1, -⟩ := fullUpd_eq eigh burnIn (fullMassRun eigh burnIn cov zs) x
      (by rw [fullMass_iteration]; exact h)
    rw [List.length_append, List.length_singleton, h] at hv
    rw [h1]; dsimp only; rw [hv, mul_div_cancel_right₀ _ hb'.ne']
  | append_singleton ys y ih =>
    rw [← List.append_assoc, fullMassRun_snoc]
    obtain ⟨h3, -⟩ := fullUpd_ne eigh burnIn (fullMassRun eigh burnIn cov (xs ++ ys)) y
      (by rw [fullMass_iteration, List.length_append]; omega)
    rw [h3, ih]

end

/-- What the code computes for one variable: the square root is the standard deviation, not its
reciprocal; the pair is consistent only for variance one. -/
theorem c71_one_partial (eigh : Matrix (Fin 1) (Fin 1) ℝ → (Fin 1 → ℝ) × Matrix (Fin 1) (Fin 1) ℝ)
    (he : ∀ m : Matrix (Fin 1) (Fin 1) ℝ, m.transpose = m → Spec.IsEigh m (eigh m)) (burnIn : ℕ)
    (hb : 0 < burnIn) (cov : Fin 1 → ℝ) (xs : List (Fin 1 → ℝ)) (h : xs.length = burnIn)
    (hp : 0 < Spec.popCov xs 0 0) :
    (fullMassRun eigh burnIn cov xs).sqrt 0 0 = Real.sqrt (Spec.popCov xs 0 0) ∧
    (Spec.MassPair (fullMassRun eigh burnIn cov xs).inv (fullMassRun eigh burnIn cov xs).sqrt ↔
      Spec.popCov xs 0 0 = 1) := by
  have hinv : (fullMassRun eigh burnIn cov xs).inv 0 0 = Spec.popCov xs 0 0 := by
    have := c71_inv_partial eigh burnIn hb cov xs [] h 0 0
    rwa [List.append_nil] at this
  set st := fullMassRun eigh burnIn cov xs with hst
  have hsq : st.sqrt = (eigh st.inv).2.transpose *
        (Matrix.diagonal (fun i => Real.sqrt ((eigh st.inv).1 i)) * (eigh st.inv).2) := by
    obtain ⟨zs, x, rfl⟩ : ∃ zs x, xs = zs ++ [x] := by
      rcases List.eq_nil_or_concat xs with h0 | ⟨zs, x, h0⟩
      · subst h0; simp at h; omega
      · exact ⟨zs, x, by simpa using h0⟩
    rw [List.length_append, List.length_singleton] at h
    rw [hst, fullMassRun_snoc]
    exact (fullUpd_eq eigh burnIn (fullMassRun eigh burnIn cov zs) x
      (by rw [fullMass_iteration]; exact h)).2
  have hE := he st.inv (by ext i j; fin_cases i; fin_cases j; rfl)
  set e := eigh st.inv
  have ho : e.2 0 0 * e.2 0 0 = 1 := by
    have := congrFun (congrFun hE.orth 0) 0
    simpa [Matrix.mul_apply] using this
  have hev : st.inv 0 0 * e.2 0 0 = e.2 0 0 * e.1 0 := by
    have := congrFun (congrFun hE.eigen 0) 0
    simpa [Matrix.mul_apply, Matrix.diagonal] using this
  have hne : e.2 0 0 ≠ 0 := by intro h; rw [h] at ho; norm_num at ho
  have hl : e.1 0 = Spec.popCov xs 0 0 := by
    rw [hinv] at hev
    exact (mul_left_cancel₀ hne (by linarith : e.2 0 0 * Spec.popCov xs 0 0 = e.2 0 0 * e.1 0)).symm
  have hs : st.sqrt 0 0 = Real.sqrt (Spec.popCov xs 0 0) := by
    rw [hsq]
    simp only [Matrix.mul_apply, Matrix.transpose_apply, Finset.univ_unique, Finset.sum_singleton,
      Fin.default_eq_zero, Matrix.diagonal_apply_eq, hl]
    linear_combination (Real.sqrt (Spec.popCov xs 0 0)) * ho
  refine ⟨hs, ?_⟩
  have hm : Spec.MassPair st.inv st.sqrt ↔ st.sqrt 0 0 * st.sqrt 0 0 * st.inv 0 0 = 1 := by
    unfold Spec.MassPair
    constructor
    · intro h1
      have := congrFun (congrFun h1 0) 0
      simpa [Matrix.mul_apply] using this
    · intro h1
      ext i j
      fin_cases i; fin_cases j
      simpa [Matrix.mul_apply] using h1
  rw [hm, hs, hinv, Real.mul_self_sqrt hp.le]
  constructor
  · intro h1; nlinarith
  · intro h1; rw [h1]; norm_num

/-- C71 is false: samples 0 and 4 of one variable (variance 4). -/
theorem c71_false : ¬ C71Statement := by
  intro hS
  let eigh : Matrix (Fin 1) (Fin 1) ℝ → (Fin 1 → ℝ) × Matrix (Fin 1) (Fin 1) ℝ :=
    fun m => (fun _ => m 0 0, 1)
  have he : ∀ m : Matrix (Fin 1) (Fin 1) ℝ, m.transpose = m → Spec.IsEigh m (eigh m) := by
    intro m _
    refine ⟨by simp [eigh], ?_⟩
    ext i j
    fin_cases i; fin_cases j
    simp [eigh, Matrix.diagonal]
  have hv : Spec.popCov [fun _ : Fin 1 => (0 : ℝ), fun _ => 4] 0 0 = 4 := by
    norm_num [Spec.popCov, Spec.sampleMean]
  have h1 := hS 1 eigh 2 (fun _ => 1) [fun _ => 0, fun _ => 4] he (fun _ => one_pos)
    (fun _ _ => by
      rw [Matrix.det_fin_one]
      show Spec.popCov [fun _ : Fin 1 => (0 : ℝ), fun _ => 4] 0 0 ≠ 0
      rw [hv]; norm_num)
  have h2 := (c71_one_partial eigh he 2 (by norm_num) (fun _ => 1) [fun _ => 0, fun _ => 4] rfl
    (by rw [hv]; norm_num)).2.mp h1
  rw [hv] at h2
  norm_num at h2

/-! ## C72 -/

/-- The gradient of the stochastic potential (potential.py:159-186): `N` observations, mini-batch of `n`
observations with gradients `g k` of the log-likelihood, gradient `gp` of the log-prior. -/
noncomputable def Spec.potentialGrad (N n : ℕ) (g : Fin n → ι → ℝ) (gp : ι → ℝ) : ι → ℝ :=
  fun i => -(N * ((∑ k, g k i) / n)) - gp i

/-- The full claim C72: with a flat prior, the estimated gradient noise is the sample variance of the
gradients of the single observations. -/
def C72Statement : Prop :=
  ∀ (N n d : ℕ) (g : Fin n → Fin d → ℝ) (i : Fin d), 1 < n → 0 < N →
    fisherV N n g (Spec.potentialGrad N n g (fun _ => 0)) i = Spec.sampleVar (fun k => g k i)

/-- What the code computes: the sample variance plus a multiple of the square of twice the mean gradient
(plus the scaled gradient of the prior): the sign of the mean is wrong, because the gradient of the
potential is that of the negative log-likelihood. -/
theorem c72_value_partial (N n : ℕ) (g : Fin n → ι → ℝ) (gp : ι → ℝ) (i : ι) (hn : 1 < n) (hN : 0 < N) :
    fisherV N n g (Spec.potentialGrad N n g gp) i = Spec.sampleVar (fun k => g k i) +
      n / ((n : ℝ) - 1) * (2 * ((∑ k, g k i) / n) + gp i / N) ^ 2 := by
  have h1 : ((n : ℝ) - 1) ≠ 0 := by
    have : (1 : ℝ) < n := by exact_mod_cast hn
    linarith
  have h2 : (n : ℝ) ≠ 0 := by
    have : (1 : ℝ) < n := by exact_mod_cast hn
    linarith
  have h3 : (N : ℝ) ≠ 0 := by positivity
  set m := (∑ k, g k i) / (n : ℝ) with hm
  have hs : ∑ k, g k i = m * n := by rw [hm]; field_simp
  have e1 : ∀ c : ℝ, ∑ k, (g k i + c) ^ 2 = ∑ k, g k i ^ 2 + 2 * c * (m * n) + n * c ^ 2 := by
    intro c
    rw [← hs, Finset.mul_sum]
    have hc : (n : ℝ) * c ^ 2 = ∑ _k : Fin n, c ^ 2 := by simp
    rw [hc, ← Finset.sum_add_distrib, ← Finset.sum_add_distrib]
    exact Finset.sum_congr rfl fun k _ => by ring
  have e2 : ∑ k, (g k i - Spec.potentialGrad N n g gp i / N) ^ 2 = ∑ k, (g k i + (m + gp i / N)) ^ 2 := by
    refine Finset.sum_congr rfl fun k _ => ?_
    unfold Spec.potentialGrad
    rw [← hm]
    congr 1
    field_simp
    ring
  have e3 : ∑ k, (g k i - m) ^ 2 = ∑ k, (g k i + -m) ^ 2 :=
    Finset.sum_congr rfl fun k _ => by ring
  unfold fisherV Spec.sampleVar
  rw [e2, ← hm, e3, e1, e1]
  field_simp
  ring

/-- The estimate is correct exactly if the mean gradient vanishes (flat prior). -/
theorem c72_iff_partial (N n : ℕ) (g : Fin n → ι → ℝ) (i : ι) (hn : 1 < n) (hN : 0 < N) :
    fisherV N n g (Spec.potentialGrad N n g (fun _ => 0)) i = Spec.sampleVar (fun k => g k i) ↔
      ∑ k, g k i = 0 := by
  rw [c72_value_partial N n g _ i hn hN]
  have h1 : (0 : ℝ) < (n : ℝ) - 1 := by
    have : (1 : ℝ) < n := by exact_mod_cast hn
    linarith
  have h2 : (0 : ℝ) < n := by linarith
  have hpos : (n : ℝ) / ((n : ℝ) - 1) ≠ 0 := (div_pos h2 h1).ne'
  rw [zero_div, add_zero]
  constructor
  · intro h
    have h4 : (n : ℝ) / ((n : ℝ) - 1) * (2 * ((∑ k, g k i) / n)) ^ 2 = 0 := by linarith
    have h5 := pow_eq_zero_iff (two_ne_zero) |>.mp ((mul_eq_zero.mp h4).resolve_left hpos)
    have h6 : (∑ k, g k i) / (n : ℝ) = 0 := by linarith
    exact (div_eq_zero_iff.mp h6).resolve_right h2.ne'
  · intro h
    rw [h]; simp

/-- C72 is false: two observations with the same gradient 1 have no spread, but the estimate is 8. -/
theorem c72_false : ¬ C72Statement := by
  intro h
  have h1 := (c72_iff_partial 10 2 (fun _ (_ : Fin 1) => 1) 0 (by norm_num) (by norm_num)).mp
    (h 10 2 1 (fun _ _ => 1) 0 (by norm_num) (by norm_num))
  norm_num at h1

/-! ## C73 -/

/-- The full claim C73: with the default `initial_mass=None`, the inverse mass is one for every entry. -/
def C73Statement : Prop :=
  ∀ sample : Tree (Arr ℝ), ∃ t, massInvTree sample none = .ok t ∧ ∀ r ∈ ravel t, r = 1

/-- With the default initial mass, mass adaption fails for every sample with at least one entry. -/
theorem c73_error_partial (sample : Tree (Arr ℝ)) (h : ravel sample ≠ []) :
    massInvTree sample none = .error .valueError := by
  unfold massInvTree massInitArg unravel
  dsimp only
  rw [if_neg]
  intro h0
  exact h (List.length_eq_zero_iff.mp h0.symm)

/-- With an initial mass of the same size as the sample, the inverse mass is a tree of the shape of the
sample holding exactly these numbers (they are used as *inverse* mass). -/
theorem c73_given_partial (sample mass : Tree (Arr ℝ)) (hs : Spec.ValidTree sample)
    (h : (ravel mass).length = (ravel sample).length) :
    ∃ t, massInvTree sample (some mass) = .ok t ∧ Spec.SameShape t sample ∧ ravel t = ravel mass := by
  obtain ⟨c, h1, -, h3, h4⟩ := (c56_unravel sample hs (ravel mass)).1 h
  exact ⟨c, h1, h3, h4⟩

/-- C73 is false: a sample with a single number. -/
theorem c73_false : ¬ C73Statement := by
  intro h
  obtain ⟨t, ht, -⟩ := h (.leaf ⟨[], [1]⟩)
  rw [c73_error_partial] at ht
  · cases ht
  · simp [ravel, Tree.leaves]

end JaxSgmc
