import Verif.Lemmas.LangevinStep
import Mathlib.Analysis.SpecialFunctions.Gaussian.GaussianIntegral

/-! # Moments of strongly log-concave posteriors -/

namespace JaxSgmc

open Matrix MeasureTheory

variable {ι : Type} [Fintype ι]

theorem gauss_finite {a : ℝ} (ha : 0 < a) : ∫⁻ y : ι → ℝ, ENNReal.ofReal (Real.exp (-(a * (y ⬝ᵥ y)))) < ⊤ := by
  have h1 : Integrable (fun y : ι → ℝ => ∏ i, Real.exp (-a * y i ^ 2)) volume :=
    Integrable.fintype_prod fun i => integrable_exp_neg_mul_sq ha
  refine lt_of_eq_of_lt (lintegral_congr fun y => ?_) h1.lintegral_lt_top
  rw [← Real.exp_sum]
  congr 2
  unfold dotProduct
  rw [Finset.mul_sum, ← Finset.sum_neg_distrib]
  exact Finset.sum_congr rfl fun i _ => by ring

/-- Exponential moments of the normal distribution. -/
theorem normals_exp_moment {ε : ℝ} (hε : ε < 1 / 2) :
    ∫⁻ ξ : ι → ℝ, ENNReal.ofReal (Real.exp (ε * (ξ ⬝ᵥ ξ))) ∂Spec.normals ι < ⊤ := by
  have hpdf : Measurable fun x : ι → ℝ =>
      ENNReal.ofReal (∏ j, ProbabilityTheory.gaussianPDFReal 0 1 (x j)) := by
    have := ProbabilityTheory.measurable_gaussianPDFReal 0 1
    refine ENNReal.measurable_ofReal.comp ?_
    exact Finset.measurable_prod _ fun j _ => this.comp (measurable_pi_apply j)
  have hdot : Measurable fun ξ : ι → ℝ => ξ ⬝ᵥ ξ := dot_measurable
  have hm : Measurable fun ξ : ι → ℝ => ENNReal.ofReal (Real.exp (ε * (ξ ⬝ᵥ ξ))) := by fun_prop
  have hm2 : Measurable fun ξ : ι → ℝ => ENNReal.ofReal (Real.exp (-((1 / 2 - ε) * (ξ ⬝ᵥ ξ)))) := by fun_prop
  unfold Spec.normals
  rw [pi_gaussian, lintegral_withDensity_eq_lintegral_mul _ hpdf hm]
  have e : ∀ ξ : ι → ℝ, ENNReal.ofReal (∏ j, ProbabilityTheory.gaussianPDFReal 0 1 (ξ j)) * ENNReal.ofReal (Real.exp (ε * (ξ ⬝ᵥ ξ))) =
      ENNReal.ofReal (Real.exp (-(Fintype.card ι * Real.log (Real.sqrt (2 * Real.pi))))) *
        ENNReal.ofReal (Real.exp (-((1 / 2 - ε) * (ξ ⬝ᵥ ξ)))) := by
    intro ξ
    rw [prod_gaussian, ← ENNReal.ofReal_mul (Real.exp_pos _).le, ← ENNReal.ofReal_mul (Real.exp_pos _).le,
      ← Real.exp_add, ← Real.exp_add]
    congr 2
    unfold dotProduct
    ring
  refine lt_of_eq_of_lt (lintegral_congr fun ξ => e ξ) ?_
  rw [lintegral_const_mul _ hm2]
  exact ENNReal.mul_lt_top ENNReal.ofReal_lt_top (gauss_finite (by linarith))

section
variable [DecidableEq ι] {U : (ι → ℝ) → ℝ} {G : (ι → ℝ) → ι → ℝ} {m L : ℝ} (hU : Spec.Convex U G m L)

include hU in
/-- The potential grows at least quadratically. -/
theorem convex_growth (y : ι → ℝ) : U 0 - (G 0 ⬝ᵥ G 0) / m + m / 4 * (y ⬝ᵥ y) ≤ U y := by
  have hm := hU.m_pos
  have h1 := convex_above hU 0 y
  rw [sub_zero, sqLen_dot] at h1
  have h2 := dot_amgm (G 0) (-y) (by positivity : 0 < 2 / m)
  simp only [dotProduct_neg, neg_dotProduct, neg_neg] at h2
  have e1 : y ⬝ᵥ y / (2 / m) = m / 2 * (y ⬝ᵥ y) := by field_simp
  have e2 : 2 / m * (G 0 ⬝ᵥ G 0) = 2 * ((G 0 ⬝ᵥ G 0) / m) := by ring
  rw [e1, e2] at h2
  linarith

include hU in
/-- Exponential moments of the posterior. -/
theorem posterior_exp_moment {ε : ℝ} (hε : ε < m / 4) :
    ∫⁻ y, ENNReal.ofReal (Real.exp (ε * (y ⬝ᵥ y))) ∂Spec.posterior U Set.univ < ⊤ := by
  have hUm := hU.differentiable.continuous.measurable
  have hdot : Measurable fun ξ : ι → ℝ => ξ ⬝ᵥ ξ := dot_measurable
  have hm : Measurable fun ξ : ι → ℝ => ENNReal.ofReal (Real.exp (ε * (ξ ⬝ᵥ ξ))) := by fun_prop
  have hd : Measurable fun q : ι → ℝ => ENNReal.ofReal (Real.exp (-U q)) := by fun_prop
  have hm2 : Measurable fun ξ : ι → ℝ => ENNReal.ofReal (Real.exp (-((m / 4 - ε) * (ξ ⬝ᵥ ξ)))) := by fun_prop
  unfold Spec.posterior
  rw [Measure.restrict_univ, lintegral_withDensity_eq_lintegral_mul _ hd hm]
  have hle : ∀ y : ι → ℝ, ENNReal.ofReal (Real.exp (-U y)) * ENNReal.ofReal (Real.exp (ε * (y ⬝ᵥ y))) ≤
      ENNReal.ofReal (Real.exp (-(U 0 - (G 0 ⬝ᵥ G 0) / m))) * ENNReal.ofReal (Real.exp (-((m / 4 - ε) * (y ⬝ᵥ y)))) := by
    intro y
    rw [← ENNReal.ofReal_mul (Real.exp_pos _).le, ← ENNReal.ofReal_mul (Real.exp_pos _).le,
      ← Real.exp_add, ← Real.exp_add]
    refine ENNReal.ofReal_le_ofReal (Real.exp_le_exp.2 ?_)
    have := convex_growth hU y
    linarith
  refine (lintegral_mono hle).trans_lt ?_
  rw [lintegral_const_mul _ hm2]
  exact ENNReal.mul_lt_top ENNReal.ofReal_lt_top (gauss_finite (by linarith))

include hU in
theorem posterior_finite : Spec.posterior U Set.univ Set.univ ≠ ⊤ := by
  have h := posterior_exp_moment hU (ε := 0) (by have := hU.m_pos; linarith)
  simp only [zero_mul, Real.exp_zero, ENNReal.ofReal_one, lintegral_const, one_mul] at h
  exact h.ne

include hU in
theorem posterior_pos : Spec.posterior U Set.univ Set.univ ≠ 0 := by
  have hUm := hU.differentiable.continuous.measurable
  have hd : Measurable fun q : ι → ℝ => ENNReal.ofReal (Real.exp (-U q)) := by fun_prop
  unfold Spec.posterior
  rw [withDensity_apply _ MeasurableSet.univ, Measure.restrict_univ, Measure.restrict_univ]
  refine ((lintegral_pos_iff_support hd).2 ?_).ne'
  have : Function.support (fun q : ι → ℝ => ENNReal.ofReal (Real.exp (-U q))) = Set.univ := by
    refine Set.eq_univ_of_forall fun q => ?_
    rw [Function.mem_support]
    exact (ENNReal.ofReal_pos.2 (Real.exp_pos _)).ne'
  rw [this]
  exact (Measure.measure_univ_pos (μ := (volume : Measure (ι → ℝ)))).2 (NeZero.ne _)

/-- A cubic polynomial is bounded by an exponential. -/
theorem cubic_le_exp {ε c0 c1 : ℝ} (hε : 0 < ε) (h0 : 1 ≤ c0) (h1 : 0 ≤ c1) {t : ℝ} (ht : 0 ≤ t) :
    (c0 + c1 * t) ^ 3 ≤ (c0 + c1 * (3 / ε)) ^ 3 * Real.exp (ε * t) := by
  have e1 : t ≤ 3 / ε * Real.exp (ε / 3 * t) := by
    have := Real.add_one_le_exp (ε / 3 * t)
    have h2 : ε / 3 * t ≤ Real.exp (ε / 3 * t) := by linarith
    have h3 := mul_le_mul_of_nonneg_left h2 (by positivity : 0 ≤ 3 / ε)
    have h4 : 3 / ε * (ε / 3 * t) = t := by field_simp
    linarith
  have e2 : (1 : ℝ) ≤ Real.exp (ε / 3 * t) := Real.one_le_exp (by positivity)
  have e3 : c0 + c1 * t ≤ (c0 + c1 * (3 / ε)) * Real.exp (ε / 3 * t) := by
    have a1 := mul_le_mul_of_nonneg_left e1 h1
    have a2 := mul_le_mul_of_nonneg_left e2 (by linarith : 0 ≤ c0)
    nlinarith
  have e4 : Real.exp (ε / 3 * t) ^ 3 = Real.exp (ε * t) := by
    rw [← Real.exp_nat_mul]
    congr 1
    push_cast
    ring
  rw [← e4, ← mul_pow]
  exact pow_le_pow_left₀ (by positivity) e3 3

include hU in
theorem localError_le {s : ℝ} (hs : 0 ≤ s) : ∃ C : ℝ, 0 ≤ C ∧ ∀ y ξ : ι → ℝ,
    localError G m L s y ξ ≤ C * (Real.exp (min (m / 8) (1 / 4) * (y ⬝ᵥ y)) * Real.exp (min (m / 8) (1 / 4) * (ξ ⬝ᵥ ξ))) := by
  have hm := hU.m_pos
  have hL := hU.L_pos
  have hc := rejectConst_pos hL
  set ε := min (m / 8) (1 / 4) with hε
  have hε0 : 0 < ε := lt_min (by positivity) (by norm_num)
  set c0 := 1 + 2 * (G 0 ⬝ᵥ G 0) with hc0
  set c1 := 2 + 2 * L ^ 2 with hc1
  have hg0 := dot_nonneg (G 0)
  set A := s + 4 * rejectConst L ^ 2 / m + 4 * rejectConst L with hA
  have hA0 : 0 ≤ A := by positivity
  refine ⟨A * (c0 + c1 * (3 / ε)) ^ 3, by positivity, fun y ξ => ?_⟩
  have hy := dot_nonneg y
  have hξ := dot_nonneg ξ
  have hGy : G y ⬝ᵥ G y ≤ 2 * (G 0 ⬝ᵥ G 0) + 2 * (L ^ 2 * (y ⬝ᵥ y)) := by
    have h1 := sq_add_le (G y - G 0) (G 0)
    rw [sub_add_cancel] at h1
    have h2 := convex_lipschitz_dot hU y 0
    rw [sub_zero] at h2
    linarith
  set t := y ⬝ᵥ y + ξ ⬝ᵥ ξ with ht
  have ht0 : 0 ≤ t := add_nonneg hy hξ
  have hcub := cubic_le_exp hε0 (by linarith : 1 ≤ c0) (by positivity : 0 ≤ c1) ht0
  set v := c0 + c1 * t with hv
  have hLy : 0 ≤ L ^ 2 * (ξ ⬝ᵥ ξ) := by positivity
  have hLt : 0 ≤ L ^ 2 * t := by positivity
  have hv1 : 1 ≤ v := by rw [hv, hc0, hc1]; nlinarith
  have hS : G y ⬝ᵥ G y + ξ ⬝ᵥ ξ ≤ v := by rw [hv, hc0, hc1, ht]; nlinarith
  have hS0 : 0 ≤ G y ⬝ᵥ G y + ξ ⬝ᵥ ξ := add_nonneg (dot_nonneg _) hξ
  have hv3 : v ≤ v ^ 3 := by
    have : 1 ≤ v ^ 2 := one_le_pow₀ hv1
    nlinarith
  have hv2 : v ^ 2 ≤ v ^ 3 := pow_le_pow_right₀ hv1 (by norm_num)
  have b1 : 1 + 2 * (y ⬝ᵥ y) ≤ v ^ 3 := by
    refine le_trans ?_ hv3
    rw [hv, hc0, hc1, ht]; nlinarith
  have b2 : (G y ⬝ᵥ G y + ξ ⬝ᵥ ξ) ^ 3 ≤ v ^ 3 := pow_le_pow_left₀ hS0 hS 3
  have b3 : (G y ⬝ᵥ G y + ξ ⬝ᵥ ξ) ^ 2 ≤ v ^ 3 := (pow_le_pow_left₀ hS0 hS 2).trans hv2
  have hbound : localError G m L s y ξ ≤ A * v ^ 3 := by
    unfold localError
    have d1 := mul_le_mul_of_nonneg_left b1 hs
    have d2 := mul_le_mul_of_nonneg_left b2 (by positivity : 0 ≤ 4 * rejectConst L ^ 2 / m)
    have d3 := mul_le_mul_of_nonneg_left b3 (by positivity : 0 ≤ 4 * rejectConst L)
    rw [hA]
    linarith
  refine hbound.trans ?_
  rw [← Real.exp_add, ← mul_add, mul_assoc]
  exact mul_le_mul_of_nonneg_left hcub hA0

/-- The mean local error. -/
noncomputable def meanError (U : (ι → ℝ) → ℝ) (G : (ι → ℝ) → ι → ℝ) (m L s : ℝ) : ENNReal :=
  ∫⁻ y, ∫⁻ ξ, ENNReal.ofReal (localError G m L s y ξ) ∂Spec.normals ι ∂Spec.posterior U Set.univ

include hU in
theorem meanError_finite {s : ℝ} (hs : 0 ≤ s) : meanError U G m L s ≠ ⊤ := by
  have hm := hU.m_pos
  obtain ⟨C, hC, hle⟩ := localError_le hU hs
  set ε := min (m / 8) (1 / 4) with hε
  have h1 : ε < m / 4 := lt_of_le_of_lt (min_le_left _ _) (by linarith)
  have h2 : ε < 1 / 2 := lt_of_le_of_lt (min_le_right _ _) (by norm_num)
  have hdot : Measurable fun ξ : ι → ℝ => ξ ⬝ᵥ ξ := dot_measurable
  have hmz : Measurable fun ξ : ι → ℝ => ENNReal.ofReal (Real.exp (ε * (ξ ⬝ᵥ ξ))) := by fun_prop
  refine ne_of_lt (lt_of_le_of_lt (lintegral_mono fun y => lintegral_mono fun ξ => ENNReal.ofReal_le_ofReal (hle y ξ)) ?_)
  have e : ∀ y ξ : ι → ℝ, ENNReal.ofReal (C * (Real.exp (ε * (y ⬝ᵥ y)) * Real.exp (ε * (ξ ⬝ᵥ ξ)))) =
      ENNReal.ofReal C * ENNReal.ofReal (Real.exp (ε * (y ⬝ᵥ y))) * ENNReal.ofReal (Real.exp (ε * (ξ ⬝ᵥ ξ))) := by
    intro y ξ
    rw [ENNReal.ofReal_mul hC, ENNReal.ofReal_mul (Real.exp_pos _).le, mul_assoc]
  simp only [e]
  simp only [lintegral_const_mul _ hmz]
  rw [lintegral_mul_const _ (hmz.const_mul _), lintegral_const_mul _ hmz]
  exact ENNReal.mul_lt_top (ENNReal.mul_lt_top ENNReal.ofReal_lt_top (posterior_exp_moment hU h1)) (normals_exp_moment h2)

include hU in
theorem posterior_second_moment : ∫⁻ y, ENNReal.ofReal (Spec.sqLen y) ∂Spec.posterior U Set.univ ≠ ⊤ := by
  have hm := hU.m_pos
  have hdot : Measurable fun ξ : ι → ℝ => ξ ⬝ᵥ ξ := dot_measurable
  have hmz : Measurable fun ξ : ι → ℝ => ENNReal.ofReal (Real.exp (m / 8 * (ξ ⬝ᵥ ξ))) := by fun_prop
  have h1 := posterior_exp_moment hU (ε := m / 8) (by linarith)
  refine ne_of_lt (lt_of_le_of_lt (lintegral_mono fun y => ?_)
    (ENNReal.mul_lt_top (ENNReal.ofReal_lt_top (r := 8 / m)) h1 |> fun h => by rwa [← lintegral_const_mul _ hmz] at h))
  rw [← ENNReal.ofReal_mul (by positivity)]
  refine ENNReal.ofReal_le_ofReal ?_
  rw [sqLen_dot]
  have h2 := Real.add_one_le_exp (m / 8 * (y ⬝ᵥ y))
  have h3 := mul_le_mul_of_nonneg_left h2 (by positivity : 0 ≤ 8 / m)
  have h4 : 8 / m * (m / 8 * (y ⬝ᵥ y) + 1) = y ⬝ᵥ y + 8 / m := by field_simp
  have h5 : 0 < 8 / m := by positivity
  linarith

end

end JaxSgmc
