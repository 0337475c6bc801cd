import Verif.Lemmas.Leapfrog
import Mathlib.MeasureTheory.Measure.Lebesgue.EqHaar
import Mathlib.Probability.Distributions.Gaussian.Real
import Mathlib.MeasureTheory.Integral.Pi

/-! # Volume preserving maps and products of normal distributions -/

namespace JaxSgmc

open MeasureTheory

variable {ι : Type} [Fintype ι]

/-- A linear involution preserves the volume. -/
theorem involution_measurePreserving {E : Type*} [NormedAddCommGroup E] [NormedSpace ℝ E]
    [MeasurableSpace E] [BorelSpace E] [FiniteDimensional ℝ E] (μ : Measure E) [μ.IsAddHaarMeasure]
    (A : E →ₗ[ℝ] E) (hA : ∀ x, A (A x) = x) : MeasurePreserving A μ μ := by
  have hd : LinearMap.det A * LinearMap.det A = 1 := by
    rw [← LinearMap.det_comp]
    have : A ∘ₗ A = LinearMap.id := LinearMap.ext hA
    rw [this, LinearMap.det_id]
  have hne : LinearMap.det A ≠ 0 := by
    intro h; rw [h] at hd; simp at hd
  have habs : |(LinearMap.det A)⁻¹| = 1 := by
    rcases mul_self_eq_one_iff.1 hd with h | h <;> rw [h] <;> norm_num
  refine ⟨A.continuous_of_finiteDimensional.measurable, ?_⟩
  rw [Measure.map_linearMap_addHaar_eq_smul_addHaar μ hne, habs]
  simp

theorem VTensor.measurable_mul (t : VTensor ι) : Measurable t.mul := by
  cases t with
  | diag d =>
    refine measurable_pi_lambda _ fun i => ?_
    show Measurable fun v : ι → ℝ => d i * v i
    fun_prop
  | full m =>
    refine measurable_pi_lambda _ fun i => ?_
    show Measurable fun v : ι → ℝ => ∑ j, m i j * v j
    fun_prop

/-- The density of independent normally distributed numbers. -/
theorem pi_gaussian (κ : Type) [Fintype κ] :
    Measure.pi (fun _ : κ => ProbabilityTheory.gaussianReal 0 1) =
      (volume : Measure (κ → ℝ)).withDensity
        (fun x => ENNReal.ofReal (∏ i, ProbabilityTheory.gaussianPDFReal 0 1 (x i))) := by
  refine Measure.pi_eq fun s hs => ?_
  have hmeas : MeasurableSet (Set.univ.pi s) := MeasurableSet.univ_pi hs
  rw [withDensity_apply _ hmeas]
  have hi : ∀ i, Integrable ((s i).indicator (ProbabilityTheory.gaussianPDFReal 0 1)) volume :=
    fun i => (ProbabilityTheory.integrable_gaussianPDFReal 0 1).indicator (hs i)
  have hnn : ∀ i x, 0 ≤ (s i).indicator (ProbabilityTheory.gaussianPDFReal 0 1) x := fun i x =>
    Set.indicator_nonneg (fun y _ => ProbabilityTheory.gaussianPDFReal_nonneg 0 1 y) x
  have hf : ∀ x : κ → ℝ, (Set.univ.pi s).indicator
      (fun x => ENNReal.ofReal (∏ i, ProbabilityTheory.gaussianPDFReal 0 1 (x i))) x =
      ENNReal.ofReal (∏ i, (s i).indicator (ProbabilityTheory.gaussianPDFReal 0 1) (x i)) := by
    intro x
    by_cases h : x ∈ Set.univ.pi s
    · rw [Set.indicator_of_mem h]
      congr 1
      exact Finset.prod_congr rfl fun i _ => (Set.indicator_of_mem (h i trivial) _).symm
    · rw [Set.indicator_of_notMem h]
      have : ∃ i, x i ∉ s i := by
        simpa [Set.mem_pi] using h
      obtain ⟨i, hi⟩ := this
      rw [Finset.prod_eq_zero (Finset.mem_univ i) (Set.indicator_of_notMem hi _), ENNReal.ofReal_zero]
  have hint : Integrable (fun x : κ → ℝ => ∏ i,
      (s i).indicator (ProbabilityTheory.gaussianPDFReal 0 1) (x i)) volume :=
    Integrable.fintype_prod (fun i => hi i)
  rw [← lintegral_indicator hmeas, lintegral_congr hf, ← ofReal_integral_eq_lintegral_ofReal
    hint (Filter.Eventually.of_forall fun x =>
      Finset.prod_nonneg fun i _ => hnn i (x i)), integral_fintype_prod_volume_eq_prod,
    ENNReal.ofReal_prod_of_nonneg (fun i _ => integral_nonneg (hnn i))]
  refine Finset.prod_congr rfl fun i _ => ?_
  rw [integral_indicator (hs i), ProbabilityTheory.gaussianReal_apply 0 one_ne_zero,
    ofReal_integral_eq_lintegral_ofReal (ProbabilityTheory.integrable_gaussianPDFReal 0 1).integrableOn
      (Filter.Eventually.of_forall fun y => ProbabilityTheory.gaussianPDFReal_nonneg 0 1 y)]
  rfl

end JaxSgmc
