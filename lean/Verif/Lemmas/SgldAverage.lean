import Verif.Lemmas.SgldPairs

/-! # Covariances of the samples of SGLD -/

namespace JaxSgmc

open MeasureTheory ProbabilityTheory

variable {ι κ δ β μ Ω : Type} [Fintype ι]

/-! ## Sums of weakly correlated variables -/

theorem geometric_finset {σ : ℝ} (h0 : 0 ≤ σ) (h1 : σ < 1) (s : Finset ℕ) (i : ℕ) :
    ∑ j ∈ s, σ ^ (max i j - min i j) ≤ 2 / (1 - σ) := by
  have key : ∀ (t : Finset ℕ) (k : ℕ → ℕ), Set.InjOn k t → ∑ j ∈ t, σ ^ k j ≤ (1 - σ)⁻¹ := by
    intro t k hk
    rw [← Finset.sum_image (f := fun n => σ ^ n) hk, ← tsum_geometric_of_lt_one h0 h1]
    exact (summable_geometric_of_lt_one h0 h1).sum_le_tsum _ fun n _ => pow_nonneg h0 n
  rw [← Finset.sum_filter_add_sum_filter_not s (fun j => i ≤ j)]
  have a := key (s.filter fun j => i ≤ j) (fun j => max i j - min i j) (by
    intro x hx y hy hxy
    simp only [Finset.coe_filter, Set.mem_setOf_eq] at hx hy
    dsimp only at hxy
    rw [max_eq_right hx.2, max_eq_right hy.2, min_eq_left hx.2, min_eq_left hy.2] at hxy
    omega)
  have b := key (s.filter fun j => ¬ i ≤ j) (fun j => max i j - min i j) (by
    intro x hx y hy hxy
    simp only [Finset.coe_filter, Set.mem_setOf_eq, not_le] at hx hy
    dsimp only at hxy
    rw [max_eq_left hx.2.le, max_eq_left hy.2.le, min_eq_right hx.2.le, min_eq_right hy.2.le] at hxy
    omega)
  have e : 2 / (1 - σ) = (1 - σ)⁻¹ + (1 - σ)⁻¹ := by rw [div_eq_mul_inv]; ring
  rw [e]
  exact add_le_add a b

theorem sum_square_bound [MeasurableSpace Ω] {prob : Measure Ω} {Z : ℕ → Ω → ℝ} {s : Finset ℕ} {σ a b : ℝ} (h0 : 0 ≤ σ) (h1 : σ < 1)
    (ha : 0 ≤ a)
    (hi : ∀ i ∈ s, ∀ j ∈ s, i ≤ j → Integrable (fun ω => Z i ω * Z j ω) prob ∧ ∫ ω, Z i ω * Z j ω ∂prob ≤ a * σ ^ (j - i) + b) :
    Integrable (fun ω => (∑ i ∈ s, Z i ω) ^ 2) prob ∧
      ∫ ω, (∑ i ∈ s, Z i ω) ^ 2 ∂prob ≤ s.card * (a * (2 / (1 - σ))) + s.card ^ 2 * b := by
  have hi' : ∀ i ∈ s, ∀ j ∈ s, Integrable (fun ω => Z i ω * Z j ω) prob ∧
      ∫ ω, Z i ω * Z j ω ∂prob ≤ a * σ ^ (max i j - min i j) + b := by
    intro i hi1 j hj
    rcases le_total i j with h | h
    · rw [max_eq_right h, min_eq_left h]
      exact hi i hi1 j hj h
    · rw [max_eq_left h, min_eq_right h]
      have := hi j hj i hi1 h
      simp only [mul_comm (Z i _)]
      exact this
  have e : ∀ ω, (∑ i ∈ s, Z i ω) ^ 2 = ∑ i ∈ s, ∑ j ∈ s, Z i ω * Z j ω := fun ω => by
    rw [sq, Finset.sum_mul_sum]
  simp only [e]
  have hI : ∀ i ∈ s, Integrable (fun ω => ∑ j ∈ s, Z i ω * Z j ω) prob := fun i h => integrable_finset_sum _ fun j hj => (hi' i h j hj).1
  refine ⟨integrable_finset_sum _ hI, ?_⟩
  rw [integral_finset_sum _ hI]
  have hrow : ∀ i ∈ s, ∫ ω, ∑ j ∈ s, Z i ω * Z j ω ∂prob ≤ a * (2 / (1 - σ)) + s.card * b := by
    intro i h
    rw [integral_finset_sum _ fun j hj => (hi' i h j hj).1]
    refine (Finset.sum_le_sum fun j hj => (hi' i h j hj).2).trans ?_
    rw [Finset.sum_add_distrib, ← Finset.mul_sum, Finset.sum_const, nsmul_eq_mul]
    exact add_le_add (mul_le_mul_of_nonneg_left (geometric_finset h0 h1 s i) ha) le_rfl
  refine (Finset.sum_le_sum hrow).trans (le_of_eq ?_)
  rw [Finset.sum_const, nsmul_eq_mul]
  ring

/-! ## Second moments -/

section
variable [DecidableEq ι] {U : (ι → ℝ) → ℝ} {G : (ι → ℝ) → ι → ℝ} {m L : ℝ} (hU : Spec.Convex U G m L)

/-- The second moment of the normalised posterior. -/
noncomputable def postMoment (U : (ι → ℝ) → ℝ) : ℝ := (∫⁻ y, ENNReal.ofReal (Spec.sqLen y) ∂postDist U).toReal

omit [DecidableEq ι] in
theorem sqLen_le_sub (x y : ι → ℝ) : Spec.sqLen x ≤ 2 * Spec.sqLen (x - y) + 2 * Spec.sqLen y := by
  have h := sqLen_sub_le (x - y) (-y)
  have e1 : x - y - -y = x := by funext i; simp
  have e2 : Spec.sqLen (-y) = Spec.sqLen y := by unfold Spec.sqLen; simp
  rwa [e1, e2] at h

include hU in
/-- Close to the posterior the distance to an independent sample of the posterior is bounded. -/
theorem initialDist_le {μ : Measure (ι → ℝ)} {r : ℝ} {γ : Measure ((ι → ℝ) × (ι → ℝ))} (hγ : Coupling U μ r γ) :
    initialDist U μ ≤ 4 * r + 6 * postMoment U ∧ ∫⁻ x, ENNReal.ofReal (Spec.sqLen x) ∂μ ≠ ⊤ := by
  have hγp := hγ.prob
  have hp := postDist_prob hU
  have hsq : Measurable fun y : ι → ℝ => ENNReal.ofReal (Spec.sqLen y) := ENNReal.measurable_ofReal.comp sqLen_measurable
  have hM : ∫⁻ y, ENNReal.ofReal (Spec.sqLen y) ∂postDist U = ENNReal.ofReal (postMoment U) :=
    (ENNReal.ofReal_toReal (postDist_second_moment hU)).symm
  have hM0 : 0 ≤ postMoment U := ENNReal.toReal_nonneg
  have h1 : ∫⁻ x, ENNReal.ofReal (Spec.sqLen x) ∂μ ≤ ENNReal.ofReal (2 * r + 2 * postMoment U) := by
    rw [← hγ.first, lintegral_map hsq measurable_fst]
    refine (lintegral_mono fun z : (ι → ℝ) × (ι → ℝ) => ENNReal.ofReal_le_ofReal (sqLen_le_sub z.1 z.2)).trans ?_
    have e : ∀ z : (ι → ℝ) × (ι → ℝ), ENNReal.ofReal (2 * Spec.sqLen (z.1 - z.2) + 2 * Spec.sqLen z.2) =
        ENNReal.ofReal 2 * ENNReal.ofReal (Spec.sqLen (z.1 - z.2)) + ENNReal.ofReal 2 * ENNReal.ofReal (Spec.sqLen z.2) := by
      intro z
      rw [ENNReal.ofReal_add (mul_nonneg zero_le_two (sqLen_nonneg _)) (mul_nonneg zero_le_two (sqLen_nonneg _)),
        ENNReal.ofReal_mul zero_le_two, ENNReal.ofReal_mul zero_le_two]
    simp only [e]
    have hs2 : Measurable fun z : (ι → ℝ) × (ι → ℝ) => ENNReal.ofReal (Spec.sqLen z.2) := hsq.comp measurable_snd
    rw [lintegral_add_left (sqDist_measurable.const_mul _), lintegral_const_mul _ sqDist_measurable, lintegral_const_mul _ hs2]
    have e2 : ∫⁻ z, ENNReal.ofReal (Spec.sqLen z.2) ∂γ = ENNReal.ofReal (postMoment U) := by
      rw [← hM, ← hγ.second, lintegral_map hsq measurable_snd]
    rw [e2, ENNReal.ofReal_add (mul_nonneg zero_le_two hγ.nonneg) (mul_nonneg zero_le_two hM0), ENNReal.ofReal_mul zero_le_two,
      ENNReal.ofReal_mul zero_le_two]
    exact add_le_add (mul_le_mul_right hγ.dist _) le_rfl
  have hfin : ∫⁻ x, ENNReal.ofReal (Spec.sqLen x) ∂μ ≠ ⊤ := ne_top_of_le_ne_top ENNReal.ofReal_ne_top h1
  refine ⟨?_, hfin⟩
  have hμp : IsProbabilityMeasure μ := by rw [← hγ.first]; exact Measure.isProbabilityMeasure_map measurable_fst.aemeasurable
  have hr := hγ.nonneg
  rw [← ENNReal.ofReal_le_ofReal_iff (by positivity), ← initialDist_eq hU hfin]
  refine (lintegral_mono fun z : (ι → ℝ) × (ι → ℝ) => ENNReal.ofReal_le_ofReal (sqLen_sub_le z.1 z.2)).trans ?_
  have e : ∀ z : (ι → ℝ) × (ι → ℝ), ENNReal.ofReal (2 * Spec.sqLen z.1 + 2 * Spec.sqLen z.2) =
      ENNReal.ofReal 2 * ENNReal.ofReal (Spec.sqLen z.1) + ENNReal.ofReal 2 * ENNReal.ofReal (Spec.sqLen z.2) := by
    intro z
    rw [ENNReal.ofReal_add (mul_nonneg zero_le_two (sqLen_nonneg _)) (mul_nonneg zero_le_two (sqLen_nonneg _)),
      ENNReal.ofReal_mul zero_le_two, ENNReal.ofReal_mul zero_le_two]
  simp only [e]
  have hs1 : Measurable fun z : (ι → ℝ) × (ι → ℝ) => ENNReal.ofReal (Spec.sqLen z.1) := hsq.comp measurable_fst
  have hs2 : Measurable fun z : (ι → ℝ) × (ι → ℝ) => ENNReal.ofReal (Spec.sqLen z.2) := hsq.comp measurable_snd
  rw [lintegral_add_left (hs1.const_mul _), lintegral_const_mul _ hs1, lintegral_const_mul _ hs2]
  have e1 : ∫⁻ z, ENNReal.ofReal (Spec.sqLen z.1) ∂μ.prod (postDist U) = ∫⁻ x, ENNReal.ofReal (Spec.sqLen x) ∂μ := by
    rw [← lintegral_map hsq measurable_fst, Measure.map_fst_prod, measure_univ, one_smul]
  have e2 : ∫⁻ z, ENNReal.ofReal (Spec.sqLen z.2) ∂μ.prod (postDist U) = ENNReal.ofReal (postMoment U) := by
    rw [← lintegral_map hsq measurable_snd, Measure.map_snd_prod, measure_univ, one_smul, hM]
  rw [e1, e2]
  refine (add_le_add (mul_le_mul_right h1 _) le_rfl).trans (le_of_eq ?_)
  rw [← ENNReal.ofReal_mul zero_le_two, ← ENNReal.ofReal_mul zero_le_two, ← ENNReal.ofReal_add (by positivity) (by positivity)]
  congr 1
  ring

include hU in
/-- The mean squared deviation from the posterior mean. -/
theorem deviation_square {ν : Measure (ι → ℝ)} [IsProbabilityMeasure ν] (hν : ∫⁻ x, ENNReal.ofReal (Spec.sqLen x) ∂ν ≠ ⊤)
    {f : (ι → ℝ) → ℝ} {Λ : ℝ} (hf : Spec.Lipschitz f Λ) :
    Integrable (fun a => (f a - ∫ y, f y ∂postDist U) ^ 2) ν ∧
      ∫ a, (f a - ∫ y, f y ∂postDist U) ^ 2 ∂ν ≤ Λ ^ 2 * initialDist U ν := by
  have hp := postDist_prob hU
  have hfm := (lipschitz_continuous hf).measurable
  set c := ∫ y, f y ∂postDist U with hc
  have hpt : ∀ a : ι → ℝ, ENNReal.ofReal ((f a - c) ^ 2) ≤ ENNReal.ofReal (Λ ^ 2) * ∫⁻ y, ENNReal.ofReal (Spec.sqLen (a - y)) ∂postDist U := by
    intro a
    have hd := dirac_second_moment a
    obtain ⟨-, -, h3⟩ := coupling_expectation hU (coupling_init hU hd) hf
    rw [integral_dirac' _ _ hfm.stronglyMeasurable] at h3
    have h4 := initialDist_eq hU hd
    rw [lintegral_prod _ sqDist_measurable.aemeasurable, lintegral_dirac' _ sqDist_measurable.lintegral_prod_right'] at h4
    rw [h4, ← ENNReal.ofReal_mul (sq_nonneg Λ)]
    exact ENNReal.ofReal_le_ofReal h3
  have hle : ∫⁻ a, ENNReal.ofReal ((f a - c) ^ 2) ∂ν ≤ ENNReal.ofReal (Λ ^ 2 * initialDist U ν) := by
    refine (lintegral_mono hpt).trans (le_of_eq ?_)
    rw [lintegral_const_mul _ sqDist_measurable.lintegral_prod_right', ENNReal.ofReal_mul (sq_nonneg Λ), ← initialDist_eq hU hν,
      lintegral_prod _ sqDist_measurable.aemeasurable]
  have hm : Measurable fun a : ι → ℝ => (f a - c) ^ 2 := (hfm.sub_const c).pow_const 2
  have hi : Integrable (fun a : ι → ℝ => (f a - c) ^ 2) ν :=
    (lintegral_ofReal_ne_top_iff_integrable hm.aestronglyMeasurable (Filter.Eventually.of_forall fun z => sq_nonneg _)).1
      (ne_top_of_le_ne_top ENNReal.ofReal_ne_top hle)
  refine ⟨hi, ?_⟩
  rw [← ofReal_integral_eq_lintegral_ofReal hi (Filter.Eventually.of_forall fun z => sq_nonneg _)] at hle
  exact (ENNReal.ofReal_le_ofReal_iff (mul_nonneg (sq_nonneg Λ) (initialDist_nonneg U ν))).1 hle

include hU in
/-- The covariance of the first component and the second component. -/
theorem pair_covariance {ν : Measure (ι → ℝ)} [IsProbabilityMeasure ν] (hν : ∫⁻ x, ENNReal.ofReal (Spec.sqLen x) ∂ν ≠ ⊤)
    {μ : Measure ((ι → ℝ) × (ι → ℝ))} {r : ℝ} {γ : Measure ((ι → ℝ) × (ι → ℝ) × (ι → ℝ))} (hγ : PairCoupling U ν μ r γ)
    {f : (ι → ℝ) → ℝ} {Λ : ℝ} (hf : Spec.Lipschitz f Λ) {t : ℝ} (ht : 0 < t) :
    Integrable (fun q => (f q.1 - ∫ y, f y ∂postDist U) * (f q.2 - ∫ y, f y ∂postDist U)) μ ∧
      ∫ q, (f q.1 - ∫ y, f y ∂postDist U) * (f q.2 - ∫ y, f y ∂postDist U) ∂μ ≤
        t / 2 * (Λ ^ 2 * initialDist U ν) + Λ ^ 2 * r / (2 * t) := by
  have hγp := hγ.prob
  have hp := postDist_prob hU
  have hfm := (lipschitz_continuous hf).measurable
  obtain ⟨hv1, hv2⟩ := deviation_square hU hν hf
  obtain ⟨hfν, hfπ, -⟩ := coupling_expectation hU (coupling_init hU hν) hf
  set c := ∫ y, f y ∂postDist U with hc
  have hm2 : Measurable fun z : (ι → ℝ) × (ι → ℝ) × (ι → ℝ) => (z.1, z.2.2) := by fun_prop
  have hm1 : Measurable fun z : (ι → ℝ) × (ι → ℝ) × (ι → ℝ) => (z.1, z.2.1) := by fun_prop
  have hfst : γ.map Prod.fst = ν := by
    have h1 : (γ.map fun z => (z.1, z.2.2)).map Prod.fst = γ.map Prod.fst := by
      rw [Measure.map_map measurable_fst hm2]
      rfl
    rw [← h1, hγ.second, Measure.map_fst_prod, measure_univ, one_smul]
  have hsqm : Measurable fun a : ι → ℝ => (f a - c) ^ 2 := (hfm.sub_const c).pow_const 2
  have i1 : Integrable (fun z : (ι → ℝ) × (ι → ℝ) × (ι → ℝ) => (f z.1 - c) ^ 2) γ := by
    have := hfst ▸ hv1
    exact (integrable_map_measure hsqm.aestronglyMeasurable measurable_fst.aemeasurable).1 this
  have v1 : ∫ z, (f z.1 - c) ^ 2 ∂γ ≤ Λ ^ 2 * initialDist U ν := by
    refine le_trans (le_of_eq ?_) hv2
    rw [← hfst, integral_map measurable_fst.aemeasurable hsqm.aestronglyMeasurable]
  have hdm : Measurable fun z : (ι → ℝ) × (ι → ℝ) × (ι → ℝ) => Spec.sqLen (z.2.1 - z.2.2) :=
    sqLen_measurable.comp (by fun_prop : Measurable fun z : (ι → ℝ) × (ι → ℝ) × (ι → ℝ) => z.2.1 - z.2.2)
  have hdi : Integrable (fun z : (ι → ℝ) × (ι → ℝ) × (ι → ℝ) => Spec.sqLen (z.2.1 - z.2.2)) γ := by
    refine (lintegral_ofReal_ne_top_iff_integrable hdm.aestronglyMeasurable (Filter.Eventually.of_forall fun z => sqLen_nonneg _)).1 ?_
    exact ne_top_of_le_ne_top ENNReal.ofReal_ne_top hγ.dist
  have hdr : ∫ z, Spec.sqLen (z.2.1 - z.2.2) ∂γ ≤ r := by
    have := hγ.dist
    rw [← ofReal_integral_eq_lintegral_ofReal hdi (Filter.Eventually.of_forall fun z => sqLen_nonneg _)] at this
    exact (ENNReal.ofReal_le_ofReal_iff hγ.nonneg).1 this
  have hdfm : Measurable fun z : (ι → ℝ) × (ι → ℝ) × (ι → ℝ) => f z.2.1 - f z.2.2 :=
    (hfm.comp (by fun_prop)).sub (hfm.comp (by fun_prop))
  have i2 : Integrable (fun z : (ι → ℝ) × (ι → ℝ) × (ι → ℝ) => (f z.2.1 - f z.2.2) ^ 2) γ := by
    refine (hdi.const_mul (Λ ^ 2)).mono' (hdfm.pow_const 2).aestronglyMeasurable (Filter.Eventually.of_forall fun z => ?_)
    rw [Real.norm_eq_abs, abs_of_nonneg (sq_nonneg _)]
    exact hf z.2.1 z.2.2
  have v2 : ∫ z, (f z.2.1 - f z.2.2) ^ 2 ∂γ ≤ Λ ^ 2 * r := by
    refine le_trans ?_ (mul_le_mul_of_nonneg_left hdr (sq_nonneg Λ))
    rw [← integral_const_mul]
    exact integral_mono i2 (hdi.const_mul _) fun z => hf z.2.1 z.2.2
  have hFm : Measurable fun z : (ι → ℝ) × (ι → ℝ) × (ι → ℝ) => f z.1 - c := (hfm.comp measurable_fst).sub_const c
  have i3 : Integrable (fun z : (ι → ℝ) × (ι → ℝ) × (ι → ℝ) => (f z.1 - c) * (f z.2.1 - f z.2.2)) γ := by
    refine (i1.add i2).mono' (hFm.mul hdfm).aestronglyMeasurable (Filter.Eventually.of_forall fun z => ?_)
    rw [Real.norm_eq_abs]
    show |(f z.1 - c) * (f z.2.1 - f z.2.2)| ≤ (f z.1 - c) ^ 2 + (f z.2.1 - f z.2.2) ^ 2
    rw [abs_le]
    constructor <;> nlinarith [sq_nonneg (f z.1 - c + (f z.2.1 - f z.2.2)), sq_nonneg (f z.1 - c - (f z.2.1 - f z.2.2)),
      sq_nonneg (f z.1 - c), sq_nonneg (f z.2.1 - f z.2.2)]
  have hprodm : Measurable fun q : (ι → ℝ) × (ι → ℝ) => (f q.1 - c) * (f q.2 - c) :=
    ((hfm.comp measurable_fst).sub_const c).mul ((hfm.comp measurable_snd).sub_const c)
  have hFi : Integrable (fun a : ι → ℝ => f a - c) ν := hfν.sub (integrable_const c)
  have hFπ : Integrable (fun a : ι → ℝ => f a - c) (postDist U) := hfπ.sub (integrable_const c)
  have i4 : Integrable (fun z : (ι → ℝ) × (ι → ℝ) × (ι → ℝ) => (f z.1 - c) * (f z.2.2 - c)) γ := by
    have h1 : Integrable (fun q : (ι → ℝ) × (ι → ℝ) => (f q.1 - c) * (f q.2 - c)) (γ.map fun z => (z.1, z.2.2)) := by
      rw [hγ.second]
      exact hFi.mul_prod hFπ
    exact (integrable_map_measure hprodm.aestronglyMeasurable hm2.aemeasurable).1 h1
  have v4 : ∫ z, (f z.1 - c) * (f z.2.2 - c) ∂γ = 0 := by
    have h1 := integral_map (μ := γ) hm2.aemeasurable hprodm.aestronglyMeasurable
    rw [hγ.second, integral_prod_mul (fun a : ι → ℝ => f a - c) (fun a : ι → ℝ => f a - c), integral_sub hfπ (integrable_const c),
      integral_const, probReal_univ, one_smul, ← hc, sub_self, mul_zero] at h1
    exact h1.symm
  have e5 : ∀ z : (ι → ℝ) × (ι → ℝ) × (ι → ℝ), (f z.1 - c) * (f z.2.1 - c) =
      (f z.1 - c) * (f z.2.1 - f z.2.2) + (f z.1 - c) * (f z.2.2 - c) := fun z => by ring
  have i5 : Integrable (fun z : (ι → ℝ) × (ι → ℝ) × (ι → ℝ) => (f z.1 - c) * (f z.2.1 - c)) γ := by
    simp only [e5]
    exact i3.add i4
  constructor
  · rw [← hγ.first]
    exact (integrable_map_measure hprodm.aestronglyMeasurable hm1.aemeasurable).2 i5
  · rw [← hγ.first, integral_map hm1.aemeasurable hprodm.aestronglyMeasurable]
    dsimp only
    simp only [e5]
    rw [integral_add i3 i4, v4, add_zero]
    have h6 : ∫ z, (f z.1 - c) * (f z.2.1 - f z.2.2) ∂γ ≤ ∫ z, (t / 2 * (f z.1 - c) ^ 2 + 1 / (2 * t) * (f z.2.1 - f z.2.2) ^ 2) ∂γ := by
      refine integral_mono i3 ((i1.const_mul _).add (i2.const_mul _)) fun z => ?_
      show (f z.1 - c) * (f z.2.1 - f z.2.2) ≤ t / 2 * (f z.1 - c) ^ 2 + 1 / (2 * t) * (f z.2.1 - f z.2.2) ^ 2
      have h7 : t / 2 * (f z.1 - c) ^ 2 + 1 / (2 * t) * (f z.2.1 - f z.2.2) ^ 2 - (f z.1 - c) * (f z.2.1 - f z.2.2) =
          1 / (2 * t) * (t * (f z.1 - c) - (f z.2.1 - f z.2.2)) ^ 2 := by field_simp; ring
      have h8 : 0 ≤ 1 / (2 * t) * (t * (f z.1 - c) - (f z.2.1 - f z.2.2)) ^ 2 := by positivity
      linarith
    refine h6.trans ?_
    rw [integral_add (i1.const_mul _) (i2.const_mul _), integral_const_mul, integral_const_mul]
    have h9 := mul_le_mul_of_nonneg_left v1 (by positivity : 0 ≤ t / 2)
    have h10 := mul_le_mul_of_nonneg_left v2 (by positivity : 0 ≤ 1 / (2 * t))
    have e11 : 1 / (2 * t) * (Λ ^ 2 * r) = Λ ^ 2 * r / (2 * t) := by ring
    linarith

end

end JaxSgmc
