import Verif.Lemmas.SgldAverage
import Verif.Props.AdaptiveRun

/-!
# C136: averages over the samples of SGLD

For strongly convex potentials and unbiased mini-batch gradients, the average of a Lipschitz function over the samples
of one run of SGLD with ideal random numbers is close to the posterior mean in mean square, up to `√h` for the largest step
size `h`.
-/

namespace JaxSgmc

open MeasureTheory ProbabilityTheory Filter Topology

variable {ι κ δ β μ Ω : Type} [Fintype ι]

section
variable [DecidableEq ι] {U : (ι → ℝ) → ℝ} {G : (ι → ℝ) → ι → ℝ} {m L : ℝ} (hU : Spec.Convex U G m L)
  [MeasurableSpace Ω] [MeasurableSpace β] [Countable β] [MeasurableSingletonClass β]
  {prob : Measure Ω} [IsProbabilityMeasure prob] {P : Ω → Prng κ} {data : Ω → δ → δ × β} {d₀ : δ} {w : β → ENNReal}
  {sp : κ → ℕ → ℕ → κ} (hR : Spec.IdealRandom prob P data d₀ 1 (fun b => w (b 0)) sp) {lay : Layout ι}
  (hlay : Spec.Layout.Valid lay) {sg : StochGradLik ι β μ} {g : (ι → ℝ) → β → (ι → ℝ)} (hsg : ∀ x b ms, (sg x b ms).2 = g x b)
  (hgm : ∀ b, Measurable fun x => g x b) {s : ℝ} (hg : Spec.Unbiased w g G s) {T : ℝ} (hT : 0 < T)

/-- The constant of the error. -/
noncomputable def avgConst (U : (ι → ℝ) → ℝ) (G : (ι → ℝ) → ι → ℝ) (m L s T : ℝ) : ℝ :=
  2 * errorConst (fun x => U x / T) (fun x i => G x i / T) (m / T) (L / T) (s / T ^ 2) / (m / T) * T

include hU hR hlay hsg hgm hg hT in
/-- The covariance of two samples of one run. -/
theorem sgld_covariance (ms : μ) (x₀ : ι → ℝ) (key : κ) (pre suf : List Params) {l u : ℝ} (hl : 0 < l) (hlu : l ≤ u)
    (hu : T * u ≤ maxStep (m / T) (L / T) (s / T ^ 2)) (hpT : ∀ p ∈ pre, p.temperature = T)
    (hp : ∀ p ∈ suf, p.temperature = T ∧ l ≤ p.stepSize ∧ p.stepSize ≤ u) {B : ℝ}
    (hB : initialDist (fun x => U x / T)
      (sgldLaw w (fun x b i => g x b i / T) (pre.map fun p => T * p.stepSize) (Measure.dirac x₀)) ≤ B)
    {f : (ι → ℝ) → ℝ} {Λ : ℝ} (hf : Spec.Lipschitz f Λ) :
    Integrable (fun ω => (f (Spec.sgldSample (P ω) lay (data ω) d₀ sg ms x₀ key pre)
        - Spec.posteriorMean (fun x => U x / T) Set.univ f) *
      (f (Spec.sgldSample (P ω) lay (data ω) d₀ sg ms x₀ key (pre ++ suf))
        - Spec.posteriorMean (fun x => U x / T) Set.univ f)) prob ∧
    ∫ ω, (f (Spec.sgldSample (P ω) lay (data ω) d₀ sg ms x₀ key pre) - Spec.posteriorMean (fun x => U x / T) Set.univ f) *
      (f (Spec.sgldSample (P ω) lay (data ω) d₀ sg ms x₀ key (pre ++ suf))
        - Spec.posteriorMean (fun x => U x / T) Set.univ f) ∂prob ≤
      Λ ^ 2 * B * Real.sqrt (1 - m * l / 2) ^ suf.length + Λ ^ 2 * (Real.sqrt u * ((B + avgConst U G m L s T) / 2)) := by
  have hUT := convex_scale hU hT
  have hgT := unbiased_scale hg hT
  have hgmT := scaled_measurable hgm T
  have hC := errorConst_nonneg (fun x => U x / T) (fun x i => G x i / T) (m / T) (L / T) (s / T ^ 2)
  have hup : 0 < u := hl.trans_le hlu
  have hfm : Measurable f := (lipschitz_continuous hf).measurable
  set ν := sgldLaw w (fun x b i => g x b i / T) (pre.map fun p => T * p.stepSize) (Measure.dirac x₀) with hν
  have hp1 : IsProbabilityMeasure ν := sgldLaw_prob hg.probability hgmT (μ := Measure.dirac x₀) (pre.map fun p => T * p.stepSize)
  have hm1 := sgldLaw_second_moment hUT hgT hgmT (dirac_second_moment x₀) (pre.map fun p => T * p.stepSize)
  rw [← hν] at hm1
  have hlaw := sgldSample_law hR hlay hsg hgm hT hg.probability ms x₀ key pre hpT
  have hpair := sgldPair_law hR hlay key hsg hgm hT hg.probability ms x₀ pre suf (fun p hq => (hp p hq).1)
  rw [hlaw, ← hν] at hpair
  obtain ⟨γ, hγ⟩ := pairCoupling_exists hUT hgT hgmT hm1 (suf.map fun p => T * p.stepSize) (by
    intro h hh
    obtain ⟨p, hq, rfl⟩ := List.mem_map.1 hh
    exact ⟨mul_pos hT (hl.trans_le (hp p hq).2.1), (mul_le_mul_of_nonneg_left (hp p hq).2.2 hT.le).trans hu⟩)
  rw [← hpair] at hγ
  have hfac : 0 ≤ 1 - m * u / 2 := by
    have := maxStep_factor hUT.m_pos hu
    have e : m / T * (T * u) = m * u := by field_simp
    rwa [e] at this
  have hml : m * l ≤ m * u := mul_le_mul_of_nonneg_left hlu hU.m_pos.le
  have hq0 : 0 ≤ 1 - m * l / 2 := by linarith
  have hI0 := initialDist_nonneg (fun x => U x / T) ν
  have hB0 : 0 ≤ B := hI0.trans hB
  -- the distance
  have hr : errorBound (m / T) (errorConst (fun x => U x / T) (fun x i => G x i / T) (m / T) (L / T) (s / T ^ 2))
      (suf.map fun p => T * p.stepSize) (initialDist (fun x => U x / T) ν) ≤
      (1 - m * l / 2) ^ suf.length * B + avgConst U G m L s T * u := by
    refine (errorBound_range (l := T * l) (u := T * u) hUT.m_pos (mul_pos hT hl) hC hI0
      (maxStep_factor hUT.m_pos hu) _ (fun h hm => ?_) (mul_le_mul_of_nonneg_left hlu hT.le)).trans ?_
    · obtain ⟨p, hq, rfl⟩ := List.mem_map.1 hm
      exact ⟨mul_le_mul_of_nonneg_left (hp p hq).2.1 hT.le, mul_le_mul_of_nonneg_left (hp p hq).2.2 hT.le⟩
    have e : m / T * (T * l) = m * l := by field_simp
    rw [e, List.length_map]
    refine add_le_add (mul_le_mul_of_nonneg_left hB (pow_nonneg hq0 _)) (le_of_eq ?_)
    unfold avgConst
    ring
  set σ := Real.sqrt (1 - m * l / 2) with hσ
  have hσ0 : 0 ≤ σ := Real.sqrt_nonneg _
  have hσ2 : (1 - m * l / 2) ^ suf.length = (σ ^ suf.length) ^ 2 := by
    rw [← pow_mul, mul_comm suf.length, pow_mul, hσ, Real.sq_sqrt hq0]
  have hsu : 0 < Real.sqrt u := Real.sqrt_pos.2 hup
  have hsu2 : Real.sqrt u ^ 2 = u := Real.sq_sqrt hup.le
  have ht : 0 < σ ^ suf.length + Real.sqrt u := add_pos_of_nonneg_of_pos (pow_nonneg hσ0 _) hsu
  obtain ⟨c1, c2⟩ := pair_covariance hUT hm1 hγ hf ht
  have hmX := (sample_measurable hR hlay hsg hgm ms x₀ key pre).prodMk (sample_measurable hR hlay hsg hgm ms x₀ key (pre ++ suf))
  rw [← posteriorMean_eq] at c1 c2
  have hF : Measurable fun q : (ι → ℝ) × (ι → ℝ) => (f q.1 - Spec.posteriorMean (fun x => U x / T) Set.univ f) *
      (f q.2 - Spec.posteriorMean (fun x => U x / T) Set.univ f) :=
    ((hfm.comp measurable_fst).sub_const _).mul ((hfm.comp measurable_snd).sub_const _)
  refine ⟨(integrable_map_measure hF.aestronglyMeasurable hmX.aemeasurable).1 c1, ?_⟩
  rw [integral_map hmX.aemeasurable hF.aestronglyMeasurable] at c2
  refine c2.trans ?_
  set a := σ ^ suf.length with ha
  have ha0 : 0 ≤ a := pow_nonneg hσ0 _
  set v := Real.sqrt u with hv
  set C := avgConst U G m L s T with hCdef
  have hC0 : 0 ≤ C := by
    have := hUT.m_pos
    rw [hCdef]; unfold avgConst; positivity
  rw [hσ2, ← hsu2] at hr
  have h1 : (a + v) / 2 * (Λ ^ 2 * initialDist (fun x => U x / T) ν) ≤ (a + v) / 2 * (Λ ^ 2 * B) :=
    mul_le_mul_of_nonneg_left (mul_le_mul_of_nonneg_left hB (sq_nonneg Λ)) (by positivity)
  have h2 : (a ^ 2 * B + C * v ^ 2) / (2 * (a + v)) ≤ (a * B + C * v) / 2 := by
    rw [div_le_div_iff₀ (by positivity) two_pos]
    have h3 : 0 ≤ a * v * B := by positivity
    have h4 : 0 ≤ a * v * C := by positivity
    nlinarith
  have h5 : Λ ^ 2 * errorBound (m / T) (errorConst (fun x => U x / T) (fun x i => G x i / T) (m / T) (L / T) (s / T ^ 2))
      (suf.map fun p => T * p.stepSize) (initialDist (fun x => U x / T) ν) / (2 * (a + v)) ≤ Λ ^ 2 * ((a * B + C * v) / 2) := by
    rw [mul_div_assoc]
    refine mul_le_mul_of_nonneg_left (le_trans ?_ h2) (sq_nonneg Λ)
    exact div_le_div_of_nonneg_right hr (by positivity)
  refine (add_le_add h1 h5).trans (le_of_eq ?_)
  ring

/-- The bound of the squared distance of a sample after the burn in and an independent sample of the posterior. -/
noncomputable def avgMoment (U : (ι → ℝ) → ℝ) (G : (ι → ℝ) → ι → ℝ) (m L s T u : ℝ) : ℝ :=
  4 * (1 + avgConst U G m L s T * u) + 6 * postMoment fun x => U x / T

omit [DecidableEq ι] in
theorem avgConst_nonneg (hm : 0 < m) (hT : 0 < T) : 0 ≤ avgConst U G m L s T := by
  have hC := errorConst_nonneg (fun x => U x / T) (fun x i => G x i / T) (m / T) (L / T) (s / T ^ 2)
  have := div_pos hm hT
  unfold avgConst
  positivity

include hU hgm hg hT in
theorem burned_in (x₀ : ι → ℝ) (prms : List Params) {l u : ℝ} (hl : 0 < l) (hlu : l ≤ u)
    (hu : T * u ≤ maxStep (m / T) (L / T) (s / T ^ 2))
    (hp : ∀ p ∈ prms, p.temperature = T ∧ l ≤ p.stepSize ∧ p.stepSize ≤ u)
    (hN : (1 - m * l / 2) ^ prms.length * initialDist (fun x => U x / T) (Measure.dirac x₀) ≤ 1) :
    initialDist (fun x => U x / T)
      (sgldLaw w (fun x b i => g x b i / T) (prms.map fun p => T * p.stepSize) (Measure.dirac x₀)) ≤ avgMoment U G m L s T u := by
  have hUT := convex_scale hU hT
  have hgT := unbiased_scale hg hT
  have hgmT := scaled_measurable hgm T
  have hC := errorConst_nonneg (fun x => U x / T) (fun x i => G x i / T) (m / T) (L / T) (s / T ^ 2)
  obtain ⟨γ, hγ⟩ := coupling_exists hUT hgT hgmT (dirac_second_moment x₀) (prms.map fun p => T * p.stepSize) (by
    intro h hh
    obtain ⟨p, hq, rfl⟩ := List.mem_map.1 hh
    exact ⟨mul_pos hT (hl.trans_le (hp p hq).2.1), (mul_le_mul_of_nonneg_left (hp p hq).2.2 hT.le).trans hu⟩)
  have h1 := (initialDist_le hUT hγ).1
  refine h1.trans ?_
  unfold avgMoment
  have h2 := errorBound_range (l := T * l) (u := T * u) hUT.m_pos (mul_pos hT hl) hC
    (initialDist_nonneg (fun x => U x / T) (Measure.dirac x₀))
    (maxStep_factor hUT.m_pos hu) (prms.map fun p => T * p.stepSize) (fun h hm => by
      obtain ⟨p, hq, rfl⟩ := List.mem_map.1 hm
      exact ⟨mul_le_mul_of_nonneg_left (hp p hq).2.1 hT.le, mul_le_mul_of_nonneg_left (hp p hq).2.2 hT.le⟩)
    (mul_le_mul_of_nonneg_left hlu hT.le)
  have e : m / T * (T * l) = m * l := by field_simp
  rw [e, List.length_map] at h2
  have e2 : 2 * errorConst (fun x => U x / T) (fun x i => G x i / T) (m / T) (L / T) (s / T ^ 2) / (m / T) * (T * u) =
      avgConst U G m L s T * u := by unfold avgConst; ring
  rw [e2] at h2
  linarith

include hU hR hlay hsg hgm hg hT in
/-- **C136 (error bound).** There are a largest step size `h₀` and a constant `K`, and for every initial sample a constant
`D`, such that for every run of SGLD with step sizes between `l` and `u ≤ h₀` at temperature `T`, every set `I` of iterations
after a burn in of `N` iterations with `(1 - m l / 2)^N D ≤ 1` and every function with Lipschitz constant `Λ`: the average
of the function over the samples `I` differs from the posterior mean at temperature `T` in mean square by at most
`Λ² K (1 / (l |I|) + √u)`. -/
theorem c136_bound : ∃ h₀ K : ℝ, 0 < h₀ ∧ m * h₀ ≤ 1 ∧ 0 ≤ K ∧ ∀ x₀ : ι → ℝ, ∃ D : ℝ, 0 ≤ D ∧
    ∀ (ms : μ) (key : κ) (l u : ℝ), 0 < l → l ≤ u → u ≤ h₀ → ∀ (N : ℕ), (1 - m * l / 2) ^ N * D ≤ 1 →
      ∀ (prm : ℕ → Params) (I : Finset ℕ), I.Nonempty → (∀ i ∈ I, N ≤ i) →
      (∀ i ∈ I, ∀ k < i, (prm k).temperature = T ∧ l ≤ (prm k).stepSize ∧ (prm k).stepSize ≤ u) →
      ∀ (f : (ι → ℝ) → ℝ) (Λ : ℝ), Spec.Lipschitz f Λ →
      Integrable (fun ω => ((∑ i ∈ I, f (Spec.sgldSample (P ω) lay (data ω) d₀ sg ms x₀ key ((List.range i).map prm))) / I.card
        - Spec.posteriorMean (fun x => U x / T) Set.univ f) ^ 2) prob ∧
      ∫ ω, ((∑ i ∈ I, f (Spec.sgldSample (P ω) lay (data ω) d₀ sg ms x₀ key ((List.range i).map prm))) / I.card
        - Spec.posteriorMean (fun x => U x / T) Set.univ f) ^ 2 ∂prob ≤ Λ ^ 2 * (K * (1 / (l * I.card) + Real.sqrt u)) := by
  have hUT := convex_scale hU hT
  have hgT := unbiased_scale hg hT
  have hpos := maxStep_pos hUT.m_pos hUT.L_pos hgT.s_nonneg
  have hC := avgConst_nonneg (U := U) (G := G) (L := L) (s := s) hU.m_pos hT
  have hM0 : 0 ≤ postMoment fun x => U x / T := ENNReal.toReal_nonneg
  have hmp := hU.m_pos
  set h₀ := maxStep (m / T) (L / T) (s / T ^ 2) / T with hh₀
  have hh0p : 0 < h₀ := div_pos hpos hT
  have hmh : m * h₀ ≤ 1 := by
    have h1 : maxStep (m / T) (L / T) (s / T ^ 2) ≤ 1 / (m / T) := (min_le_left _ _).trans (min_le_right _ _)
    rw [le_div_iff₀ hUT.m_pos] at h1
    calc _ = maxStep (m / T) (L / T) (s / T ^ 2) * (m / T) := by rw [hh₀]; ring
      _ ≤ 1 := h1
  set B := avgMoment U G m L s T h₀ with hB
  have hB0 : 0 ≤ B := by rw [hB]; unfold avgMoment; positivity
  set C := avgConst U G m L s T with hCdef
  refine ⟨h₀, 8 * B / m + (B + C) / 2, hh0p, hmh, by positivity,
    fun x₀ => ⟨initialDist (fun x => U x / T) (Measure.dirac x₀), initialDist_nonneg _ _, ?_⟩⟩
  intro ms key l u hl hlu hle N hN prm I hI hIN hprm f Λ hf
  have hu' : T * u ≤ maxStep (m / T) (L / T) (s / T ^ 2) := by rw [hh₀, le_div_iff₀ hT] at hle; linarith
  have hup : 0 < u := hl.trans_le hlu
  have hml0 : 0 < m * l := mul_pos hmp hl
  have hml1 : m * l ≤ 1 := (mul_le_mul_of_nonneg_left (hlu.trans hle) hmp.le).trans hmh
  set M := Spec.posteriorMean (fun x => U x / T) Set.univ f with hM
  set X : ℕ → Ω → (ι → ℝ) := fun i ω => Spec.sgldSample (P ω) lay (data ω) d₀ sg ms x₀ key ((List.range i).map prm) with hX
  set σ := Real.sqrt (1 - m * l / 2) with hσ
  have hσ0 : 0 ≤ σ := Real.sqrt_nonneg _
  have hσ1 : σ ≤ 1 - m * l / 4 := by
    rw [hσ]
    refine Real.sqrt_le_iff.2 ⟨by linarith, ?_⟩
    nlinarith [sq_nonneg (m * l)]
  have hBu : avgMoment U G m L s T u ≤ B := by
    rw [hB]; unfold avgMoment
    have := mul_le_mul_of_nonneg_left hle hC
    linarith
  have hcov : ∀ i ∈ I, ∀ j ∈ I, i ≤ j → Integrable (fun ω => (f (X i ω) - M) * (f (X j ω) - M)) prob ∧
      ∫ ω, (f (X i ω) - M) * (f (X j ω) - M) ∂prob ≤ (Λ ^ 2 * B) * σ ^ (j - i) + Λ ^ 2 * (Real.sqrt u * ((B + C) / 2)) := by
    intro i hi j hj hij
    have e : (List.range j).map prm = (List.range i).map prm ++ (List.range (j - i)).map fun k => prm (i + k) := by
      conv_lhs => rw [show j = i + (j - i) by omega]
      rw [List.range_add, List.map_append, List.map_map]
      rfl
    have hpre : ∀ p ∈ (List.range i).map prm, p.temperature = T ∧ l ≤ p.stepSize ∧ p.stepSize ≤ u := by
      intro p hp
      obtain ⟨k, hk, rfl⟩ := List.mem_map.1 hp
      exact hprm i hi k (List.mem_range.1 hk)
    have hsuf : ∀ p ∈ (List.range (j - i)).map fun k => prm (i + k), p.temperature = T ∧ l ≤ p.stepSize ∧ p.stepSize ≤ u := by
      intro p hp
      obtain ⟨k, hk, rfl⟩ := List.mem_map.1 hp
      have := List.mem_range.1 hk
      exact hprm j hj _ (by omega)
    have hb := (burned_in hU hgm hg hT x₀ _ hl hlu hu' hpre (by
      refine le_trans (mul_le_mul_of_nonneg_right ?_ (initialDist_nonneg _ _)) hN
      rw [List.length_map, List.length_range]
      exact pow_le_pow_of_le_one (by linarith) (by linarith) (hIN i hi))).trans hBu
    have := sgld_covariance hU hR hlay hsg hgm hg hT ms x₀ key _ _ hl hlu hu' (fun p hp => (hpre p hp).1) hsuf hb hf
    rw [← e, List.length_map, List.length_range] at this
    exact this
  obtain ⟨s1, s2⟩ := sum_square_bound (prob := prob) (Z := fun i ω => f (X i ω) - M) hσ0 (by linarith) (by positivity) hcov
  have hn : (0 : ℝ) < I.card := Nat.cast_pos.2 hI.card_pos
  have e : ∀ ω, ((∑ i ∈ I, f (X i ω)) / I.card - M) ^ 2 = (1 / (I.card : ℝ) ^ 2) * (∑ i ∈ I, (f (X i ω) - M)) ^ 2 := by
    intro ω
    rw [Finset.sum_sub_distrib, Finset.sum_const, nsmul_eq_mul]
    field_simp
  have hgoal : (∫ ω, (1 / (I.card : ℝ) ^ 2) * (∑ i ∈ I, (f (X i ω) - M)) ^ 2 ∂prob) ≤
      Λ ^ 2 * ((8 * B / m + (B + C) / 2) * (1 / (l * I.card) + Real.sqrt u)) := by
    rw [integral_const_mul]
    have h1 := mul_le_mul_of_nonneg_left s2 (by positivity : 0 ≤ 1 / (I.card : ℝ) ^ 2)
    refine h1.trans ?_
    have h2 : 2 / (1 - σ) ≤ 8 / (m * l) := by
      rw [div_le_div_iff₀ (by linarith) hml0]
      nlinarith
    have h3 : 1 / (I.card : ℝ) ^ 2 * (I.card * (Λ ^ 2 * B * (2 / (1 - σ))) + I.card ^ 2 * (Λ ^ 2 * (Real.sqrt u * ((B + C) / 2)))) =
        Λ ^ 2 * (B * (2 / (1 - σ)) * (1 / I.card) + Real.sqrt u * ((B + C) / 2)) := by field_simp
    rw [h3]
    refine mul_le_mul_of_nonneg_left ?_ (sq_nonneg Λ)
    have h4 : B * (2 / (1 - σ)) * (1 / I.card) ≤ 8 * B / m * (1 / (l * I.card)) := by
      calc B * (2 / (1 - σ)) * (1 / I.card) ≤ B * (8 / (m * l)) * (1 / I.card) :=
            mul_le_mul_of_nonneg_right (mul_le_mul_of_nonneg_left h2 hB0) (by positivity)
        _ = _ := by field_simp
    have h5 : 0 ≤ (B + C) / 2 * (1 / (l * I.card)) := by positivity
    have h6 : 0 ≤ 8 * B / m * Real.sqrt u := by positivity
    nlinarith
  constructor
  · refine (s1.const_mul (1 / (I.card : ℝ) ^ 2)).congr (Eventually.of_forall fun ω => ?_)
    exact (e ω).symm
  · refine le_trans (le_of_eq (integral_congr_ae (Eventually.of_forall fun ω => e ω))) hgoal

include hU hR hlay hsg hgm hg hT in
/-- **C136 (accuracy).** Every accuracy of the average is reached with small enough step sizes, a long enough burn in and
enough samples. -/
theorem c136_accuracy {f : (ι → ℝ) → ℝ} {Λ : ℝ} (hf : Spec.Lipschitz f Λ) {ε : ℝ} (hε : 0 < ε) :
    ∃ h₁ : ℝ, 0 < h₁ ∧ ∀ l, 0 < l → ∀ x₀ : ι → ℝ, ∃ N : ℕ, ∀ (ms : μ) (key : κ) (prm : ℕ → Params) (I : Finset ℕ),
      N ≤ I.card → (∀ i ∈ I, N ≤ i) →
      (∀ i ∈ I, ∀ k < i, (prm k).temperature = T ∧ l ≤ (prm k).stepSize ∧ (prm k).stepSize ≤ h₁) →
      Integrable (fun ω => ((∑ i ∈ I, f (Spec.sgldSample (P ω) lay (data ω) d₀ sg ms x₀ key ((List.range i).map prm))) / I.card
        - Spec.posteriorMean (fun x => U x / T) Set.univ f) ^ 2) prob ∧
      ∫ ω, ((∑ i ∈ I, f (Spec.sgldSample (P ω) lay (data ω) d₀ sg ms x₀ key ((List.range i).map prm))) / I.card
        - Spec.posteriorMean (fun x => U x / T) Set.univ f) ^ 2 ∂prob ≤ ε := by
  obtain ⟨h₀, K, hh0, hmh, hK, hmain⟩ := c136_bound hU hR hlay hsg hgm hg hT
  set c := Λ ^ 2 * K + 1 with hc
  have hcp : 0 < c := by positivity
  set h₁ := min h₀ ((ε / (2 * c)) ^ 2) with hh1
  have h1p : 0 < h₁ := lt_min hh0 (by positivity)
  have hsq : Real.sqrt h₁ ≤ ε / (2 * c) := by
    rw [← Real.sqrt_sq (by positivity : 0 ≤ ε / (2 * c))]
    exact Real.sqrt_le_sqrt (min_le_right _ _)
  refine ⟨h₁, h1p, fun l hl x₀ => ?_⟩
  by_cases hle : l ≤ h₁
  swap
  · refine ⟨1, fun ms key prm I hcard hIN hprm => ?_⟩
    obtain ⟨i, hi⟩ := Finset.card_pos.1 hcard
    obtain ⟨-, a, b⟩ := hprm i hi 0 (hIN i hi)
    exact absurd (a.trans b) hle
  obtain ⟨D, hD, hbound⟩ := hmain x₀
  have hm1 : m * l ≤ 1 := (mul_le_mul_of_nonneg_left (hle.trans (min_le_left _ _)) hU.m_pos.le).trans hmh
  have hmp : 0 < m * l := mul_pos hU.m_pos hl
  have ht : Tendsto (fun n => (1 - m * l / 2) ^ n * D) atTop (𝓝 0) := by
    have := (tendsto_pow_atTop_nhds_zero_of_lt_one (by linarith : 0 ≤ 1 - m * l / 2) (by linarith)).mul_const D
    rwa [zero_mul] at this
  obtain ⟨N₁, hN₁⟩ := eventually_atTop.1 (ht.eventually (gt_mem_nhds (one_pos : (0 : ℝ) < 1)))
  obtain ⟨N₂, hN₂⟩ := exists_nat_gt (2 * c / (l * ε))
  refine ⟨max (max N₁ N₂) 1, fun ms key prm I hcard hIN hprm => ?_⟩
  have hI : I.Nonempty := Finset.card_pos.1 (lt_of_lt_of_le Nat.one_pos ((le_max_right _ _).trans hcard))
  obtain ⟨b1, b2⟩ := hbound ms key l h₁ hl hle (min_le_left _ _) N₁ (hN₁ N₁ le_rfl).le prm I hI
    (fun i hi => ((le_max_left _ _).trans (le_max_left _ _)).trans (hIN i hi)) hprm f Λ hf
  refine ⟨b1, b2.trans ?_⟩
  have hn : (0 : ℝ) < I.card := Nat.cast_pos.2 hI.card_pos
  have h2 : 2 * c / (l * ε) ≤ I.card := hN₂.le.trans (Nat.cast_le.2 (((le_max_right _ _).trans (le_max_left _ _)).trans hcard))
  rw [div_le_iff₀ (by positivity)] at h2
  have h3 : 1 / (l * I.card) ≤ ε / (2 * c) := by
    rw [div_le_div_iff₀ (by positivity) (by positivity)]
    linarith
  have h4 : 0 ≤ Λ ^ 2 * K := by positivity
  calc Λ ^ 2 * (K * (1 / (l * I.card) + Real.sqrt h₁)) = (Λ ^ 2 * K) * (1 / (l * I.card) + Real.sqrt h₁) := by ring
    _ ≤ (Λ ^ 2 * K) * (ε / (2 * c) + ε / (2 * c)) := mul_le_mul_of_nonneg_left (add_le_add h3 hsq) h4
    _ ≤ c * (ε / (2 * c) + ε / (2 * c)) := mul_le_mul_of_nonneg_right (by linarith) (by positivity)
    _ = ε := by field_simp; ring

end

/-! ## The ready to use solver -/

omit [Fintype ι] in
/-- The samples of the latent variables in a result of SGLD. -/
theorem returnedLangevin_eq {A : Type} (st : ℕ → LangevinState ι κ δ μ A) {kept : List ℕ} (hk : 0 < kept.length)
    {r : SaveResult (OutLeaf ι μ)} (h : Spec.ReturnedSamples (kept.map fun j => Spec.reportedLangevin (st j)) r) :
    Spec.returnedVariables r = kept.map fun j => (st j).latent := by
  have hrow : ∀ (j k : ℕ), kept[j]? = some k → r.samples.map (fun l => l[j]?) = (Spec.reportedLangevin (st k)).map some :=
    fun j k hj => h.row j _ (by rw [List.getElem?_map, hj]; rfl)
  have hrows := h.rows
  rw [List.length_map] at hrows
  have h0 := hrow 0 _ (List.getElem?_eq_getElem hk)
  unfold Spec.returnedVariables
  generalize r.samples = t at hrow hrows h0 ⊢
  cases t with
  | leaf l => simp [Spec.reportedLangevin, Spec.sampleDict, Tree.map] at h0
  | none => simp [Spec.reportedLangevin, Spec.sampleDict, Tree.map] at h0
  | node k ts =>
    simp only [Spec.reportedLangevin, Spec.sampleDict, Tree.map, Tree.node.injEq, List.map_cons, List.map_nil] at h0
    obtain ⟨rfl, h1⟩ := h0
    rcases ts with _ | ⟨t1, _ | ⟨t2, _ | ⟨t3, _ | ⟨t4, ts⟩⟩⟩⟩ <;>
      simp only [Tree.mapL, List.cons.injEq, and_true, reduceCtorEq, and_false] at h1
    obtain ⟨-, -, h5⟩ := h1
    cases t3 with
    | none => simp [Tree.map] at h5
    | node => simp [Tree.map] at h5
    | leaf l =>
      have hz : (List.zip ["likelihood".toList, "model_state".toList, "variables".toList] [t1, t2, Tree.leaf l]).lookup
          "variables".toList = some (Tree.leaf l) := by
        simp [List.lookup]
      show (match (List.zip ["likelihood".toList, "model_state".toList, "variables".toList] [t1, t2, Tree.leaf l]).lookup
          "variables".toList with
        | some (.leaf l) => Spec.vectorLeaves l
        | _ => []) = _
      rw [hz]
      refine vectorLeaves_map _ _ ?_ fun j x hx => ?_
      · rw [List.length_map]
        refine hrows l ?_
        simp [Tree.leaves, Tree.leavesL]
      · rw [List.getElem?_map] at hx
        cases hkj : kept[j]? with
        | none => rw [hkj] at hx; simp at hx
        | some k =>
          rw [hkj, Option.map_some, Option.some.injEq] at hx
          have := hrow j k hkj
          simp only [Spec.reportedLangevin, Spec.sampleDict, Tree.map, Tree.node.injEq, List.map_cons, List.map_nil,
            Tree.mapL, List.cons.injEq, Tree.leaf.injEq] at this
          rw [this.2.2.2.1, hx]

/-- The samples of a chain returned by `alias.sgld`. -/
theorem alias_values {P : Prng κ} {key : κ} {lay : Layout ι} {data : δ → δ × β} {sg : StochGradLik ι β μ}
    {ms : μ} {x₀ : ι → ℝ} {d₀ : δ} {step : ℕ → ℝ} {kept : List ℕ} (hk : 0 < kept.length) {chains : List ((ι → ℝ) × δ)} {j : ℕ}
    (hj : chains[j]? = some (x₀, d₀)) {rs : List (SaveResult (OutLeaf ι μ))}
    (h : List.Forall₂ (fun c r => Spec.ReturnedSamples (kept.map fun i => Spec.reportedLangevin
      (langevinRun P lay (none : Option (AdaptStrategy ι β Unit)) data sg (langevinInit c.2 c.1 key none ms)
        (Spec.paramsUpTo step 1 (i + 1)))) r) chains rs) :
    Spec.chainVariables rs j = kept.map fun i =>
      Spec.sgldSample P lay data d₀ sg ms x₀ key (Spec.paramsUpTo step 1 (i + 1)) := by
  obtain ⟨hlen, h4⟩ := List.forall₂_iff_get.1 h
  obtain ⟨hj1, hj2⟩ := List.getElem?_eq_some_iff.1 hj
  have hj3 : j < rs.length := hlen ▸ hj1
  have h5 := h4 j hj1 hj3
  have hc : chains.get ⟨j, hj1⟩ = (x₀, d₀) := hj2
  rw [hc] at h5
  unfold Spec.chainVariables
  rw [List.getElem?_eq_getElem hj3]
  exact returnedLangevin_eq (fun i => langevinRun P lay none data sg (langevinInit d₀ x₀ key none ms)
    (Spec.paramsUpTo step 1 (i + 1))) hk h5

section
variable [DecidableEq ι] {U : (ι → ℝ) → ℝ} {G : (ι → ℝ) → ι → ℝ} {m L : ℝ} (hU : Spec.Convex U G m L)
  [MeasurableSpace Ω] [MeasurableSpace β] [Countable β] [MeasurableSingletonClass β]
  {prob : Measure Ω} [IsProbabilityMeasure prob] {P : Ω → Prng κ} {data : Ω → δ → δ × β} {d₀ : δ} {w : β → ENNReal}
  {sp : κ → ℕ → ℕ → κ} (hR : Spec.IdealRandom prob P data d₀ 1 (fun b => w (b 0)) sp) {lay : Layout ι}
  (hlay : Spec.Layout.Valid lay) {sg : StochGradLik ι β μ} {g : (ι → ℝ) → β → (ι → ℝ)} (hsg : ∀ x b ms, (sg x b ms).2 = g x b)
  (hgm : ∀ b, Measurable fun x => g x b) {s : ℝ} (hg : Spec.Unbiased w g G s)

include hU hR hlay hsg hgm hg in
/-- The mean over the samples of SGLD with the step sizes of `alias.sgld` after the kept iterations. -/
theorem alias_mean {f : (ι → ℝ) → ℝ} {Λ : ℝ} (hf : Spec.Lipschitz f Λ) {ε : ℝ} (hε : 0 < ε) :
    ∃ h₁ : ℝ, 0 < h₁ ∧ ∀ first last : ℝ, 0 < last → last < first → first ≤ h₁ → ∀ x₀ : ι → ℝ, ∃ N : ℕ, 2 ≤ N ∧
      ∀ (ms : μ) (key : κ) (burnIn accepted its : ℕ), N ≤ burnIn → N ≤ accepted → burnIn + accepted ≤ its →
      ∀ (step : ℕ → ℝ) (kept : List ℕ), Spec.DecreasingSteps first last its step → Spec.Thinned burnIn its accepted kept →
      Integrable (fun ω => (Spec.meanOver f (kept.map fun i =>
        Spec.sgldSample (P ω) lay (data ω) d₀ sg ms x₀ key (Spec.paramsUpTo step 1 (i + 1))) - Spec.posteriorMean U Set.univ f) ^ 2) prob ∧
      ∫ ω, (Spec.meanOver f (kept.map fun i =>
        Spec.sgldSample (P ω) lay (data ω) d₀ sg ms x₀ key (Spec.paramsUpTo step 1 (i + 1))) - Spec.posteriorMean U Set.univ f) ^ 2 ∂prob ≤ ε := by
  obtain ⟨h₁, h1p, hmain⟩ := c136_accuracy hU hR hlay hsg hgm hg one_pos hf hε
  refine ⟨h₁, h1p, fun first last hl hfl hle x₀ => ?_⟩
  obtain ⟨N, hN⟩ := hmain last hl x₀
  refine ⟨max N 2, le_max_right N 2, fun ms key burnIn accepted its hb ha hits step kept hD hK => ?_⟩
  have hN1 := le_max_left N 2
  have hN2 := le_max_right N 2
  -- the kept iterations as a set
  have hnd : kept.Nodup := hK.increasing.imp fun h => h.ne
  let I : Finset ℕ := kept.toFinset.image (· + 1)
  have hinj : Set.InjOn (fun i : ℕ => i + 1) (kept.toFinset : Set ℕ) := fun a _ b _ h => by
    have : a + 1 = b + 1 := h
    omega
  have hcard : I.card = kept.length := by
    rw [Finset.card_image_of_injOn hinj, List.toFinset_card_of_nodup hnd]
  have hmean : ∀ ω, Spec.meanOver f (kept.map fun i =>
      Spec.sgldSample (P ω) lay (data ω) d₀ sg ms x₀ key (Spec.paramsUpTo step 1 (i + 1))) =
      (∑ i ∈ I, f (Spec.sgldSample (P ω) lay (data ω) d₀ sg ms x₀ key ((List.range i).map fun t => ⟨step t, 1⟩))) / I.card := by
    intro ω
    rw [hcard]
    unfold Spec.meanOver
    rw [List.length_map, List.map_map, Finset.sum_image hinj, List.sum_toFinset _ hnd]
    rfl
  have hlast : ∀ k < its, last ≤ step k := by
    intro k hk
    rw [← hD.finish]
    rcases Nat.lt_or_ge k (its - 1) with h | h
    · exact (hD.decreasing _ _ h).le
    · rw [show k = its - 1 by omega]
  have hfirst : ∀ k, step k ≤ h₁ := by
    intro k
    refine le_trans ?_ hle
    rw [← hD.start]
    rcases Nat.eq_zero_or_pos k with rfl | h
    · exact le_rfl
    · exact (hD.decreasing _ _ h).le
  have hmem : ∀ i ∈ I, burnIn + 1 ≤ i ∧ i ≤ its := by
    intro i hi
    obtain ⟨k, hk, rfl⟩ := Finset.mem_image.1 hi
    have := hK.range k (List.mem_toFinset.1 hk)
    omega
  have hres := hN ms key (fun t => ⟨step t, 1⟩) I (by rw [hcard, hK.count]; omega) (fun i hi => by
    have := (hmem i hi).1
    omega) (fun i hi k hk => ⟨rfl, hlast k (by have := (hmem i hi).2; omega), hfirst k⟩)
  simp only [div_one] at hres
  simp only [hmean]
  exact hres

include hU hR hlay hsg hgm hg in
/-- **C136 (`alias.sgld`).** For every Lipschitz function `f` and `ε > 0` there is a step size `h₁` such that for all
`h₁ ≥ first_step_size > last_step_size > 0` and every initial sample there is an `N` such that with a burn in of at least
`N` iterations and at least `N` accepted samples the mean of `f` over the samples of the chain returned by `alias.sgld`
differs from the posterior mean of `f` by at most `ε` in mean square. -/
theorem c136_alias {f : (ι → ℝ) → ℝ} {Λ : ℝ} (hf : Spec.Lipschitz f Λ) {ε : ℝ} (hε : 0 < ε) :
    ∃ h₁ : ℝ, 0 < h₁ ∧ ∀ first last : ℝ, 0 < last → last < first → first ≤ h₁ → ∀ x₀ : ι → ℝ, ∃ N : ℕ,
      ∀ (ms : μ) (key : κ) (gumbel : κ → ℕ → ℝ) (bar : Bool) (zero : OutLeaf ι μ → OutLeaf ι μ) (burnIn accepted its : ℕ),
      N ≤ burnIn → N ≤ accepted → burnIn + accepted ≤ its →
      ∀ (chains : List ((ι → ℝ) × δ)) (j : ℕ), chains[j]? = some (x₀, d₀) →
      ∀ rs : Ω → List (SaveResult (OutLeaf ι μ)),
      (∀ ω, runSgld (noSave zero) (P ω) key lay (none : Option (AdaptStrategy ι β Unit)) (data ω) sg (fun _ => none) ms gumbel
        first last burnIn accepted bar its () chains = .ok ((), rs ω)) →
      Integrable (fun ω => (Spec.meanOver f (Spec.chainVariables (rs ω) j) - Spec.posteriorMean U Set.univ f) ^ 2) prob ∧
      ∫ ω, (Spec.meanOver f (Spec.chainVariables (rs ω) j) - Spec.posteriorMean U Set.univ f) ^ 2 ∂prob ≤ ε := by
  obtain ⟨h₁, h1p, hmain⟩ := alias_mean (μ := μ) hU hR hlay hsg hgm hg hf hε
  refine ⟨h₁, h1p, fun first last hl hfl hle x₀ => ?_⟩
  obtain ⟨N, h2, hN⟩ := hmain first last hl hfl hle x₀
  refine ⟨N, fun ms key gumbel bar zero burnIn accepted its hb ha hits chains j hj rs hrs => ?_⟩
  obtain ⟨step, kept, hD, hK, hruns⟩ := c92_sgld_schedule key gumbel first last burnIn accepted bar its hl hfl (by omega) hits
  have hval : ∀ ω, Spec.chainVariables (rs ω) j = kept.map fun i =>
      Spec.sgldSample (P ω) lay (data ω) d₀ sg ms x₀ key (Spec.paramsUpTo step 1 (i + 1)) := by
    intro ω
    obtain ⟨rs', e1, -, e3⟩ := hruns zero (P ω) lay (none : Option (AdaptStrategy ι β Unit)) (data ω) sg (fun _ => none) ms chains
    have e := e1.symm.trans (hrs ω)
    simp only [Except.ok.injEq, Prod.mk.injEq, true_and] at e
    subst e
    exact alias_values (by rw [hK.count]; omega) hj e3
  simp only [hval]
  exact hN ms key burnIn accepted its hb ha hits step kept hD hK

include hU hR hlay hsg hgm hg in
/-- **C136 (`alias.sgld`, probability).** The probability that the mean over the returned samples differs from the posterior
mean by `ε` or more can be made smaller than every `η > 0`. -/
theorem c136_alias_probability {f : (ι → ℝ) → ℝ} {Λ : ℝ} (hf : Spec.Lipschitz f Λ) {ε η : ℝ} (hε : 0 < ε) (hη : 0 < η) :
    ∃ h₁ : ℝ, 0 < h₁ ∧ ∀ first last : ℝ, 0 < last → last < first → first ≤ h₁ → ∀ x₀ : ι → ℝ, ∃ N : ℕ,
      ∀ (ms : μ) (key : κ) (gumbel : κ → ℕ → ℝ) (bar : Bool) (zero : OutLeaf ι μ → OutLeaf ι μ) (burnIn accepted its : ℕ),
      N ≤ burnIn → N ≤ accepted → burnIn + accepted ≤ its →
      ∀ (chains : List ((ι → ℝ) × δ)) (j : ℕ), chains[j]? = some (x₀, d₀) →
      ∀ rs : Ω → List (SaveResult (OutLeaf ι μ)),
      (∀ ω, runSgld (noSave zero) (P ω) key lay (none : Option (AdaptStrategy ι β Unit)) (data ω) sg (fun _ => none) ms gumbel
        first last burnIn accepted bar its () chains = .ok ((), rs ω)) →
      prob {ω | ε ≤ |Spec.meanOver f (Spec.chainVariables (rs ω) j) - Spec.posteriorMean U Set.univ f|} ≤ ENNReal.ofReal η := by
  obtain ⟨h₁, h1p, hmain⟩ := c136_alias hU hR hlay hsg hgm hg hf (ε := η * ε ^ 2) (by positivity)
  refine ⟨h₁, h1p, fun first last hl hfl hle x₀ => ?_⟩
  obtain ⟨N, hN⟩ := hmain first last hl hfl hle x₀
  refine ⟨N, fun ms key gumbel bar zero burnIn accepted its hb ha hits chains j hj rs hrs => ?_⟩
  obtain ⟨i1, i2⟩ := hN ms key gumbel bar zero burnIn accepted its hb ha hits chains j hj rs hrs
  set Z : Ω → ℝ := fun ω => Spec.meanOver f (Spec.chainVariables (rs ω) j) - Spec.posteriorMean U Set.univ f with hZ
  have hle2 : {ω | ε ≤ |Z ω|} ⊆ {ω | ε ^ 2 ≤ Z ω ^ 2} := fun ω hω => by
    show ε ^ 2 ≤ Z ω ^ 2
    rw [← sq_abs (Z ω)]
    exact pow_le_pow_left₀ hε.le hω 2
  have hmk := mul_meas_ge_le_integral_of_nonneg (Eventually.of_forall fun ω => sq_nonneg (Z ω)) i1 (ε ^ 2)
  have h2 : ε ^ 2 * prob.real {ω | ε ^ 2 ≤ Z ω ^ 2} ≤ η * ε ^ 2 := hmk.trans i2
  have h3 : prob.real {ω | ε ^ 2 ≤ Z ω ^ 2} ≤ η := by
    have hp : 0 < ε ^ 2 := by positivity
    nlinarith
  refine (measure_mono hle2).trans ?_
  rw [← ENNReal.ofReal_toReal (measure_ne_top prob {ω | ε ^ 2 ≤ Z ω ^ 2})]
  exact ENNReal.ofReal_le_ofReal h3

end

/-- The hypotheses can be met: with noisy gradients of the standard normal distribution and ideal random numbers, the average
of the samples of SGLD with step sizes in `[l, h₁]` estimates the mean of the distribution. -/
example : ∃ h₁ : ℝ, 0 < h₁ ∧ ∀ first last : ℝ, 0 < last → last < first → first ≤ h₁ → ∃ N : ℕ,
    ∀ (burnIn accepted its : ℕ), N ≤ burnIn → N ≤ accepted → burnIn + accepted ≤ its →
    ∃ rs : _ → List (SaveResult (OutLeaf (Fin 1) Unit)), (∀ ω, runSgld (noSave id) (IdealSpace.gen ω) [] (Spec.vectorLayout 1)
        (none : Option (AdaptStrategy (Fin 1) Bool Unit)) (IdealSpace.batches ω) noisyGrad (fun _ => none) () (fun _ _ => 0) first last
        burnIn accepted false its () [(0, 0)] = .ok ((), rs ω)) ∧
      ∫ ω, (Spec.meanOver (fun x => x 0) (Spec.chainVariables (rs ω) 0)
        - Spec.posteriorMean (fun x : Fin 1 → ℝ => x 0 ^ 2 / 2) Set.univ fun x => x 0) ^ 2
        ∂IdealSpace.law (L := 1) (PMF.uniformOfFintype (Fin 1 → Bool)) ≤ 1 / 100 := by
  have hv : Spec.Layout.Valid (Spec.vectorLayout 1) :=
    ⟨Spec.vectorLayout_injective 1, fun _ => Nat.one_pos, fun i => i.2⟩
  have hpr : IsProbabilityMeasure (IdealSpace.law (PMF.uniformOfFintype (Fin 1 → Bool))) := by
    unfold IdealSpace.law; infer_instance
  have hw : (PMF.uniformOfFintype (Fin 1 → Bool) : (Fin 1 → Bool) → ENNReal) = fun b => (fun _ : Bool => (2 : ENNReal)⁻¹) (b 0) := by
    funext b; simp
  have hR := IdealSpace.ideal (PMF.uniformOfFintype (Fin 1 → Bool))
  rw [hw] at hR
  obtain ⟨h₁, h1p, hmain⟩ := c136_alias half_gaussian_convex hR hv (sg := noisyGrad) (fun _ _ _ => rfl)
    (fun b => measurable_pi_lambda _ fun i => (measurable_pi_apply i).add_const _) noisy_unbiased
    (f := fun x => x 0) (Λ := 1) (fun x y => by simp [Spec.sqLen]) (ε := 1 / 100) (by norm_num)
  refine ⟨h₁, h1p, fun first last hl hfl hle => ?_⟩
  obtain ⟨N, hN⟩ := hmain first last hl hfl hle 0
  refine ⟨max N 2, fun burnIn accepted its hb ha hits => ?_⟩
  have h1 := le_max_left N 2
  have h2 := le_max_right N 2
  obtain ⟨step, kept, -, -, hruns⟩ := c92_sgld_schedule ([] : List ℕ) (fun _ _ => 0) first last burnIn accepted false its
    hl hfl (by omega) hits
  choose rs hrs using fun ω => hruns id (IdealSpace.gen ω) (Spec.vectorLayout 1)
    (none : Option (AdaptStrategy (Fin 1) Bool Unit)) (IdealSpace.batches (β := Bool) (L := 1) ω) noisyGrad (fun _ => none) () [(0, 0)]
  exact ⟨rs, fun ω => (hrs ω).1, (hN () [] _ false id burnIn accepted its (h1.trans hb) (h1.trans ha) hits [(0, 0)] 0 rfl rs
    fun ω => (hrs ω).1).2⟩

end JaxSgmc
