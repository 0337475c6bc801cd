import Verif.Lemmas.SgldLaw
import Verif.Lemmas.OracleExists
import Verif.Props.Scheduler
import Mathlib.Probability.Distributions.Uniform
import Mathlib.MeasureTheory.Measure.Portmanteau
import Mathlib.Analysis.PSeries

/-!
# C135: SGLD samples the posterior

For a differentiable, strongly convex potential with a Lipschitz gradient and unbiased mini-batch gradients, the
expectations of the samples of SGLD with ideal random numbers approach the posterior expectations: up to an error of
order `√h` for a constant step size `h`, and exactly in the limit for step sizes which decrease to zero but are not
summable.
-/

namespace JaxSgmc

open MeasureTheory ProbabilityTheory Filter Topology

variable {ι κ δ β μ Ω : Type} [Fintype ι]

/-! ## The recursion of the error -/

/-- Non-summable contractions. -/
theorem contraction_tendsto {a e : ℕ → ℝ} (ha0 : ∀ n, 0 ≤ a n) (hsum : ¬ Summable a) (he : ∀ n, 0 ≤ e n)
    (hstep : ∀ n, e (n + 1) ≤ (1 - a n) * e n) : Tendsto e atTop (𝓝 0) := by
  have hb : ∀ n, e n ≤ e 0 * Real.exp (-∑ k ∈ Finset.range n, a k) := by
    intro n
    induction n with
    | zero => simp
    | succ n ih =>
      rw [Finset.sum_range_succ, neg_add, Real.exp_add, ← mul_assoc]
      have h1 : 1 - a n ≤ Real.exp (-a n) := by have := Real.add_one_le_exp (-a n); linarith
      calc e (n + 1) ≤ (1 - a n) * e n := hstep n
        _ ≤ Real.exp (-a n) * e n := mul_le_mul_of_nonneg_right h1 (he n)
        _ ≤ Real.exp (-a n) * (e 0 * Real.exp (-∑ k ∈ Finset.range n, a k)) :=
            mul_le_mul_of_nonneg_left ih (Real.exp_pos _).le
        _ = _ := by ring
  have h1 := (not_summable_iff_tendsto_nat_atTop_of_nonneg ha0).1 hsum
  have h2 : Tendsto (fun n => e 0 * Real.exp (-∑ k ∈ Finset.range n, a k)) atTop (𝓝 0) := by
    have := (Real.tendsto_exp_neg_atTop_nhds_zero.comp h1).const_mul (e 0)
    rwa [mul_zero] at this
  exact squeeze_zero he hb h2

/-- The error with decreasing step sizes. -/
theorem errorBound_tendsto {m C r : ℝ} {h : ℕ → ℝ} (hm : 0 < m) (hC : 0 ≤ C) (hh : ∀ n, 0 < h n) (h1 : ∀ n, 0 ≤ 1 - m * h n / 2)
    (hlim : Tendsto h atTop (𝓝 0)) (hsum : ¬ Summable h) (hr : 0 ≤ r) :
    Tendsto (fun n => errorBound m C ((List.range n).map h) r) atTop (𝓝 0) := by
  set q : ℕ → ℝ := fun n => errorBound m C ((List.range n).map h) r with hq
  have hrec : ∀ n, q (n + 1) = (1 - m * h n / 2) * q n + h n ^ 2 * C := by
    intro n
    simp only [hq]
    rw [List.range_succ, List.map_append, List.map_singleton, errorBound_snoc]
  have hq0 : ∀ n, 0 ≤ q n := by
    intro n
    induction n with
    | zero => exact hr
    | succ n ih =>
      rw [hrec]
      exact add_nonneg (mul_nonneg (h1 n) ih) (mul_nonneg (sq_nonneg _) hC)
  rw [Metric.tendsto_atTop]
  intro ε hε
  -- eventually the local errors are small
  have hsmall : ∀ᶠ n in atTop, h n * C ≤ m / 2 * (ε / 2) := by
    have h2 : Tendsto (fun n => h n * C) atTop (𝓝 0) := by
      have := hlim.mul_const C
      rwa [zero_mul] at this
    exact (h2.eventually (gt_mem_nhds (by positivity : (0 : ℝ) < m / 2 * (ε / 2)))).mono fun n h => h.le
  obtain ⟨N, hN⟩ := eventually_atTop.1 hsmall
  have hcon := contraction_tendsto (a := fun k => m * h (k + N) / 2) (e := fun k => max (q (k + N) - ε / 2) 0)
    (fun k => by have := hh (k + N); positivity)
    (fun hs => hsum ((summable_nat_add_iff N).1 ((hs.mul_left (2 / m)).congr fun k => by field_simp)))
    (fun k => le_max_right _ _) (fun k => by
      have h2 : q (k + 1 + N) - ε / 2 ≤ (1 - m * h (k + N) / 2) * (q (k + N) - ε / 2) := by
        rw [show k + 1 + N = k + N + 1 by omega, hrec]
        have h3 := mul_le_mul_of_nonneg_left (hN (k + N) (by omega)) (hh (k + N)).le
        nlinarith
      refine max_le (h2.trans (mul_le_mul_of_nonneg_left (le_max_left _ _) (h1 _))) ?_
      exact mul_nonneg (h1 _) (le_max_right _ _))
  obtain ⟨M, hM⟩ := eventually_atTop.1 (hcon.eventually (gt_mem_nhds (half_pos hε)))
  refine ⟨M + N, fun n hn => ?_⟩
  have h2 := hM (n - N) (by omega)
  rw [show n - N + N = n by omega] at h2
  rw [Real.dist_eq, sub_zero, abs_of_nonneg (hq0 n)]
  have := lt_of_le_of_lt (le_max_left _ _) h2
  linarith

/-- The error with step sizes between two bounds. -/
theorem errorBound_range {m C r l u : ℝ} (hm : 0 < m) (hl : 0 < l) (hC : 0 ≤ C) (hr : 0 ≤ r) (h1 : 0 ≤ 1 - m * u / 2) (hs : List ℝ)
    (hh : ∀ h ∈ hs, l ≤ h ∧ h ≤ u) (hlu : l ≤ u) :
    errorBound m C hs r ≤ (1 - m * l / 2) ^ hs.length * r + 2 * C / m * u := by
  induction hs using List.reverseRecOn with
  | nil =>
    show r ≤ (1 - m * l / 2) ^ 0 * r + 2 * C / m * u
    have : 0 ≤ 2 * C / m * u := by have := hl.trans_le hlu; positivity
    rw [pow_zero, one_mul]
    linarith
  | append_singleton hs h ih =>
    obtain ⟨hl1, hu1⟩ := hh h (List.mem_append_right _ (List.mem_singleton_self h))
    have ih := ih fun h' hm' => hh h' (List.mem_append_left _ hm')
    rw [errorBound_snoc, List.length_append, List.length_singleton, pow_succ]
    have hmh : m * h ≤ m * u := mul_le_mul_of_nonneg_left hu1 hm.le
    have hml : m * l ≤ m * h := mul_le_mul_of_nonneg_left hl1 hm.le
    have h2 := mul_le_mul_of_nonneg_left ih (by linarith : 0 ≤ 1 - m * h / 2)
    have h3 : m * h / 2 * (2 * C / m * u) = h * u * C := by field_simp
    have h4 : h ^ 2 * C ≤ h * u * C := by
      refine mul_le_mul_of_nonneg_right ?_ hC
      rw [sq]
      exact mul_le_mul_of_nonneg_left hu1 (hl.le.trans hl1)
    have h5 : 0 ≤ (1 - m * l / 2) ^ hs.length * r := mul_nonneg (pow_nonneg (by linarith) _) hr
    have h6 : (1 - m * h / 2) * ((1 - m * l / 2) ^ hs.length * r) ≤ (1 - m * l / 2) * ((1 - m * l / 2) ^ hs.length * r) :=
      mul_le_mul_of_nonneg_right (by linarith) h5
    calc _ ≤ (1 - m * h / 2) * ((1 - m * l / 2) ^ hs.length * r + 2 * C / m * u) + h ^ 2 * C := by linarith
      _ = (1 - m * h / 2) * ((1 - m * l / 2) ^ hs.length * r) + 2 * C / m * u - m * h / 2 * (2 * C / m * u) + h ^ 2 * C := by ring
      _ ≤ (1 - m * l / 2) * ((1 - m * l / 2) ^ hs.length * r) + 2 * C / m * u := by linarith
      _ = _ := by ring

/-! ## Temperatures -/

section
variable [DecidableEq ι] {U : (ι → ℝ) → ℝ} {G : (ι → ℝ) → ι → ℝ} {m L : ℝ}

theorem convex_scale (hU : Spec.Convex U G m L) {T : ℝ} (hT : 0 < T) :
    Spec.Convex (fun x => U x / T) (fun x i => G x i / T) (m / T) (L / T) where
  differentiable := by
    have h := hU.differentiable.mul_const T⁻¹
    exact h
  gradient x i := by
    rw [hU.gradient]
    unfold Spec.partialDeriv
    exact (deriv_div_const T).symm
  m_pos := div_pos hU.m_pos hT
  L_pos := div_pos hU.L_pos hT
  monotone x y := by
    have h := div_le_div_of_nonneg_right (hU.monotone x y) hT.le
    rw [Finset.sum_div, mul_div_right_comm] at h
    refine h.trans (le_of_eq (Finset.sum_congr rfl fun i _ => ?_))
    ring
  lipschitz x y := by
    have h := div_le_div_of_nonneg_right (hU.lipschitz x y) (sq_nonneg T)
    have e : Spec.sqLen (G x - G y) / T ^ 2 = Spec.sqLen ((fun i => G x i / T) - fun i => G y i / T) := by
      unfold Spec.sqLen
      rw [Finset.sum_div]
      refine Finset.sum_congr rfl fun i _ => ?_
      simp only [Pi.sub_apply]
      rw [← sub_div, div_pow]
    rw [e] at h
    rw [div_pow]
    refine h.trans (le_of_eq ?_)
    ring

omit [DecidableEq ι] in
theorem unbiased_scale {w : β → ENNReal} {g : (ι → ℝ) → β → (ι → ℝ)} {s : ℝ} (hg : Spec.Unbiased w g G s) {T : ℝ} (hT : 0 < T) :
    Spec.Unbiased w (fun x b i => g x b i / T) (fun x i => G x i / T) (s / T ^ 2) where
  s_nonneg := div_nonneg hg.s_nonneg (sq_nonneg T)
  probability := hg.probability
  mean x i := by
    have := (hg.mean x i).div_const T
    refine this.congr_fun ?_ |> fun h => h
    intro b
    ring
  variance x := by
    have e : ∀ b, w b * ENNReal.ofReal (Spec.sqLen ((fun i => g x b i / T) - fun i => G x i / T)) =
        ENNReal.ofReal (1 / T ^ 2) * (w b * ENNReal.ofReal (Spec.sqLen (g x b - G x))) := by
      intro b
      have : Spec.sqLen ((fun i => g x b i / T) - fun i => G x i / T) = 1 / T ^ 2 * Spec.sqLen (g x b - G x) := by
        unfold Spec.sqLen
        rw [Finset.mul_sum]
        refine Finset.sum_congr rfl fun i _ => ?_
        simp only [Pi.sub_apply]
        rw [← sub_div, div_pow]
        ring
      rw [this, ENNReal.ofReal_mul (by positivity)]
      ring
    simp only [e]
    rw [ENNReal.tsum_mul_left]
    refine (mul_le_mul_right (hg.variance x) _).trans (le_of_eq ?_)
    rw [← ENNReal.ofReal_mul (by positivity)]
    congr 1
    ring

end

/-! ## The law of the sample -/

section
variable [DecidableEq ι] {U : (ι → ℝ) → ℝ} {G : (ι → ℝ) → ι → ℝ} {m L : ℝ} (hU : Spec.Convex U G m L)
  [MeasurableSpace Ω] [MeasurableSpace β] [Countable β] [MeasurableSingletonClass β]
  {prob : Measure Ω} [IsProbabilityMeasure prob] {P : Ω → Prng κ} {data : Ω → δ → δ × β} {d₀ : δ} {w : β → ENNReal}
  {sp : κ → ℕ → ℕ → κ} (hR : Spec.IdealRandom prob P data d₀ 1 (fun b => w (b 0)) sp) {lay : Layout ι}
  (hlay : Spec.Layout.Valid lay) {sg : StochGradLik ι β μ} {g : (ι → ℝ) → β → (ι → ℝ)} (hsg : ∀ x b ms, (sg x b ms).2 = g x b)
  (hgm : ∀ b, Measurable fun x => g x b) {s : ℝ} (hg : Spec.Unbiased w g G s) {T : ℝ} (hT : 0 < T)

omit [Fintype ι] [DecidableEq ι] [Countable β] [MeasurableSingletonClass β] [MeasurableSpace β] in
include hgm in
theorem scaled_measurable (T : ℝ) : ∀ b, Measurable fun x i => g x b i / T := fun b =>
  measurable_pi_lambda _ fun i => ((measurable_pi_apply i).comp (hgm b)).div_const T

omit [DecidableEq ι] in
include hR hlay hsg hgm hT in
theorem sgldSample_law (hw : ∑' b, w b = 1) (ms : μ) (x₀ : ι → ℝ) (key : κ) (prms : List Params) (hp : ∀ p ∈ prms, p.temperature = T) :
    prob.map (fun ω => Spec.sgldSample (P ω) lay (data ω) d₀ sg ms x₀ key prms) =
      sgldLaw w (fun x b i => g x b i / T) (prms.map fun p => T * p.stepSize) (Measure.dirac x₀) := by
  induction prms using List.reverseRecOn with
  | nil => exact (Measure.map_const prob x₀).trans (by rw [measure_univ, one_smul]; rfl)
  | append_singleton prms p ih =>
    have hb := batchLaw_prob hw
    have hpT : p.temperature = T := hp p (List.mem_append_right _ (List.mem_singleton_self p))
    rw [List.map_append, sgldLaw_append, ← ih fun q hq => hp q (List.mem_append_left _ hq),
      sgldSample_law_next hR hlay key hsg hgm]
    have mX : Measurable fun ω => Spec.sgldSample (P ω) lay (data ω) d₀ sg ms x₀ key prms :=
      (sgldSample_known hR hlay key hsg hgm (ms := ms) (x₀ := x₀) prms).mono (known_le hR _) le_rfl
    have hpm := Measure.isProbabilityMeasure_map (μ := prob) mX.aemeasurable
    generalize prob.map (fun ω => Spec.sgldSample (P ω) lay (data ω) d₀ sg ms x₀ key prms) = ν at hpm ⊢
    show _ = pushLaw (sgldNext (fun x b i => g x b i / T) (T * p.stepSize)) (stepNoise ι w) ν
    have hsn := stepNoise_prob (ι := ι) hw
    have hmv := sgldMove_measurable hgm p.stepSize p.temperature
    refine Measure.ext_of_lintegral _ fun F hF => ?_
    have hF1 : Measurable fun q : (ι → ℝ) × (β × (ι → ℝ)) =>
        F (q.1 - p.stepSize • g q.1 q.2.1 + Real.sqrt (2 * p.temperature * p.stepSize) • q.2.2) := hF.comp hmv
    rw [lintegral_map hF hmv, lintegral_prod _ hF1.aemeasurable,
      pushLaw_lintegral ((sgldNext_measurable (scaled_measurable hgm T) _).comp measurable_swap) hF]
    refine lintegral_congr fun x => ?_
    have hF2 : Measurable fun q : β × (ι → ℝ) =>
        F (x - p.stepSize • g x q.1 + Real.sqrt (2 * p.temperature * p.stepSize) • q.2) := hF1.comp measurable_prodMk_left
    have e : ∀ v : β × (ι → ℝ) × ℝ, sgldNext (fun x b i => g x b i / T) (T * p.stepSize) v x =
        x - p.stepSize • g x v.1 + Real.sqrt (2 * p.temperature * p.stepSize) • v.2.1 := by
      intro v
      unfold sgldNext
      rw [hpT, mul_assoc]
      congr 2
      funext i
      simp only [Pi.smul_apply, smul_eq_mul]
      field_simp
    simp only [e]
    have hF3 : Measurable fun v : β × (ι → ℝ) × ℝ =>
        F (x - p.stepSize • g x v.1 + Real.sqrt (2 * p.temperature * p.stepSize) • v.2.1) :=
      hF2.comp (by fun_prop : Measurable fun v : β × (ι → ℝ) × ℝ => (v.1, v.2.1))
    unfold stepNoise
    rw [lintegral_prod _ hF3.aemeasurable, lintegral_prod _ hF2.aemeasurable]
    refine lintegral_congr fun b => ?_
    have hF4 : Measurable fun v : (ι → ℝ) × ℝ =>
        F (x - p.stepSize • g x b + Real.sqrt (2 * p.temperature * p.stepSize) • v.1) := hF3.comp measurable_prodMk_left
    rw [lintegral_prod _ hF4.aemeasurable]
    refine lintegral_congr fun ξ => ?_
    show F (x - p.stepSize • g x b + Real.sqrt (2 * p.temperature * p.stepSize) • ξ) = ∫⁻ _ : ℝ,
      F (x - p.stepSize • g x b + Real.sqrt (2 * p.temperature * p.stepSize) • ξ) ∂Spec.unif
    rw [lintegral_const, measure_univ, mul_one]

omit [DecidableEq ι] in
/-- The posterior mean is the expectation with respect to the normalised posterior. -/
theorem posteriorMean_eq (U : (ι → ℝ) → ℝ) (f : (ι → ℝ) → ℝ) : Spec.posteriorMean U Set.univ f = ∫ y, f y ∂postDist U := by
  unfold Spec.posteriorMean postDist
  rw [integral_smul_measure, ENNReal.toReal_inv, smul_eq_mul, div_eq_inv_mul]

omit [DecidableEq ι] in
theorem dirac_second_moment (x : ι → ℝ) : ∫⁻ y, ENNReal.ofReal (Spec.sqLen y) ∂Measure.dirac x ≠ ⊤ := by
  have hm : Measurable fun y : ι → ℝ => ENNReal.ofReal (Spec.sqLen y) := ENNReal.measurable_ofReal.comp sqLen_measurable
  rw [lintegral_dirac' _ hm]
  exact ENNReal.ofReal_ne_top

omit [DecidableEq ι] in
include hR hlay hsg hgm in
theorem sample_measurable (ms : μ) (x₀ : ι → ℝ) (key : κ) (prms : List Params) :
    Measurable fun ω => Spec.sgldSample (P ω) lay (data ω) d₀ sg ms x₀ key prms :=
  (sgldSample_known hR hlay key hsg hgm (ms := ms) (x₀ := x₀) prms).mono (known_le hR _) le_rfl

include hU hR hlay hsg hgm hg hT in
/-- The error after the updates `pre ++ suf` for which the step sizes in `suf` are small. -/
theorem sgld_expectation (ms : μ) (x₀ : ι → ℝ) (key : κ) (pre suf : List Params) (hpT : ∀ p ∈ pre ++ suf, p.temperature = T)
    (hps : ∀ p ∈ suf, 0 < p.stepSize ∧ T * p.stepSize ≤ maxStep (m / T) (L / T) (s / T ^ 2)) {f : (ι → ℝ) → ℝ} {Λ : ℝ}
    (hf : Spec.Lipschitz f Λ) :
    Integrable (fun ω => f (Spec.sgldSample (P ω) lay (data ω) d₀ sg ms x₀ key (pre ++ suf))) prob ∧
      Integrable f (Spec.posterior (fun x => U x / T) Set.univ) ∧
      (∫ ω, f (Spec.sgldSample (P ω) lay (data ω) d₀ sg ms x₀ key (pre ++ suf)) ∂prob
        - Spec.posteriorMean (fun x => U x / T) Set.univ f) ^ 2 ≤ Λ ^ 2 *
        errorBound (m / T) (errorConst (fun x => U x / T) (fun x i => G x i / T) (m / T) (L / T) (s / T ^ 2))
          (suf.map fun p => T * p.stepSize) (initialDist (fun x => U x / T)
            (sgldLaw w (fun x b i => g x b i / T) (pre.map fun p => T * p.stepSize) (Measure.dirac x₀))) := by
  have hUT := convex_scale hU hT
  have hgT := unbiased_scale hg hT
  have hgmT := scaled_measurable hgm T
  have hlaw := sgldSample_law hR hlay hsg hgm hT hg.probability ms x₀ key (pre ++ suf) hpT
  have hmX := sample_measurable hR hlay hsg hgm ms x₀ key (pre ++ suf)
  have hp1 := sgldLaw_prob hg.probability hgmT (μ := Measure.dirac x₀) (pre.map fun p => T * p.stepSize)
  have hm1 := sgldLaw_second_moment hUT hgT hgmT (dirac_second_moment x₀) (pre.map fun p => T * p.stepSize)
  obtain ⟨γ, hγ⟩ := coupling_exists hUT hgT hgmT hm1 (suf.map fun p => T * p.stepSize) (by
    intro h hh
    obtain ⟨p, hp, rfl⟩ := List.mem_map.1 hh
    exact ⟨mul_pos hT (hps p hp).1, (hps p hp).2⟩)
  rw [← sgldLaw_append, ← List.map_append, ← hlaw] at hγ
  obtain ⟨h1, h2, h3⟩ := coupling_expectation hUT hγ hf
  have hfm : Measurable f := (lipschitz_continuous hf).measurable
  refine ⟨(integrable_map_measure hfm.aestronglyMeasurable hmX.aemeasurable).1 h1, ?_, ?_⟩
  · unfold postDist at h2
    exact (integrable_smul_measure (ENNReal.inv_ne_zero.2 (posterior_finite hUT)) (ENNReal.inv_ne_top.2 (posterior_pos hUT))).1 h2
  · rw [posteriorMean_eq, ← integral_map hmX.aemeasurable hfm.aestronglyMeasurable]
    exact h3

include hU hR hlay hsg hgm hg hT in
/-- **C135 (error bound).** There are a largest step size `h₀` and a constant `C`, and for every initial sample a constant
`D`, such that after `n` updates with step sizes between `l` and `u ≤ h₀` at temperature `T` the expectation of every
function with Lipschitz constant `Λ` differs from the posterior mean at temperature `T` by at most
`Λ √((1 - m l / 2)ⁿ D + C u)`. -/
theorem c135_bound : ∃ h₀ C : ℝ, 0 < h₀ ∧ m * h₀ ≤ 1 ∧ 0 ≤ C ∧ ∀ x₀ : ι → ℝ, ∃ D : ℝ, 0 ≤ D ∧
    ∀ (ms : μ) (key : κ) (l u : ℝ), 0 < l → l ≤ u → u ≤ h₀ → ∀ (prms : List Params),
      (∀ p ∈ prms, p.temperature = T ∧ l ≤ p.stepSize ∧ p.stepSize ≤ u) →
      ∀ (f : (ι → ℝ) → ℝ) (Λ : ℝ), Spec.Lipschitz f Λ →
      Integrable (fun ω => f (Spec.sgldSample (P ω) lay (data ω) d₀ sg ms x₀ key prms)) prob ∧
      Integrable f (Spec.posterior (fun x => U x / T) Set.univ) ∧
      (∫ ω, f (Spec.sgldSample (P ω) lay (data ω) d₀ sg ms x₀ key prms) ∂prob
        - Spec.posteriorMean (fun x => U x / T) Set.univ f) ^ 2 ≤ Λ ^ 2 * ((1 - m * l / 2) ^ prms.length * D + C * u) := by
  have hUT := convex_scale hU hT
  have hgT := unbiased_scale hg hT
  have hpos := maxStep_pos hUT.m_pos hUT.L_pos hgT.s_nonneg
  have hC := errorConst_nonneg (fun x => U x / T) (fun x i => G x i / T) (m / T) (L / T) (s / T ^ 2)
  refine ⟨maxStep (m / T) (L / T) (s / T ^ 2) / T, 2 * errorConst (fun x => U x / T) (fun x i => G x i / T) (m / T) (L / T) (s / T ^ 2) / (m / T) * T,
    div_pos hpos hT, ?_, by have := hUT.m_pos; positivity, fun x₀ => ⟨initialDist (fun x => U x / T) (Measure.dirac x₀), initialDist_nonneg _ _, ?_⟩⟩
  · have h1 : maxStep (m / T) (L / T) (s / T ^ 2) ≤ 1 / (m / T) := (min_le_left _ _).trans (min_le_right _ _)
    rw [le_div_iff₀ hUT.m_pos] at h1
    calc _ = maxStep (m / T) (L / T) (s / T ^ 2) * (m / T) := by ring
      _ ≤ 1 := h1
  intro ms key l u hl hlu hle prms hp f Λ hf
  have hle' : T * u ≤ maxStep (m / T) (L / T) (s / T ^ 2) := by rw [le_div_iff₀ hT] at hle; linarith
  obtain ⟨h1, h2, h3⟩ := sgld_expectation hU hR hlay hsg hgm hg hT ms x₀ key [] prms (fun p hq => (hp p hq).1)
    (fun p hq => ⟨hl.trans_le (hp p hq).2.1, (mul_le_mul_of_nonneg_left (hp p hq).2.2 hT.le).trans hle'⟩) hf
  refine ⟨h1, h2, h3.trans (mul_le_mul_of_nonneg_left ?_ (sq_nonneg Λ))⟩
  refine (errorBound_range (l := T * l) (u := T * u) hUT.m_pos (mul_pos hT hl) hC (initialDist_nonneg _ _)
    (maxStep_factor hUT.m_pos hle') _ (fun h hm => ?_) (mul_le_mul_of_nonneg_left hlu hT.le)).trans (le_of_eq ?_)
  · obtain ⟨p, hq, rfl⟩ := List.mem_map.1 hm
    exact ⟨mul_le_mul_of_nonneg_left (hp p hq).2.1 hT.le, mul_le_mul_of_nonneg_left (hp p hq).2.2 hT.le⟩
  have e : m / T * (T * l) = m * l := by field_simp
  rw [e, List.length_map]
  show (1 - m * l / 2) ^ prms.length * initialDist _ (Measure.dirac x₀) + _ = _
  ring

include hU hR hlay hsg hgm hg hT in
/-- **C135 (constant step size).** After `n` updates with step size `h ≤ h₀` the error is at most
`Λ √((1 - m h / 2)ⁿ D + C h)`. -/
theorem c135_constant : ∃ h₀ C : ℝ, 0 < h₀ ∧ m * h₀ ≤ 1 ∧ 0 ≤ C ∧ ∀ x₀ : ι → ℝ, ∃ D : ℝ, 0 ≤ D ∧
    ∀ (ms : μ) (key : κ) (h : ℝ), 0 < h → h ≤ h₀ → ∀ (n : ℕ) (f : (ι → ℝ) → ℝ) (Λ : ℝ), Spec.Lipschitz f Λ →
      (∫ ω, f (Spec.sgldSample (P ω) lay (data ω) d₀ sg ms x₀ key (List.replicate n ⟨h, T⟩)) ∂prob
        - Spec.posteriorMean (fun x => U x / T) Set.univ f) ^ 2 ≤ Λ ^ 2 * ((1 - m * h / 2) ^ n * D + C * h) := by
  obtain ⟨h₀, C, hh0, hmh, hC, hmain⟩ := c135_bound hU hR hlay hsg hgm hg hT
  refine ⟨h₀, C, hh0, hmh, hC, fun x₀ => ?_⟩
  obtain ⟨D, hD, hbound⟩ := hmain x₀
  refine ⟨D, hD, fun ms key h hh hle n f Λ hf => ?_⟩
  obtain ⟨-, -, h3⟩ := hbound ms key h h hh le_rfl hle (List.replicate n ⟨h, T⟩)
    (fun p hp => by rw [List.eq_of_mem_replicate hp]; exact ⟨rfl, le_rfl, le_rfl⟩) f Λ hf
  rwa [List.length_replicate] at h3

include hU hR hlay hsg hgm hg hT in
/-- **C135 (accuracy).** Every accuracy is reached with small enough step sizes and enough updates. -/
theorem c135_accuracy {f : (ι → ℝ) → ℝ} {Λ : ℝ} (hf : Spec.Lipschitz f Λ) {ε : ℝ} (hε : 0 < ε) :
    ∃ h₁ : ℝ, 0 < h₁ ∧ ∀ l, 0 < l → l ≤ h₁ → ∀ x₀ : ι → ℝ, ∃ N, ∀ prms : List Params, N ≤ prms.length →
      (∀ p ∈ prms, p.temperature = T ∧ l ≤ p.stepSize ∧ p.stepSize ≤ h₁) → ∀ (ms : μ) (key : κ),
      |∫ ω, f (Spec.sgldSample (P ω) lay (data ω) d₀ sg ms x₀ key prms) ∂prob
        - Spec.posteriorMean (fun x => U x / T) Set.univ f| ≤ ε := by
  obtain ⟨h₀, C, hh0, hmh, hC, hmain⟩ := c135_bound hU hR hlay hsg hgm hg hT
  have hd : 0 < 2 * (Λ ^ 2 * C + 1) := by positivity
  have h1p : 0 < min h₀ (ε ^ 2 / (2 * (Λ ^ 2 * C + 1))) := lt_min hh0 (by positivity)
  refine ⟨min h₀ (ε ^ 2 / (2 * (Λ ^ 2 * C + 1))), h1p, fun l hl hle x₀ => ?_⟩
  set u := min h₀ (ε ^ 2 / (2 * (Λ ^ 2 * C + 1))) with hu
  obtain ⟨D, hD, hbound⟩ := hmain x₀
  have hle0 : u ≤ h₀ := min_le_left _ _
  have hle1 : u * (2 * (Λ ^ 2 * C + 1)) ≤ ε ^ 2 := (le_div_iff₀ hd).1 (min_le_right _ _)
  have hm1 : m * l ≤ 1 := (mul_le_mul_of_nonneg_left (hle.trans hle0) hU.m_pos.le).trans hmh
  have hmp : 0 < m * l := mul_pos hU.m_pos hl
  have ht : Tendsto (fun n => Λ ^ 2 * ((1 - m * l / 2) ^ n * D)) atTop (𝓝 0) := by
    have := ((tendsto_pow_atTop_nhds_zero_of_lt_one (by linarith : 0 ≤ 1 - m * l / 2) (by linarith)).mul_const D).const_mul (Λ ^ 2)
    rwa [zero_mul, mul_zero] at this
  obtain ⟨N, hN⟩ := eventually_atTop.1 (ht.eventually (gt_mem_nhds (by positivity : (0 : ℝ) < ε ^ 2 / 2)))
  refine ⟨N, fun prms hn hp ms key => ?_⟩
  obtain ⟨-, -, h3⟩ := hbound ms key l u hl hle hle0 prms hp f Λ hf
  refine abs_le_of_sq_le_sq (h3.trans ?_) hε.le
  have := hN _ hn
  rw [mul_add]
  nlinarith

include hU hR hlay hsg hgm hg hT in
/-- **C135 (decreasing step sizes).** If the step sizes are positive, tend to zero and are not summable, the expectations
of Lipschitz functions converge to the posterior means. -/
theorem c135_decreasing {h : ℕ → ℝ} (hh : ∀ n, 0 < h n) (hlim : Tendsto h atTop (𝓝 0)) (hsum : ¬ Summable h) (ms : μ) (x₀ : ι → ℝ)
    (key : κ) {f : (ι → ℝ) → ℝ} {Λ : ℝ} (hf : Spec.Lipschitz f Λ) :
    Tendsto (fun n => ∫ ω, f (Spec.sgldSample (P ω) lay (data ω) d₀ sg ms x₀ key ((List.range n).map fun k => ⟨h k, T⟩)) ∂prob)
      atTop (𝓝 (Spec.posteriorMean (fun x => U x / T) Set.univ f)) := by
  have hUT := convex_scale hU hT
  have hgT := unbiased_scale hg hT
  have hpos := maxStep_pos hUT.m_pos hUT.L_pos hgT.s_nonneg
  have hC := errorConst_nonneg (fun x => U x / T) (fun x i => G x i / T) (m / T) (L / T) (s / T ^ 2)
  have h1 : Tendsto (fun n => T * h n) atTop (𝓝 0) := by have := hlim.const_mul T; rwa [mul_zero] at this
  obtain ⟨N, hN⟩ := eventually_atTop.1 (h1.eventually (gt_mem_nhds hpos))
  set D := initialDist (fun x => U x / T) (sgldLaw w (fun x b i => g x b i / T)
    (((List.range N).map fun k => (⟨h k, T⟩ : Params)).map fun p => T * p.stepSize) (Measure.dirac x₀)) with hDdef
  have hD : 0 ≤ D := initialDist_nonneg _ _
  have hlim0 := errorBound_tendsto (m := m / T) (r := D) (h := fun k => T * h (N + k)) hUT.m_pos hC
    (fun n => mul_pos hT (hh _)) (fun n => maxStep_factor hUT.m_pos (hN (N + n) (by omega)).le)
    (by simpa only [add_comm] using (tendsto_add_atTop_iff_nat N).2 h1)
    (fun hs => hsum ((summable_nat_add_iff N).1 ((hs.mul_left T⁻¹).congr fun k => by rw [add_comm k N]; field_simp))) hD
  rw [← tendsto_add_atTop_iff_nat N, tendsto_iff_dist_tendsto_zero]
  have hlim1 := (hlim0.const_mul (Λ ^ 2)).sqrt
  rw [mul_zero, Real.sqrt_zero] at hlim1
  refine squeeze_zero (fun _ => dist_nonneg) (fun n => ?_) hlim1
  have e : (List.range (n + N)).map (fun k => (⟨h k, T⟩ : Params)) =
      (List.range N).map (fun k => ⟨h k, T⟩) ++ (List.range n).map fun k => ⟨h (N + k), T⟩ := by
    rw [add_comm, List.range_add, List.map_append, List.map_map]
    rfl
  obtain ⟨-, -, h3⟩ := sgld_expectation hU hR hlay hsg hgm hg hT ms x₀ key ((List.range N).map fun k => ⟨h k, T⟩)
    ((List.range n).map fun k => ⟨h (N + k), T⟩) (by
      intro p hp
      rcases List.mem_append.1 hp with hp | hp <;> (obtain ⟨k, -, rfl⟩ := List.mem_map.1 hp; rfl)) (by
      intro p hp
      obtain ⟨k, -, rfl⟩ := List.mem_map.1 hp
      exact ⟨hh _, (hN (N + k) (by omega)).le⟩) hf
  rw [Real.dist_eq, e]
  refine Real.abs_le_sqrt ?_
  rw [List.map_map] at h3
  exact h3

omit [Fintype ι] [DecidableEq ι] in
theorem lipschitzWith_spec [Fintype ι] {f : (ι → ℝ) → ℝ} {K : NNReal} (hf : LipschitzWith K f) : Spec.Lipschitz f K := by
  intro x y
  have h := hf.dist_le_mul x y
  rw [dist_eq_norm, dist_eq_norm, Real.norm_eq_abs] at h
  have h0 : ‖x - y‖ ^ 2 ≤ Spec.sqLen (x - y) := by
    rw [← Real.sq_sqrt (sqLen_nonneg (x - y))]
    exact pow_le_pow_left₀ (norm_nonneg _) (norm_le_sqLen _) 2
  have h1 := mul_le_mul_of_nonneg_left h0 (sq_nonneg (K : ℝ))
  calc (f x - f y) ^ 2 = |f x - f y| ^ 2 := (sq_abs _).symm
    _ ≤ (K * ‖x - y‖) ^ 2 := pow_le_pow_left₀ (abs_nonneg _) h 2
    _ = K ^ 2 * ‖x - y‖ ^ 2 := by ring
    _ ≤ _ := h1

include hU hR hlay hsg hgm hg hT in
/-- The laws of the samples converge weakly to the posterior. -/
theorem sgld_weak {h : ℕ → ℝ} (hh : ∀ n, 0 < h n) (hlim : Tendsto h atTop (𝓝 0)) (hsum : ¬ Summable h) (ms : μ) (x₀ : ι → ℝ)
    (key : κ) : ∃ (laws : ℕ → ProbabilityMeasure (ι → ℝ)) (post : ProbabilityMeasure (ι → ℝ)),
      (∀ n, (laws n : Measure (ι → ℝ)) =
        prob.map fun ω => Spec.sgldSample (P ω) lay (data ω) d₀ sg ms x₀ key ((List.range n).map fun k => ⟨h k, T⟩)) ∧
      (post : Measure (ι → ℝ)) = postDist (fun x => U x / T) ∧ Tendsto laws atTop (𝓝 post) := by
  have hmX := fun n : ℕ => sample_measurable hR hlay hsg hgm ms x₀ key ((List.range n).map fun k => ⟨h k, T⟩)
  have hp1 := fun n => Measure.isProbabilityMeasure_map (μ := prob) (hmX n).aemeasurable
  have hp2 := postDist_prob (convex_scale hU hT)
  suffices main : ∀ (laws : ℕ → ProbabilityMeasure (ι → ℝ)) (post : ProbabilityMeasure (ι → ℝ)),
      (∀ n, (laws n : Measure (ι → ℝ)) =
        prob.map fun ω => Spec.sgldSample (P ω) lay (data ω) d₀ sg ms x₀ key ((List.range n).map fun k => ⟨h k, T⟩)) →
      (post : Measure (ι → ℝ)) = postDist (fun x => U x / T) → Tendsto laws atTop (𝓝 post) by
    exact ⟨fun n => ⟨_, hp1 n⟩, ⟨_, hp2⟩, fun n => rfl, rfl, main _ _ (fun n => rfl) rfl⟩
  intro laws post hl hp
  rw [tendsto_iff_forall_lipschitz_integral_tendsto]
  rintro f - ⟨K, hK⟩
  have := c135_decreasing hU hR hlay hsg hgm hg hT hh hlim hsum ms x₀ key (lipschitzWith_spec hK)
  rw [posteriorMean_eq] at this
  rw [hp]
  refine this.congr fun n => ?_
  rw [hl]
  exact (integral_map (hmX n).aemeasurable hK.continuous.measurable.aestronglyMeasurable).symm

include hU hR hlay hsg hgm hg hT in
/-- **C135 (bounded continuous functions).** With decreasing step sizes the expectation of every bounded continuous
function converges to the posterior mean. -/
theorem c135_bounded {h : ℕ → ℝ} (hh : ∀ n, 0 < h n) (hlim : Tendsto h atTop (𝓝 0)) (hsum : ¬ Summable h) (ms : μ) (x₀ : ι → ℝ)
    (key : κ) {f : (ι → ℝ) → ℝ} (hf : Continuous f) {B : ℝ} (hB : ∀ x, |f x| ≤ B) :
    Tendsto (fun n => ∫ ω, f (Spec.sgldSample (P ω) lay (data ω) d₀ sg ms x₀ key ((List.range n).map fun k => ⟨h k, T⟩)) ∂prob)
      atTop (𝓝 (Spec.posteriorMean (fun x => U x / T) Set.univ f)) := by
  have hmX := fun n : ℕ => sample_measurable hR hlay hsg hgm ms x₀ key ((List.range n).map fun k => ⟨h k, T⟩)
  obtain ⟨laws, post, hl, hp, ht⟩ := sgld_weak hU hR hlay hsg hgm hg hT hh hlim hsum ms x₀ key
  rw [ProbabilityMeasure.tendsto_iff_forall_integral_tendsto] at ht
  have := ht (BoundedContinuousFunction.ofNormedAddCommGroup f hf B hB)
  rw [hp] at this
  rw [posteriorMean_eq]
  refine this.congr fun n => ?_
  rw [hl]
  exact integral_map (hmX n).aemeasurable hf.measurable.aestronglyMeasurable

include hU hR hlay hsg hgm hg hT in
/-- **C135 (probabilities).** With decreasing step sizes the probability that the sample lies in a set with a boundary of
volume zero converges to the posterior probability of the set. -/
theorem c135_event {h : ℕ → ℝ} (hh : ∀ n, 0 < h n) (hlim : Tendsto h atTop (𝓝 0)) (hsum : ¬ Summable h) (ms : μ) (x₀ : ι → ℝ)
    (key : κ) {A : Set (ι → ℝ)} (hA : MeasurableSet A) (hA0 : volume (frontier A) = 0) :
    Tendsto (fun n => prob {ω | Spec.sgldSample (P ω) lay (data ω) d₀ sg ms x₀ key ((List.range n).map fun k => ⟨h k, T⟩) ∈ A})
      atTop (𝓝 (Spec.posterior (fun x => U x / T) Set.univ A / Spec.posterior (fun x => U x / T) Set.univ Set.univ)) := by
  have hmX := fun n : ℕ => sample_measurable hR hlay hsg hgm ms x₀ key ((List.range n).map fun k => ⟨h k, T⟩)
  obtain ⟨laws, post, hl, hp, ht⟩ := sgld_weak hU hR hlay hsg hgm hg hT hh hlim hsum ms x₀ key
  have h0 : (post : Measure (ι → ℝ)) (frontier A) = 0 := by
    rw [hp]
    unfold postDist Spec.posterior
    have h1 : ((volume.restrict Set.univ).withDensity fun q : ι → ℝ => ENNReal.ofReal (Real.exp (-(U q / T)))) (frontier A) = 0 :=
      withDensity_absolutelyContinuous _ _ (by rw [Measure.restrict_univ]; exact hA0)
    rw [Measure.smul_apply, h1, smul_zero]
  have := ProbabilityMeasure.tendsto_measure_of_null_frontier_of_tendsto' ht h0
  rw [hp] at this
  have e : postDist (fun x => U x / T) A =
      Spec.posterior (fun x => U x / T) Set.univ A / Spec.posterior (fun x => U x / T) Set.univ Set.univ := by
    unfold postDist
    rw [Measure.smul_apply, smul_eq_mul, ENNReal.div_eq_inv_mul]
  rw [e] at this
  refine this.congr fun n => ?_
  rw [hl, Measure.map_apply (hmX n) hA]
  rfl

include hU hR hlay hsg hgm hg hT in
/-- **C135 (polynomial step sizes).** With `polynomial_step_size(a, b, gamma)`, `0 < gamma ≤ 1`, the expectation of the
last sample converges to the posterior mean as the number of iterations grows. -/
theorem c135_polynomial {a b gamma : ℝ} (ha : 0 < a) (hb : 0 < b) (hg0 : 0 < gamma) (hg1 : gamma ≤ 1) (ms : μ) (x₀ : ι → ℝ)
    (key : κ) {f : (ι → ℝ) → ℝ} {Λ : ℝ} (hf : Spec.Lipschitz f Λ) (prms : ℕ → List Params) (hlen : ∀ n, (prms n).length = n)
    (hstep : ∀ n, ∃ st, (polynomialStepSize (.fin a) (.fin b) gamma).init n {} = .ok st ∧ ∀ i p, (prms n)[i]? = some p →
      p.temperature = T ∧ (polynomialStepSize (.fin a) (.fin b) gamma).get st i = .fin p.stepSize) :
    Tendsto (fun n => ∫ ω, f (Spec.sgldSample (P ω) lay (data ω) d₀ sg ms x₀ key (prms n)) ∂prob)
      atTop (𝓝 (Spec.posteriorMean (fun x => U x / T) Set.univ f)) := by
  have hpos : ∀ k : ℕ, 0 < a * (b + k) ^ (-gamma) := fun k => by positivity
  have hlim : Tendsto (fun k : ℕ => a * (b + k) ^ (-gamma)) atTop (𝓝 0) := by
    have h1 : Tendsto (fun k : ℕ => b + (k : ℝ)) atTop atTop := tendsto_atTop_add_const_left _ _ tendsto_natCast_atTop_atTop
    have := ((tendsto_rpow_neg_atTop hg0).comp h1).const_mul a
    rwa [mul_zero] at this
  have hsum : ¬ Summable fun k : ℕ => a * (b + k) ^ (-gamma) := by
    intro h
    have h1 : Summable fun n : ℕ => 1 / |(n : ℝ) + b| ^ gamma := by
      refine (h.mul_left a⁻¹).congr fun n => ?_
      have hp : 0 < (n : ℝ) + b := by positivity
      rw [abs_of_pos hp, ← mul_assoc, inv_mul_cancel₀ ha.ne', one_mul, add_comm b, Real.rpow_neg hp.le, one_div]
    exact absurd ((Real.summable_one_div_nat_add_rpow b gamma).1 h1) (not_lt.2 hg1)
  refine (c135_decreasing hU hR hlay hsg hgm hg hT hpos hlim hsum ms x₀ key hf).congr fun n => ?_
  have e : prms n = (List.range n).map fun k : ℕ => (⟨a * (b + k) ^ (-gamma), T⟩ : Params) := by
    refine List.ext_getElem (by rw [List.length_map, List.length_range, hlen]) fun i h1 h2 => ?_
    obtain ⟨st, hst, hget⟩ := hstep n
    obtain ⟨h3, h4⟩ := hget i _ (List.getElem?_eq_getElem h1)
    obtain ⟨st', hst', hget'⟩ := c34_polynomial a b gamma ha hb hg0.le n
    have h5 := (hget' (fun _ => default) i (by rw [← hlen n]; exact h1)).1
    rw [paramAfter_static _ (fun _ _ _ => rfl)] at h5
    rw [hst] at hst'
    rw [← Except.ok.inj hst', h4] at h5
    rw [List.getElem_map, List.getElem_range]
    have h6 := XF.fin.inj h5
    cases hp : (prms n)[i] with
    | mk x y =>
      rw [hp] at h3 h6
      exact congrArg₂ Params.mk h6 h3
  rw [e]

end

/-- A gradient with noise: `x + 1` for one half of the mini-batches, `x - 1` for the other half. -/
def noisyGrad : StochGradLik (Fin 1) Bool Unit := fun x b _ => ((0, [], ()), fun i => x i + if b then 1 else -1)

theorem half_gaussian_convex : Spec.Convex (fun x : Fin 1 → ℝ => x 0 ^ 2 / 2) (fun x => x) 1 1 where
  differentiable := by fun_prop
  gradient x i := by
    have hi : i = 0 := Subsingleton.elim _ _
    subst hi
    unfold Spec.partialDeriv
    have h : (fun t => (fun x : Fin 1 → ℝ => x 0 ^ 2 / 2) (Function.update x 0 t)) = fun t : ℝ => t ^ 2 / 2 := by
      funext t; simp
    have h2 : HasDerivAt (fun t : ℝ => t ^ 2 / 2) (x 0) (x 0) := by
      have := (hasDerivAt_pow 2 (x 0)).div_const 2
      simpa using this
    exact (h ▸ h2.deriv).symm
  m_pos := one_pos
  L_pos := one_pos
  monotone x y := by simp [Spec.sqLen]; exact le_of_eq (sq _)
  lipschitz x y := by simp

theorem noisy_unbiased : Spec.Unbiased (fun _ : Bool => (2 : ENNReal)⁻¹) (fun x b i => x i + if b then (1 : ℝ) else -1)
    (fun x : Fin 1 → ℝ => x) 1 where
  s_nonneg := zero_le_one
  probability := by
    rw [tsum_fintype, Fintype.sum_bool]
    exact ENNReal.inv_two_add_inv_two
  mean x i := by
    have h : ∑ b : Bool, ((2 : ENNReal)⁻¹).toReal * (x i + if b then (1 : ℝ) else -1) = x i := by
      rw [Fintype.sum_bool, ENNReal.toReal_inv, ENNReal.toReal_ofNat]
      norm_num
      ring
    have := hasSum_fintype fun b : Bool => ((2 : ENNReal)⁻¹).toReal * (x i + if b then (1 : ℝ) else -1)
    rwa [h] at this
  variance x := by
    have h : ∀ b : Bool, Spec.sqLen ((fun i : Fin 1 => x i + if b then (1 : ℝ) else -1) - x) = 1 := by
      intro b
      cases b <;> simp [Spec.sqLen]
    simp only [h]
    rw [tsum_fintype, Fintype.sum_bool, ENNReal.ofReal_one, mul_one, ENNReal.inv_two_add_inv_two, ← ENNReal.ofReal_one]
    refine ENNReal.ofReal_le_ofReal ?_
    have := sqLen_nonneg x
    linarith

/-- The hypotheses can be met: ideal random numbers exist, and SGLD with the step sizes `1 / (1 + k)` and noisy gradients
samples the standard normal distribution. -/
example : Tendsto (fun n => ∫ ω, (Spec.sgldSample (IdealSpace.gen ω) (Spec.vectorLayout 1) (IdealSpace.batches ω) 0 noisyGrad () 0 []
      ((List.range n).map fun k : ℕ => ⟨1 / (1 + k : ℝ), 1⟩) 0) ∂IdealSpace.law (L := 1) (PMF.uniformOfFintype (Fin 1 → Bool)))
    atTop (𝓝 (Spec.posteriorMean (fun x : Fin 1 → ℝ => x 0 ^ 2 / 2 / 1) Set.univ fun x => x 0)) := by
  have hv : Spec.Layout.Valid (Spec.vectorLayout 1) :=
    ⟨Spec.vectorLayout_injective 1, fun _ => Nat.one_pos, fun i => i.2⟩
  have hpr : IsProbabilityMeasure (IdealSpace.law (PMF.uniformOfFintype (Fin 1 → Bool))) := by
    unfold IdealSpace.law; infer_instance
  have hw : (PMF.uniformOfFintype (Fin 1 → Bool) : (Fin 1 → Bool) → ENNReal) = fun b => (fun _ : Bool => (2 : ENNReal)⁻¹) (b 0) := by
    funext b; simp
  have hR := IdealSpace.ideal (PMF.uniformOfFintype (Fin 1 → Bool))
  rw [hw] at hR
  refine c135_decreasing half_gaussian_convex hR hv (sg := noisyGrad) (fun _ _ _ => rfl) (fun b => ?_) noisy_unbiased one_pos
    (fun n => by positivity) ?_ ?_ () 0 [] (f := fun x => x 0) (Λ := 1) ?_
  · exact measurable_pi_lambda _ fun i => (measurable_pi_apply i).add_const _
  · exact tendsto_one_div_add_atTop_nhds_zero_nat.congr fun n => by rw [add_comm]
  · intro h
    refine Real.not_summable_one_div_natCast ((summable_nat_add_iff 1).1 (h.congr fun n => ?_))
    push_cast
    rw [add_comm]
  · intro x y
    simp [Spec.sqLen]

end JaxSgmc
