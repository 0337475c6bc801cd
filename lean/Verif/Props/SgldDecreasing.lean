import Verif.Props.SgldAverage
import Mathlib.Algebra.Order.Chebyshev

/-!
# C147: averages over the samples of SGLD with decreasing step sizes

With step sizes which decrease to zero, slower than `1 / n` (for example `polynomial_step_size` with `gamma < 1`), the
plain average of a Lipschitz function over the samples of one run converges to the posterior mean, in mean square and in
probability; there is no remaining bias as with step sizes bounded from below (C136).
-/

namespace JaxSgmc

open MeasureTheory ProbabilityTheory Filter Topology

variable {ι κ δ β μ Ω : Type} [Fintype ι]

theorem avg_arith {c x m a ε : ℝ} (hc : c ≠ 0) (hx : x ≠ 0) (hm : m ≠ 0) :
    (1 / c) ^ 2 * (2 * (c * (a * (8 / (m * x))) + c ^ 2 * (ε / 8))) = 16 * a / (m * (c * x)) + ε / 4 := by
  field_simp
  ring

theorem avg_center {c M S : ℝ} (hc : c ≠ 0) : S / c - M = 1 / c * (S - c * M) := by field_simp

section
variable [DecidableEq ι] {U : (ι → ℝ) → ℝ} {G : (ι → ℝ) → ι → ℝ} {m L : ℝ} (hU : Spec.Convex U G m L)
  [MeasurableSpace Ω] [MeasurableSpace β] [Countable β] [MeasurableSingletonClass β]
  {prob : Measure Ω} [IsProbabilityMeasure prob] {P : Ω → Prng κ} {data : Ω → δ → δ × β} {d₀ : δ} {w : β → ENNReal}
  {sp : κ → ℕ → ℕ → κ} (hR : Spec.IdealRandom prob P data d₀ 1 (fun b => w (b 0)) sp) {lay : Layout ι}
  (hlay : Spec.Layout.Valid lay) {sg : StochGradLik ι β μ} {g : (ι → ℝ) → β → (ι → ℝ)} (hsg : ∀ x b ms, (sg x b ms).2 = g x b)
  (hgm : ∀ b, Measurable fun x => g x b) {s : ℝ} (hg : Spec.Unbiased w g G s) {T : ℝ} (hT : 0 < T)

include hU hgm hg hT in
/-- The moments of the samples are bounded if the step sizes decrease to zero. -/
theorem decreasing_moment {h : ℕ → ℝ} (hh : ∀ n, 0 < h n) (hanti : Antitone h) (hlim : Tendsto h atTop (𝓝 0)) (x₀ : ι → ℝ) :
    ∃ (B : ℝ) (N : ℕ), 0 ≤ B ∧ T * h N ≤ maxStep (m / T) (L / T) (s / T ^ 2) ∧ ∀ i, N ≤ i → initialDist (fun x => U x / T)
      (sgldLaw w (fun x b i => g x b i / T) (((List.range i).map fun k => (⟨h k, T⟩ : Params)).map fun p => T * p.stepSize)
        (Measure.dirac x₀)) ≤ B := by
  have hUT := convex_scale hU hT
  have hgT := unbiased_scale hg hT
  have hgmT := scaled_measurable hgm T
  have hpos := maxStep_pos hUT.m_pos hUT.L_pos hgT.s_nonneg
  have hC := errorConst_nonneg (fun x => U x / T) (fun x i => G x i / T) (m / T) (L / T) (s / T ^ 2)
  have hM0 : 0 ≤ postMoment fun x => U x / T := ENNReal.toReal_nonneg
  have h1 : Tendsto (fun n => T * h n) atTop (𝓝 0) := by have := hlim.const_mul T; rwa [mul_zero] at this
  obtain ⟨N, hN⟩ := eventually_atTop.1 (h1.eventually (gt_mem_nhds hpos))
  set C := errorConst (fun x => U x / T) (fun x i => G x i / T) (m / T) (L / T) (s / T ^ 2) with hCdef
  set μN := sgldLaw w (fun x b i => g x b i / T)
    (((List.range N).map fun k => (⟨h k, T⟩ : Params)).map fun p => T * p.stepSize) (Measure.dirac x₀) with hμN
  have hp1 : IsProbabilityMeasure μN := sgldLaw_prob hg.probability hgmT (μ := Measure.dirac x₀) _
  have hm1 : ∫⁻ x, ENNReal.ofReal (Spec.sqLen x) ∂μN ≠ ⊤ := sgldLaw_second_moment hUT hgT hgmT (dirac_second_moment x₀) _
  set D := initialDist (fun x => U x / T) μN with hDdef
  have hD : 0 ≤ D := initialDist_nonneg _ _
  have hmT := hUT.m_pos
  have hhN := hh N
  refine ⟨4 * (D + 2 * C / (m / T) * (T * h N)) + 6 * postMoment fun x => U x / T, N, by positivity, (hN N le_rfl).le,
    fun i hi => ?_⟩
  obtain ⟨k, rfl⟩ := Nat.exists_eq_add_of_le hi
  have e : ((List.range (N + k)).map fun k => (⟨h k, T⟩ : Params)).map (fun p => T * p.stepSize) =
      ((List.range N).map fun k => (⟨h k, T⟩ : Params)).map (fun p => T * p.stepSize) ++ (List.range k).map fun j => T * h (N + j) := by
    rw [List.range_add, List.map_append, List.map_append, List.map_map, List.map_map, List.map_map]
    rfl
  rw [e, sgldLaw_append, ← hμN]
  have hrange : ∀ x ∈ (List.range k).map fun j => T * h (N + j), T * h (N + k) ≤ x ∧ x ≤ T * h N := by
    intro x hx
    obtain ⟨j, hj, rfl⟩ := List.mem_map.1 hx
    have := List.mem_range.1 hj
    exact ⟨mul_le_mul_of_nonneg_left (hanti (by omega)) hT.le, mul_le_mul_of_nonneg_left (hanti (by omega)) hT.le⟩
  obtain ⟨γ, hγ⟩ := coupling_exists hUT hgT hgmT hm1 ((List.range k).map fun j => T * h (N + j)) (fun x hx =>
    ⟨lt_of_lt_of_le (mul_pos hT (hh _)) (hrange x hx).1, (hrange x hx).2.trans (hN N le_rfl).le⟩)
  refine (initialDist_le hUT hγ).1.trans ?_
  have hf := maxStep_factor hUT.m_pos (hN N le_rfl).le
  have hle : T * h (N + k) ≤ T * h N := mul_le_mul_of_nonneg_left (hanti (by omega)) hT.le
  have h2 := errorBound_range hUT.m_pos (mul_pos hT (hh (N + k))) hC hD hf _ hrange hle
  have h3 : m / T * (T * h (N + k)) ≤ m / T * (T * h N) := mul_le_mul_of_nonneg_left hle hmT.le
  have h4 : 0 < m / T * (T * h (N + k)) := mul_pos hmT (mul_pos hT (hh _))
  have h5 : (1 - m / T * (T * h (N + k)) / 2) ^ ((List.range k).map fun j => T * h (N + j)).length * D ≤ D := by
    refine mul_le_of_le_one_left hD (pow_le_one₀ (by linarith) (by linarith))
  linarith

set_option maxHeartbeats 1000000 in
include hU hR hlay hsg hgm hg hT in
/-- **C147 (averages).** SGLD with step sizes `h 0 ≥ h 1 ≥ …` which tend to zero.  For every Lipschitz function, initial
sample and `ε > 0` there is a number `K` such that the average of the function over the samples of any set `I` of iterations
up to `n` with `|I| h n ≥ K` differs in mean square by at most `ε` from the posterior mean. -/
theorem c147_average {h : ℕ → ℝ} (hh : ∀ n, 0 < h n) (hanti : Antitone h) (hlim : Tendsto h atTop (𝓝 0)) (x₀ : ι → ℝ)
    {f : (ι → ℝ) → ℝ} {Λ : ℝ} (hf : Spec.Lipschitz f Λ) {ε : ℝ} (hε : 0 < ε) :
    ∃ K : ℝ, ∀ (ms : μ) (key : κ) (n : ℕ) (I : Finset ℕ), (∀ i ∈ I, i ≤ n) → K ≤ I.card * h n →
      Integrable (fun ω => ((∑ i ∈ I, f (Spec.sgldSample (P ω) lay (data ω) d₀ sg ms x₀ key
          ((List.range i).map fun k => ⟨h k, T⟩))) / I.card - Spec.posteriorMean (fun x => U x / T) Set.univ f) ^ 2) prob ∧
      ∫ ω, ((∑ i ∈ I, f (Spec.sgldSample (P ω) lay (data ω) d₀ sg ms x₀ key
          ((List.range i).map fun k => ⟨h k, T⟩))) / I.card - Spec.posteriorMean (fun x => U x / T) Set.univ f) ^ 2 ∂prob ≤ ε := by
  have hmp := hU.m_pos
  have hC := avgConst_nonneg (U := U) (G := G) (L := L) (s := s) hU.m_pos hT
  set C := avgConst U G m L s T with hCdef
  have hUT := convex_scale hU hT
  obtain ⟨B, N₀, hB, hmax, hmom⟩ := decreasing_moment hU hgm hg hT hh hanti hlim x₀
  set M := Spec.posteriorMean (fun x => U x / T) Set.univ f with hM
  -- the moments of the first samples
  set A : ℕ → ℝ := fun i => initialDist (fun x => U x / T)
      (sgldLaw w (fun x b i => g x b i / T) (((List.range i).map fun k => (⟨h k, T⟩ : Params)).map fun p => T * p.stepSize)
        (Measure.dirac x₀)) with hA
  have hA0 : ∀ i, 0 ≤ A i := fun i => initialDist_nonneg _ _
  -- the covariances
  have hcov : ∀ (ms : μ) (key : κ) (i j n : ℕ) (u b : ℝ), i ≤ j → j ≤ n → h n ≤ u → h i ≤ u →
      T * u ≤ maxStep (m / T) (L / T) (s / T ^ 2) → A i ≤ b →
      Integrable (fun ω => (f (Spec.sgldSample (P ω) lay (data ω) d₀ sg ms x₀ key ((List.range i).map fun k => ⟨h k, T⟩)) - M) *
        (f (Spec.sgldSample (P ω) lay (data ω) d₀ sg ms x₀ key ((List.range j).map fun k => ⟨h k, T⟩)) - M)) prob ∧
      ∫ ω, (f (Spec.sgldSample (P ω) lay (data ω) d₀ sg ms x₀ key ((List.range i).map fun k => ⟨h k, T⟩)) - M) *
        (f (Spec.sgldSample (P ω) lay (data ω) d₀ sg ms x₀ key ((List.range j).map fun k => ⟨h k, T⟩)) - M) ∂prob ≤
        Λ ^ 2 * b * Real.sqrt (1 - m * h n / 2) ^ (j - i) + Λ ^ 2 * (Real.sqrt u * ((b + C) / 2)) := by
    intro ms key i j n u b hij hjn hnu hiu hu hb
    have e : (List.range j).map (fun k => (⟨h k, T⟩ : Params)) =
        (List.range i).map (fun k => (⟨h k, T⟩ : Params)) ++ (List.range (j - i)).map fun k => (⟨h (i + k), T⟩ : Params) := by
      conv_lhs => rw [show j = i + (j - i) by omega]
      rw [List.range_add, List.map_append, List.map_map]
      rfl
    have := sgld_covariance hU hR hlay hsg hgm hg hT ms x₀ key ((List.range i).map fun k => (⟨h k, T⟩ : Params))
      ((List.range (j - i)).map fun k => (⟨h (i + k), T⟩ : Params)) (hh n) hnu hu (by
        intro p hp
        obtain ⟨k, -, rfl⟩ := List.mem_map.1 hp
        rfl) (by
        intro p hp
        obtain ⟨k, hk, rfl⟩ := List.mem_map.1 hp
        have := List.mem_range.1 hk
        exact ⟨rfl, hanti (by omega), (hanti (by omega)).trans hiu⟩) hb hf
    rw [← e, List.length_map, List.length_range] at this
    exact this
  -- the first samples are irrelevant
  obtain ⟨N, hN⟩ : ∃ N, N₀ ≤ N ∧ Λ ^ 2 * (Real.sqrt (h N) * ((B + C) / 2)) ≤ ε / 8 := by
    have h1 : Tendsto (fun n => Λ ^ 2 * (Real.sqrt (h n) * ((B + C) / 2))) atTop (𝓝 0) := by
      have := ((hlim.sqrt).mul_const ((B + C) / 2)).const_mul (Λ ^ 2)
      rwa [Real.sqrt_zero, zero_mul, mul_zero] at this
    obtain ⟨N, hN⟩ := eventually_atTop.1 (h1.eventually (gt_mem_nhds (by positivity : (0 : ℝ) < ε / 8)))
    exact ⟨max N N₀, le_max_right _ _, (hN _ (le_max_left _ _)).le⟩
  have hhN := hh N
  have huN : T * h N ≤ maxStep (m / T) (L / T) (s / T ^ 2) :=
    (mul_le_mul_of_nonneg_left (hanti hN.1) hT.le).trans hmax
  set E := ∑ i ∈ Finset.range N, (Λ ^ 2 * A i + Λ ^ 2 * (Real.sqrt (h N₀) * ((A i + C) / 2))) with hE
  have hE0 : 0 ≤ E := Finset.sum_nonneg fun i _ => by have := hA0 i; positivity
  have hh0 := hh 0
  have hK : ∃ K : ℝ, 0 < K ∧ 16 * (Λ ^ 2 * B) / (m * K) ≤ ε / 8 ∧ 2 * (h 0 / K) ^ 2 * (N * E) ≤ ε / 2 := by
    have t1 : Tendsto (fun K : ℝ => 16 * (Λ ^ 2 * B) / (m * K)) atTop (𝓝 0) :=
      tendsto_const_nhds.div_atTop (tendsto_id.const_mul_atTop hmp)
    have t2 : Tendsto (fun K : ℝ => 2 * (h 0 / K) ^ 2 * (N * E)) atTop (𝓝 0) := by
      have := (((tendsto_const_nhds (x := h 0)).div_atTop (tendsto_id (α := ℝ))).pow 2).const_mul 2
      have := this.mul_const (N * E)
      simpa using this
    obtain ⟨K, h1, h2, h3⟩ := ((t1.eventually (gt_mem_nhds (by positivity : (0 : ℝ) < ε / 8))).and
      ((t2.eventually (gt_mem_nhds (by positivity : (0 : ℝ) < ε / 2))).and (eventually_gt_atTop 0))).exists
    exact ⟨K, h3, h1.le, h2.le⟩
  obtain ⟨K, hKp, hK1, hK2⟩ := hK
  refine ⟨K, fun ms key n I hIn hKI => ?_⟩
  set Z : ℕ → Ω → ℝ := fun i ω => f (Spec.sgldSample (P ω) lay (data ω) d₀ sg ms x₀ key ((List.range i).map fun k => ⟨h k, T⟩)) - M
    with hZ
  have hhn := hh n
  have hcard : (0 : ℝ) < I.card := by
    by_contra hc
    have : (I.card : ℝ) = 0 := le_antisymm (not_lt.1 hc) (Nat.cast_nonneg _)
    rw [this, zero_mul] at hKI
    linarith
  have hn0 : h n ≤ h 0 := hanti (Nat.zero_le n)
  have hcK : 1 / (I.card : ℝ) ≤ h 0 / K := by
    rw [div_le_div_iff₀ hcard hKp, one_mul]
    refine hKI.trans ?_
    rw [mul_comm]
    exact mul_le_mul_of_nonneg_right hn0 hcard.le
  -- squares are integrable
  have hsq : ∀ i, Integrable (fun ω => Z i ω ^ 2) prob ∧ ∫ ω, Z i ω ^ 2 ∂prob ≤
      Λ ^ 2 * A i + Λ ^ 2 * (Real.sqrt (h N₀) * ((A i + C) / 2)) := by
    intro i
    have huN0 : T * h N₀ ≤ maxStep (m / T) (L / T) (s / T ^ 2) := hmax
    have := sgld_covariance hU hR hlay hsg hgm hg hT ms x₀ key ((List.range i).map fun k => (⟨h k, T⟩ : Params))
      [] (hh N₀) le_rfl huN0 (by
        intro p hp
        obtain ⟨k, -, rfl⟩ := List.mem_map.1 hp
        rfl) (by intro p hp; simp at hp) (le_refl (A i)) hf
    rw [List.append_nil, List.length_nil, pow_zero, mul_one] at this
    simp only [sq (Z i _)]
    exact this
  -- the first samples
  have hfirst : Integrable (fun ω => (∑ i ∈ I.filter (· < N), Z i ω) ^ 2) prob ∧
      ∫ ω, (∑ i ∈ I.filter (· < N), Z i ω) ^ 2 ∂prob ≤ N * E := by
    have hsub : I.filter (· < N) ⊆ Finset.range N := fun i hi => Finset.mem_range.2 (Finset.mem_filter.1 hi).2
    have hle : ∀ ω, (∑ i ∈ I.filter (· < N), Z i ω) ^ 2 ≤ N * ∑ i ∈ Finset.range N, Z i ω ^ 2 := by
      intro ω
      refine (sq_sum_le_card_mul_sum_sq).trans ?_
      have h1 : ((I.filter (· < N)).card : ℝ) ≤ N := by
        have := Finset.card_le_card hsub
        rw [Finset.card_range] at this
        exact_mod_cast this
      exact mul_le_mul h1 (Finset.sum_le_sum_of_subset_of_nonneg hsub fun i _ _ => sq_nonneg _)
        (Finset.sum_nonneg fun i _ => sq_nonneg _) (Nat.cast_nonneg _)
    have hint : Integrable (fun ω => (N : ℝ) * ∑ i ∈ Finset.range N, Z i ω ^ 2) prob :=
      (integrable_finsetSum _ fun i _ => (hsq i).1).const_mul _
    have hmeas : ∀ i, Measurable (Z i) := fun i =>
      ((lipschitz_continuous hf).measurable.comp (sample_measurable hR hlay hsg hgm ms x₀ key _)).sub_const _
    have hm2 : Measurable fun ω => (∑ i ∈ I.filter (· < N), Z i ω) ^ 2 :=
      (Finset.measurable_fun_sum _ fun i _ => hmeas i).pow_const 2
    have hi : Integrable (fun ω => (∑ i ∈ I.filter (· < N), Z i ω) ^ 2) prob :=
      hint.mono' hm2.aestronglyMeasurable (Eventually.of_forall fun ω => by
        rw [Real.norm_of_nonneg (sq_nonneg _)]; exact hle ω)
    refine ⟨hi, (integral_mono hi hint hle).trans ?_⟩
    rw [integral_const_mul, integral_finsetSum _ fun i _ => (hsq i).1]
    exact mul_le_mul_of_nonneg_left (Finset.sum_le_sum fun i _ => (hsq i).2) (Nat.cast_nonneg _)
  -- the other samples
  have hml0 : 0 < m * h n := mul_pos hmp (hh n)
  have hrest : Integrable (fun ω => (∑ i ∈ I.filter (fun i => ¬ i < N), Z i ω) ^ 2) prob ∧
      ∫ ω, (∑ i ∈ I.filter (fun i => ¬ i < N), Z i ω) ^ 2 ∂prob ≤
        I.card * (Λ ^ 2 * B * (8 / (m * h n))) + I.card ^ 2 * (ε / 8) := by
    by_cases hNn : N ≤ n
    · have hmu : m * h N ≤ 2 := by
        have h1 := maxStep_factor hUT.m_pos huN
        have e : m / T * (T * h N) = m * h N := by field_simp
        rw [e] at h1
        linarith
      have hnN : h n ≤ h N := hanti hNn
      have hml1 : m * h n ≤ 2 := (mul_le_mul_of_nonneg_left hnN hmp.le).trans hmu
      set σ := Real.sqrt (1 - m * h n / 2) with hσ
      have hσ1 : σ ≤ 1 - m * h n / 4 := by
        rw [hσ]
        refine Real.sqrt_le_iff.2 ⟨by linarith, ?_⟩
        nlinarith [sq_nonneg (m * h n)]
      obtain ⟨a1, a2⟩ := sum_square_bound (prob := prob) (Z := Z) (s := I.filter fun i => ¬ i < N) (σ := σ) (a := Λ ^ 2 * B)
        (b := ε / 8) (Real.sqrt_nonneg _) (by linarith) (by positivity) (by
          intro i hi j hj hij
          have hi2 := not_lt.1 (Finset.mem_filter.1 hi).2
          obtain ⟨c1, c2⟩ := hcov ms key i j n (h N) B hij (hIn j (Finset.mem_filter.1 hj).1) hnN (hanti hi2) huN
            (hmom i (hN.1.trans hi2))
          exact ⟨c1, c2.trans (add_le_add le_rfl hN.2)⟩)
      refine ⟨a1, a2.trans ?_⟩
      have hc : ((I.filter fun i => ¬ i < N).card : ℝ) ≤ I.card := by exact_mod_cast Finset.card_filter_le _ _
      have h2 : 2 / (1 - σ) ≤ 8 / (m * h n) := by
        rw [div_le_div_iff₀ (by linarith) hml0]
        nlinarith
      have h3 : Λ ^ 2 * B * (2 / (1 - σ)) ≤ Λ ^ 2 * B * (8 / (m * h n)) := mul_le_mul_of_nonneg_left h2 (by positivity)
      have h4 : 0 ≤ 2 / (1 - σ) := div_nonneg zero_le_two (by linarith)
      refine add_le_add (mul_le_mul hc h3 (by positivity) hcard.le) (mul_le_mul_of_nonneg_right ?_ (by positivity))
      exact pow_le_pow_left₀ (Nat.cast_nonneg _) hc 2
    · have he : I.filter (fun i => ¬ i < N) = ∅ := by
        refine Finset.filter_eq_empty_iff.2 fun i hi => ?_
        have := hIn i hi
        rw [not_not]
        omega
      simp only [he, Finset.sum_empty]
      refine ⟨by simp, ?_⟩
      simp only [ne_eq, OfNat.ofNat_ne_zero, not_false_eq_true, zero_pow, integral_zero]
      positivity
  -- together
  have hsplit : ∀ ω, ∑ i ∈ I, Z i ω = ∑ i ∈ I.filter (· < N), Z i ω + ∑ i ∈ I.filter (fun i => ¬ i < N), Z i ω := fun ω =>
    (Finset.sum_filter_add_sum_filter_not I (· < N) fun i => Z i ω).symm
  have hdom : ∀ ω, ((∑ i ∈ I, f (Spec.sgldSample (P ω) lay (data ω) d₀ sg ms x₀ key
      ((List.range i).map fun k => ⟨h k, T⟩))) / I.card - M) ^ 2 ≤
      (1 / (I.card : ℝ)) ^ 2 * (2 * (∑ i ∈ I.filter (· < N), Z i ω) ^ 2 + 2 * (∑ i ∈ I.filter (fun i => ¬ i < N), Z i ω) ^ 2) := by
    intro ω
    have e : (∑ i ∈ I, f (Spec.sgldSample (P ω) lay (data ω) d₀ sg ms x₀ key
        ((List.range i).map fun k => ⟨h k, T⟩))) / I.card - M = 1 / (I.card : ℝ) * ∑ i ∈ I, Z i ω := by
      simp only [hZ]
      rw [Finset.sum_sub_distrib, Finset.sum_const, nsmul_eq_mul]
      exact avg_center hcard.ne'
    rw [e, mul_pow, hsplit]
    refine mul_le_mul_of_nonneg_left ?_ (by positivity)
    nlinarith [sq_nonneg (∑ i ∈ I.filter (· < N), Z i ω - ∑ i ∈ I.filter (fun i => ¬ i < N), Z i ω)]
  have hint : Integrable (fun ω => (1 / (I.card : ℝ)) ^ 2 *
      (2 * (∑ i ∈ I.filter (· < N), Z i ω) ^ 2 + 2 * (∑ i ∈ I.filter (fun i => ¬ i < N), Z i ω) ^ 2)) prob :=
    ((hfirst.1.const_mul 2).add (hrest.1.const_mul 2)).const_mul _
  have hmeas : Measurable fun ω => ((∑ i ∈ I, f (Spec.sgldSample (P ω) lay (data ω) d₀ sg ms x₀ key
      ((List.range i).map fun k => ⟨h k, T⟩))) / I.card - M) ^ 2 :=
    (((Finset.measurable_fun_sum _ fun i _ => (lipschitz_continuous hf).measurable.comp
      (sample_measurable hR hlay hsg hgm ms x₀ key _)).div_const _).sub_const _).pow_const 2
  have hi : Integrable (fun ω => ((∑ i ∈ I, f (Spec.sgldSample (P ω) lay (data ω) d₀ sg ms x₀ key
      ((List.range i).map fun k => ⟨h k, T⟩))) / I.card - M) ^ 2) prob :=
    hint.mono' hmeas.aestronglyMeasurable (Eventually.of_forall fun ω => by
      rw [Real.norm_of_nonneg (sq_nonneg _)]; exact hdom ω)
  refine ⟨hi, (integral_mono hi hint hdom).trans ?_⟩
  rw [integral_const_mul, integral_add (hfirst.1.const_mul 2) (hrest.1.const_mul 2), integral_const_mul, integral_const_mul]
  have f1 := hfirst.2
  have f2 := hrest.2
  have g1 : (1 / (I.card : ℝ)) ^ 2 * (2 * (N * E)) ≤ ε / 2 := by
    refine le_trans ?_ hK2
    have := pow_le_pow_left₀ (by positivity) hcK 2
    have hNE : 0 ≤ (N : ℝ) * E := by positivity
    nlinarith
  have g2 : (1 / (I.card : ℝ)) ^ 2 * (2 * (I.card * (Λ ^ 2 * B * (8 / (m * h n))) + I.card ^ 2 * (ε / 8))) ≤ ε / 2 := by
    have e : (1 / (I.card : ℝ)) ^ 2 * (2 * (I.card * (Λ ^ 2 * B * (8 / (m * h n))) + I.card ^ 2 * (ε / 8))) =
        16 * (Λ ^ 2 * B) / (m * (I.card * h n)) + ε / 4 := by
      exact avg_arith hcard.ne' hhn.ne' hmp.ne'
    rw [e]
    have h1 : 16 * (Λ ^ 2 * B) / (m * (I.card * h n)) ≤ 16 * (Λ ^ 2 * B) / (m * K) :=
      div_le_div_of_nonneg_left (by positivity) (mul_pos hmp hKp) (mul_le_mul_of_nonneg_left hKI hmp.le)
    linarith
  have hc2 : 0 ≤ (1 / (I.card : ℝ)) ^ 2 := sq_nonneg _
  calc (1 / (I.card : ℝ)) ^ 2 * (2 * (∫ ω, (∑ i ∈ I.filter (· < N), Z i ω) ^ 2 ∂prob) +
        2 * ∫ ω, (∑ i ∈ I.filter (fun i => ¬ i < N), Z i ω) ^ 2 ∂prob)
      ≤ (1 / (I.card : ℝ)) ^ 2 * (2 * (N * E) + 2 * (I.card * (Λ ^ 2 * B * (8 / (m * h n))) + I.card ^ 2 * (ε / 8))) :=
        mul_le_mul_of_nonneg_left (by linarith) hc2
    _ = (1 / (I.card : ℝ)) ^ 2 * (2 * (N * E)) +
        (1 / (I.card : ℝ)) ^ 2 * (2 * (I.card * (Λ ^ 2 * B * (8 / (m * h n))) + I.card ^ 2 * (ε / 8))) := by ring
    _ ≤ ε := by linarith

include hU hR hlay hsg hgm hg hT in
/-- **C147 (all samples).** If moreover `n h n` tends to infinity, the mean of the function over the first `n` samples
converges in mean square to the posterior mean. -/
theorem c147_mean_square {h : ℕ → ℝ} (hh : ∀ n, 0 < h n) (hanti : Antitone h) (hlim : Tendsto h atTop (𝓝 0))
    (hslow : Tendsto (fun n : ℕ => n * h n) atTop atTop) (ms : μ) (key : κ) (x₀ : ι → ℝ)
    {f : (ι → ℝ) → ℝ} {Λ : ℝ} (hf : Spec.Lipschitz f Λ) :
    (∀ᶠ n in atTop, Integrable (fun ω => (Spec.meanOver f ((List.range n).map fun i => Spec.sgldSample (P ω) lay (data ω) d₀ sg ms
        x₀ key ((List.range (i + 1)).map fun k => ⟨h k, T⟩)) - Spec.posteriorMean (fun x => U x / T) Set.univ f) ^ 2) prob) ∧
    Tendsto (fun n => ∫ ω, (Spec.meanOver f ((List.range n).map fun i => Spec.sgldSample (P ω) lay (data ω) d₀ sg ms x₀ key
        ((List.range (i + 1)).map fun k => ⟨h k, T⟩)) - Spec.posteriorMean (fun x => U x / T) Set.univ f) ^ 2 ∂prob)
      atTop (𝓝 0) := by
  have key2 : ∀ ε : ℝ, 0 < ε → ∀ᶠ n : ℕ in atTop,
      Integrable (fun ω => (Spec.meanOver f ((List.range n).map fun i => Spec.sgldSample (P ω) lay (data ω) d₀ sg ms
        x₀ key ((List.range (i + 1)).map fun k => ⟨h k, T⟩)) - Spec.posteriorMean (fun x => U x / T) Set.univ f) ^ 2) prob ∧
      ∫ ω, (Spec.meanOver f ((List.range n).map fun i => Spec.sgldSample (P ω) lay (data ω) d₀ sg ms
        x₀ key ((List.range (i + 1)).map fun k => ⟨h k, T⟩)) - Spec.posteriorMean (fun x => U x / T) Set.univ f) ^ 2 ∂prob ≤ ε := by
    intro ε hε
    obtain ⟨K, hK⟩ := c147_average (μ := μ) hU hR hlay hsg hgm hg hT hh hanti hlim x₀ hf hε
    filter_upwards [hslow.eventually_ge_atTop K] with n hn
    have hinj : Set.InjOn (fun i : ℕ => i + 1) (Finset.range n : Set ℕ) := fun a _ b _ e => by
      have : a + 1 = b + 1 := e
      omega
    have hcard : ((Finset.range n).image (· + 1)).card = n := by
      rw [Finset.card_image_of_injOn hinj, Finset.card_range]
    have hres := hK ms key n ((Finset.range n).image (· + 1)) (by
      intro i hi
      obtain ⟨k, hk, rfl⟩ := Finset.mem_image.1 hi
      exact Finset.mem_range.1 hk) (by rw [hcard]; exact hn)
    have e : ∀ ω, Spec.meanOver f ((List.range n).map fun i => Spec.sgldSample (P ω) lay (data ω) d₀ sg ms
        x₀ key ((List.range (i + 1)).map fun k => ⟨h k, T⟩)) = (∑ i ∈ (Finset.range n).image (· + 1),
          f (Spec.sgldSample (P ω) lay (data ω) d₀ sg ms x₀ key ((List.range i).map fun k => ⟨h k, T⟩))) /
          ((Finset.range n).image (· + 1)).card := by
      intro ω
      rw [hcard, Finset.sum_image hinj]
      unfold Spec.meanOver
      rw [List.length_map, List.length_range, List.map_map, Finset.sum_range, ← List.sum_ofFn]
      congr 2
      refine List.ext_getElem (by simp) fun i h1 h2 => ?_
      simp
    simp only [e]
    exact hres
  refine ⟨(key2 1 one_pos).mono fun n hn => hn.1, ?_⟩
  rw [Metric.tendsto_atTop']
  intro ε hε
  obtain ⟨N, hN⟩ := eventually_atTop.1 (key2 (ε / 2) (half_pos hε))
  refine ⟨N, fun n hn => ?_⟩
  have h1 := (hN n hn.le).2
  rw [Real.dist_eq, sub_zero, abs_of_nonneg (integral_nonneg fun ω => sq_nonneg _)]
  linarith

include hU hR hlay hsg hgm hg hT in
/-- **C147 (`polynomial_step_size`).** With `polynomial_step_size(a, b, gamma)`, `0 < gamma < 1`, the mean of a Lipschitz
function over the samples of all iterations converges in mean square, and therefore in probability, to the posterior mean
as the number of iterations grows. -/
theorem c147_polynomial {a b gamma : ℝ} (ha : 0 < a) (hb : 0 < b) (hg0 : 0 < gamma) (hg1 : gamma < 1) (ms : μ) (x₀ : ι → ℝ)
    (key : κ) {f : (ι → ℝ) → ℝ} {Λ : ℝ} (hf : Spec.Lipschitz f Λ) (prms : ℕ → List Params) (hlen : ∀ n, (prms n).length = n)
    (hstep : ∀ n, ∃ st, (polynomialStepSize (.fin a) (.fin b) gamma).init n {} = .ok st ∧ ∀ i p, (prms n)[i]? = some p →
      p.temperature = T ∧ (polynomialStepSize (.fin a) (.fin b) gamma).get st i = .fin p.stepSize) :
    Tendsto (fun n => ∫ ω, (Spec.meanOver f ((List.range n).map fun i => Spec.sgldSample (P ω) lay (data ω) d₀ sg ms x₀ key
        ((prms n).take (i + 1))) - Spec.posteriorMean (fun x => U x / T) Set.univ f) ^ 2 ∂prob) atTop (𝓝 0) ∧
    ∀ ε : ℝ, 0 < ε → Tendsto (fun n => prob {ω | ε ≤ |Spec.meanOver f ((List.range n).map fun i =>
        Spec.sgldSample (P ω) lay (data ω) d₀ sg ms x₀ key ((prms n).take (i + 1)))
        - Spec.posteriorMean (fun x => U x / T) Set.univ f|}) atTop (𝓝 0) := by
  have hpos : ∀ k : ℕ, 0 < a * (b + k) ^ (-gamma) := fun k => by positivity
  have hlim : Tendsto (fun k : ℕ => a * (b + k) ^ (-gamma)) atTop (𝓝 0) := by
    have h1 : Tendsto (fun k : ℕ => b + (k : ℝ)) atTop atTop := tendsto_atTop_add_const_left _ _ tendsto_natCast_atTop_atTop
    have := ((tendsto_rpow_neg_atTop hg0).comp h1).const_mul a
    rwa [mul_zero] at this
  have hanti : Antitone fun k : ℕ => a * (b + k) ^ (-gamma) := fun i j hij => poly_anti a b gamma ha hb hg0.le i j hij
  have hslow : Tendsto (fun n : ℕ => n * (a * (b + n) ^ (-gamma))) atTop atTop := by
    have h1 : Tendsto (fun n : ℕ => a * 2 ^ (-gamma) * (n : ℝ) ^ (1 - gamma)) atTop atTop :=
      ((tendsto_rpow_atTop (by linarith : 0 < 1 - gamma)).comp tendsto_natCast_atTop_atTop).const_mul_atTop (by positivity)
    refine tendsto_atTop_mono' _ ?_ h1
    filter_upwards [tendsto_natCast_atTop_atTop.eventually_ge_atTop b, eventually_gt_atTop 0] with n hn hn0
    have hnp : (0 : ℝ) < n := Nat.cast_pos.2 hn0
    have h2 : (2 * (n : ℝ)) ^ (-gamma) ≤ (b + n) ^ (-gamma) :=
      Real.rpow_le_rpow_of_nonpos (by positivity) (by linarith) (by linarith)
    rw [Real.mul_rpow zero_le_two hnp.le] at h2
    have h3 : (n : ℝ) ^ (1 - gamma) = n * (n : ℝ) ^ (-gamma) := by
      rw [sub_eq_add_neg, Real.rpow_add hnp, Real.rpow_one]
    rw [h3]
    calc a * 2 ^ (-gamma) * (n * (n : ℝ) ^ (-gamma)) = n * (a * (2 ^ (-gamma) * (n : ℝ) ^ (-gamma))) := by ring
      _ ≤ n * (a * (b + n) ^ (-gamma)) := mul_le_mul_of_nonneg_left (mul_le_mul_of_nonneg_left h2 ha.le) hnp.le
  have e : ∀ n, prms n = (List.range n).map fun k : ℕ => (⟨a * (b + k) ^ (-gamma), T⟩ : Params) := by
    intro n
    refine List.ext_getElem (by rw [List.length_map, List.length_range, hlen]) fun i h1 h2 => ?_
    obtain ⟨st, hst, hget⟩ := hstep n
    obtain ⟨h3, h4⟩ := hget i _ (List.getElem?_eq_getElem h1)
    obtain ⟨st', hst', hget'⟩ := c34_polynomial a b gamma ha hb hg0.le n
    have h5 := (hget' (fun _ => default) i (by rw [← hlen n]; exact h1)).1
    rw [paramAfter_static _ (fun _ _ _ => rfl)] at h5
    rw [hst] at hst'
    rw [← Except.ok.inj hst', h4] at h5
    rw [List.getElem_map, List.getElem_range]
    have h6 := XF.fin.inj h5
    cases hp : (prms n)[i] with
    | mk x y =>
      rw [hp] at h3 h6
      exact congrArg₂ Params.mk h6 h3
  have e2 : ∀ n ω, (List.range n).map (fun i => Spec.sgldSample (P ω) lay (data ω) d₀ sg ms x₀ key ((prms n).take (i + 1))) =
      (List.range n).map fun i => Spec.sgldSample (P ω) lay (data ω) d₀ sg ms x₀ key
        ((List.range (i + 1)).map fun k : ℕ => (⟨a * (b + k) ^ (-gamma), T⟩ : Params)) := by
    intro n ω
    refine List.map_congr_left fun i hi => ?_
    have := List.mem_range.1 hi
    rw [e n, ← List.map_take, List.take_range, min_eq_left (by omega)]
  obtain ⟨hint, hms⟩ := c147_mean_square hU hR hlay hsg hgm hg hT hpos hanti hlim hslow ms key x₀ hf
  simp only [e2]
  refine ⟨hms, fun ε hε => ?_⟩
  have h1 : Tendsto (fun n => ENNReal.ofReal ((∫ ω, (Spec.meanOver f ((List.range n).map fun i =>
      Spec.sgldSample (P ω) lay (data ω) d₀ sg ms x₀ key
        ((List.range (i + 1)).map fun k : ℕ => (⟨a * (b + k) ^ (-gamma), T⟩ : Params)))
      - Spec.posteriorMean (fun x => U x / T) Set.univ f) ^ 2 ∂prob) / ε ^ 2)) atTop (𝓝 0) := by
    have := ENNReal.tendsto_ofReal (hms.div_const (ε ^ 2))
    rwa [zero_div, ENNReal.ofReal_zero] at this
  refine tendsto_of_tendsto_of_tendsto_of_le_of_le' tendsto_const_nhds h1 (Eventually.of_forall fun _ => zero_le) ?_
  filter_upwards [hint] with n hn
  set Z : Ω → ℝ := fun ω => Spec.meanOver f ((List.range n).map fun i =>
      Spec.sgldSample (P ω) lay (data ω) d₀ sg ms x₀ key
        ((List.range (i + 1)).map fun k : ℕ => (⟨a * (b + k) ^ (-gamma), T⟩ : Params)))
      - Spec.posteriorMean (fun x => U x / T) Set.univ f with hZ
  have hle2 : {ω | ε ≤ |Z ω|} ⊆ {ω | ε ^ 2 ≤ Z ω ^ 2} := fun ω hω => by
    show ε ^ 2 ≤ Z ω ^ 2
    rw [← sq_abs (Z ω)]
    exact pow_le_pow_left₀ hε.le hω 2
  have hmk := mul_meas_ge_le_integral_of_nonneg (Eventually.of_forall fun ω => sq_nonneg (Z ω)) hn (ε ^ 2)
  have h3 : prob.real {ω | ε ^ 2 ≤ Z ω ^ 2} ≤ (∫ ω, Z ω ^ 2 ∂prob) / ε ^ 2 := by
    rw [le_div_iff₀ (by positivity), mul_comm]
    exact hmk
  refine (measure_mono hle2).trans ?_
  rw [← ENNReal.ofReal_toReal (measure_ne_top prob {ω | ε ^ 2 ≤ Z ω ^ 2})]
  exact ENNReal.ofReal_le_ofReal h3

end

/-- The hypotheses can be met: SGLD with noisy gradients, ideal random numbers and the step sizes `(1 + k)^(-1/2)` (the
values of `polynomial_step_size(1, 1, 1/2)`) estimates the mean of the standard normal distribution. -/
example : Tendsto (fun n => ∫ ω, (Spec.meanOver (fun x : Fin 1 → ℝ => x 0) ((List.range n).map fun i =>
        Spec.sgldSample (IdealSpace.gen ω) (Spec.vectorLayout 1) (IdealSpace.batches ω) 0 noisyGrad () 0 []
        (((List.range n).map fun k : ℕ => (⟨1 * (1 + k : ℝ) ^ (-(1 / 2 : ℝ)), 1⟩ : Params)).take (i + 1)))
        - Spec.posteriorMean (fun x : Fin 1 → ℝ => x 0 ^ 2 / 2 / 1) Set.univ fun x => x 0) ^ 2
        ∂IdealSpace.law (L := 1) (PMF.uniformOfFintype (Fin 1 → Bool))) atTop (𝓝 0) := by
  have hv : Spec.Layout.Valid (Spec.vectorLayout 1) :=
    ⟨Spec.vectorLayout_injective 1, fun _ => Nat.one_pos, fun i => i.2⟩
  have hpr : IsProbabilityMeasure (IdealSpace.law (PMF.uniformOfFintype (Fin 1 → Bool))) := by
    unfold IdealSpace.law; infer_instance
  have hw : (PMF.uniformOfFintype (Fin 1 → Bool) : (Fin 1 → Bool) → ENNReal) = fun b => (fun _ : Bool => (2 : ENNReal)⁻¹) (b 0) := by
    funext b; simp
  have hR := IdealSpace.ideal (PMF.uniformOfFintype (Fin 1 → Bool))
  rw [hw] at hR
  refine (c147_polynomial half_gaussian_convex hR hv (sg := noisyGrad) (fun _ _ _ => rfl)
    (fun b => measurable_pi_lambda _ fun i => (measurable_pi_apply i).add_const _) noisy_unbiased one_pos
    (a := 1) (b := 1) (gamma := 1 / 2) one_pos one_pos (by norm_num) (by norm_num) () 0 []
    (f := fun x => x 0) (Λ := 1) (fun x y => by simp [Spec.sqLen]) _ (fun n => by simp) (fun n => ?_)).1
  obtain ⟨st, hst, hget⟩ := c34_polynomial 1 1 (1 / 2) one_pos one_pos (by norm_num) n
  refine ⟨st, hst, fun i p hp => ?_⟩
  obtain ⟨hi, hp⟩ := List.getElem?_eq_some_iff.1 hp
  rw [List.getElem_map, List.getElem_range] at hp
  subst hp
  refine ⟨rfl, ?_⟩
  have := (hget (fun _ => default) i (by simpa using hi)).1
  rw [paramAfter_static _ (fun _ _ _ => rfl)] at this
  exact this

end JaxSgmc
