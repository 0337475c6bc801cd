import Verif.Lemmas.LangevinMoments
import Mathlib.Data.List.Induction

/-! # SGLD coupled with the Metropolis adjusted Langevin algorithm -/

namespace JaxSgmc

open Matrix MeasureTheory

variable {ι β S S' E : Type}

/-- The law of `next v s`, if `s` has law `μ` and `v` is independent with law `lam`. -/
noncomputable def pushLaw [MeasurableSpace S] [MeasurableSpace S'] [MeasurableSpace E] (next : E → S → S') (lam : Measure E) (μ : Measure S) : Measure S' :=
  (μ.prod lam).map fun q => next q.2 q.1

section
variable [MeasurableSpace S] [MeasurableSpace S'] [MeasurableSpace E] {next : E → S → S} {lam : Measure E} {μ : Measure S}

theorem pushLaw_lintegral [SFinite lam] [SFinite μ] (hn : Measurable fun q : S × E => next q.2 q.1) {F : S → ENNReal} (hF : Measurable F) :
    ∫⁻ s, F s ∂pushLaw next lam μ = ∫⁻ s, ∫⁻ v, F (next v s) ∂lam ∂μ := by
  unfold pushLaw
  have h : Measurable fun q : S × E => F (next q.2 q.1) := hF.comp hn
  rw [lintegral_map hF hn, lintegral_prod _ h.aemeasurable]

theorem pushLaw_prob [IsProbabilityMeasure lam] [IsProbabilityMeasure μ] (hn : Measurable fun q : S × E => next q.2 q.1) :
    IsProbabilityMeasure (pushLaw next lam μ) := Measure.isProbabilityMeasure_map hn.aemeasurable

/-- Functions of the state which form a chain on their own. -/
theorem pushLaw_map [SFinite lam] [SFinite μ] {next' : E → S' → S'} (p : S → S') (hp : Measurable p)
    (hn : Measurable fun q : S × E => next q.2 q.1) (hn' : Measurable fun q : S' × E => next' q.2 q.1)
    (h : ∀ v s, p (next v s) = next' v (p s)) :
    (pushLaw next lam μ).map p = pushLaw next' lam (μ.map p) := by
  refine Measure.ext_of_lintegral _ fun F hF => ?_
  have h1 : Measurable fun s => F (p s) := hF.comp hp
  have h2 : Measurable fun q : S' × E => F (next' q.2 q.1) := hF.comp hn'
  have h3 : Measurable fun s : S' => ∫⁻ v, F (next' v s) ∂lam := h2.lintegral_prod_right'
  rw [lintegral_map hF hp, pushLaw_lintegral hn h1, pushLaw_lintegral hn' hF, lintegral_map h3 hp]
  simp only [h]

end

variable [Fintype ι]

/-- The normalised posterior. -/
noncomputable def postDist (U : (ι → ℝ) → ℝ) : Measure (ι → ℝ) :=
  (Spec.posterior U Set.univ Set.univ)⁻¹ • Spec.posterior U Set.univ

/-- One update of both algorithms with the same noise. -/
noncomputable def coupledNext (g : (ι → ℝ) → β → (ι → ℝ)) (U : (ι → ℝ) → ℝ) (G : (ι → ℝ) → ι → ℝ) (h : ℝ) (v : β × (ι → ℝ) × ℝ)
    (z : (ι → ℝ) × (ι → ℝ)) : (ι → ℝ) × (ι → ℝ) := (sgldNext g h v z.1, malaNext U G h z.2 v.2.1 v.2.2)

/-- The law of the sample of SGLD after updates with the given step sizes. -/
noncomputable def sgldLaw [MeasurableSpace β] (w : β → ENNReal) (g : (ι → ℝ) → β → (ι → ℝ)) (hs : List ℝ) (μ : Measure (ι → ℝ)) :
    Measure (ι → ℝ) :=
  hs.foldl (fun μ h => pushLaw (sgldNext g h) (stepNoise ι w) μ) μ

/-- The bound of the squared distance. -/
noncomputable def errorBound (m C : ℝ) (hs : List ℝ) (r : ℝ) : ℝ := hs.foldl (fun r h => (1 - m * h / 2) * r + h ^ 2 * C) r

theorem errorBound_snoc (m C : ℝ) (hs : List ℝ) (h r : ℝ) :
    errorBound m C (hs ++ [h]) r = (1 - m * h / 2) * errorBound m C hs r + h ^ 2 * C := by
  unfold errorBound
  rw [List.foldl_append, List.foldl_cons, List.foldl_nil]

section
variable [DecidableEq ι] {U : (ι → ℝ) → ℝ} {G : (ι → ℝ) → ι → ℝ} {m L : ℝ} (hU : Spec.Convex U G m L)
  [MeasurableSpace β] [MeasurableSingletonClass β] [Countable β] {w : β → ENNReal} {g : (ι → ℝ) → β → (ι → ℝ)} {s : ℝ}

omit [MeasurableSingletonClass β] [Countable β] [DecidableEq ι] in
theorem batchLaw_prob (hw : ∑' b, w b = 1) : IsProbabilityMeasure (batchLaw w) := ⟨by
  unfold batchLaw
  rw [Measure.sum_apply _ MeasurableSet.univ]
  simp [hw]⟩

omit [MeasurableSingletonClass β] [Countable β] [DecidableEq ι] in
theorem stepNoise_prob (hw : ∑' b, w b = 1) : IsProbabilityMeasure (stepNoise ι w) := by
  have := batchLaw_prob hw
  unfold stepNoise
  infer_instance

include hU in
theorem postDist_prob : IsProbabilityMeasure (postDist U) := ⟨by
  unfold postDist
  rw [Measure.smul_apply, smul_eq_mul, ENNReal.inv_mul_cancel (posterior_pos hU) (posterior_finite hU)]⟩

/-- The mean local error under the normalised posterior. -/
noncomputable def errorConst (U : (ι → ℝ) → ℝ) (G : (ι → ℝ) → ι → ℝ) (m L s : ℝ) : ℝ :=
  ((Spec.posterior U Set.univ Set.univ)⁻¹ * meanError U G m L s).toReal

omit [DecidableEq ι] in
theorem errorConst_nonneg (U : (ι → ℝ) → ℝ) (G : (ι → ℝ) → ι → ℝ) (m L s : ℝ) : 0 ≤ errorConst U G m L s := ENNReal.toReal_nonneg

include hU in
theorem errorConst_eq (hs : 0 ≤ s) :
    ∫⁻ y, ∫⁻ ξ, ENNReal.ofReal (localError G m L s y ξ) ∂Spec.normals ι ∂postDist U = ENNReal.ofReal (errorConst U G m L s) := by
  unfold postDist errorConst
  rw [lintegral_smul_measure, smul_eq_mul, ENNReal.ofReal_toReal]
  · rfl
  · exact ENNReal.mul_ne_top (ENNReal.inv_ne_top.2 (posterior_pos hU)) (meanError_finite hU hs)

/-- The mean squared distance of independent numbers. -/
noncomputable def initialDist (U : (ι → ℝ) → ℝ) (μ : Measure (ι → ℝ)) : ℝ :=
  (∫⁻ z, ENNReal.ofReal (Spec.sqLen (z.1 - z.2)) ∂μ.prod (postDist U)).toReal

omit [DecidableEq ι] in
theorem initialDist_nonneg (U : (ι → ℝ) → ℝ) (μ : Measure (ι → ℝ)) : 0 ≤ initialDist U μ := ENNReal.toReal_nonneg

include hU in
theorem postDist_second_moment : ∫⁻ y, ENNReal.ofReal (Spec.sqLen y) ∂postDist U ≠ ⊤ := by
  unfold postDist
  rw [lintegral_smul_measure, smul_eq_mul]
  exact ENNReal.mul_ne_top (ENNReal.inv_ne_top.2 (posterior_pos hU)) (posterior_second_moment hU)

omit [DecidableEq ι] in
theorem sqLen_sub_le (x y : ι → ℝ) : Spec.sqLen (x - y) ≤ 2 * Spec.sqLen x + 2 * Spec.sqLen y := by
  have h := sq_add_le x (-y)
  rw [neg_dotProduct, dotProduct_neg, neg_neg, ← sub_eq_add_neg] at h
  simpa only [sqLen_dot] using h

omit [DecidableEq ι] in
theorem sqDist_measurable : Measurable fun z : (ι → ℝ) × (ι → ℝ) => ENNReal.ofReal (Spec.sqLen (z.1 - z.2)) :=
  ENNReal.measurable_ofReal.comp (sqLen_measurable.comp (measurable_fst.sub measurable_snd))

include hU in
theorem initialDist_eq {μ : Measure (ι → ℝ)} [IsProbabilityMeasure μ] (hμ : ∫⁻ x, ENNReal.ofReal (Spec.sqLen x) ∂μ ≠ ⊤) :
    ∫⁻ z, ENNReal.ofReal (Spec.sqLen (z.1 - z.2)) ∂μ.prod (postDist U) = ENNReal.ofReal (initialDist U μ) := by
  have hp := postDist_prob hU
  unfold initialDist
  rw [ENNReal.ofReal_toReal]
  rw [lintegral_prod _ sqDist_measurable.aemeasurable]
  have e : ∀ x y : ι → ℝ, ENNReal.ofReal (Spec.sqLen (x - y)) ≤ 2 * ENNReal.ofReal (Spec.sqLen x) + 2 * ENNReal.ofReal (Spec.sqLen y) := by
    intro x y
    refine (ENNReal.ofReal_le_ofReal (sqLen_sub_le x y)).trans (le_of_eq ?_)
    rw [ENNReal.ofReal_add (by have := sqLen_nonneg x; positivity) (by have := sqLen_nonneg y; positivity),
      ENNReal.ofReal_mul zero_le_two, ENNReal.ofReal_mul zero_le_two, ENNReal.ofReal_ofNat]
  have hm2 : Measurable fun y : ι → ℝ => ENNReal.ofReal (Spec.sqLen y) := ENNReal.measurable_ofReal.comp sqLen_measurable
  refine ne_top_of_le_ne_top ?_ (lintegral_mono fun x => lintegral_mono fun y => e x y)
  have e2 : ∀ x : ι → ℝ, ∫⁻ y, 2 * ENNReal.ofReal (Spec.sqLen x) + 2 * ENNReal.ofReal (Spec.sqLen y) ∂postDist U =
      2 * ENNReal.ofReal (Spec.sqLen x) + 2 * ∫⁻ y, ENNReal.ofReal (Spec.sqLen y) ∂postDist U := by
    intro x
    rw [lintegral_add_left measurable_const, lintegral_const, measure_univ, mul_one, lintegral_const_mul _ hm2]
  simp only [e2]
  rw [lintegral_add_left (hm2.const_mul _), lintegral_const, measure_univ, mul_one, lintegral_const_mul _ hm2]
  exact ENNReal.add_ne_top.2 ⟨ENNReal.mul_ne_top (by norm_num) hμ,
    ENNReal.mul_ne_top (by norm_num) (postDist_second_moment hU)⟩

/-- A coupling of SGLD with the posterior: the first component is the sample, the second has the posterior
distribution. -/
structure Coupling (U : (ι → ℝ) → ℝ) (μ : Measure (ι → ℝ)) (r : ℝ) (γ : Measure ((ι → ℝ) × (ι → ℝ))) : Prop where
  prob : IsProbabilityMeasure γ
  nonneg : 0 ≤ r
  first : γ.map Prod.fst = μ
  second : γ.map Prod.snd = postDist U
  dist : ∫⁻ z, ENNReal.ofReal (Spec.sqLen (z.1 - z.2)) ∂γ ≤ ENNReal.ofReal r

include hU in
theorem coupling_init {μ : Measure (ι → ℝ)} [IsProbabilityMeasure μ] (hμ : ∫⁻ x, ENNReal.ofReal (Spec.sqLen x) ∂μ ≠ ⊤) :
    Coupling U μ (initialDist U μ) (μ.prod (postDist U)) := by
  have hp := postDist_prob hU
  refine ⟨inferInstance, ENNReal.toReal_nonneg, ?_, ?_, ?_⟩
  · rw [Measure.map_fst_prod, measure_univ, one_smul]
  · rw [Measure.map_snd_prod, measure_univ, one_smul]
  · rw [initialDist_eq hU hμ]

attribute [local irreducible] sgldNext malaNext localError Spec.sqLen batchLaw Spec.normals Spec.unif stepNoise postDist

include hU in
omit [MeasurableSingletonClass β] [Countable β] in
theorem mala_pushLaw (hw : ∑' b, w b = 1) {h : ℝ} (hh : 0 ≤ h) :
    pushLaw (fun (v : β × (ι → ℝ) × ℝ) y => malaNext U G h y v.2.1 v.2.2) (stepNoise ι w) (postDist U) = postDist U := by
  have hGm := (convex_gradient_continuous hU).measurable
  have hUm := hU.differentiable.continuous.measurable
  have hp := postDist_prob hU
  have hb := batchLaw_prob hw
  have hsn := stepNoise_prob (ι := ι) hw
  have hn : Measurable fun q : (ι → ℝ) × (β × (ι → ℝ) × ℝ) => malaNext U G h q.1 q.2.2.1 q.2.2.2 :=
    (malaNext_measurable hUm hGm).comp
      (by fun_prop : Measurable fun q : (ι → ℝ) × (β × (ι → ℝ) × ℝ) => (q.1, q.2.2.1, q.2.2.2))
  refine Measure.ext_of_lintegral _ fun F hF => ?_
  rw [pushLaw_lintegral hn hF]
  have e : ∀ y, ∫⁻ v, F (malaNext U G h y v.2.1 v.2.2) ∂stepNoise ι w =
      ∫⁻ ξ, ∫⁻ u, F (malaNext U G h y ξ u) ∂Spec.unif ∂Spec.normals ι := by
    intro y
    have hm1 : Measurable fun v : (ι → ℝ) × ℝ => F (malaNext U G h y v.1 v.2) :=
      hF.comp ((malaNext_measurable hUm hGm).comp (measurable_prodMk_left (x := y)))
    have hm2 : Measurable fun v : β × (ι → ℝ) × ℝ => F (malaNext U G h y v.2.1 v.2.2) := hm1.comp measurable_snd
    unfold stepNoise
    rw [lintegral_prod _ hm2.aemeasurable]
    dsimp only
    rw [lintegral_const, measure_univ, mul_one, lintegral_prod _ hm1.aemeasurable]
  simp only [e]
  have hst := mala_stationary hh hUm hGm F hF
  unfold postDist
  rw [lintegral_smul_measure, lintegral_smul_measure, hst]

include hU in
theorem coupling_step (hg : Spec.Unbiased w g G s) (hgm : ∀ b, Measurable fun x => g x b) {μ : Measure (ι → ℝ)} {r : ℝ}
    {γ : Measure ((ι → ℝ) × (ι → ℝ))} (hγ : Coupling U μ r γ) {h : ℝ} (hh : 0 < h) (hmax : h ≤ maxStep m L s) :
    Coupling U (pushLaw (sgldNext g h) (stepNoise ι w) μ) ((1 - m * h / 2) * r + h ^ 2 * errorConst U G m L s)
      (pushLaw (coupledNext g U G h) (stepNoise ι w) γ) := by
  have hγp := hγ.prob
  have hsn := stepNoise_prob (ι := ι) hg.probability
  have hn : Measurable fun q : ((ι → ℝ) × (ι → ℝ)) × (β × (ι → ℝ) × ℝ) => coupledNext g U G h q.2 q.1 := step_measurable hU hgm h
  have hGm := (convex_gradient_continuous hU).measurable
  have hUm := hU.differentiable.continuous.measurable
  have hn1 : Measurable fun q : (ι → ℝ) × (β × (ι → ℝ) × ℝ) => sgldNext g h q.2 q.1 :=
    (sgldNext_measurable hgm h).comp measurable_swap
  have hn2 : Measurable fun q : (ι → ℝ) × (β × (ι → ℝ) × ℝ) => malaNext U G h q.1 q.2.2.1 q.2.2.2 :=
    (malaNext_measurable hUm hGm).comp
      (by fun_prop : Measurable fun q : (ι → ℝ) × (β × (ι → ℝ) × ℝ) => (q.1, q.2.2.1, q.2.2.2))
  have hf := maxStep_factor hU.m_pos hmax
  have hc : 0 ≤ errorConst U G m L s := ENNReal.toReal_nonneg
  refine ⟨pushLaw_prob hn, add_nonneg (mul_nonneg hf hγ.nonneg) (mul_nonneg (sq_nonneg h) hc), ?_, ?_, ?_⟩
  · rw [pushLaw_map (next' := sgldNext g h) Prod.fst measurable_fst hn hn1 fun v z => rfl, hγ.first]
  · rw [pushLaw_map (next' := fun (v : β × (ι → ℝ) × ℝ) y => malaNext U G h y v.2.1 v.2.2) Prod.snd measurable_snd hn hn2
      fun v z => rfl, hγ.second, mala_pushLaw hU hg.probability hh.le]
  · have hm : Measurable fun z : (ι → ℝ) × (ι → ℝ) => ENNReal.ofReal (Spec.sqLen (z.1 - z.2)) :=
      ENNReal.measurable_ofReal.comp (sqLen_measurable.comp (measurable_fst.sub measurable_snd))
    rw [pushLaw_lintegral hn hm]
    have hle : Measurable fun z : (ι → ℝ) × (ι → ℝ) => ENNReal.ofReal (localError G m L s z.1 z.2) :=
      ENNReal.measurable_ofReal.comp (localError_measurable hU s)
    have hle2 : Measurable fun y : ι → ℝ => ∫⁻ ξ, ENNReal.ofReal (localError G m L s y ξ) ∂Spec.normals ι :=
      hle.lintegral_prod_right'
    have hle3 : Measurable fun z : (ι → ℝ) × (ι → ℝ) => ∫⁻ ξ, ENNReal.ofReal (localError G m L s z.2 ξ) ∂Spec.normals ι :=
      hle2.comp measurable_snd
    refine (lintegral_mono fun z : (ι → ℝ) × (ι → ℝ) => step_mean hU hg hgm hh hmax z.1 z.2).trans ?_
    rw [lintegral_add_left (hm.const_mul _), lintegral_const_mul _ hm, lintegral_const_mul _ hle3]
    have e1 : ∫⁻ z, ∫⁻ ξ, ENNReal.ofReal (localError G m L s z.2 ξ) ∂Spec.normals ι ∂γ =
        ENNReal.ofReal (errorConst U G m L s) := by
      rw [← errorConst_eq hU hg.s_nonneg, ← hγ.second, lintegral_map hle2 measurable_snd]
    rw [e1]
    refine (add_le_add (mul_le_mul_right hγ.dist _) le_rfl).trans ?_
    rw [← ENNReal.ofReal_mul hf, ← ENNReal.ofReal_mul (sq_nonneg h),
      ← ENNReal.ofReal_add (mul_nonneg hf hγ.nonneg) (mul_nonneg (sq_nonneg h) hc)]

include hU in
/-- The coupling after any number of updates. -/
theorem coupling_exists (hg : Spec.Unbiased w g G s) (hgm : ∀ b, Measurable fun x => g x b) {μ : Measure (ι → ℝ)}
    [IsProbabilityMeasure μ] (hμ : ∫⁻ x, ENNReal.ofReal (Spec.sqLen x) ∂μ ≠ ⊤) (hs : List ℝ)
    (hh : ∀ h ∈ hs, 0 < h ∧ h ≤ maxStep m L s) :
    ∃ γ, Coupling U (sgldLaw w g hs μ) (errorBound m (errorConst U G m L s) hs (initialDist U μ)) γ := by
  induction hs using List.reverseRecOn with
  | nil => exact (show ∃ γ, Coupling U μ (initialDist U μ) γ from ⟨_, coupling_init hU hμ⟩)
  | append_singleton hs h ih =>
    obtain ⟨γ, hγ⟩ := ih fun h' hm => hh h' (List.mem_append_left _ hm)
    obtain ⟨h1, h2⟩ := hh h (List.mem_append_right _ (List.mem_singleton_self h))
    have := coupling_step hU hg hgm hγ h1 h2
    refine ⟨pushLaw (coupledNext g U G h) (stepNoise ι w) γ, ?_⟩
    rw [errorBound_snoc]
    unfold sgldLaw at this ⊢
    rw [List.foldl_append, List.foldl_cons, List.foldl_nil]
    exact this

/-! ## Second moments -/

include hU in
/-- A step with any step size keeps the second moment finite. -/
theorem step_second_moment (hg : Spec.Unbiased w g G s) (hgm : ∀ b, Measurable fun x => g x b) {μ : Measure (ι → ℝ)}
    [IsProbabilityMeasure μ] (hμ : ∫⁻ x, ENNReal.ofReal (Spec.sqLen x) ∂μ ≠ ⊤) (h : ℝ) :
    ∫⁻ x, ENNReal.ofReal (Spec.sqLen x) ∂pushLaw (sgldNext g h) (stepNoise ι w) μ ≠ ⊤ := by
  have hsn := stepNoise_prob (ι := ι) hg.probability
  have hb := batchLaw_prob hg.probability
  have hsq : Measurable fun y : ι → ℝ => ENNReal.ofReal (Spec.sqLen y) := ENNReal.measurable_ofReal.comp sqLen_measurable
  have hn1 : Measurable fun q : (ι → ℝ) × (β × (ι → ℝ) × ℝ) => sgldNext g h q.2 q.1 :=
    (sgldNext_measurable hgm h).comp measurable_swap
  rw [pushLaw_lintegral hn1 hsq]
  -- the mean over the mini-batch
  have hin : ∀ x ξ u, ∫⁻ b, ENNReal.ofReal (Spec.sqLen (sgldNext g h (b, ξ, u) x)) ∂batchLaw w ≤
      ENNReal.ofReal ((4 + 8 * (h ^ 2 * L ^ 2) + h ^ 2 * s) * Spec.sqLen x) + (ENNReal.ofReal (8 * (h ^ 2 * (G 0 ⬝ᵥ G 0)) + h ^ 2 * s)
        + ENNReal.ofReal (2 * Real.sqrt (2 * h) ^ 2 * (ξ ⬝ᵥ ξ))) := by
    intro x ξ u
    rw [batchLaw_lintegral]
    have e : ∀ b, sgldNext g h (b, ξ, u) x = (x - h • G x + Real.sqrt (2 * h) • ξ) - h • (g x b - G x) := by
      intro b
      unfold sgldNext
      simp only [smul_sub]
      abel
    simp only [e, sqLen_dot]
    refine (unbiased_sq hg x _ h).trans ?_
    have hx := dot_nonneg x
    have hξ := dot_nonneg ξ
    have hG0 := dot_nonneg (G 0)
    have hs0 := hg.s_nonneg
    rw [← ENNReal.ofReal_add (by positivity) (by positivity), ← ENNReal.ofReal_add (by positivity) (by positivity)]
    refine ENNReal.ofReal_le_ofReal ?_
    have h1 := sq_add_le (x - h • G x) (Real.sqrt (2 * h) • ξ)
    have h2 := sqLen_sub_le x (h • G x)
    simp only [sqLen_dot, smul_dotProduct, dotProduct_smul, smul_eq_mul] at h1 h2 ⊢
    have h3 := sq_add_le (G x - G 0) (G 0)
    rw [sub_add_cancel] at h3
    have h4 := convex_lipschitz_dot hU x 0
    rw [sub_zero] at h4
    have h5 := mul_le_mul_of_nonneg_left (h3.trans (by linarith : _ ≤ 2 * (L ^ 2 * (x ⬝ᵥ x)) + 2 * (G 0 ⬝ᵥ G 0))) (sq_nonneg h)
    nlinarith
  have hd : ∀ x, Measurable fun v : β × (ι → ℝ) × ℝ => ENNReal.ofReal (Spec.sqLen (sgldNext g h v x)) := fun x =>
    hsq.comp ((sgldNext_measurable hgm h).comp (by fun_prop : Measurable fun v : β × (ι → ℝ) × ℝ => (v, x)))
  have hξm : Measurable fun ξ : ι → ℝ => ENNReal.ofReal (2 * Real.sqrt (2 * h) ^ 2 * (ξ ⬝ᵥ ξ)) := by
    have : Measurable fun ξ : ι → ℝ => ξ ⬝ᵥ ξ := dot_measurable
    fun_prop
  have hone : ∀ x, ∫⁻ v, ENNReal.ofReal (Spec.sqLen (sgldNext g h v x)) ∂stepNoise ι w ≤
      ENNReal.ofReal ((4 + 8 * (h ^ 2 * L ^ 2) + h ^ 2 * s) * Spec.sqLen x) + (ENNReal.ofReal (8 * (h ^ 2 * (G 0 ⬝ᵥ G 0)) + h ^ 2 * s)
        + ∫⁻ ξ, ENNReal.ofReal (2 * Real.sqrt (2 * h) ^ 2 * (ξ ⬝ᵥ ξ)) ∂Spec.normals ι) := by
    intro x
    have hmes : Measurable fun q : (ι → ℝ) × ℝ => ∫⁻ b, ENNReal.ofReal (Spec.sqLen (sgldNext g h (b, q.1, q.2) x)) ∂batchLaw w :=
      Measurable.lintegral_prod_left' (hd x)
    unfold stepNoise
    rw [lintegral_prod_symm' _ (hd x), lintegral_prod _ hmes.aemeasurable]
    refine (lintegral_mono fun ξ => lintegral_mono fun u => hin x ξ u).trans ?_
    simp only [lintegral_const, measure_univ, mul_one]
    rw [lintegral_add_left measurable_const, lintegral_add_left measurable_const]
    simp only [lintegral_const, measure_univ, mul_one, le_refl]
  refine ne_top_of_le_ne_top ?_ (lintegral_mono hone)
  have hs0 := hg.s_nonneg
  have e3 : ∀ x : ι → ℝ, ENNReal.ofReal ((4 + 8 * (h ^ 2 * L ^ 2) + h ^ 2 * s) * Spec.sqLen x) =
      ENNReal.ofReal (4 + 8 * (h ^ 2 * L ^ 2) + h ^ 2 * s) * ENNReal.ofReal (Spec.sqLen x) :=
    fun x => ENNReal.ofReal_mul (by positivity)
  simp only [e3]
  rw [lintegral_add_left (hsq.const_mul _), lintegral_const_mul _ hsq, lintegral_const, measure_univ, mul_one]
  refine ENNReal.add_ne_top.2 ⟨ENNReal.mul_ne_top ENNReal.ofReal_ne_top hμ, ENNReal.add_ne_top.2 ⟨ENNReal.ofReal_ne_top, ?_⟩⟩
  -- second moment of the noise
  have hexp := normals_exp_moment (ι := ι) (ε := 1 / 4) (by norm_num)
  have hem : Measurable fun ξ : ι → ℝ => ENNReal.ofReal (Real.exp (1 / 4 * (ξ ⬝ᵥ ξ))) := by
    have : Measurable fun ξ : ι → ℝ => ξ ⬝ᵥ ξ := dot_measurable
    fun_prop
  have hfin : ENNReal.ofReal (8 * Real.sqrt (2 * h) ^ 2) * ∫⁻ ξ : ι → ℝ, ENNReal.ofReal (Real.exp (1 / 4 * (ξ ⬝ᵥ ξ))) ∂Spec.normals ι ≠ ⊤ :=
    ENNReal.mul_ne_top ENNReal.ofReal_ne_top hexp.ne
  rw [← lintegral_const_mul _ hem] at hfin
  refine ne_top_of_le_ne_top hfin (lintegral_mono fun ξ => ?_)
  rw [← ENNReal.ofReal_mul (by positivity)]
  refine ENNReal.ofReal_le_ofReal ?_
  have h1 := Real.add_one_le_exp (1 / 4 * (ξ ⬝ᵥ ξ))
  have h2 := mul_le_mul_of_nonneg_left (by linarith : ξ ⬝ᵥ ξ ≤ 4 * Real.exp (1 / 4 * (ξ ⬝ᵥ ξ))) (by positivity : 0 ≤ 2 * Real.sqrt (2 * h) ^ 2)
  linarith

omit [MeasurableSingletonClass β] [Countable β] [DecidableEq ι] in
theorem sgldLaw_append (hs hs' : List ℝ) (μ : Measure (ι → ℝ)) :
    sgldLaw w g (hs ++ hs') μ = sgldLaw w g hs' (sgldLaw w g hs μ) := List.foldl_append

omit [DecidableEq ι] in
theorem sgldLaw_prob (hw : ∑' b, w b = 1) (hgm : ∀ b, Measurable fun x => g x b) {μ : Measure (ι → ℝ)} [IsProbabilityMeasure μ]
    (hs : List ℝ) : IsProbabilityMeasure (sgldLaw w g hs μ) := by
  induction hs using List.reverseRecOn with
  | nil => assumption
  | append_singleton hs h ih =>
    rw [sgldLaw_append]
    have hsn := stepNoise_prob (ι := ι) hw
    exact pushLaw_prob ((sgldNext_measurable hgm h).comp measurable_swap)

include hU in
theorem sgldLaw_second_moment (hg : Spec.Unbiased w g G s) (hgm : ∀ b, Measurable fun x => g x b) {μ : Measure (ι → ℝ)}
    [IsProbabilityMeasure μ] (hμ : ∫⁻ x, ENNReal.ofReal (Spec.sqLen x) ∂μ ≠ ⊤) (hs : List ℝ) :
    ∫⁻ x, ENNReal.ofReal (Spec.sqLen x) ∂sgldLaw w g hs μ ≠ ⊤ := by
  induction hs using List.reverseRecOn with
  | nil => exact hμ
  | append_singleton hs h ih =>
    rw [sgldLaw_append]
    have := sgldLaw_prob hg.probability hgm (μ := μ) hs
    exact step_second_moment hU hg hgm ih h

/-! ## Expectations of Lipschitz functions -/

omit [DecidableEq ι] in
theorem lipschitz_continuous {f : (ι → ℝ) → ℝ} {Λ : ℝ} (hlip : ∀ x y, (f x - f y) ^ 2 ≤ Λ ^ 2 * Spec.sqLen (x - y)) : Continuous f := by
  refine (LipschitzWith.of_dist_le_mul (K := Real.toNNReal (|Λ| * Real.sqrt (Fintype.card ι))) fun x y => ?_).continuous
  rw [dist_eq_norm, dist_eq_norm, Real.coe_toNNReal _ (mul_nonneg (abs_nonneg _) (Real.sqrt_nonneg _))]
  refine abs_le_of_sq_le_sq ((hlip x y).trans ?_) (by positivity) |> fun h => h
  rw [mul_pow, mul_pow, Real.sq_sqrt (Nat.cast_nonneg _), sq_abs, mul_assoc]
  exact mul_le_mul_of_nonneg_left (sqLen_le_norm (x - y)) (sq_nonneg Λ)

include hU in
/-- The expectations of Lipschitz functions are close to those of the posterior. -/
theorem coupling_expectation {μ : Measure (ι → ℝ)} {r : ℝ} {γ : Measure ((ι → ℝ) × (ι → ℝ))} (hγ : Coupling U μ r γ)
    {f : (ι → ℝ) → ℝ} {Λ : ℝ} (hlip : ∀ x y, (f x - f y) ^ 2 ≤ Λ ^ 2 * Spec.sqLen (x - y)) :
    Integrable f μ ∧ Integrable f (postDist U) ∧ (∫ x, f x ∂μ - ∫ y, f y ∂postDist U) ^ 2 ≤ Λ ^ 2 * r := by
  have hγp := hγ.prob
  have hp := postDist_prob hU
  have hf := (lipschitz_continuous hlip).measurable
  have hm : Measurable fun z : (ι → ℝ) × (ι → ℝ) => Spec.sqLen (z.1 - z.2) :=
    sqLen_measurable.comp (measurable_fst.sub measurable_snd)
  -- the squared distance is integrable
  have hdi : Integrable (fun z : (ι → ℝ) × (ι → ℝ) => Spec.sqLen (z.1 - z.2)) γ := by
    refine (lintegral_ofReal_ne_top_iff_integrable hm.aestronglyMeasurable (Filter.Eventually.of_forall fun z => sqLen_nonneg _)).1 ?_
    exact ne_top_of_le_ne_top ENNReal.ofReal_ne_top hγ.dist
  have hdr : ∫ z, Spec.sqLen (z.1 - z.2) ∂γ ≤ r := by
    have := hγ.dist
    rw [← ofReal_integral_eq_lintegral_ofReal hdi (Filter.Eventually.of_forall fun z => sqLen_nonneg _)] at this
    exact (ENNReal.ofReal_le_ofReal_iff hγ.nonneg).1 this
  have hsi : Integrable (fun y : ι → ℝ => Spec.sqLen y) (postDist U) :=
    (lintegral_ofReal_ne_top_iff_integrable sqLen_measurable.aestronglyMeasurable
      (Filter.Eventually.of_forall fun z => sqLen_nonneg _)).1 (postDist_second_moment hU)
  -- `f` is integrable
  have hfi : Integrable f (postDist U) := by
    refine ((integrable_const (|f 0| + 1 + Λ ^ 2)).add (hsi.const_mul (Λ ^ 2))).mono' hf.aestronglyMeasurable
      (Filter.Eventually.of_forall fun y => ?_)
    rw [Real.norm_eq_abs]
    show |f y| ≤ |f 0| + 1 + Λ ^ 2 + Λ ^ 2 * Spec.sqLen y
    have h1 := hlip y 0
    rw [sub_zero] at h1
    have h2 : |f y| ≤ |f 0| + |f y - f 0| := by
      have := abs_add_le (f 0) (f y - f 0)
      rwa [add_sub_cancel] at this
    have h3 : |f y - f 0| ≤ 1 + (f y - f 0) ^ 2 := by
      rw [← sq_abs]; nlinarith [sq_nonneg (|f y - f 0| - 1), abs_nonneg (f y - f 0)]
    nlinarith [sq_nonneg Λ]
  have hd2 : Integrable (fun z : (ι → ℝ) × (ι → ℝ) => (f z.1 - f z.2) ^ 2) γ := by
    refine (hdi.const_mul (Λ ^ 2)).mono' (by fun_prop) (Filter.Eventually.of_forall fun z => ?_)
    rw [Real.norm_eq_abs, abs_of_nonneg (sq_nonneg _)]
    exact hlip z.1 z.2
  have hd1 : Integrable (fun z : (ι → ℝ) × (ι → ℝ) => f z.1 - f z.2) γ := by
    refine ((integrable_const (1 : ℝ)).add hd2).mono' (by fun_prop) (Filter.Eventually.of_forall fun z => ?_)
    rw [Real.norm_eq_abs]
    show |f z.1 - f z.2| ≤ 1 + (f z.1 - f z.2) ^ 2
    rw [← sq_abs (f z.1 - f z.2)]
    nlinarith [sq_nonneg (|f z.1 - f z.2| - 1), abs_nonneg (f z.1 - f z.2)]
  have hf2 : Integrable (fun z : (ι → ℝ) × (ι → ℝ) => f z.2) γ := by
    have := hγ.second ▸ hfi
    exact (integrable_map_measure hf.aestronglyMeasurable measurable_snd.aemeasurable).1 this
  have hf1 : Integrable (fun z : (ι → ℝ) × (ι → ℝ) => f z.1) γ := by
    refine (hd1.add hf2).congr (Filter.Eventually.of_forall fun z => ?_)
    show f z.1 - f z.2 + f z.2 = f z.1
    ring
  have hfμ : Integrable f μ := by
    rw [← hγ.first]
    exact (integrable_map_measure hf.aestronglyMeasurable measurable_fst.aemeasurable).2 hf1
  refine ⟨hfμ, hfi, ?_⟩
  have e1 : ∫ x, f x ∂μ = ∫ z, f z.1 ∂γ := by
    rw [← hγ.first, integral_map measurable_fst.aemeasurable hf.aestronglyMeasurable]
  have e2 : ∫ y, f y ∂postDist U = ∫ z, f z.2 ∂γ := by
    rw [← hγ.second, integral_map measurable_snd.aemeasurable hf.aestronglyMeasurable]
  rw [e1, e2, ← integral_sub hf1 hf2]
  -- Jensen
  set c := ∫ z, f z.1 - f z.2 ∂γ with hc
  have hj : 0 ≤ ∫ z, (f z.1 - f z.2 - c) ^ 2 ∂γ := integral_nonneg fun z => sq_nonneg _
  have e3 : ∫ z, (f z.1 - f z.2 - c) ^ 2 ∂γ = ∫ z, (f z.1 - f z.2) ^ 2 ∂γ - c ^ 2 := by
    have e4 : ∀ z : (ι → ℝ) × (ι → ℝ), (f z.1 - f z.2 - c) ^ 2 = (f z.1 - f z.2) ^ 2 - 2 * c * (f z.1 - f z.2) + c ^ 2 :=
      fun z => by ring
    simp only [e4]
    have hi3 : Integrable (fun z : (ι → ℝ) × (ι → ℝ) => (f z.1 - f z.2) ^ 2 - 2 * c * (f z.1 - f z.2)) γ := hd2.sub (hd1.const_mul _)
    rw [integral_add hi3 (integrable_const _), integral_sub hd2 (hd1.const_mul _),
      integral_const_mul, ← hc, integral_const, probReal_univ, one_smul]
    ring
  have h5 : ∫ z, (f z.1 - f z.2) ^ 2 ∂γ ≤ Λ ^ 2 * ∫ z, Spec.sqLen (z.1 - z.2) ∂γ := by
    rw [← integral_const_mul]
    exact integral_mono hd2 (hdi.const_mul _) fun z => hlip z.1 z.2
  have h6 := mul_le_mul_of_nonneg_left hdr (sq_nonneg Λ)
  linarith

end

end JaxSgmc
