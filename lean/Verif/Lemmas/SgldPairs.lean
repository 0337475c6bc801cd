import Verif.Props.Sgld

/-! # The joint law of two samples of SGLD -/

namespace JaxSgmc

open MeasureTheory ProbabilityTheory

variable {ι κ δ β μ Ω S A : Type} [Fintype ι]

section
variable [MeasurableSpace Ω] [MeasurableSpace β] {prob : Measure Ω} [IsProbabilityMeasure prob]
  {P : Ω → Prng κ} {data : Ω → δ → δ × β} {d₀ : δ} {w : β → ENNReal} {sp : κ → ℕ → ℕ → κ}
  (hR : Spec.IdealRandom prob P data d₀ 1 (fun b => w (b 0)) sp) {lay : Layout ι} (hlay : Spec.Layout.Valid lay) (key : κ)
  [Countable β] [MeasurableSingletonClass β]

include hR hlay in
/-- The mini-batch and the noise of an update are independent of everything known before. -/
theorem sgldFresh_law [MeasurableSpace S] {Y : Ω → S} (n : ℕ)
    (hY : Measurable[known P data d₀ 1 (sgldKeys lay sp key (Set.Iio n))] Y) :
    prob.map (fun ω => (Y ω, (Spec.nthBatch (data ω) d₀ n, sgldNoise (P ω) lay key sp n))) =
      (prob.map Y).prod ((batchLaw w).prod (Spec.normals ι)) := by
  have hs := splitPrng_ideal hR
  have hB := sgldBatch_measurable (P := P) (data := data) (d₀ := d₀) (lay := lay) (sp := sp) key (Set.mem_singleton n)
  have hN := sgldNoise_measurable (P := P) (data := data) (d₀ := d₀) (sp := sp) hlay key (Set.mem_singleton n)
  have hdis : Disjoint (Set.Iio n) {n} := by simp
  have i1 := known_indepFun hR (sgldKeys_disjoint key hs hdis (lay := lay)) hY (hB.prodMk hN)
  have hB' : Measurable[known P data d₀ 1 (Sum.inr '' {n})] fun ω => Spec.nthBatch (data ω) d₀ n := by
    have h1 := runBatch_measurable (P := P) (data := data) (d₀ := d₀) (L := 1) (Set.mem_singleton n) subset_rfl
    have h2 := (measurable_pi_apply (0 : Fin 1)).comp h1
    have e : (fun ω => Spec.nthBatch (data ω) d₀ n) =
        (fun b : Fin 1 → β => b 0) ∘ fun ω => Spec.updateBatches (data ω) d₀ 1 n := by
      funext ω
      simp [Spec.updateBatches]
    rw [e]
    exact h2
  have hN' : Measurable[known P data d₀ 1 {j | ∃ l < lay.leaves, j = .inl (noiseKey (splitPrng sp) key lay.leaves n l)}]
      fun ω => sgldNoise (P ω) lay key sp n := by
    refine @measurable_pi_lambda _ _ _ (known P data d₀ 1 _) _ _ fun i => ?_
    exact (normal_measurable _ _ _).mono (drawn_le_known ⟨_, hlay.leaf_lt i, rfl⟩) le_rfl
  have i2 := known_indepFun hR (S := Sum.inr '' {n})
    (T := {j | ∃ l < lay.leaves, j = .inl (noiseKey (splitPrng sp) key lay.leaves n l)}) (by
      rw [Set.disjoint_left]
      rintro j ⟨t, ht, rfl⟩ ⟨l, hl, e⟩
      exact nomatch e) hB' hN'
  have mY := hY.mono (known_le hR _) le_rfl
  have mB := hB.mono (known_le hR _) le_rfl
  have mN := hN.mono (known_le hR _) le_rfl
  have e1 := i1.map_prod_eq_prod_map_map mY.aemeasurable (mB.prodMk mN).aemeasurable
  have e2 := i2.map_prod_eq_prod_map_map mB.aemeasurable mN.aemeasurable
  rw [sgldBatch_law hR, sgldNoise_law hR hlay] at e2
  rw [e2] at e1
  exact e1

/-- One update of the second component. -/
noncomputable def carriedNext (g : (ι → ℝ) → β → (ι → ℝ)) (h : ℝ) (v : β × (ι → ℝ) × ℝ) (q : A × (ι → ℝ)) : A × (ι → ℝ) :=
  (q.1, sgldNext g h v q.2)

/-- The joint law after updates of the second component. -/
noncomputable def carriedLaw [MeasurableSpace A] (w : β → ENNReal) (g : (ι → ℝ) → β → (ι → ℝ)) (hs : List ℝ) (μ : Measure (A × (ι → ℝ))) :
    Measure (A × (ι → ℝ)) :=
  hs.foldl (fun μ h => pushLaw (carriedNext g h) (stepNoise ι w) μ) μ

variable {sg : StochGradLik ι β μ} {g : (ι → ℝ) → β → (ι → ℝ)} (hsg : ∀ x b m, (sg x b m).2 = g x b)
  (hgm : ∀ b, Measurable fun x => g x b)

omit [Fintype ι] in
include hgm in
theorem carriedNext_measurable [Fintype ι] [MeasurableSpace A] (h : ℝ) :
    Measurable fun q : (A × (ι → ℝ)) × (β × (ι → ℝ) × ℝ) => carriedNext g h q.2 q.1 := by
  have h1 : Measurable fun q : (A × (ι → ℝ)) × (β × (ι → ℝ) × ℝ) => sgldNext g h q.2 q.1.2 :=
    (sgldNext_measurable hgm h).comp (by fun_prop : Measurable fun q : (A × (ι → ℝ)) × (β × (ι → ℝ) × ℝ) => (q.2, q.1.2))
  exact (measurable_fst.comp measurable_fst).prodMk h1

include hgm in
/-- The move in terms of the noise of the coupling. -/
theorem carried_move [MeasurableSpace A] (hw : ∑' b, w b = 1) {T : ℝ} (hT : 0 < T) (h : ℝ) (ν : Measure (A × (ι → ℝ))) [SFinite ν] :
    (ν.prod ((batchLaw w).prod (Spec.normals ι))).map
      (fun q => (q.1.1, q.1.2 - h • g q.1.2 q.2.1 + Real.sqrt (2 * T * h) • q.2.2)) =
      pushLaw (carriedNext (fun x b i => g x b i / T) (T * h)) (stepNoise ι w) ν := by
  have hb := batchLaw_prob hw
  have hsn := stepNoise_prob (ι := ι) hw
  have hmv : Measurable fun q : (A × (ι → ℝ)) × (β × (ι → ℝ)) =>
      (q.1.1, q.1.2 - h • g q.1.2 q.2.1 + Real.sqrt (2 * T * h) • q.2.2) :=
    (measurable_fst.comp measurable_fst).prodMk ((sgldMove_measurable hgm h T).comp
      (by fun_prop : Measurable fun q : (A × (ι → ℝ)) × (β × (ι → ℝ)) => (q.1.2, q.2)))
  refine Measure.ext_of_lintegral _ fun F hF => ?_
  have hF1 : Measurable fun q : (A × (ι → ℝ)) × (β × (ι → ℝ)) =>
      F (q.1.1, q.1.2 - h • g q.1.2 q.2.1 + Real.sqrt (2 * T * h) • q.2.2) := hF.comp hmv
  rw [lintegral_map hF hmv, lintegral_prod _ hF1.aemeasurable,
    pushLaw_lintegral (carriedNext_measurable (scaled_measurable hgm T) _) hF]
  refine lintegral_congr fun x => ?_
  have hF2 : Measurable fun q : β × (ι → ℝ) =>
      F (x.1, x.2 - h • g x.2 q.1 + Real.sqrt (2 * T * h) • q.2) := hF1.comp measurable_prodMk_left
  have e : ∀ v : β × (ι → ℝ) × ℝ, carriedNext (fun x b i => g x b i / T) (T * h) v x =
      (x.1, x.2 - h • g x.2 v.1 + Real.sqrt (2 * T * h) • v.2.1) := by
    intro v
    unfold carriedNext sgldNext
    rw [mul_assoc]
    congr 3
    funext i
    simp only [Pi.smul_apply, smul_eq_mul]
    field_simp
  simp only [e]
  have hF3 : Measurable fun v : β × (ι → ℝ) × ℝ =>
      F (x.1, x.2 - h • g x.2 v.1 + Real.sqrt (2 * T * h) • v.2.1) :=
    hF2.comp (by fun_prop : Measurable fun v : β × (ι → ℝ) × ℝ => (v.1, v.2.1))
  unfold stepNoise
  rw [lintegral_prod _ hF3.aemeasurable, lintegral_prod _ hF2.aemeasurable]
  refine lintegral_congr fun b => ?_
  have hF4 : Measurable fun v : (ι → ℝ) × ℝ =>
      F (x.1, x.2 - h • g x.2 b + Real.sqrt (2 * T * h) • v.1) := hF3.comp measurable_prodMk_left
  rw [lintegral_prod _ hF4.aemeasurable]
  refine lintegral_congr fun ξ => ?_
  show F (x.1, x.2 - h • g x.2 b + Real.sqrt (2 * T * h) • ξ) = ∫⁻ _ : ℝ,
    F (x.1, x.2 - h • g x.2 b + Real.sqrt (2 * T * h) • ξ) ∂Spec.unif
  rw [lintegral_const, measure_univ, mul_one]

include hR hlay hsg hgm in
/-- The joint law of two samples of one run. -/
theorem sgldPair_law {T : ℝ} (hT : 0 < T) (hw : ∑' b, w b = 1) (ms : μ) (x₀ : ι → ℝ) (pre suf : List Params)
    (hp : ∀ p ∈ suf, p.temperature = T) :
    prob.map (fun ω => (Spec.sgldSample (P ω) lay (data ω) d₀ sg ms x₀ key pre,
        Spec.sgldSample (P ω) lay (data ω) d₀ sg ms x₀ key (pre ++ suf))) =
      carriedLaw w (fun x b i => g x b i / T) (suf.map fun p => T * p.stepSize)
        ((prob.map fun ω => Spec.sgldSample (P ω) lay (data ω) d₀ sg ms x₀ key pre).map fun x => (x, x)) := by
  have mX := sample_measurable hR hlay hsg hgm ms x₀ key
  induction suf using List.reverseRecOn with
  | nil =>
    rw [List.append_nil]
    show _ = (prob.map fun ω => Spec.sgldSample (P ω) lay (data ω) d₀ sg ms x₀ key pre).map fun x => (x, x)
    rw [Measure.map_map (by fun_prop) (mX pre)]
    rfl
  | append_singleton suf p ih =>
    have ih := ih fun q hq => hp q (List.mem_append_left _ hq)
    have hpT : p.temperature = T := hp p (List.mem_append_right _ (List.mem_singleton_self p))
    unfold carriedLaw at ih ⊢
    rw [List.map_append, List.foldl_append, ← ih]
    show _ = pushLaw (carriedNext (fun x b i => g x b i / T) (T * p.stepSize)) (stepNoise ι w) _
    have hprob : SFinite (prob.map fun ω => (Spec.sgldSample (P ω) lay (data ω) d₀ sg ms x₀ key pre,
        Spec.sgldSample (P ω) lay (data ω) d₀ sg ms x₀ key (pre ++ suf))) := by
      have := Measure.isProbabilityMeasure_map (μ := prob) ((mX pre).prodMk (mX (pre ++ suf))).aemeasurable
      infer_instance
    rw [← carried_move hgm hw hT]
    have hk : Measurable[known P data d₀ 1 (sgldKeys lay sp key (Set.Iio (pre ++ suf).length))] fun ω =>
        (Spec.sgldSample (P ω) lay (data ω) d₀ sg ms x₀ key pre, Spec.sgldSample (P ω) lay (data ω) d₀ sg ms x₀ key (pre ++ suf)) := by
      have h1 := sgldSample_known hR hlay key hsg hgm (ms := ms) (x₀ := x₀) pre
      have h2 := sgldSample_known hR hlay key hsg hgm (ms := ms) (x₀ := x₀) (pre ++ suf)
      have h3 : pre.length ≤ (pre ++ suf).length := by simp
      exact (h1.mono (known_mono (sgldKeys_mono key (Set.Iio_subset_Iio h3))) le_rfl).prodMk h2
    have hf := sgldFresh_law hR hlay key _ hk
    rw [← hf, Measure.map_map]
    · rw [← List.append_assoc]
      simp only [sgldSample_next hR key hsg (pre ++ suf) p, hpT]
      rfl
    · exact (measurable_fst.comp measurable_fst).prodMk ((sgldMove_measurable hgm p.stepSize T).comp
        (by fun_prop : Measurable fun q : ((ι → ℝ) × (ι → ℝ)) × (β × (ι → ℝ)) => (q.1.2, q.2)))
    · have hB := sgldBatch_measurable (P := P) (data := data) (d₀ := d₀) (lay := lay) (sp := sp) key (Set.mem_singleton (pre ++ suf).length)
      have hN := sgldNoise_measurable (P := P) (data := data) (d₀ := d₀) (sp := sp) hlay key (Set.mem_singleton (pre ++ suf).length)
      exact (hk.mono (known_le hR _) le_rfl).prodMk ((hB.mono (known_le hR _) le_rfl).prodMk (hN.mono (known_le hR _) le_rfl))

end

/-! ## Coupling of the second component with an independent sample of the posterior -/

section
variable [DecidableEq ι] {U : (ι → ℝ) → ℝ} {G : (ι → ℝ) → ι → ℝ} {m L s : ℝ} (hU : Spec.Convex U G m L)
  [MeasurableSpace β] [Countable β] [MeasurableSingletonClass β] {w : β → ENNReal} {g : (ι → ℝ) → β → (ι → ℝ)}
  [MeasurableSpace A]

omit [DecidableEq ι] in
/-- A coupling of the second component with a sample of the posterior which is independent of the first component. -/
structure PairCoupling (U : (ι → ℝ) → ℝ) (ν : Measure A) (μ : Measure (A × (ι → ℝ))) (r : ℝ)
    (γ : Measure (A × (ι → ℝ) × (ι → ℝ))) : Prop where
  prob : IsProbabilityMeasure γ
  nonneg : 0 ≤ r
  first : γ.map (fun z => (z.1, z.2.1)) = μ
  second : γ.map (fun z => (z.1, z.2.2)) = ν.prod (postDist U)
  dist : ∫⁻ z, ENNReal.ofReal (Spec.sqLen (z.2.1 - z.2.2)) ∂γ ≤ ENNReal.ofReal r

include hU in
theorem pairCoupling_init {μ : Measure (ι → ℝ)} [IsProbabilityMeasure μ] (hμ : ∫⁻ x, ENNReal.ofReal (Spec.sqLen x) ∂μ ≠ ⊤) :
    PairCoupling U μ (μ.map fun x => (x, x)) (initialDist U μ) ((μ.prod (postDist U)).map fun z => (z.1, z.1, z.2)) := by
  have hp := postDist_prob hU
  have hm : Measurable fun z : (ι → ℝ) × (ι → ℝ) => (z.1, z.1, z.2) := by fun_prop
  refine ⟨Measure.isProbabilityMeasure_map hm.aemeasurable, ENNReal.toReal_nonneg, ?_, ?_, ?_⟩
  · rw [Measure.map_map (by fun_prop) hm]
    have e : ((fun z : (ι → ℝ) × (ι → ℝ) × (ι → ℝ) => (z.1, z.2.1)) ∘ fun z : (ι → ℝ) × (ι → ℝ) => (z.1, z.1, z.2)) =
        (fun x => (x, x)) ∘ Prod.fst := rfl
    rw [e, ← Measure.map_map (by fun_prop) measurable_fst, Measure.map_fst_prod, measure_univ, one_smul]
  · rw [Measure.map_map (by fun_prop) hm]
    exact Measure.map_id
  · have h1 : Measurable fun z : (ι → ℝ) × (ι → ℝ) × (ι → ℝ) => ENNReal.ofReal (Spec.sqLen (z.2.1 - z.2.2)) :=
      sqDist_measurable.comp (by fun_prop : Measurable fun z : (ι → ℝ) × (ι → ℝ) × (ι → ℝ) => (z.2.1, z.2.2))
    rw [lintegral_map h1 hm]
    exact (initialDist_eq hU hμ).le

/-- One update of both algorithms with the same noise. -/
noncomputable def tripleNext (g : (ι → ℝ) → β → (ι → ℝ)) (U : (ι → ℝ) → ℝ) (G : (ι → ℝ) → ι → ℝ) (h : ℝ) (v : β × (ι → ℝ) × ℝ)
    (z : A × (ι → ℝ) × (ι → ℝ)) : A × (ι → ℝ) × (ι → ℝ) := (z.1, coupledNext g U G h v z.2)

attribute [local irreducible] sgldNext malaNext localError Spec.sqLen batchLaw Spec.normals Spec.unif stepNoise postDist

include hU in
theorem pairCoupling_step (hg : Spec.Unbiased w g G s) (hgm : ∀ b, Measurable fun x => g x b) {ν : Measure A} [IsProbabilityMeasure ν]
    {μ : Measure (A × (ι → ℝ))} {r : ℝ} {γ : Measure (A × (ι → ℝ) × (ι → ℝ))} (hγ : PairCoupling U ν μ r γ) {h : ℝ} (hh : 0 < h)
    (hmax : h ≤ maxStep m L s) :
    PairCoupling U ν (pushLaw (carriedNext g h) (stepNoise ι w) μ) ((1 - m * h / 2) * r + h ^ 2 * errorConst U G m L s)
      (pushLaw (tripleNext g U G h) (stepNoise ι w) γ) := by
  have hγp := hγ.prob
  have hpd := postDist_prob hU
  have hsn := stepNoise_prob (ι := ι) hg.probability
  have hn0 : Measurable fun q : ((ι → ℝ) × (ι → ℝ)) × (β × (ι → ℝ) × ℝ) => coupledNext g U G h q.2 q.1 := step_measurable hU hgm h
  have hn : Measurable fun q : (A × (ι → ℝ) × (ι → ℝ)) × (β × (ι → ℝ) × ℝ) => tripleNext g U G h q.2 q.1 :=
    (measurable_fst.comp measurable_fst).prodMk (hn0.comp
      (by fun_prop : Measurable fun q : (A × (ι → ℝ) × (ι → ℝ)) × (β × (ι → ℝ) × ℝ) => (q.1.2, q.2)))
  have hGm := (convex_gradient_continuous hU).measurable
  have hUm := hU.differentiable.continuous.measurable
  have hn2 : Measurable fun q : (ι → ℝ) × (β × (ι → ℝ) × ℝ) => malaNext U G h q.1 q.2.2.1 q.2.2.2 :=
    (malaNext_measurable hUm hGm).comp
      (by fun_prop : Measurable fun q : (ι → ℝ) × (β × (ι → ℝ) × ℝ) => (q.1, q.2.2.1, q.2.2.2))
  have hn3 : Measurable fun q : (A × (ι → ℝ)) × (β × (ι → ℝ) × ℝ) => (q.1.1, malaNext U G h q.1.2 q.2.2.1 q.2.2.2) :=
    (measurable_fst.comp measurable_fst).prodMk (hn2.comp
      (by fun_prop : Measurable fun q : (A × (ι → ℝ)) × (β × (ι → ℝ) × ℝ) => (q.1.2, q.2)))
  have hf := maxStep_factor hU.m_pos hmax
  have hc : 0 ≤ errorConst U G m L s := ENNReal.toReal_nonneg
  refine ⟨pushLaw_prob hn, add_nonneg (mul_nonneg hf hγ.nonneg) (mul_nonneg (sq_nonneg h) hc), ?_, ?_, ?_⟩
  · rw [pushLaw_map (next' := carriedNext g h) (fun z : A × (ι → ℝ) × (ι → ℝ) => (z.1, z.2.1)) (by fun_prop) hn
      (carriedNext_measurable hgm h) fun v z => rfl, hγ.first]
  · rw [pushLaw_map (next' := fun (v : β × (ι → ℝ) × ℝ) (q : A × (ι → ℝ)) => (q.1, malaNext U G h q.2 v.2.1 v.2.2))
      (fun z : A × (ι → ℝ) × (ι → ℝ) => (z.1, z.2.2)) (by fun_prop) hn hn3 fun v z => rfl, hγ.second]
    refine Measure.ext_of_lintegral _ fun F hF => ?_
    have h1 : Measurable fun q : (A × (ι → ℝ)) × (β × (ι → ℝ) × ℝ) => F (q.1.1, malaNext U G h q.1.2 q.2.2.1 q.2.2.2) := hF.comp hn3
    have h2 : Measurable fun q : A × (ι → ℝ) => ∫⁻ v, F (q.1, malaNext U G h q.2 v.2.1 v.2.2) ∂stepNoise ι w :=
      h1.lintegral_prod_right'
    rw [pushLaw_lintegral hn3 hF, lintegral_prod _ h2.aemeasurable, lintegral_prod _ hF.aemeasurable]
    refine lintegral_congr fun a => ?_
    have h3 := mala_pushLaw hU (w := w) hg.probability hh.le
    have hFa : Measurable fun y : ι → ℝ => F (a, y) := hF.comp measurable_prodMk_left
    conv_rhs => rw [← h3]
    rw [pushLaw_lintegral hn2 hFa]
  · have hm : Measurable fun z : A × (ι → ℝ) × (ι → ℝ) => ENNReal.ofReal (Spec.sqLen (z.2.1 - z.2.2)) :=
      sqDist_measurable.comp (by fun_prop : Measurable fun z : A × (ι → ℝ) × (ι → ℝ) => (z.2.1, z.2.2))
    rw [pushLaw_lintegral hn hm]
    have hle : Measurable fun z : (ι → ℝ) × (ι → ℝ) => ENNReal.ofReal (localError G m L s z.1 z.2) :=
      ENNReal.measurable_ofReal.comp (localError_measurable hU s)
    have hle2 : Measurable fun y : ι → ℝ => ∫⁻ ξ, ENNReal.ofReal (localError G m L s y ξ) ∂Spec.normals ι :=
      hle.lintegral_prod_right'
    have hle3 : Measurable fun z : A × (ι → ℝ) × (ι → ℝ) => ∫⁻ ξ, ENNReal.ofReal (localError G m L s z.2.2 ξ) ∂Spec.normals ι :=
      hle2.comp (by fun_prop)
    refine (lintegral_mono fun z : A × (ι → ℝ) × (ι → ℝ) => step_mean hU hg hgm hh hmax z.2.1 z.2.2).trans ?_
    rw [lintegral_add_left (hm.const_mul _), lintegral_const_mul _ hm, lintegral_const_mul _ hle3]
    have e1 : ∫⁻ z, ∫⁻ ξ, ENNReal.ofReal (localError G m L s z.2.2 ξ) ∂Spec.normals ι ∂γ =
        ENNReal.ofReal (errorConst U G m L s) := by
      have hle4 : Measurable fun q : A × (ι → ℝ) => ∫⁻ ξ, ENNReal.ofReal (localError G m L s q.2 ξ) ∂Spec.normals ι :=
        hle2.comp measurable_snd
      have h1 := lintegral_map hle4 (by fun_prop : Measurable fun z : A × (ι → ℝ) × (ι → ℝ) => (z.1, z.2.2)) (μ := γ)
      rw [← h1, hγ.second, lintegral_prod _ hle4.aemeasurable, ← errorConst_eq hU hg.s_nonneg]
      dsimp only
      rw [lintegral_const, measure_univ, mul_one]
    rw [e1]
    refine (add_le_add (mul_le_mul_right hγ.dist _) le_rfl).trans ?_
    rw [← ENNReal.ofReal_mul hf, ← ENNReal.ofReal_mul (sq_nonneg h),
      ← ENNReal.ofReal_add (mul_nonneg hf hγ.nonneg) (mul_nonneg (sq_nonneg h) hc)]

include hU in
theorem pairCoupling_exists (hg : Spec.Unbiased w g G s) (hgm : ∀ b, Measurable fun x => g x b) {μ : Measure (ι → ℝ)}
    [IsProbabilityMeasure μ] (hμ : ∫⁻ x, ENNReal.ofReal (Spec.sqLen x) ∂μ ≠ ⊤) (hs : List ℝ)
    (hh : ∀ h ∈ hs, 0 < h ∧ h ≤ maxStep m L s) :
    ∃ γ, PairCoupling U μ (carriedLaw w g hs (μ.map fun x => (x, x))) (errorBound m (errorConst U G m L s) hs (initialDist U μ)) γ := by
  induction hs using List.reverseRecOn with
  | nil => exact (show ∃ γ, PairCoupling U μ (μ.map fun x => (x, x)) (initialDist U μ) γ from ⟨_, pairCoupling_init hU hμ⟩)
  | append_singleton hs h ih =>
    obtain ⟨γ, hγ⟩ := ih fun h' hm => hh h' (List.mem_append_left _ hm)
    obtain ⟨h1, h2⟩ := hh h (List.mem_append_right _ (List.mem_singleton_self h))
    have := pairCoupling_step hU hg hgm hγ h1 h2
    refine ⟨pushLaw (tripleNext g U G h) (stepNoise ι w) γ, ?_⟩
    rw [errorBound_snoc]
    unfold carriedLaw at this ⊢
    rw [List.foldl_append, List.foldl_cons, List.foldl_nil]
    exact this

end

end JaxSgmc
