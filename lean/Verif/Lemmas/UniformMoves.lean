import Verif.Lemmas.UniformPaths

/-!
# Probabilities of the ends of paths, uniform over step sizes and mini-batches
-/

namespace JaxSgmc

open MeasureTheory

variable {ι : Type} [Fintype ι]

/-! ## Noises -/

theorem gaussian_density_measurable (κ : Type) [Fintype κ] :
    Measurable fun x : κ → ℝ => ENNReal.ofReal (∏ i, ProbabilityTheory.gaussianPDFReal 0 1 (x i)) := by
  have := ProbabilityTheory.measurable_gaussianPDFReal 0 1
  refine ENNReal.measurable_ofReal.comp ?_
  exact Finset.measurable_prod _ fun j _ => this.comp (measurable_pi_apply j)

/-- The density of normal numbers is at most one. -/
theorem normals_le_volume (κ : Type) [Fintype κ] : Spec.normals κ ≤ (volume : Measure (κ → ℝ)) := by
  unfold Spec.normals
  rw [pi_gaussian]
  refine Measure.le_iff.2 fun s hs => ?_
  rw [withDensity_apply _ hs]
  calc _ ≤ ∫⁻ _ in s, 1 := lintegral_mono fun x => by
        rw [prod_gaussian, ENNReal.ofReal_le_one, Real.exp_le_one_iff]
        have h1 : 0 ≤ ∑ j, x j * x j := Finset.sum_nonneg fun j _ => mul_self_nonneg _
        have h2 : 0 ≤ Real.log (Real.sqrt (2 * Real.pi)) := by
          refine Real.log_nonneg (Real.one_le_sqrt.2 ?_)
          have := Real.two_le_pi
          linarith
        have h3 : (0 : ℝ) ≤ Fintype.card κ := Nat.cast_nonneg _
        have h4 := mul_nonneg h3 h2
        linarith
    _ = _ := by simp

theorem sum_sq_le {κ : Type} [Fintype κ] {x : κ → ℝ} {R : ℝ} (h : ‖x‖ ≤ R) :
    ∑ j, x j * x j ≤ Fintype.card κ * R ^ 2 := by
  have : ∀ j ∈ Finset.univ, x j * x j ≤ R ^ 2 := fun j _ => by
    have h1 := (norm_le_pi_norm x j).trans h
    rw [← sq, ← sq_abs]
    exact pow_le_pow_left₀ (abs_nonneg _) h1 2
  calc _ ≤ ∑ _j : κ, R ^ 2 := Finset.sum_le_sum this
    _ = _ := by simp

/-- The density of normal numbers is bounded below on balls. -/
theorem normals_ge_volume (κ : Type) [Fintype κ] (R : ℝ) : ∃ k : ℝ, 0 < k ∧
    ENNReal.ofReal k • (volume : Measure (κ → ℝ)).restrict (Metric.closedBall 0 R) ≤ Spec.normals κ := by
  refine ⟨Real.exp (-(Fintype.card κ * R ^ 2) / 2 - Fintype.card κ * Real.log (Real.sqrt (2 * Real.pi))),
    Real.exp_pos _, ?_⟩
  unfold Spec.normals
  rw [pi_gaussian]
  refine Measure.le_iff.2 fun s hs => ?_
  have hB : MeasurableSet (Metric.closedBall (0 : κ → ℝ) R) := Metric.isClosed_closedBall.measurableSet
  rw [withDensity_apply _ hs, Measure.smul_apply, Measure.restrict_apply hs, smul_eq_mul]
  calc _ = ∫⁻ _ in s ∩ Metric.closedBall 0 R, ENNReal.ofReal
        (Real.exp (-(Fintype.card κ * R ^ 2) / 2 - Fintype.card κ * Real.log (Real.sqrt (2 * Real.pi)))) := by
        rw [lintegral_const, Measure.restrict_apply_univ]
    _ ≤ ∫⁻ x in s ∩ Metric.closedBall 0 R, ENNReal.ofReal (∏ i, ProbabilityTheory.gaussianPDFReal 0 1 (x i)) := by
        refine setLIntegral_mono' (hs.inter hB) fun x hx => ?_
        rw [prod_gaussian]
        refine ENNReal.ofReal_le_ofReal (Real.exp_le_exp.2 ?_)
        have := sum_sq_le (mem_closedBall_zero_iff.1 hx.2)
        linarith
    _ ≤ _ := lintegral_mono_set Set.inter_subset_left

theorem normals_ball_pos (κ : Type) [Fintype κ] {R : ℝ} (hR : 0 < R) :
    Spec.normals κ (Metric.closedBall 0 R) ≠ 0 := by
  obtain ⟨k, hk, hle⟩ := normals_ge_volume κ R
  intro h0
  have h1 := Measure.le_iff'.1 hle (Metric.closedBall 0 R)
  rw [h0, Measure.smul_apply, Measure.restrict_apply_self, smul_eq_mul] at h1
  have h2 := le_antisymm h1 bot_le
  rcases mul_eq_zero.1 h2 with h | h
  · exact absurd (ENNReal.ofReal_eq_zero.1 h) (not_le.2 hk)
  · exact (Metric.measure_closedBall_pos volume (0 : κ → ℝ) hR).ne' h

/-- Large normal numbers are unlikely. -/
theorem normals_tail (κ : Type) [Fintype κ] {δ : ℝ} (hδ : 0 < δ) : ∃ r : ℝ,
    Spec.normals κ {x | r < ‖x‖} ≤ ENNReal.ofReal δ := by
  have hs : ∀ n : ℕ, MeasurableSet {x : κ → ℝ | (n : ℝ) < ‖x‖} := fun n => measurable_norm measurableSet_Ioi
  have ht := tendsto_measure_iInter_atTop (μ := Spec.normals κ) (s := fun n : ℕ => {x : κ → ℝ | (n : ℝ) < ‖x‖})
    (fun n => (hs n).nullMeasurableSet) (fun a b hab x (hx : (b : ℝ) < ‖x‖) => show (a : ℝ) < ‖x‖ from
      lt_of_le_of_lt (by exact_mod_cast hab) hx) ⟨0, measure_ne_top _ _⟩
  have he : ⋂ n : ℕ, {x : κ → ℝ | (n : ℝ) < ‖x‖} = ∅ := by
    refine Set.eq_empty_of_forall_notMem fun x hx => ?_
    obtain ⟨n, hn⟩ := exists_nat_ge ‖x‖
    exact absurd (Set.mem_iInter.1 hx n) (not_lt.2 hn)
  rw [he, measure_empty] at ht
  obtain ⟨n, hn⟩ := (ht.eventually (ge_mem_nhds (ENNReal.ofReal_pos.2 hδ))).exists
  exact ⟨n, hn⟩

/-! ## Ends of paths -/

section
variable {I : Type*} {n : ℕ} {γ l u : ℝ} (hγ : 0 < γ) (hl : 0 < l) {h : I → ℝ}
  (hh : ∀ i, l ≤ h i ∧ h i ≤ u) {m : MassMatrix ι} (hm : Spec.MassOk m) (w : (ι → ℝ) →ₗ[ℝ] (ι → ℝ))
  {g : I → ℕ → (ι → ℝ) → (ι → ℝ)} (hg : ∀ n, BoundedMaps fun i => g i n)
  (hT : ∀ i, Measurable (leapMap γ (h i) m w (g i) : PathSpace ι (n + 2) → PathSpace ι (n + 2)))

/-- The end of a path of the given step size and gradients. -/
noncomputable def leapEnd (γ h : ℝ) (m : MassMatrix ι) (w : (ι → ℝ) →ₗ[ℝ] (ι → ℝ)) (g : ℕ → (ι → ℝ) → (ι → ℝ)) (n : ℕ)
    (z : (ι → ℝ) × (ι → ℝ)) (x : Fin (n + 2) × ι → ℝ) : (ι → ℝ) × (ι → ℝ) :=
  ((leapMap γ h m w g ((z, x) : PathSpace ι (n + 2))).1.1, -(leapMap γ h m w g ((z, x) : PathSpace ι (n + 2))).1.2)

theorem leapEnd_glue (γ h : ℝ) (m : MassMatrix ι) (w : (ι → ℝ) →ₗ[ℝ] (ι → ℝ)) (g : ℕ → (ι → ℝ) → (ι → ℝ)) (n : ℕ)
    (z : (ι → ℝ) × (ι → ℝ)) (y : Fin n × ι → ℝ) (ab : (ι → ℝ) × (ι → ℝ)) :
    leapEnd γ h m w g n z (glue (y, ab)) =
      lastTwo γ h m (g n) (g (n + 1)) (beforeTwo γ h m w g n z y) ab.1 ab.2 := by
  have e := leapMap_lastTwo γ h m w g n z (y, ab)
  dsimp only at e
  unfold leapEnd
  rw [e, neg_neg]

include hT in
theorem leapEnd_measurable (i : I) (z : (ι → ℝ) × (ι → ℝ)) : Measurable (leapEnd γ (h i) m w (g i) n z) := by
  have h1 : Measurable fun x : Fin (n + 2) × ι → ℝ => leapMap γ (h i) m w (g i) ((z, x) : PathSpace ι (n + 2)) :=
    (hT i).comp (by fun_prop)
  exact (measurable_fst.comp (measurable_fst.comp h1)).prodMk (measurable_snd.comp (measurable_fst.comp h1)).neg

include hT in
/-- The volume of the last noises which lead to a set. -/
theorem lastTwo_prod (i : I) (z : (ι → ℝ) × (ι → ℝ)) (y : Fin n × ι → ℝ) {A : Set ((ι → ℝ) × (ι → ℝ))}
    (hA : MeasurableSet A) :
    MeasurableSet {ab : (ι → ℝ) × (ι → ℝ) | leapEnd γ (h i) m w (g i) n z (glue (y, ab)) ∈ A} ∧
    ((volume : Measure (ι → ℝ)).prod volume) {ab | leapEnd γ (h i) m w (g i) n z (glue (y, ab)) ∈ A} =
      ∫⁻ a, ∫⁻ b, A.indicator 1 (lastTwo γ (h i) m (g i n) (g i (n + 1)) (beforeTwo γ (h i) m w (g i) n z y) a b) := by
  have hgl : Measurable fun ab : (ι → ℝ) × (ι → ℝ) => glue (y, ab) :=
    glue_measurable.comp (by fun_prop : Measurable fun ab : (ι → ℝ) × (ι → ℝ) => (y, ab))
  have hs : MeasurableSet {ab : (ι → ℝ) × (ι → ℝ) | leapEnd γ (h i) m w (g i) n z (glue (y, ab)) ∈ A} :=
    ((leapEnd_measurable w hT i z).comp hgl) hA
  refine ⟨hs, ?_⟩
  rw [Measure.prod_apply hs]
  refine lintegral_congr fun a => ?_
  have hsa : MeasurableSet (Prod.mk a ⁻¹' {ab | leapEnd γ (h i) m w (g i) n z (glue (y, ab)) ∈ A}) :=
    (by fun_prop : Measurable (Prod.mk a : (ι → ℝ) → _)) hs
  rw [← lintegral_indicator_one hsa]
  refine lintegral_congr fun b => ?_
  have e := leapEnd_glue γ (h i) m w (g i) n z y (a, b)
  dsimp only at e
  by_cases hb : lastTwo γ (h i) m (g i n) (g i (n + 1)) (beforeTwo γ (h i) m w (g i) n z y) a b ∈ A
  · rw [Set.indicator_of_mem hb, Set.indicator_of_mem]
    · rfl
    · show leapEnd γ (h i) m w (g i) n z (glue (y, (a, b))) ∈ A
      rw [e]; exact hb
  · rw [Set.indicator_of_notMem hb, Set.indicator_of_notMem]
    show leapEnd γ (h i) m w (g i) n z (glue (y, (a, b))) ∉ A
    rw [e]; exact hb

theorem glue_prob {n : ℕ} {S : Set (Fin (n + 2) × ι → ℝ)} (hS : MeasurableSet S) :
    Spec.normals (Fin (n + 2) × ι) S = ∫⁻ y, ((Spec.normals ι).prod (Spec.normals ι)) {ab | glue (y, ab) ∈ S}
      ∂Spec.normals (Fin n × ι) := by
  rw [← glue_map, Measure.map_apply glue_measurable hS, Measure.prod_apply (glue_measurable hS)]
  rfl

include hγ hl hh hm hT in
/-- The ends of paths have a bounded density. -/
theorem leapEnd_le : ∃ J : ℝ, 0 < J ∧ ∀ i z (A : Set ((ι → ℝ) × (ι → ℝ))), MeasurableSet A →
    Spec.normals (Fin (n + 2) × ι) {x | leapEnd γ (h i) m w (g i) n z x ∈ A} ≤ ENNReal.ofReal J * volume A := by
  obtain ⟨J₀, J₁, -, hJ, hv⟩ := lastTwo_volume (l := l) (u := u) hγ hl hm
  refine ⟨J₁, hJ, fun i z A hA => ?_⟩
  have hS : MeasurableSet {x : Fin (n + 2) × ι → ℝ | leapEnd γ (h i) m w (g i) n z x ∈ A} :=
    (leapEnd_measurable w hT i z) hA
  rw [glue_prob hS]
  calc _ ≤ ∫⁻ _y, ENNReal.ofReal J₁ * volume A ∂Spec.normals (Fin n × ι) := lintegral_mono fun y => by
        obtain ⟨-, e⟩ := lastTwo_prod w hT i z y hA
        have hle : (Spec.normals ι).prod (Spec.normals ι) ≤ (volume : Measure (ι → ℝ)).prod volume :=
          Measure.prod_mono (normals_le_volume ι) (normals_le_volume ι)
        refine (Measure.le_iff'.1 hle _).trans ?_
        show ((volume : Measure (ι → ℝ)).prod volume) {ab | leapEnd γ (h i) m w (g i) n z (glue (y, ab)) ∈ A} ≤ _
        rw [e]
        refine ((hv (h i) (hh i).1 (hh i).2 _ _ _ _ (measurable_one.indicator hA)).2).trans ?_
        rw [lintegral_indicator_one hA]
    _ = _ := by rw [lintegral_const, measure_univ, mul_one]

include hγ hl hh hm hg hT in
/-- Paths from bounded states reach bounded regions with a probability proportional to their volume, along
bounded paths. -/
theorem leapEnd_ge (R : ℝ) : ∃ k R' : ℝ, 0 < k ∧ ∀ i z, ‖z‖ ≤ R → ∀ A : Set ((ι → ℝ) × (ι → ℝ)), MeasurableSet A →
    (∀ y ∈ A, ‖y‖ ≤ R) → ENNReal.ofReal k * volume A ≤ Spec.normals (Fin (n + 2) × ι)
      {x | leapEnd γ (h i) m w (g i) n z x ∈ A ∧ ‖leapMap γ (h i) m w (g i) ((z, x) : PathSpace ι (n + 2))‖ ≤ R'} := by
  obtain ⟨J₀, J₁, hJ, -, hv⟩ := lastTwo_volume (l := l) (u := u) hγ hl hm
  obtain ⟨R₂, h₂⟩ := beforeTwo_bounded hγ hl hh m w hg n (max R 1)
  obtain ⟨R₁, h₁⟩ := lastTwo_noise hγ hl hh hm (hg n) (hg (n + 1)) (max R R₂)
  obtain ⟨R', h'⟩ := leapMap_bounded (L := n + 2) hγ hl hh m w hg (max R (max 1 R₁))
  obtain ⟨k, hk, hle⟩ := normals_ge_volume ι R₁
  set p := Spec.normals (Fin n × ι) (Metric.closedBall 0 1) with hp
  have hp0 : p ≠ 0 := normals_ball_pos _ one_pos
  have hpt : p ≠ ⊤ := measure_ne_top _ _
  have hpr : 0 < p.toReal := ENNReal.toReal_pos hp0 hpt
  refine ⟨p.toReal * (k * k * J₀), R', by positivity, fun i z hz A hA hAR => ?_⟩
  have hnorm : MeasurableSet {x : Fin (n + 2) × ι → ℝ |
      ‖leapMap γ (h i) m w (g i) ((z, x) : PathSpace ι (n + 2))‖ ≤ R'} := by
    have h1 : Measurable fun x : Fin (n + 2) × ι → ℝ => leapMap γ (h i) m w (g i) ((z, x) : PathSpace ι (n + 2)) :=
      (hT i).comp (by fun_prop)
    exact (measurable_norm.comp h1) measurableSet_Iic
  have hS : MeasurableSet {x : Fin (n + 2) × ι → ℝ | leapEnd γ (h i) m w (g i) n z x ∈ A ∧
      ‖leapMap γ (h i) m w (g i) ((z, x) : PathSpace ι (n + 2))‖ ≤ R'} :=
    ((leapEnd_measurable w hT i z) hA).inter hnorm
  rw [glue_prob hS]
  have hB : MeasurableSet (Metric.closedBall (0 : Fin n × ι → ℝ) 1) := Metric.isClosed_closedBall.measurableSet
  calc ENNReal.ofReal (p.toReal * (k * k * J₀)) * volume A
      = ∫⁻ _y in Metric.closedBall 0 1, ENNReal.ofReal (k * k * J₀) * volume A ∂Spec.normals (Fin n × ι) := by
        rw [lintegral_const, Measure.restrict_apply_univ, ← hp, ENNReal.ofReal_mul ENNReal.toReal_nonneg,
          ENNReal.ofReal_toReal hpt]
        ring
    _ ≤ ∫⁻ y in Metric.closedBall 0 1, ((Spec.normals ι).prod (Spec.normals ι)) {ab | glue (y, ab) ∈
        {x : Fin (n + 2) × ι → ℝ | leapEnd γ (h i) m w (g i) n z x ∈ A ∧
          ‖leapMap γ (h i) m w (g i) ((z, x) : PathSpace ι (n + 2))‖ ≤ R'}} ∂Spec.normals (Fin n × ι) := by
        refine setLIntegral_mono' hB fun y hy => ?_
        have hy1 : ‖y‖ ≤ 1 := mem_closedBall_zero_iff.1 hy
        obtain ⟨hsm, e⟩ := lastTwo_prod w hT i z y hA
        have hbt : ‖beforeTwo γ (h i) m w (g i) n z y‖ ≤ R₂ :=
          h₂ i (z, y) (max_le (hz.trans (le_max_left _ _)) (hy1.trans (le_max_right _ _)))
        have hnoise : ∀ ab : (ι → ℝ) × (ι → ℝ), leapEnd γ (h i) m w (g i) n z (glue (y, ab)) ∈ A →
            ‖ab.1‖ ≤ R₁ ∧ ‖ab.2‖ ≤ R₁ := by
          intro ab hab
          rw [leapEnd_glue] at hab
          exact h₁ i _ ab.1 ab.2 (hbt.trans (le_max_right _ _)) ((hAR _ hab).trans (le_max_left _ _))
        set B := Metric.closedBall (0 : ι → ℝ) R₁ with hBdef
        have hBm : MeasurableSet B := Metric.isClosed_closedBall.measurableSet
        have hsub : {ab : (ι → ℝ) × (ι → ℝ) | leapEnd γ (h i) m w (g i) n z (glue (y, ab)) ∈ A} ⊆ B ×ˢ B := by
          intro ab hab
          obtain ⟨ha, hb⟩ := hnoise ab hab
          exact ⟨mem_closedBall_zero_iff.2 ha, mem_closedBall_zero_iff.2 hb⟩
        have hsub2 : {ab : (ι → ℝ) × (ι → ℝ) | leapEnd γ (h i) m w (g i) n z (glue (y, ab)) ∈ A} ⊆
            {ab | glue (y, ab) ∈ {x : Fin (n + 2) × ι → ℝ | leapEnd γ (h i) m w (g i) n z x ∈ A ∧
              ‖leapMap γ (h i) m w (g i) ((z, x) : PathSpace ι (n + 2))‖ ≤ R'}} := by
          intro ab hab
          obtain ⟨ha, hb⟩ := hnoise ab hab
          refine ⟨hab, h' i _ (max_le (hz.trans (le_max_left _ _)) ((glue_norm _).trans (le_trans ?_ (le_max_right _ _))))⟩
          exact max_le (hy1.trans (le_max_left _ _)) (max_le (ha.trans (le_max_right _ _)) (hb.trans (le_max_right _ _)))
        have hle2 := Measure.prod_mono hle hle
        refine le_trans ?_ ((Measure.le_iff'.1 hle2 _).trans (measure_mono hsub2))
        rw [Measure.prod_smul_left, Measure.prod_smul_right, Measure.prod_restrict, Measure.smul_apply, Measure.smul_apply,
          Measure.restrict_apply hsm, Set.inter_eq_left.2 hsub, e, smul_eq_mul, smul_eq_mul, mul_assoc,
          ENNReal.ofReal_mul hk.le, mul_assoc, ENNReal.ofReal_mul hk.le, mul_assoc]
        gcongr
        have h3 := (hv (h i) (hh i).1 (hh i).2 (g i n) (g i (n + 1)) (beforeTwo γ (h i) m w (g i) n z y) _
          (measurable_one.indicator hA)).1
        rwa [lintegral_indicator_one hA] at h3
    _ ≤ _ := setLIntegral_le_lintegral _ _

include hγ hl hh hg in
/-- Paths from bounded states seldom lead far away. -/
theorem leapEnd_tail (R : ℝ) {δ : ℝ} (hδ : 0 < δ) : ∃ R' : ℝ, ∀ i z, ‖z‖ ≤ R →
    Spec.normals (Fin (n + 2) × ι) {x | R' < ‖leapEnd γ (h i) m w (g i) n z x‖} ≤ ENNReal.ofReal δ := by
  obtain ⟨r, hr⟩ := normals_tail (Fin (n + 2) × ι) hδ
  obtain ⟨R', h'⟩ := leapMap_bounded (L := n + 2) hγ hl hh m w hg (max R r)
  refine ⟨R', fun i z hz => le_trans (measure_mono fun x hx => ?_) hr⟩
  show r < ‖x‖
  by_contra hx'
  have h1 := h' i (z, x) (max_le (hz.trans (le_max_left _ _)) ((not_lt.1 hx').trans (le_max_right _ _)))
  have h2 : ‖leapEnd γ (h i) m w (g i) n z x‖ ≤ ‖(leapMap γ (h i) m w (g i) ((z, x) : PathSpace ι (n + 2))).1‖ := by
    refine max_le (le_max_left _ _) ?_
    show ‖-(leapMap γ (h i) m w (g i) ((z, x) : PathSpace ι (n + 2))).1.2‖ ≤ _
    rw [norm_neg]
    exact le_max_right _ _
  exact absurd (h2.trans ((norm_fst_le _).trans h1)) (not_le.2 hx)

end

end JaxSgmc
