import Verif.Lemmas.Irreducible
import Verif.Props.AmagoldPosterior

/-!
# C129: the posterior is the only stationary distribution of AMAGOLD
-/

namespace JaxSgmc

open MeasureTheory

variable {ι β μ φ : Type} [Fintype ι] [Inhabited β] [Countable β]

/-- One update. -/
theorem amagoldExpect_single (lay : Layout ι) (γ : ℝ) (am : Option (MassMatrix ι)) (cm : Option (ι → ℝ)) (L : ℕ)
    (sg : StochGrad ι β μ) (fullPot : FullPotFn ι φ μ) (U : (ι → ℝ) → ℝ) (f₀ : φ) (ms : μ)
    (w : (Fin L → β) → ENNReal) (f : (ι → ℝ) × (ι → ℝ) → ENNReal) (prm : Params) (z : (ι → ℝ) × (ι → ℝ)) :
    Spec.amagoldExpect lay γ am cm L sg fullPot U f₀ ms w f [prm] z =
      ∑' b, w b * ∫⁻ x, ∫⁻ u, f (Spec.amagoldNext lay γ am cm L sg fullPot U f₀ ms prm b z x u) ∂Spec.unif
        ∂Spec.normals (Fin L × ι) := rfl

attribute [local irreducible] Spec.amagoldNext leapMap Spec.amagoldExpect

section
variable {lay : Layout ι} (hl : Spec.Layout.Injective lay) {γ : ℝ} (hγ : 0 < γ)
  (am : Option (MassMatrix ι)) (cm : Option (ι → ℝ)) (hm : Spec.MassOk (Spec.usedMass am cm)) {L : ℕ}
  (hL : 2 ≤ L) (sg : StochGrad ι β μ) {G : (ι → ℝ) → β → (ι → ℝ)} (hG : ∀ x b ms, (sg x b ms).2 = G x b)
  (hGm : ∀ b, Measurable fun x => G x b) (fullPot : FullPotFn ι φ μ) {U : (ι → ℝ) → ℝ}
  (hU : Measurable U) {D : Set (ι → ℝ)} (hD : MeasurableSet D) (hfp : Spec.PotentialOn fullPot U D)
  (f₀ : φ) (ms : μ) (w : (Fin L → β) → ENNReal) (hw : ∀ b, w (fun i => b (Fin.rev i)) = w b)
  (hw1 : ∑' b, w b = 1) (prm : Params) (hh : 0 < prm.stepSize)

include hl hγ hm hL hG hGm hU hD hfp hw1 hh in
/-- **C129.** From every position and momentum, every region of positive volume in the support is reached by one
update with positive probability. -/
theorem c129_reaches {A : Set ((ι → ℝ) × (ι → ℝ))} (hA : MeasurableSet A) (hAD : ∀ z ∈ A, z.1 ∈ D)
    (hA0 : volume A ≠ 0) (z : (ι → ℝ) × (ι → ℝ)) :
    0 < Spec.amagoldExpect lay γ am cm L sg fullPot U f₀ ms w (A.indicator fun _ => 1) [prm] z := by
  obtain ⟨v, hv⟩ := exists_sqrt_inverse hm
  obtain ⟨b, hb⟩ : ∃ b, w b ≠ 0 := by
    by_contra h
    push_neg at h
    simp [h] at hw1
  have hAm : Measurable (A.indicator fun _ => (1 : ENNReal)) := measurable_const.indicator hA
  have hin := amagold_inner_measurable hl hγ.le am cm hm sg hG fullPot hfp f₀ ms hv hU hD hGm prm hh.le _ hAm b
  have hx : Measurable fun x : Fin L × ι → ℝ => ∫⁻ u, (A.indicator fun _ => (1 : ENNReal))
      (Spec.amagoldNext lay γ am cm L sg fullPot U f₀ ms prm b z x u) ∂Spec.unif :=
    hin.comp (by fun_prop : Measurable fun x : Fin L × ι → ℝ => ((z, x) : PathSpace ι L))
  rw [pos_iff_ne_zero]
  intro h1
  rw [amagoldExpect_single] at h1
  have h2 := ENNReal.tsum_eq_zero.1 h1 b
  have h3 := (mul_eq_zero.1 h2).resolve_left hb
  rw [lintegral_eq_zero_iff hx] at h3
  refine hA0 (leapMap_reaches v (fun n q => G q (Spec.batchSeq b n)) hγ hh hm hL z hA ?_)
  filter_upwards [h3] with x hx0
  intro hmem
  have h4 := amagold_unif hl hγ.le am cm hm sg hG fullPot hfp f₀ ms hv prm hh.le
    (A.indicator fun _ => (1 : ENNReal)) b z x
  dsimp only at h4
  rw [show (∫⁻ u, (A.indicator fun _ => (1 : ENNReal))
      (Spec.amagoldNext lay γ am cm L sg fullPot U f₀ ms prm b z x u) ∂Spec.unif) = 0 from hx0] at h4
  rw [Set.indicator_of_mem hmem, Set.indicator_of_mem (hAD _ hmem), mul_one] at h4
  have h5 := (add_eq_zero.1 h4.symm).1
  rw [ENNReal.ofReal_eq_zero] at h5
  exact absurd (Spec.acceptProb_pos _) (not_lt.2 h5)

include hl hγ hm hG hGm hU hD hfp hw hw1 hh in
/-- The normalised target is invariant. -/
theorem amagold_normalised_invariant (ν : Measure (ι → ℝ)) [IsProbabilityMeasure ν]
    (hν : Spec.IsMomentumLaw (Spec.usedMass am cm) ν) (f : (ι → ℝ) × (ι → ℝ) → ENNReal) (hf : Measurable f) :
    ∫⁻ z, Spec.amagoldExpect lay γ am cm L sg fullPot U f₀ ms w f [prm] z
        ∂((Spec.posterior U D Set.univ)⁻¹ • Spec.posterior U D).prod ν =
      ∫⁻ z, f z ∂((Spec.posterior U D Set.univ)⁻¹ • Spec.posterior U D).prod ν := by
  obtain ⟨c, -, hc, hνc⟩ := hν
  have htarget : ∀ H : (ι → ℝ) × (ι → ℝ) → ENNReal, Measurable H →
      ∫⁻ z, H z ∂((Spec.posterior U D Set.univ)⁻¹ • Spec.posterior U D).prod ν =
        (Spec.posterior U D Set.univ)⁻¹ * (c * ∫⁻ z, H z ∂Spec.targetOn (Spec.usedMass am cm) U D 1) := by
    intro H hH
    rw [lintegral_prod _ hH.aemeasurable, lintegral_smul_measure, smul_eq_mul]
    congr 1
    rw [hνc]
    exact posterior_momentum_lintegral hU hD c hc H hH
  have hrun := fun (f : (ι → ℝ) × (ι → ℝ) → ENNReal) (hf : Measurable f) =>
    amagold_run_invariant_on hl hγ.le am cm hm sg hG hGm fullPot hU hD hfp f₀ ms w hw hw1 f hf [prm]
      (by intro q hq; rw [List.mem_singleton] at hq; rw [hq]; exact hh.le)
  rw [htarget _ (hrun f hf).1, htarget _ hf, (hrun f hf).2]

include hl hγ hm hL hG hGm hU hD hfp hw hw1 hh in
/-- **C129.** If the posterior is proper, it is the only stationary distribution: if a distribution `ρ` of
positions and momenta does not change in an update of AMAGOLD with positive step size and friction and at least
two leapfrog steps, the position is distributed by the normalised posterior and the momentum is independent of it
with distribution N(0, M). -/
theorem c129_unique (hZ0 : Spec.posterior U D Set.univ ≠ 0) (hZ : Spec.posterior U D Set.univ ≠ ⊤)
    (ν : Measure (ι → ℝ)) [IsProbabilityMeasure ν] (hν : Spec.IsMomentumLaw (Spec.usedMass am cm) ν)
    (ρ : Measure ((ι → ℝ) × (ι → ℝ))) [IsProbabilityMeasure ρ]
    (hρ : ∀ f : (ι → ℝ) × (ι → ℝ) → ENNReal, Measurable f →
      ∫⁻ z, Spec.amagoldExpect lay γ am cm L sg fullPot U f₀ ms w f [prm] z ∂ρ = ∫⁻ z, f z ∂ρ) :
    ρ = ((Spec.posterior U D Set.univ)⁻¹ • Spec.posterior U D).prod ν := by
  set Z := Spec.posterior U D Set.univ with hZdef
  obtain ⟨v, hv⟩ := exists_sqrt_inverse hm
  have hfin : IsFiniteMeasure (Spec.posterior U D) := ⟨lt_top_iff_ne_top.2 hZ⟩
  have hprob : IsProbabilityMeasure (Z⁻¹ • Spec.posterior U D) :=
    ⟨by rw [Measure.smul_apply, smul_eq_mul, ← hZdef]; exact ENNReal.inv_mul_cancel hZ0 hZ⟩
  have hrun := fun (f : (ι → ℝ) × (ι → ℝ) → ENNReal) (hf : Measurable f) =>
    amagold_run_invariant_on hl hγ.le am cm hm sg hG hGm fullPot hU hD hfp f₀ ms w hw hw1 f hf [prm]
      (by intro q hq; rw [List.mem_singleton] at hq; rw [hq]; exact hh.le)
  have hinv := amagold_normalised_invariant hl hγ am cm hm sg hG hGm fullPot hU hD hfp f₀ ms w hw hw1 prm hh ν hν
  have hs : MeasurableSet {z : (ι → ℝ) × (ι → ℝ) | z.1 ∈ D} := measurable_fst hD
  refine invariant_unique (fun f => Spec.amagoldExpect lay γ am cm L sg fullPot U f₀ ms w f [prm])
    (fun f g hf hg z => ?_) (fun z => ?_) (fun f hf => (hrun f hf).1)
    ((volume : Measure ((ι → ℝ) × (ι → ℝ))).restrict {z | z.1 ∈ D}) ?_ (fun A hA hA0 z => ?_)
    ρ _ hρ hinv
  · -- additivity
    rw [amagoldExpect_single, amagoldExpect_single, amagoldExpect_single, ← ENNReal.tsum_add]
    refine tsum_congr fun b => ?_
    rw [← mul_add]
    congr 1
    have hin := amagold_inner_measurable hl hγ.le am cm hm sg hG fullPot hfp f₀ ms hv hU hD hGm prm hh.le f hf b
    have hx : Measurable fun x : Fin L × ι → ℝ => ∫⁻ u, f
        (Spec.amagoldNext lay γ am cm L sg fullPot U f₀ ms prm b z x u) ∂Spec.unif :=
      hin.comp (by fun_prop : Measurable fun x : Fin L × ι → ℝ => ((z, x) : PathSpace ι L))
    refine Eq.trans (lintegral_congr fun x => ?_) (lintegral_add_left hx _)
    have e := fun g => amagold_unif hl hγ.le am cm hm sg hG fullPot hfp f₀ ms hv prm hh.le g b z x
    dsimp only at e
    refine (e (f + g)).trans ?_
    refine Eq.trans ?_ (congrArg₂ (· + ·) (e f) (e g)).symm
    simp only [Pi.add_apply]
    ring
  · -- total probability
    rw [amagoldExpect_single]
    have hu : Spec.unif Set.univ = 1 := by
      unfold Spec.unif
      rw [Measure.restrict_apply_univ, Real.volume_Ico]
      simp
    simp only [lintegral_one, hu, measure_univ, mul_one, hw1]
  · intro h0
    apply hZ0
    have : (volume : Measure (ι → ℝ)) D = 0 ∨ (volume : Measure (ι → ℝ)) Set.univ = 0 := by
      have h1 := congrArg (fun μ : Measure ((ι → ℝ) × (ι → ℝ)) => μ Set.univ) h0
      simp only [Measure.restrict_apply_univ, Measure.coe_zero, Pi.zero_apply] at h1
      rw [show {z : (ι → ℝ) × (ι → ℝ) | z.1 ∈ D} = D ×ˢ Set.univ by ext z; simp,
        Measure.volume_eq_prod, Measure.prod_prod] at h1
      exact mul_eq_zero.1 h1
    have hD0 : (volume : Measure (ι → ℝ)) D = 0 := by
      rcases this with h | h
      · exact h
      · exact absurd h (isOpen_univ.measure_pos volume Set.univ_nonempty).ne'
    rw [hZdef]
    unfold Spec.posterior
    rw [Measure.restrict_eq_zero.2 hD0]
    simp
  · rw [Measure.restrict_apply hA] at hA0
    have h1 := c129_reaches hl hγ am cm hm hL sg hG hGm fullPot hU hD hfp f₀ ms w hw1 prm hh
      (hA.inter hs) (fun z hz => hz.2) hA0 z
    refine ne_of_gt (lt_of_lt_of_le h1 ?_)
    rw [amagoldExpect_single, amagoldExpect_single]
    refine ENNReal.tsum_le_tsum fun b => mul_le_mul_right (lintegral_mono fun x => lintegral_mono fun u => ?_) _
    exact Set.indicator_le_indicator_of_subset Set.inter_subset_left (fun _ => bot_le) _

include hl hγ hm hL hG hGm hU hD hfp hw hw1 hh in
/-- **C129.** In particular the positions of a stationary distribution have the normalised posterior. -/
theorem c129_positions (hZ0 : Spec.posterior U D Set.univ ≠ 0) (hZ : Spec.posterior U D Set.univ ≠ ⊤)
    (ρ : Measure ((ι → ℝ) × (ι → ℝ))) [IsProbabilityMeasure ρ]
    (hρ : ∀ f : (ι → ℝ) × (ι → ℝ) → ENNReal, Measurable f →
      ∫⁻ z, Spec.amagoldExpect lay γ am cm L sg fullPot U f₀ ms w f [prm] z ∂ρ = ∫⁻ z, f z ∂ρ)
    {A : Set (ι → ℝ)} (hA : MeasurableSet A) :
    ρ {z | z.1 ∈ A} = Spec.posterior U D A / Spec.posterior U D Set.univ := by
  obtain ⟨ν, hν, hlaw⟩ := momentumLaw_exists hm
  rw [c129_unique hl hγ am cm hm hL sg hG hGm fullPot hU hD hfp f₀ ms w hw hw1 prm hh hZ0 hZ ν hlaw ρ hρ,
    show {z : (ι → ℝ) × (ι → ℝ) | z.1 ∈ A} = A ×ˢ Set.univ by ext z; simp, Measure.prod_prod, measure_univ (μ := ν),
    mul_one, Measure.smul_apply, smul_eq_mul, mul_comm, div_eq_mul_inv]

end

/-! ## A case: an exponential distribution truncated to the unit interval -/

open Classical in
/-- The potential `q` on the unit interval, not a number elsewhere. -/
noncomputable def truncPot : FullPotFn (Fin 1) Unit Unit := fun x _ _ =>
  (if x ∈ Set.Icc (0 : Fin 1 → ℝ) 1 then .fin (x 0) else .nan, ((), ()))

theorem truncPot_on : Spec.PotentialOn truncPot (fun x => x 0) (Set.Icc 0 1) :=
  ⟨fun _ _ _ h => if_pos h, fun _ _ _ h => Or.inr (if_neg h)⟩

theorem trunc_volume : (volume : Measure (Fin 1 → ℝ)) (Set.Icc 0 1) = 1 := by
  rw [Real.volume_Icc_pi]
  simp

theorem trunc_proper : Spec.posterior (fun x : Fin 1 → ℝ => x 0) (Set.Icc 0 1) Set.univ ≠ 0 ∧
    Spec.posterior (fun x : Fin 1 → ℝ => x 0) (Set.Icc 0 1) Set.univ ≠ ⊤ := by
  unfold Spec.posterior
  rw [withDensity_apply _ MeasurableSet.univ, Measure.restrict_univ]
  constructor
  · have h : ∫⁻ _ in Set.Icc (0 : Fin 1 → ℝ) 1, ENNReal.ofReal (Real.exp (-1)) ≤
        ∫⁻ q in Set.Icc (0 : Fin 1 → ℝ) 1, ENNReal.ofReal (Real.exp (-(q 0))) := by
      refine setLIntegral_mono' measurableSet_Icc fun q hq => ENNReal.ofReal_le_ofReal ?_
      have := hq.2 0
      simp only [Pi.one_apply] at this
      exact Real.exp_le_exp.2 (by linarith)
    rw [setLIntegral_const, trunc_volume, mul_one] at h
    exact ne_of_gt (lt_of_lt_of_le (ENNReal.ofReal_pos.2 (Real.exp_pos _)) h)
  · have h : ∫⁻ q in Set.Icc (0 : Fin 1 → ℝ) 1, ENNReal.ofReal (Real.exp (-(q 0))) ≤
        ∫⁻ _ in Set.Icc (0 : Fin 1 → ℝ) 1, 1 := by
      refine setLIntegral_mono' measurableSet_Icc fun q hq => ?_
      have := hq.1 0
      simp only [Pi.zero_apply] at this
      rw [ENNReal.ofReal_le_one]
      exact Real.exp_le_one_iff.2 (by linarith)
    rw [setLIntegral_const, trunc_volume, mul_one] at h
    exact ne_of_lt (lt_of_le_of_lt h ENNReal.one_lt_top)

/-- A case of `c129_positions`: a stationary distribution exists (property C128), and its positions are the
truncated exponential distribution. -/
example : ∃ ρ : Measure ((Fin 1 → ℝ) × (Fin 1 → ℝ)), IsProbabilityMeasure ρ ∧
    (∀ f : (Fin 1 → ℝ) × (Fin 1 → ℝ) → ENNReal, Measurable f →
      ∫⁻ z, Spec.amagoldExpect (Spec.vectorLayout 1) 1 none (some fun _ => 4) 2 expoGrad truncPot (fun x => x 0) ()
        () (fun _ => 1) f [⟨1, 1⟩] z ∂ρ = ∫⁻ z, f z ∂ρ) ∧
    ∀ A : Set (Fin 1 → ℝ), MeasurableSet A → ρ {z | z.1 ∈ A} =
      Spec.posterior (fun x : Fin 1 → ℝ => x 0) (Set.Icc 0 1) A /
        Spec.posterior (fun x : Fin 1 → ℝ => x 0) (Set.Icc 0 1) Set.univ := by
  have hm : Spec.MassOk (Spec.usedMass none (some fun _ : Fin 1 => (4 : ℝ))) := massOk_const fun _ => by norm_num
  obtain ⟨hZ0, hZ⟩ := trunc_proper
  obtain ⟨ν, hν, hlaw⟩ := momentumLaw_exists hm
  have hU : Measurable fun x : Fin 1 → ℝ => x 0 := measurable_pi_apply 0
  have hw1 : ∑' _ : Fin 2 → Unit, (1 : ENNReal) = 1 := by rw [tsum_fintype]; simp
  set Z := Spec.posterior (fun x : Fin 1 → ℝ => x 0) (Set.Icc 0 1) Set.univ with hZdef
  have hfin : IsFiniteMeasure (Spec.posterior (fun x : Fin 1 → ℝ => x 0) (Set.Icc 0 1)) :=
    ⟨lt_top_iff_ne_top.2 hZ⟩
  have hprob : IsProbabilityMeasure (Z⁻¹ • Spec.posterior (fun x : Fin 1 → ℝ => x 0) (Set.Icc 0 1)) :=
    ⟨by rw [Measure.smul_apply, smul_eq_mul, ← hZdef]; exact ENNReal.inv_mul_cancel hZ0 hZ⟩
  have hinv : ∀ f : (Fin 1 → ℝ) × (Fin 1 → ℝ) → ENNReal, Measurable f →
      ∫⁻ z, Spec.amagoldExpect (Spec.vectorLayout 1) 1 none (some fun _ => 4) 2 expoGrad truncPot (fun x => x 0) ()
        () (fun _ => 1) f [⟨1, 1⟩] z
          ∂(Z⁻¹ • Spec.posterior (fun x : Fin 1 → ℝ => x 0) (Set.Icc 0 1)).prod ν =
        ∫⁻ z, f z ∂(Z⁻¹ • Spec.posterior (fun x : Fin 1 → ℝ => x 0) (Set.Icc 0 1)).prod ν := by
    intro f hf
    obtain ⟨c, -, hc, hνc⟩ := hlaw
    obtain ⟨hmeas, hrun⟩ := amagold_run_invariant_on (Spec.vectorLayout_injective 1) zero_le_one none
      (some fun _ => 4) hm expoGrad (G := fun _ _ _ => 1) (fun _ _ _ => rfl) (fun _ => measurable_const) truncPot
      hU measurableSet_Icc truncPot_on () () (fun _ : Fin 2 → Unit => 1) (fun _ => rfl) hw1 f hf [⟨1, 1⟩]
      (by intro q hq; rw [List.mem_singleton] at hq; rw [hq]; exact zero_le_one)
    rw [lintegral_prod _ hmeas.aemeasurable, lintegral_prod _ hf.aemeasurable, lintegral_smul_measure,
      lintegral_smul_measure, hνc, posterior_momentum_lintegral hU measurableSet_Icc c hc _ hmeas,
      posterior_momentum_lintegral hU measurableSet_Icc c hc _ hf, hrun]
  refine ⟨(Z⁻¹ • Spec.posterior (fun x : Fin 1 → ℝ => x 0) (Set.Icc 0 1)).prod ν, inferInstance, hinv,
    fun A hA => ?_⟩
  exact c129_positions (L := 2) (Spec.vectorLayout_injective 1) one_pos none (some fun _ => 4) hm le_rfl expoGrad
    (G := fun _ _ _ => 1) (fun _ _ _ => rfl) (fun _ => measurable_const) truncPot hU measurableSet_Icc
    truncPot_on () () (fun _ => 1) (fun _ => rfl) hw1 ⟨1, 1⟩ (one_pos (α := ℝ)) hZ0 hZ _ hinv hA

end JaxSgmc
