import Verif.Lemmas.Convex
import Verif.Lemmas.Stationary
import Mathlib.MeasureTheory.Constructions.Pi

/-! # The Metropolis adjusted Langevin step: invariant distribution -/

namespace JaxSgmc

open Matrix MeasureTheory

variable {ι : Type} [Fintype ι]

/-! ## The gradient of a strongly convex potential is continuous -/

section
variable [DecidableEq ι] {U : (ι → ℝ) → ℝ} {G : (ι → ℝ) → ι → ℝ} {m L : ℝ} (hU : Spec.Convex U G m L)

omit [DecidableEq ι] in
theorem sqLen_le_norm (v : ι → ℝ) : Spec.sqLen v ≤ Fintype.card ι * ‖v‖ ^ 2 := by
  unfold Spec.sqLen
  calc ∑ i, v i ^ 2 ≤ ∑ _i : ι, ‖v‖ ^ 2 := Finset.sum_le_sum fun i _ => by
        rw [← sq_abs, ← Real.norm_eq_abs]; exact pow_le_pow_left₀ (norm_nonneg _) (norm_le_pi_norm v i) 2
    _ = _ := by rw [Finset.sum_const, Finset.card_univ, nsmul_eq_mul]

omit [DecidableEq ι] in
theorem norm_le_sqLen (v : ι → ℝ) : ‖v‖ ≤ Real.sqrt (Spec.sqLen v) := by
  refine (pi_norm_le_iff_of_nonneg (Real.sqrt_nonneg _)).2 fun i => ?_
  refine Real.le_sqrt_of_sq_le ?_
  rw [Real.norm_eq_abs, sq_abs]
  exact Finset.single_le_sum (f := fun i => v i ^ 2) (fun i _ => sq_nonneg _) (Finset.mem_univ i)

include hU in
theorem convex_gradient_continuous : Continuous G := by
  refine (LipschitzWith.of_dist_le_mul (K := Real.toNNReal (L * Real.sqrt (Fintype.card ι))) fun x y => ?_).continuous
  rw [dist_eq_norm, dist_eq_norm, Real.coe_toNNReal _ (mul_nonneg hU.L_pos.le (Real.sqrt_nonneg _))]
  refine (norm_le_sqLen _).trans ?_
  refine Real.sqrt_le_iff.2 ⟨by have := hU.L_pos; positivity, ?_⟩
  refine (hU.lipschitz x y).trans ?_
  have h1 := sqLen_le_norm (x - y)
  have h2 : (L * Real.sqrt (Fintype.card ι) * ‖x - y‖) ^ 2 = L ^ 2 * (Fintype.card ι * ‖x - y‖ ^ 2) := by
    rw [mul_pow, mul_pow, Real.sq_sqrt (Nat.cast_nonneg _)]; ring
  rw [h2]
  exact mul_le_mul_of_nonneg_left h1 (sq_nonneg L)

end

/-! ## The proposal as a map of the phase space -/

section
variable (G : (ι → ℝ) → ι → ℝ) (h : ℝ)

/-- The proposal with the noise of the reverse move. -/
noncomputable def malaMap (z : (ι → ℝ) × (ι → ℝ)) : (ι → ℝ) × (ι → ℝ) :=
  (langevinMove G h z.1 z.2, langevinBack G h z.1 z.2)

variable {G} {h}

omit [Fintype ι] in
theorem malaMap_move (hh : 0 ≤ h) (q p : ι → ℝ) :
    langevinMove G h q p = q + Real.sqrt (2 * h) • (p - (Real.sqrt (2 * h) / 2) • G q) := by
  have hs : Real.sqrt (2 * h) * (Real.sqrt (2 * h) / 2) = h := by
    rw [mul_div_assoc', Real.mul_self_sqrt (by linarith)]; ring
  unfold langevinMove
  rw [smul_sub, smul_smul, hs]
  abel

theorem malaMap_involution (hh : 0 ≤ h) (z : (ι → ℝ) × (ι → ℝ)) : malaMap G h (malaMap G h z) = z := by
  obtain ⟨q, p⟩ := z
  set q' := langevinMove G h q p with hq
  set p' := langevinBack G h q p with hp
  have e1 : langevinMove G h q' p' = q := by
    rw [malaMap_move hh]
    have : p' - (Real.sqrt (2 * h) / 2) • G q' = -(p - (Real.sqrt (2 * h) / 2) • G q) := by
      rw [hp]; unfold langevinBack; rw [← hq, smul_add]; abel
    rw [this, hq, malaMap_move hh, smul_neg]
    abel
  have e2 : langevinBack G h q' p' = p := by
    unfold langevinBack
    rw [e1, hp]
    unfold langevinBack
    rw [← hq, add_comm (G q')]
    abel
  show (langevinMove G h q' p', langevinBack G h q' p') = _
  rw [e1, e2]

theorem malaMap_measurePreserving (hh : 0 ≤ h) (hG : Measurable G) :
    MeasurePreserving (malaMap G h) (volume : Measure ((ι → ℝ) × (ι → ℝ))) volume := by
  set r := Real.sqrt (2 * h) with hr
  have push : MeasurePreserving (fun z : (ι → ℝ) × (ι → ℝ) => (z.1, z.2 + (-(r / 2)) • G z.1))
      ((volume : Measure (ι → ℝ)).prod volume) ((volume : Measure (ι → ℝ)).prod volume) := by
    refine MeasurePreserving.skew_product (f := id) (MeasurePreserving.id _)
      (g := fun q p => p + (-(r / 2)) • G q) ?_ (Filter.Eventually.of_forall fun q => ?_)
    · show Measurable fun z : (ι → ℝ) × (ι → ℝ) => z.2 + (-(r / 2)) • G z.1
      fun_prop
    · exact (measurePreserving_add_right volume _).map_eq
  have drift' : MeasurePreserving (fun z : (ι → ℝ) × (ι → ℝ) => (z.1, z.2 + r • z.1))
      ((volume : Measure (ι → ℝ)).prod volume) ((volume : Measure (ι → ℝ)).prod volume) := by
    refine MeasurePreserving.skew_product (f := id) (MeasurePreserving.id _)
      (g := fun p q => q + r • p) ?_ (Filter.Eventually.of_forall fun q => ?_)
    · show Measurable fun z : (ι → ℝ) × (ι → ℝ) => z.2 + r • z.1
      fun_prop
    · exact (measurePreserving_add_right volume _).map_eq
  have sw : MeasurePreserving (Prod.swap : (ι → ℝ) × (ι → ℝ) → _) ((volume : Measure (ι → ℝ)).prod volume)
      ((volume : Measure (ι → ℝ)).prod volume) := Measure.measurePreserving_swap
  have flip : MeasurePreserving (fun z : (ι → ℝ) × (ι → ℝ) => (z.1, -z.2)) ((volume : Measure (ι → ℝ)).prod volume)
      ((volume : Measure (ι → ℝ)).prod volume) :=
    (MeasurePreserving.id (volume : Measure (ι → ℝ))).prod (Measure.measurePreserving_neg volume)
  have all := flip.comp (push.comp ((sw.comp (drift'.comp sw)).comp push))
  refine mp_congr all fun z => ?_
  obtain ⟨q, p⟩ := z
  have e1 : langevinMove G h q p = q + r • (p + (-(r / 2)) • G q) := by
    rw [malaMap_move hh, neg_smul, ← sub_eq_add_neg]
  refine Prod.ext ?_ ?_
  · exact e1.symm
  · show -(p + (-(r / 2)) • G q + (-(r / 2)) • G (q + r • (p + (-(r / 2)) • G q))) = langevinBack G h q p
    unfold langevinBack
    rw [← e1, smul_add, neg_smul, neg_smul]
    abel

end

/-! ## The invariant distribution -/

/-- A Metropolis adjusted Langevin step with noise `ξ` and uniform number `u`. -/
noncomputable def malaNext (U : (ι → ℝ) → ℝ) (G : (ι → ℝ) → ι → ℝ) (h : ℝ) (y ξ : ι → ℝ) (u : ℝ) : ι → ℝ :=
  if u < Spec.acceptProb (moveError U G h y ξ) then langevinMove G h y ξ else y

section
variable {U : (ι → ℝ) → ℝ} {G : (ι → ℝ) → ι → ℝ} {h : ℝ}

omit [Fintype ι] in
theorem langevinMove_measurable (hG : Measurable G) : Measurable fun z : (ι → ℝ) × (ι → ℝ) => langevinMove G h z.1 z.2 := by
  unfold langevinMove
  fun_prop

theorem langevinBack_measurable (hG : Measurable G) : Measurable fun z : (ι → ℝ) × (ι → ℝ) => langevinBack G h z.1 z.2 := by
  have h1 := hG.comp (langevinMove_measurable (h := h) hG)
  have h2 : Measurable fun z : (ι → ℝ) × (ι → ℝ) => G (langevinMove G h z.1 z.2) := h1
  have h3 : Measurable fun z : (ι → ℝ) × (ι → ℝ) => G z.1 := hG.comp measurable_fst
  exact ((h3.add h2).const_smul (Real.sqrt (2 * h) / 2)).sub measurable_snd

theorem dot_measurable : Measurable fun v : ι → ℝ => v ⬝ᵥ v := by
  unfold dotProduct
  fun_prop

theorem moveError_measurable (hU : Measurable U) (hG : Measurable G) :
    Measurable fun z : (ι → ℝ) × (ι → ℝ) => moveError U G h z.1 z.2 := by
  have h1 : Measurable fun z : (ι → ℝ) × (ι → ℝ) => U (langevinMove G h z.1 z.2) := hU.comp (langevinMove_measurable hG)
  have h2 : Measurable fun z : (ι → ℝ) × (ι → ℝ) => langevinBack G h z.1 z.2 ⬝ᵥ langevinBack G h z.1 z.2 :=
    dot_measurable.comp (langevinBack_measurable hG)
  have h3 : Measurable fun z : (ι → ℝ) × (ι → ℝ) => z.2 ⬝ᵥ z.2 := dot_measurable.comp measurable_snd
  have h4 : Measurable fun z : (ι → ℝ) × (ι → ℝ) => U z.1 := hU.comp measurable_fst
  exact (h1.add (h2.div_const 2)).sub (h4.add (h3.div_const 2))

theorem malaNext_measurable (hU : Measurable U) (hG : Measurable G) :
    Measurable fun z : (ι → ℝ) × (ι → ℝ) × ℝ => malaNext U G h z.1 z.2.1 z.2.2 := by
  have e := Spec.acceptProb_measurable.comp (moveError_measurable (h := h) hU hG)
  have e1 : Measurable fun z : (ι → ℝ) × (ι → ℝ) × ℝ => Spec.acceptProb (moveError U G h z.1 z.2.1) :=
    e.comp (by fun_prop : Measurable fun z : (ι → ℝ) × (ι → ℝ) × ℝ => (z.1, z.2.1))
  have e2 : Measurable fun z : (ι → ℝ) × (ι → ℝ) × ℝ => langevinMove G h z.1 z.2.1 :=
    (langevinMove_measurable hG).comp (by fun_prop : Measurable fun z : (ι → ℝ) × (ι → ℝ) × ℝ => (z.1, z.2.1))
  have hs : MeasurableSet {z : (ι → ℝ) × (ι → ℝ) × ℝ | z.2.2 < Spec.acceptProb (moveError U G h z.1 z.2.1)} :=
    measurableSet_lt (by fun_prop) e1
  unfold malaNext
  exact Measurable.ite hs e2 measurable_fst

theorem malaNext_unif (y ξ : ι → ℝ) (F : (ι → ℝ) → ENNReal) :
    ∫⁻ u, F (malaNext U G h y ξ u) ∂Spec.unif =
      ENNReal.ofReal (Spec.acceptProb (moveError U G h y ξ)) * F (langevinMove G h y ξ)
        + ENNReal.ofReal (1 - Spec.acceptProb (moveError U G h y ξ)) * F y :=
  unif_accept _ (le_min zero_le_one (Real.exp_pos _).le) (min_le_left _ _) F _ _ _ fun _ _ => rfl

/-- Expectations over the posterior and normal numbers. -/
theorem posterior_prod_normals (hU : Measurable U) (H : (ι → ℝ) × (ι → ℝ) → ENNReal) (hH : Measurable H) :
    ∫⁻ y, ∫⁻ ξ, H (y, ξ) ∂Spec.normals ι ∂Spec.posterior U Set.univ =
      ENNReal.ofReal (Real.exp (-(Fintype.card ι * Real.log (Real.sqrt (2 * Real.pi))))) *
        ∫⁻ z, ENNReal.ofReal (Real.exp (-(U z.1 + (z.2 ⬝ᵥ z.2) / 2))) * H z := by
  have hd : Measurable fun q : ι → ℝ => ENNReal.ofReal (Real.exp (-U q)) := by fun_prop
  have hpdf : Measurable fun x : ι → ℝ =>
      ENNReal.ofReal (∏ j, ProbabilityTheory.gaussianPDFReal 0 1 (x j)) := by
    have := ProbabilityTheory.measurable_gaussianPDFReal 0 1
    refine ENNReal.measurable_ofReal.comp ?_
    exact Finset.measurable_prod _ fun j _ => this.comp (measurable_pi_apply j)
  have hdot : Measurable fun z : (ι → ℝ) × (ι → ℝ) => z.2 ⬝ᵥ z.2 := dot_measurable.comp measurable_snd
  have hdd : Measurable fun z : (ι → ℝ) × (ι → ℝ) => ENNReal.ofReal (Real.exp (-(U z.1 + (z.2 ⬝ᵥ z.2) / 2))) * H z := by
    fun_prop
  rw [← lintegral_const_mul _ hdd]
  unfold Spec.normals Spec.posterior
  rw [Measure.restrict_univ]
  have hd' : Measurable fun y : (ι → ℝ) × (ι → ℝ) => ENNReal.ofReal (Real.exp (-U y.1)) := hd.comp measurable_fst
  have hpdf' : Measurable fun y : (ι → ℝ) × (ι → ℝ) =>
      ENNReal.ofReal (∏ j, ProbabilityTheory.gaussianPDFReal 0 1 (y.2 j)) := hpdf.comp measurable_snd
  rw [pi_gaussian, ← lintegral_prod _ hH.aemeasurable, prod_withDensity_left hd, prod_withDensity_right hpdf,
    ← withDensity_mul _ hpdf' hd', lintegral_withDensity_eq_lintegral_mul _ (hpdf'.mul hd') hH]
  refine lintegral_congr fun y => ?_
  simp only [Pi.mul_apply]
  rw [← mul_assoc]
  congr 1
  rw [prod_gaussian, ← ENNReal.ofReal_mul (Real.exp_pos _).le, ← ENNReal.ofReal_mul (Real.exp_pos _).le, ← Real.exp_add,
    ← Real.exp_add]
  congr 2
  unfold dotProduct
  ring

/-- The posterior is stationary. -/
theorem mala_stationary (hh : 0 ≤ h) (hU : Measurable U) (hG : Measurable G) (F : (ι → ℝ) → ENNReal) (hF : Measurable F) :
    ∫⁻ y, ∫⁻ ξ, ∫⁻ u, F (malaNext U G h y ξ u) ∂Spec.unif ∂Spec.normals ι ∂Spec.posterior U Set.univ =
      ∫⁻ y, F y ∂Spec.posterior U Set.univ := by
  set a : (ι → ℝ) × (ι → ℝ) → ℝ := fun z => Spec.acceptProb (moveError U G h z.1 z.2) with ha
  have ham : Measurable a := Spec.acceptProb_measurable.comp (moveError_measurable hU hG)
  have hmv := langevinMove_measurable (h := h) hG
  have hFm : Measurable fun z : (ι → ℝ) × (ι → ℝ) => F (langevinMove G h z.1 z.2) := hF.comp hmv
  have hF1 : Measurable fun z : (ι → ℝ) × (ι → ℝ) => F z.1 := hF.comp measurable_fst
  have hdot : Measurable fun z : (ι → ℝ) × (ι → ℝ) => z.2 ⬝ᵥ z.2 := dot_measurable.comp measurable_snd
  have e1 : ∀ y ξ, ∫⁻ u, F (malaNext U G h y ξ u) ∂Spec.unif =
      (fun z : (ι → ℝ) × (ι → ℝ) => ENNReal.ofReal (a z) * F (malaMap G h z).1 + ENNReal.ofReal (1 - a z) * F z.1) (y, ξ) :=
    fun y ξ => malaNext_unif y ξ F
  simp only [e1]
  have hm1 : Measurable fun z : (ι → ℝ) × (ι → ℝ) =>
      ENNReal.ofReal (a z) * F (malaMap G h z).1 + ENNReal.ofReal (1 - a z) * F z.1 := by
    have : Measurable fun z : (ι → ℝ) × (ι → ℝ) => F (malaMap G h z).1 := hFm
    fun_prop
  have e2 : ∫⁻ y, F y ∂Spec.posterior U Set.univ =
      ∫⁻ y, ∫⁻ ξ, (fun z : (ι → ℝ) × (ι → ℝ) => F z.1) (y, ξ) ∂Spec.normals ι ∂Spec.posterior U Set.univ := by
    refine lintegral_congr fun y => ?_
    have : IsProbabilityMeasure (Spec.normals ι) := by unfold Spec.normals; infer_instance
    simp
  rw [e2, posterior_prod_normals hU _ hm1, posterior_prod_normals hU _ hF1]
  congr 1
  have hbal := balanced_stationary (X := (ι → ℝ) × (ι → ℝ)) (B := Unit) volume
    (fun z => ENNReal.ofReal (Real.exp (-(U z.1 + (z.2 ⬝ᵥ z.2) / 2)))) (by fun_prop) (fun _ => malaMap G h) (Equiv.refl _)
    (fun _ => malaMap_measurePreserving hh hG) (fun _ z => malaMap_involution hh z) (fun _ => a) (fun _ => ham)
    (fun _ _ => le_min zero_le_one (Real.exp_pos _).le) (fun _ _ => min_le_left _ _) (fun _ z => ?_) (fun _ => 1) (fun _ => rfl)
    (fun z => F z.1) hF1
  · simpa using hbal
  · rw [← ENNReal.ofReal_mul (Real.exp_pos _).le, ← ENNReal.ofReal_mul (Real.exp_pos _).le]
    have hfl := flow_symm (U z.1 + (z.2 ⬝ᵥ z.2) / 2) (U (malaMap G h z).1 + ((malaMap G h z).2 ⬝ᵥ (malaMap G h z).2) / 2)
    have e3 : a z = Spec.acceptProb (U (malaMap G h z).1 + ((malaMap G h z).2 ⬝ᵥ (malaMap G h z).2) / 2
        - (U z.1 + (z.2 ⬝ᵥ z.2) / 2)) := rfl
    have e4 : a (malaMap G h z) = Spec.acceptProb (U z.1 + (z.2 ⬝ᵥ z.2) / 2
        - (U (malaMap G h z).1 + ((malaMap G h z).2 ⬝ᵥ (malaMap G h z).2) / 2)) := by
      have : a (malaMap G h z) = Spec.acceptProb (U (malaMap G h (malaMap G h z)).1 + ((malaMap G h (malaMap G h z)).2 ⬝ᵥ (malaMap G h (malaMap G h z)).2) / 2
        - (U (malaMap G h z).1 + ((malaMap G h z).2 ⬝ᵥ (malaMap G h z).2) / 2)) := rfl
      rw [this, malaMap_involution hh]
    show ENNReal.ofReal (_ * a z) = ENNReal.ofReal (_ * a (malaMap G h z))
    rw [e3, e4, hfl]

end

end JaxSgmc
