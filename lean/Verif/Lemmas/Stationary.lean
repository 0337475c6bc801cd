import Verif.Lemmas.LeapfrogMap
import Verif.Lemmas.Involutive

/-! # From path maps to stationary distributions -/

namespace JaxSgmc

open MeasureTheory

instance Spec.normals_probability (κ : Type) [Fintype κ] : IsProbabilityMeasure (Spec.normals κ) := by
  unfold Spec.normals; infer_instance

variable {ι : Type} [Fintype ι]

instance Spec.target_sfinite (m : MassMatrix ι) (U : (ι → ℝ) → ℝ) (T : ℝ) :
    SFinite (Spec.target m U T) := by
  unfold Spec.target; infer_instance

theorem kinetic_measurable (m : MassMatrix ι) : Measurable (Spec.kinetic m) := by
  have := m.inv.measurable_mul
  unfold Spec.kinetic
  have h : ∀ i, Measurable fun p : ι → ℝ => m.inv.mul p i := fun i => (measurable_pi_apply i).comp this
  fun_prop

theorem prod_gaussian {κ : Type} [Fintype κ] (x : κ → ℝ) :
    ∏ j, ProbabilityTheory.gaussianPDFReal 0 1 (x j) =
      Real.exp (-(∑ j, x j * x j) / 2 - Fintype.card κ * Real.log (Real.sqrt (2 * Real.pi))) := by
  have h : ∀ y : ℝ, ProbabilityTheory.gaussianPDFReal 0 1 y =
      Real.exp (-(y * y) / 2 - Real.log (Real.sqrt (2 * Real.pi))) := by
    intro y
    have hpos : 0 < Real.sqrt (2 * Real.pi) := Real.sqrt_pos.2 (by positivity)
    rw [Real.exp_sub, Real.exp_log hpos, ProbabilityTheory.gaussianPDFReal]
    simp only [NNReal.coe_one, mul_one, sub_zero]
    rw [div_eq_inv_mul (Real.exp _), show -(y * y) / 2 = -y ^ 2 / 2 by ring]
  simp only [h]
  rw [← Real.exp_sum]
  congr 1
  rw [Finset.sum_sub_distrib, Finset.sum_const, Finset.card_univ, nsmul_eq_mul, neg_div,
    Finset.sum_div, ← Finset.sum_neg_distrib]
  congr 1
  exact Finset.sum_congr rfl fun i _ => by ring

/-- Expectations over the target distribution and independent normal numbers. -/
theorem target_prod_normals (m : MassMatrix ι) {U : (ι → ℝ) → ℝ} (hU : Measurable U) (T : ℝ)
    (κ : Type) [Fintype κ] (H : ((ι → ℝ) × (ι → ℝ)) × (κ → ℝ) → ENNReal) (hH : Measurable H) :
    ∫⁻ z, ∫⁻ x, H (z, x) ∂Spec.normals κ ∂Spec.target m U T =
      ∫⁻ y, ENNReal.ofReal (Real.exp (-((U y.1.1 + Spec.kinetic m y.1.2) / T +
        (∑ j, y.2 j * y.2 j) / 2 + Fintype.card κ * Real.log (Real.sqrt (2 * Real.pi))))) * H y := by
  have hK := kinetic_measurable m
  have hd : Measurable fun z : (ι → ℝ) × (ι → ℝ) =>
      ENNReal.ofReal (Real.exp (-(U z.1 + Spec.kinetic m z.2) / T)) := by
    have : Measurable fun z : (ι → ℝ) × (ι → ℝ) => Spec.kinetic m z.2 := hK.comp (by fun_prop)
    fun_prop
  have hpdf : Measurable fun x : κ → ℝ =>
      ENNReal.ofReal (∏ j, ProbabilityTheory.gaussianPDFReal 0 1 (x j)) := by
    have := ProbabilityTheory.measurable_gaussianPDFReal 0 1
    refine ENNReal.measurable_ofReal.comp ?_
    exact Finset.measurable_prod _ fun j _ => this.comp (measurable_pi_apply j)
  rw [← lintegral_prod _ hH.aemeasurable]
  unfold Spec.normals Spec.target
  have hd' : Measurable fun y : ((ι → ℝ) × (ι → ℝ)) × (κ → ℝ) =>
      ENNReal.ofReal (Real.exp (-(U y.1.1 + Spec.kinetic m y.1.2) / T)) := hd.comp measurable_fst
  have hpdf' : Measurable fun y : ((ι → ℝ) × (ι → ℝ)) × (κ → ℝ) =>
      ENNReal.ofReal (∏ j, ProbabilityTheory.gaussianPDFReal 0 1 (y.2 j)) := hpdf.comp measurable_snd
  rw [pi_gaussian, prod_withDensity_left hd, prod_withDensity_right hpdf,
    ← withDensity_mul _ hpdf' hd', lintegral_withDensity_eq_lintegral_mul _ (hpdf'.mul hd') hH]
  refine lintegral_congr fun y => ?_
  simp only [Pi.mul_apply]
  congr 1
  rw [prod_gaussian, ← ENNReal.ofReal_mul (Real.exp_pos _).le, ← Real.exp_add]
  congr 2
  ring

/-- The target distribution is symmetric in the momentum. -/
theorem target_flip (m : MassMatrix ι) {U : (ι → ℝ) → ℝ} (hU : Measurable U) (T : ℝ)
    (f : (ι → ℝ) × (ι → ℝ) → ENNReal) (hf : Measurable f) :
    ∫⁻ z, f (z.1, -z.2) ∂Spec.target m U T = ∫⁻ z, f z ∂Spec.target m U T := by
  have hK := kinetic_measurable m
  have hd : Measurable fun z : (ι → ℝ) × (ι → ℝ) =>
      ENNReal.ofReal (Real.exp (-(U z.1 + Spec.kinetic m z.2) / T)) := by
    have : Measurable fun z : (ι → ℝ) × (ι → ℝ) => Spec.kinetic m z.2 := hK.comp (by fun_prop)
    fun_prop
  have hp : MeasurePreserving (fun z : (ι → ℝ) × (ι → ℝ) => (z.1, -z.2)) volume volume :=
    (MeasurePreserving.id (volume : Measure (ι → ℝ))).prod (Measure.measurePreserving_neg volume)
  unfold Spec.target
  have hf' : Measurable fun z : (ι → ℝ) × (ι → ℝ) => f (z.1, -z.2) := hf.comp hp.measurable
  rw [lintegral_withDensity_eq_lintegral_mul _ hd hf',
    lintegral_withDensity_eq_lintegral_mul _ hd hf, ← hp.lintegral_comp (hd.mul hf)]
  refine lintegral_congr fun z => ?_
  simp only [Pi.mul_apply, kinetic_neg]

instance Spec.targetOn_sfinite (m : MassMatrix ι) (U : (ι → ℝ) → ℝ) (D : Set (ι → ℝ)) (T : ℝ) :
    SFinite (Spec.targetOn m U D T) := by
  unfold Spec.targetOn; infer_instance

theorem Spec.targetOn_univ (m : MassMatrix ι) (U : (ι → ℝ) → ℝ) (T : ℝ) :
    Spec.targetOn m U Set.univ T = Spec.target m U T := by
  unfold Spec.targetOn
  simp

theorem targetOn_lintegral (m : MassMatrix ι) (U : (ι → ℝ) → ℝ) {D : Set (ι → ℝ)} (hD : MeasurableSet D)
    (T : ℝ) (H : (ι → ℝ) × (ι → ℝ) → ENNReal) :
    ∫⁻ z, H z ∂Spec.targetOn m U D T =
      ∫⁻ z, {z : (ι → ℝ) × (ι → ℝ) | z.1 ∈ D}.indicator H z ∂Spec.target m U T := by
  have hs : MeasurableSet {z : (ι → ℝ) × (ι → ℝ) | z.1 ∈ D} := measurable_fst hD
  unfold Spec.targetOn
  rw [lintegral_indicator hs]

/-- Stationarity of a Metropolis-Hastings step with momentum flip upon rejection, for a proposal given
by path maps `T`, where proposals outside of `D` are rejected. -/
theorem stationary_of_paths_on (m : MassMatrix ι) {U : (ι → ℝ) → ℝ} (hU : Measurable U)
    {D : Set (ι → ℝ)} (hD : MeasurableSet D) (temp : ℝ)
    {κ B : Type} [Fintype κ]
    (T : B → ((ι → ℝ) × (ι → ℝ)) × (κ → ℝ) → ((ι → ℝ) × (ι → ℝ)) × (κ → ℝ)) (rev : B ≃ B)
    (hT : ∀ b, MeasurePreserving (T b) volume volume) (hinv : ∀ b x, T (rev b) (T b x) = x)
    (w : B → ENNReal) (hw : ∀ b, w (rev b) = w b)
    (next : B → (ι → ℝ) × (ι → ℝ) → (κ → ℝ) → ℝ → (ι → ℝ) × (ι → ℝ))
    (E : ((ι → ℝ) × (ι → ℝ)) × (κ → ℝ) → ℝ)
    (hE : ∀ y, E y = (U y.1.1 + Spec.kinetic m y.1.2) / temp + (∑ j, y.2 j * y.2 j) / 2)
    (a : B → ((ι → ℝ) × (ι → ℝ)) × (κ → ℝ) → ℝ)
    (ha : ∀ b y, a b y = D.indicator (fun _ => Spec.acceptProb (E (T b y) - E y)) (T b y).1.1)
    (hnext : ∀ b z x u, 0 ≤ u → next b z x u =
      if u < a b (z, x) then ((T b (z, x)).1.1, -(T b (z, x)).1.2) else (z.1, -z.2))
    (f : (ι → ℝ) × (ι → ℝ) → ENNReal) (hf : Measurable f) :
    ∑' b, w b * ∫⁻ z, ∫⁻ x, ∫⁻ u, f (next b z x u) ∂Spec.unif ∂Spec.normals κ ∂Spec.targetOn m U D temp =
      (∑' b, w b) * ∫⁻ z, f z ∂Spec.targetOn m U D temp := by
  classical
  have hK := kinetic_measurable m
  have hEm : Measurable E := by
    rw [show E = _ from funext hE]
    have h1 : Measurable fun y : ((ι → ℝ) × (ι → ℝ)) × (κ → ℝ) => Spec.kinetic m y.1.2 :=
      hK.comp (by fun_prop)
    have h2 : ∀ j, Measurable fun y : ((ι → ℝ) × (ι → ℝ)) × (κ → ℝ) => y.2 j := fun j =>
      (measurable_pi_apply j).comp measurable_snd
    fun_prop
  set C : ℝ := Fintype.card κ * Real.log (Real.sqrt (2 * Real.pi)) with hC
  let F : ((ι → ℝ) × (ι → ℝ)) × (κ → ℝ) → ENNReal := fun y => f (y.1.1, -y.1.2)
  have hF : Measurable F := hf.comp (by fun_prop)
  let S : Set (((ι → ℝ) × (ι → ℝ)) × (κ → ℝ)) := {y | y.1.1 ∈ D}
  have hS : MeasurableSet S := (measurable_fst.comp measurable_fst) hD
  let d : ((ι → ℝ) × (ι → ℝ)) × (κ → ℝ) → ENNReal :=
    S.indicator fun y => ENNReal.ofReal (Real.exp (-(E y + C)))
  have hd : Measurable d := by
    refine Measurable.indicator ?_ hS
    fun_prop
  have hacc : ∀ b, Measurable (a b) := fun b => by
    rw [show a b = (T b ⁻¹' S).indicator fun y => Spec.acceptProb (E (T b y) - E y) from by
      funext y
      rw [ha]
      by_cases h : (T b y).1.1 ∈ D
      · rw [Set.indicator_of_mem h, Set.indicator_of_mem (show y ∈ T b ⁻¹' S from h)]
      · rw [Set.indicator_of_notMem h, Set.indicator_of_notMem (show y ∉ T b ⁻¹' S from h)]]
    exact Measurable.indicator (Spec.acceptProb_measurable.comp ((hEm.comp (hT b).measurable).sub hEm))
      ((hT b).measurable hS)
  have h0 : ∀ b y, 0 ≤ a b y := fun b y => by
    rw [ha]; exact Set.indicator_nonneg (fun _ _ => (Spec.acceptProb_pos _).le) _
  have h1 : ∀ b y, a b y ≤ 1 := fun b y => by
    rw [ha]
    exact Set.indicator_le' (fun _ _ => Spec.acceptProb_le _) (fun _ _ => zero_le_one) _
  have hsym : ∀ b y, d y * ENNReal.ofReal (a b y) = d (T b y) * ENNReal.ofReal (a (rev b) (T b y)) := by
    intro b y
    simp only [d, ha, hinv]
    by_cases hy : y.1.1 ∈ D
    · by_cases hTy : (T b y).1.1 ∈ D
      · rw [Set.indicator_of_mem (show y ∈ S from hy), Set.indicator_of_mem (show T b y ∈ S from hTy),
          Set.indicator_of_mem hy, Set.indicator_of_mem hTy, ← ENNReal.ofReal_mul (Real.exp_pos _).le,
          ← ENNReal.ofReal_mul (Real.exp_pos _).le]
        have := flow_symm (E y + C) (E (T b y) + C)
        rw [show E (T b y) + C - (E y + C) = E (T b y) - E y by ring,
          show E y + C - (E (T b y) + C) = E y - E (T b y) by ring] at this
        rw [this]
      · rw [Set.indicator_of_notMem (show T b y ∉ S from hTy), Set.indicator_of_notMem hTy]
        simp
    · rw [Set.indicator_of_notMem (show y ∉ S from hy), Set.indicator_of_notMem hy]
      simp
  have hmain := balanced_stationary volume d hd T rev hT hinv a hacc h0 h1 hsym w hw F hF
  have hind : ∀ H : ((ι → ℝ) × (ι → ℝ)) × (κ → ℝ) → ENNReal, Measurable H →
      ∫⁻ z, ∫⁻ x, H (z, x) ∂Spec.normals κ ∂Spec.targetOn m U D temp = ∫⁻ y, d y * H y := by
    intro H hH
    rw [targetOn_lintegral m U hD]
    have e1 : ∀ z : (ι → ℝ) × (ι → ℝ), {z : (ι → ℝ) × (ι → ℝ) | z.1 ∈ D}.indicator
        (fun z => ∫⁻ x, H (z, x) ∂Spec.normals κ) z = ∫⁻ x, S.indicator H (z, x) ∂Spec.normals κ := by
      intro z
      by_cases h : z.1 ∈ D
      · rw [Set.indicator_of_mem (show z ∈ {z : (ι → ℝ) × (ι → ℝ) | z.1 ∈ D} from h)]
        exact lintegral_congr fun x => (Set.indicator_of_mem (show (z, x) ∈ S from h) _).symm
      · rw [Set.indicator_of_notMem (show z ∉ {z : (ι → ℝ) × (ι → ℝ) | z.1 ∈ D} from h)]
        rw [lintegral_congr fun x => Set.indicator_of_notMem (show (z, x) ∉ S from h) _, lintegral_zero]
    simp only [e1]
    rw [target_prod_normals m hU temp κ _ (hH.indicator hS)]
    refine lintegral_congr fun y => ?_
    rw [← hC]
    simp only [d]
    by_cases h : y.1.1 ∈ D
    · rw [Set.indicator_of_mem (show y ∈ S from h), Set.indicator_of_mem (show y ∈ S from h), hE y]
    · rw [Set.indicator_of_notMem (show y ∉ S from h), Set.indicator_of_notMem (show y ∉ S from h)]
      simp
  have hleft : ∀ b, ∫⁻ z, ∫⁻ x, ∫⁻ u, f (next b z x u) ∂Spec.unif ∂Spec.normals κ
      ∂Spec.targetOn m U D temp =
      ∫⁻ y, d y * (ENNReal.ofReal (a b y) * F (T b y) + ENNReal.ofReal (1 - a b y) * F y) := by
    intro b
    have hu : ∀ z x, ∫⁻ u, f (next b z x u) ∂Spec.unif =
        ENNReal.ofReal (a b (z, x)) * F (T b (z, x)) +
          ENNReal.ofReal (1 - a b (z, x)) * F (z, x) := by
      intro z x
      exact unif_accept _ (h0 b _) (h1 b _) f _ _ _ (hnext b z x)
    simp only [hu]
    refine hind (fun y => ENNReal.ofReal (a b y) * F (T b y) + ENNReal.ofReal (1 - a b y) * F y) ?_
    have h2 : Measurable fun y => F (T b y) := hF.comp (hT b).measurable
    exact ((ENNReal.measurable_ofReal.comp (hacc b)).mul h2).add
        ((ENNReal.measurable_ofReal.comp (measurable_const.sub (hacc b))).mul hF)
  rw [tsum_congr fun b => by rw [hleft b], hmain]
  congr 1
  have hconst : ∀ z, ∫⁻ x, F (z, x) ∂Spec.normals κ = f (z.1, -z.2) := by
    intro z
    show ∫⁻ _, f (z.1, -z.2) ∂Spec.normals κ = _
    rw [lintegral_const, measure_univ, mul_one]
  rw [← hind F hF]
  simp only [hconst]
  have hs : MeasurableSet {z : (ι → ℝ) × (ι → ℝ) | z.1 ∈ D} := measurable_fst hD
  rw [targetOn_lintegral m U hD, targetOn_lintegral m U hD, ← target_flip m hU temp _ (hf.indicator hs)]
  rfl

/-- Stationarity of a Metropolis-Hastings step with momentum flip upon rejection, for a proposal given
by path maps `T`. -/
theorem stationary_of_paths (m : MassMatrix ι) {U : (ι → ℝ) → ℝ} (hU : Measurable U) (temp : ℝ)
    {κ B : Type} [Fintype κ]
    (T : B → ((ι → ℝ) × (ι → ℝ)) × (κ → ℝ) → ((ι → ℝ) × (ι → ℝ)) × (κ → ℝ)) (rev : B ≃ B)
    (hT : ∀ b, MeasurePreserving (T b) volume volume) (hinv : ∀ b x, T (rev b) (T b x) = x)
    (w : B → ENNReal) (hw : ∀ b, w (rev b) = w b)
    (next : B → (ι → ℝ) × (ι → ℝ) → (κ → ℝ) → ℝ → (ι → ℝ) × (ι → ℝ))
    (E : ((ι → ℝ) × (ι → ℝ)) × (κ → ℝ) → ℝ)
    (hE : ∀ y, E y = (U y.1.1 + Spec.kinetic m y.1.2) / temp + (∑ j, y.2 j * y.2 j) / 2)
    (hnext : ∀ b z x u, 0 ≤ u → next b z x u =
      if u < Spec.acceptProb (E (T b (z, x)) - E (z, x)) then
        ((T b (z, x)).1.1, -(T b (z, x)).1.2) else (z.1, -z.2))
    (f : (ι → ℝ) × (ι → ℝ) → ENNReal) (hf : Measurable f) :
    ∑' b, w b * ∫⁻ z, ∫⁻ x, ∫⁻ u, f (next b z x u) ∂Spec.unif ∂Spec.normals κ ∂Spec.target m U temp =
      (∑' b, w b) * ∫⁻ z, f z ∂Spec.target m U temp := by
  have := stationary_of_paths_on m hU MeasurableSet.univ temp T rev hT hinv w hw next E hE
    (fun b y => Spec.acceptProb (E (T b y) - E y)) (fun b y => by simp) hnext f hf
  rwa [Spec.targetOn_univ] at this

end JaxSgmc
