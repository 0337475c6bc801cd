import Mathlib.Analysis.InnerProductSpace.MeanErgodic
import Mathlib.MeasureTheory.Function.L2Space
import Mathlib.Probability.Kernel.Composition.MeasureComp
import Mathlib.Analysis.InnerProductSpace.Adjoint
import Mathlib.Probability.Kernel.Composition.IntegralCompProd
import Mathlib.Probability.Moments.Variance
import Mathlib.Analysis.Asymptotics.SpecificAsymptotics
import Mathlib.MeasureTheory.Function.ConvergenceInMeasure

/-!
# Averages along a Markov chain

The law of large numbers in the mean square for a Markov kernel which has an invariant distribution and reaches
every set of positive probability in one step.
-/

namespace JaxSgmc

open MeasureTheory ProbabilityTheory Filter Topology

variable {α : Type*} [MeasurableSpace α]

/-- The expectation of `f` after one step. -/
noncomputable def stepMean (P : Kernel α α) (f : α → ℝ) (z : α) : ℝ := ∫ y, f y ∂P z

section
variable {P : Kernel α α} [IsMarkovKernel P]

omit [IsMarkovKernel P] in
theorem stepMean_measurable {f : α → ℝ} (hf : Measurable f) : Measurable (stepMean P f) :=
  (StronglyMeasurable.integral_kernel hf.stronglyMeasurable).measurable

theorem stepMean_le {f : α → ℝ} {C : ℝ} (hf : ∀ z, |f z| ≤ C) (z : α) : |stepMean P f z| ≤ C := by
  have := norm_integral_le_of_norm_le_const (μ := P z) (f := f) (C := C) (Eventually.of_forall hf)
  simpa [stepMean] using this

theorem bounded_integrable {f : α → ℝ} (hf : Measurable f) {C : ℝ} (hC : ∀ z, |f z| ≤ C) (μ : Measure α)
    [IsFiniteMeasure μ] : Integrable f μ :=
  Integrable.of_bound hf.aestronglyMeasurable C (Eventually.of_forall hC)

theorem bounded_memLp {f : α → ℝ} (hf : Measurable f) {C : ℝ} (hC : ∀ z, |f z| ≤ C) (μ : Measure α)
    [IsFiniteMeasure μ] : MemLp f 2 μ :=
  MemLp.of_bound hf.aestronglyMeasurable C (Eventually.of_forall hC)

variable {π : Measure α} [IsProbabilityMeasure π] (hinv : P ∘ₘ π = π)

theorem fst_preserving : MeasurePreserving Prod.fst (π ⊗ₘ P) π :=
  ⟨measurable_fst, Measure.fst_compProd π P⟩

include hinv in
theorem snd_preserving : MeasurePreserving Prod.snd (π ⊗ₘ P) π :=
  ⟨measurable_snd, by
    have := Measure.snd_compProd π P
    rw [hinv] at this
    exact this⟩

/-- The operator of a step on square integrable functions. -/
noncomputable def stepOp : Lp ℝ 2 π →L[ℝ] Lp ℝ 2 π :=
  (ContinuousLinearMap.adjoint
    (Lp.compMeasurePreservingₗᵢ ℝ Prod.fst (fst_preserving (P := P) (π := π))).toContinuousLinearMap) ∘L
  (Lp.compMeasurePreservingₗᵢ ℝ Prod.snd (snd_preserving hinv)).toContinuousLinearMap

theorem stepOp_inner (f g : Lp ℝ 2 π) : inner ℝ (stepOp hinv f) g =
    inner ℝ (Lp.compMeasurePreservingₗᵢ ℝ Prod.snd (snd_preserving hinv) f)
      (Lp.compMeasurePreservingₗᵢ ℝ Prod.fst (fst_preserving (P := P) (π := π)) g) := by
  unfold stepOp
  rw [ContinuousLinearMap.comp_apply, ContinuousLinearMap.adjoint_inner_left]
  rfl

theorem stepOp_norm : ‖stepOp hinv‖ ≤ 1 := by
  refine ContinuousLinearMap.opNorm_le_bound _ zero_le_one fun f => ?_
  unfold stepOp
  rw [ContinuousLinearMap.comp_apply, one_mul]
  refine (ContinuousLinearMap.le_opNorm _ _).trans ?_
  rw [LinearIsometryEquiv.norm_map]
  have h1 := (Lp.compMeasurePreservingₗᵢ ℝ Prod.fst (fst_preserving (P := P) (π := π)) (p := 2) (E := ℝ)).norm_toContinuousLinearMap_le
  have h2 : ‖(Lp.compMeasurePreservingₗᵢ ℝ Prod.snd (snd_preserving hinv)).toContinuousLinearMap f‖ = ‖f‖ :=
    (Lp.compMeasurePreservingₗᵢ ℝ Prod.snd (snd_preserving hinv)).norm_map f
  rw [h2]
  exact mul_le_of_le_one_left (norm_nonneg _) h1

theorem stepOp_toLp {f : α → ℝ} (hf : Measurable f) {C : ℝ} (hC : ∀ z, |f z| ≤ C) :
    stepOp hinv ((bounded_memLp hf hC π).toLp f) =
      (bounded_memLp (stepMean_measurable hf) (stepMean_le (P := P) hC) π).toLp (stepMean P f) := by
  refine ext_inner_right ℝ fun g => ?_
  rw [stepOp_inner]
  show inner ℝ (Lp.compMeasurePreserving Prod.snd (snd_preserving hinv) _)
    (Lp.compMeasurePreserving Prod.fst (fst_preserving (P := P) (π := π)) g) = _
  rw [L2.inner_def, L2.inner_def]
  have e1 : (fun a : α × α => inner ℝ
      ((Lp.compMeasurePreserving Prod.snd (snd_preserving hinv) ((bounded_memLp hf hC π).toLp f)) a)
      ((Lp.compMeasurePreserving Prod.fst (fst_preserving (P := P) (π := π)) g) a)) =ᵐ[π ⊗ₘ P]
      fun a => f a.2 * g a.1 := by
    filter_upwards [Lp.coeFn_compMeasurePreserving ((bounded_memLp hf hC π).toLp f) (snd_preserving hinv),
      Lp.coeFn_compMeasurePreserving g (fst_preserving (P := P) (π := π)),
      (snd_preserving hinv).quasiMeasurePreserving.ae (bounded_memLp hf hC π).coeFn_toLp] with a h1 h2 h3
    rw [h1, h2]
    simp only [Function.comp_apply, RCLike.inner_apply, conj_trivial]
    rw [h3]
    ring
  rw [integral_congr_ae e1]
  have hg : Integrable (fun z => g z) π := (Lp.memLp g).integrable one_le_two
  have hint : Integrable (fun a : α × α => f a.2 * g a.1) (π ⊗ₘ P) := by
    have hg' : Integrable (fun a : α × α => g a.1) (π ⊗ₘ P) :=
      (fst_preserving (P := P) (π := π)).integrable_comp_of_integrable hg
    exact hg'.bdd_mul (c := C) (hf.comp measurable_snd).aestronglyMeasurable (Eventually.of_forall fun a => hC a.2)
  rw [Measure.integral_compProd hint]
  refine integral_congr_ae ?_
  filter_upwards [(bounded_memLp (stepMean_measurable hf) (stepMean_le (P := P) hC) π).coeFn_toLp] with z hz
  rw [hz, integral_mul_const]
  simp [stepMean, mul_comm]

/-- Fixed points of an irreducible operator are constant. -/
theorem stepOp_fixed (hirr : ∀ z, π ≪ P z) (g : Lp ℝ 2 π) (hg : stepOp hinv g = g) : ∃ c : ℝ, ∀ᵐ z ∂π, g z = c := by
  set J1 := Lp.compMeasurePreservingₗᵢ ℝ Prod.fst (fst_preserving (P := P) (π := π)) (p := 2) (E := ℝ) with hJ1
  set J2 := Lp.compMeasurePreservingₗᵢ ℝ Prod.snd (snd_preserving hinv) (p := 2) (E := ℝ) with hJ2
  have h0 : J2 g = J1 g := by
    rw [← sub_eq_zero, ← norm_eq_zero, ← sq_eq_zero_iff, norm_sub_sq_real, J1.norm_map, J2.norm_map,
      ← stepOp_inner hinv, hg, real_inner_self_eq_norm_sq]
    ring
  have h1 : ∀ᵐ a ∂(π ⊗ₘ P), g a.2 = g a.1 := by
    have e1 := Lp.coeFn_compMeasurePreserving g (snd_preserving hinv)
    have e2 := Lp.coeFn_compMeasurePreserving g (fst_preserving (P := P) (π := π))
    have e3 : (Lp.compMeasurePreserving Prod.snd (snd_preserving hinv) g : α × α → ℝ) =ᵐ[π ⊗ₘ P]
        Lp.compMeasurePreserving Prod.fst (fst_preserving (P := P) (π := π)) g := by
      have : Lp.compMeasurePreserving Prod.snd (snd_preserving hinv) g =
        Lp.compMeasurePreserving Prod.fst (fst_preserving (P := P) (π := π)) g := h0
      rw [this]
    filter_upwards [e1, e2, e3] with a h1 h2 h3
    rw [h1, h2] at h3
    exact h3
  have h2 := Measure.ae_ae_of_ae_compProd h1
  obtain ⟨z, hz⟩ := h2.exists
  exact ⟨g z, (hirr z).ae_le hz⟩

/-- The iterated expectations. -/
theorem stepMean_iterate {f : α → ℝ} (hf : Measurable f) {C : ℝ} (hC : ∀ z, |f z| ≤ C) (n : ℕ) :
    Measurable ((stepMean P)^[n] f) ∧ ∀ z, |(stepMean P)^[n] f z| ≤ C := by
  induction n with
  | zero => exact ⟨hf, hC⟩
  | succ n ih =>
    rw [Function.iterate_succ_apply']
    exact ⟨stepMean_measurable ih.1, stepMean_le ih.2⟩

theorem stepOp_iterate {f : α → ℝ} (hf : Measurable f) {C : ℝ} (hC : ∀ z, |f z| ≤ C) (n : ℕ) :
    (stepOp hinv)^[n] ((bounded_memLp hf hC π).toLp f) =
      (bounded_memLp (stepMean_iterate (P := P) hf hC n).1 (stepMean_iterate (P := P) hf hC n).2 π).toLp _ := by
  induction n with
  | zero => rfl
  | succ n ih =>
    rw [Function.iterate_succ_apply', ih, stepOp_toLp hinv (stepMean_iterate (P := P) hf hC n).1
      (stepMean_iterate (P := P) hf hC n).2]
    refine MemLp.toLp_congr _ _ ?_
    rw [Function.iterate_succ_apply']

/-- The sum of the first `n` expectations. -/
noncomputable def sumMean (P : Kernel α α) (f : α → ℝ) (n : ℕ) (z : α) : ℝ :=
  ∑ k ∈ Finset.range n, (stepMean P)^[k] f z

theorem sumMean_measurable {f : α → ℝ} (hf : Measurable f) {C : ℝ} (hC : ∀ z, |f z| ≤ C) (n : ℕ) :
    Measurable (sumMean P f n) :=
  Finset.measurable_sum _ fun k _ => (stepMean_iterate hf hC k).1

theorem sumMean_le {f : α → ℝ} (hf : Measurable f) {C : ℝ} (hC : ∀ z, |f z| ≤ C) (n : ℕ) (z : α) :
    |sumMean P f n z| ≤ n * C := by
  refine (Finset.abs_sum_le_sum_abs _ _).trans ?_
  refine (Finset.sum_le_card_nsmul _ _ C fun k _ => (stepMean_iterate hf hC k).2 z).trans ?_
  simp

include hinv in
/-- **Mean ergodic theorem.** The averages of the expectations of a function with mean zero converge to zero in
the mean square. -/
theorem mean_ergodic (hirr : ∀ z, π ≪ P z) {f : α → ℝ} (hf : Measurable f) {C : ℝ} (hC : ∀ z, |f z| ≤ C)
    (h0 : ∫ z, f z ∂π = 0) :
    Tendsto (fun n : ℕ => ∫ z, ((n : ℝ)⁻¹ * sumMean P f n z) ^ 2 ∂π) atTop (𝓝 0) := by
  set F := (bounded_memLp hf hC π).toLp f with hF
  have h1 := ContinuousLinearMap.tendsto_birkhoffAverage_orthogonalProjection (stepOp hinv) (stepOp_norm hinv) F
  have h2 : ((stepOp hinv).eqLocus (1 : Lp ℝ 2 π →L[ℝ] Lp ℝ 2 π)).orthogonalProjectionOnto F = 0 := by
    rw [Submodule.orthogonalProjectionOnto_eq_zero_iff, Submodule.mem_orthogonal]
    intro g hg
    obtain ⟨c, hc⟩ := stepOp_fixed hinv hirr g hg
    rw [L2.inner_def]
    have : (fun a => inner ℝ (g a) (F a)) =ᵐ[π] fun a => c * f a := by
      filter_upwards [hc, (bounded_memLp hf hC π).coeFn_toLp] with a h1 h2
      rw [h1, h2]
      simp [mul_comm]
    rw [integral_congr_ae this, integral_const_mul, h0, mul_zero]
  rw [h2] at h1
  have h3 := (h1.norm).pow 2
  simp only [ZeroMemClass.coe_zero, norm_zero, ne_eq, OfNat.ofNat_ne_zero, not_false_eq_true, zero_pow] at h3
  refine h3.congr fun n => ?_
  have e : (↑(birkhoffAverage ℝ (stepOp hinv) (_root_.id : Lp ℝ 2 π → Lp ℝ 2 π) n F : Lp ℝ 2 π) : α → ℝ) =ᵐ[π] fun z => (n : ℝ)⁻¹ * sumMean P f n z := by
    unfold birkhoffAverage birkhoffSum
    refine (Lp.coeFn_smul _ _).trans ?_
    have : (↑(∑ k ∈ Finset.range n, _root_.id ((stepOp hinv)^[k] F)) : α → ℝ) =ᵐ[π] sumMean P f n := by
      induction n with
      | zero =>
        filter_upwards [Lp.coeFn_zero ℝ 2 π] with z hz
        rw [Finset.sum_range_zero, hz]
        simp [sumMean]
      | succ n ih =>
        rw [Finset.sum_range_succ]
        filter_upwards [ih, Lp.coeFn_add (∑ k ∈ Finset.range n, _root_.id ((stepOp hinv)^[k] F))
          (_root_.id ((stepOp hinv)^[n] F)),
          (bounded_memLp (stepMean_iterate (P := P) hf hC n).1 (stepMean_iterate (P := P) hf hC n).2 π).coeFn_toLp]
          with z h1 h2 h3
        rw [h2, Pi.add_apply, h1, id, hF, stepOp_iterate hinv hf hC, h3]
        simp [sumMean, Finset.sum_range_succ]
    filter_upwards [this] with z hz
    rw [Pi.smul_apply, hz, smul_eq_mul]
  rw [← real_inner_self_eq_norm_sq, L2.inner_def]
  refine integral_congr_ae ?_
  filter_upwards [e] with z hz
  rw [hz, RCLike.inner_apply, conj_trivial, sq]

include hinv in
/-- The expectation after a step from the invariant distribution. -/
theorem stepMean_integral {g : α → ℝ} (hg : Measurable g) {C : ℝ} (hC : ∀ z, |g z| ≤ C) :
    ∫ z, stepMean P g z ∂π = ∫ z, g z ∂π := by
  have h1 := (snd_preserving hinv).integrable_comp_of_integrable (bounded_integrable hg hC π)
  have h2 := Measure.integral_compProd h1
  have h3 : ∫ a, (g ∘ Prod.snd) a ∂(π ⊗ₘ P) = ∫ z, g z ∂π := by
    have := integral_map (μ := π ⊗ₘ P) (φ := Prod.snd) measurable_snd.aemeasurable
      (f := g) hg.aestronglyMeasurable
    rw [(snd_preserving hinv).map_eq] at this
    exact this.symm
  rw [h3] at h2
  exact h2.symm

/-! ## Sums along a chain -/

/-- The expectation of the sum of `f` over `n` steps. -/
noncomputable def sumAfter (P : Kernel α α) (f : α → ℝ) (n : ℕ) (z : α) : ℝ := sumMean P (stepMean P f) n z

theorem sumAfter_measurable {f : α → ℝ} (hf : Measurable f) {C : ℝ} (hC : ∀ z, |f z| ≤ C) (n : ℕ) :
    Measurable (sumAfter P f n) := sumMean_measurable (stepMean_measurable hf) (stepMean_le hC) n

theorem sumAfter_le {f : α → ℝ} (hf : Measurable f) {C : ℝ} (hC : ∀ z, |f z| ≤ C) (n : ℕ) (z : α) :
    |sumAfter P f n z| ≤ n * C := sumMean_le (stepMean_measurable hf) (stepMean_le hC) n z

theorem sumAfter_succ {f : α → ℝ} (hf : Measurable f) {C : ℝ} (hC : ∀ z, |f z| ≤ C) (n : ℕ) (z : α) :
    sumAfter P f (n + 1) z = ∫ y, (f y + sumAfter P f n y) ∂P z := by
  rw [integral_add (bounded_integrable hf hC _)
    (bounded_integrable (sumAfter_measurable hf hC n) (sumAfter_le hf hC n) _)]
  unfold sumAfter sumMean
  rw [integral_finsetSum _ fun k _ => bounded_integrable (stepMean_iterate (stepMean_measurable hf) (stepMean_le hC) k).1
    (stepMean_iterate (stepMean_measurable hf) (stepMean_le hC) k).2 _, Finset.sum_range_succ', add_comm]
  congr 1
  refine Finset.sum_congr rfl fun k _ => ?_
  rw [Function.iterate_succ_apply']
  rfl

/-- The expectation of the square of the sum of `f` over `n` steps. -/
noncomputable def sqAfter (P : Kernel α α) (f : α → ℝ) : ℕ → α → ℝ
  | 0, _ => 0
  | n + 1, z => ∫ y, (f y ^ 2 + 2 * f y * sumAfter P f n y + sqAfter P f n y) ∂P z

/-- The expectation of the square of `c` plus the sum. -/
noncomputable def shiftSq (P : Kernel α α) (f : α → ℝ) (n : ℕ) (c : ℝ) (z : α) : ℝ :=
  c ^ 2 + 2 * c * sumAfter P f n z + sqAfter P f n z

theorem sqAfter_all {f : α → ℝ} (hf : Measurable f) {C : ℝ} (hC : ∀ z, |f z| ≤ C) (n : ℕ) :
    Measurable (sqAfter P f n) ∧ (∀ z, |sqAfter P f n z| ≤ (n * C) ^ 2) ∧
    (∀ c z, 0 ≤ shiftSq P f n c z) ∧
    ∀ c z, shiftSq P f (n + 1) c z = ∫ y, shiftSq P f n (c + f y) y ∂P z := by
  have hrec : ∀ n, Measurable (sqAfter P f n) → (∀ z, |sqAfter P f n z| ≤ (n * C) ^ 2) →
      ∀ c z, shiftSq P f (n + 1) c z = ∫ y, shiftSq P f n (c + f y) y ∂P z := by
    intro n hm hb c z
    have e : ∀ y, shiftSq P f n (c + f y) y = c ^ 2 + (2 * c * (f y + sumAfter P f n y) +
        (f y ^ 2 + 2 * f y * sumAfter P f n y + sqAfter P f n y)) := by
      intro y; unfold shiftSq; ring
    have hA := sumAfter_measurable (P := P) hf hC n
    have hAb := sumAfter_le (P := P) hf hC n
    have i1 : Integrable (fun y => 2 * c * (f y + sumAfter P f n y)) (P z) :=
      ((bounded_integrable hf hC _).add (bounded_integrable hA hAb _)).const_mul _
    have i2 : Integrable (fun y => f y ^ 2 + 2 * f y * sumAfter P f n y + sqAfter P f n y) (P z) := by
      refine bounded_integrable (C := C ^ 2 + 2 * C * (n * C) + (n * C) ^ 2) (by fun_prop) (fun y => ?_) _
      refine (abs_add_le _ _).trans (add_le_add ((abs_add_le _ _).trans (add_le_add ?_ ?_)) (hb y))
      · rw [abs_pow]; exact pow_le_pow_left₀ (abs_nonneg _) (hC y) 2
      · rw [abs_mul, abs_mul, abs_two]
        have := hC y
        have h0 := abs_nonneg (f y)
        have hC0 : 0 ≤ C := h0.trans (hC y)
        have h1 := abs_nonneg (sumAfter P f n y)
        have := hAb y
        gcongr
    have i12 : Integrable (fun y => 2 * c * (f y + sumAfter P f n y) +
        (f y ^ 2 + 2 * f y * sumAfter P f n y + sqAfter P f n y)) (P z) := i1.add i2
    simp_rw [e]
    rw [integral_add (integrable_const _) i12, integral_add i1 i2, integral_const_mul,
      ← sumAfter_succ hf hC]
    simp [shiftSq, sqAfter, add_assoc]
  induction n with
  | zero =>
    have hm : Measurable (sqAfter P f 0) := measurable_const
    have hb : ∀ z, |sqAfter P f 0 z| ≤ (((0 : ℕ) : ℝ) * C) ^ 2 := fun z => by simp [sqAfter]
    refine ⟨hm, hb, fun c z => ?_, hrec 0 hm hb⟩
    simp only [shiftSq, sumAfter, sumMean, sqAfter, Finset.range_zero, Finset.sum_empty, mul_zero, add_zero]
    positivity
  | succ n ih =>
    obtain ⟨hm, hb, hp, hr⟩ := ih
    have hA := sumAfter_measurable (P := P) hf hC n
    have hAb := sumAfter_le (P := P) hf hC n
    have hm' : Measurable (sqAfter P f (n + 1)) := by
      show Measurable (stepMean P fun y => f y ^ 2 + 2 * f y * sumAfter P f n y + sqAfter P f n y)
      exact stepMean_measurable (by fun_prop)
    have hp' : ∀ c z, 0 ≤ shiftSq P f (n + 1) c z := fun c z => by
      rw [hr]; exact integral_nonneg fun y => hp _ _
    have hb' : ∀ z, |sqAfter P f (n + 1) z| ≤ (((n + 1 : ℕ) : ℝ) * C) ^ 2 := by
      intro z
      refine stepMean_le (P := P) (f := fun y => f y ^ 2 + 2 * f y * sumAfter P f n y + sqAfter P f n y)
        (fun y => ?_) z
      refine ((abs_add_le _ _).trans (add_le_add ((abs_add_le _ _).trans (add_le_add ?_ ?_)) (hb y))).trans
        (b := C ^ 2 + 2 * C * (n * C) + (n * C) ^ 2) ?_
      · rw [abs_pow]; exact pow_le_pow_left₀ (abs_nonneg _) (hC y) 2
      · rw [abs_mul, abs_mul, abs_two]
        have := hC y
        have h0 := abs_nonneg (f y)
        have hC0 : 0 ≤ C := h0.trans (hC y)
        have h1 := abs_nonneg (sumAfter P f n y)
        have := hAb y
        gcongr
      · push_cast; nlinarith
    exact ⟨hm', hb', hp', hrec (n + 1) hm' hb'⟩

theorem sqAfter_nonneg {f : α → ℝ} (hf : Measurable f) {C : ℝ} (hC : ∀ z, |f z| ≤ C) (n : ℕ) (z : α) :
    0 ≤ sqAfter P f n z := by
  have := (sqAfter_all (P := P) hf hC n).2.2.1 0 z
  simpa [shiftSq] using this

/-- The mean square of an average. -/
noncomputable def meanSq (P : Kernel α α) (f : α → ℝ) (n : ℕ) (z : α) : ℝ := sqAfter P f n z / n ^ 2

theorem meanSq_nonneg {f : α → ℝ} (hf : Measurable f) {C : ℝ} (hC : ∀ z, |f z| ≤ C) (n : ℕ) (z : α) :
    0 ≤ meanSq P f n z := div_nonneg (sqAfter_nonneg hf hC n z) (by positivity)

theorem meanSq_le {f : α → ℝ} (hf : Measurable f) {C : ℝ} (hC : ∀ z, |f z| ≤ C) (n : ℕ) (z : α) :
    |meanSq P f n z| ≤ C ^ 2 := by
  unfold meanSq
  rcases Nat.eq_zero_or_pos n with rfl | hn
  · simp only [sqAfter, zero_div, abs_zero]; positivity
  · have hn' : (0 : ℝ) < n ^ 2 := by positivity
    rw [abs_div, abs_of_pos hn', div_le_iff₀ hn']
    have := (sqAfter_all (P := P) hf hC n).2.1 z
    rw [mul_pow] at this
    linarith

theorem meanSq_measurable {f : α → ℝ} (hf : Measurable f) {C : ℝ} (hC : ∀ z, |f z| ≤ C) (n : ℕ) :
    Measurable (meanSq P f n) := (sqAfter_all hf hC n).1.div_const _

/-- A step changes the mean square by little. -/
theorem meanSq_succ {f : α → ℝ} (hf : Measurable f) {C : ℝ} (hC : ∀ z, |f z| ≤ C) (n : ℕ) (z : α) :
    meanSq P f (n + 1) z ≤ 2 * C ^ 2 / (n + 1) + ∫ y, meanSq P f n y ∂P z := by
  have hB := sqAfter_all (P := P) hf hC n
  have hA := sumAfter_measurable (P := P) hf hC n
  have hAb := sumAfter_le (P := P) hf hC n
  have i2 := bounded_integrable hB.1 hB.2.1 (P z)
  have h1 : sqAfter P f (n + 1) z ≤ ∫ y, (C ^ 2 + 2 * C * (n * C) + sqAfter P f n y) ∂P z := by
    refine integral_mono ?_ ((integrable_const _).add i2) fun y => ?_
    · refine bounded_integrable (C := C ^ 2 + 2 * C * (n * C) + (n * C) ^ 2) (by have := hB.1; fun_prop) (fun y => ?_) _
      refine (abs_add_le _ _).trans (add_le_add ((abs_add_le _ _).trans (add_le_add ?_ ?_)) (hB.2.1 y))
      · rw [abs_pow]; exact pow_le_pow_left₀ (abs_nonneg _) (hC y) 2
      · rw [abs_mul, abs_mul, abs_two]
        have := hC y
        have h0 := abs_nonneg (f y)
        have hC0 : 0 ≤ C := h0.trans (hC y)
        have h1 := abs_nonneg (sumAfter P f n y)
        have := hAb y
        gcongr
    · refine add_le_add (add_le_add ?_ ?_) le_rfl
      · rw [← sq_abs]; exact pow_le_pow_left₀ (abs_nonneg _) (hC y) 2
      · refine (le_abs_self _).trans ?_
        rw [abs_mul, abs_mul, abs_two]
        have := hC y
        have h0 := abs_nonneg (f y)
        have hC0 : 0 ≤ C := h0.trans (hC y)
        have h1 := abs_nonneg (sumAfter P f n y)
        have := hAb y
        gcongr
  rw [integral_add (integrable_const _) i2] at h1
  simp only [integral_const, probReal_univ, one_smul] at h1
  have h2 : ∫ y, sqAfter P f n y ∂P z = n ^ 2 * ∫ y, meanSq P f n y ∂P z := by
    rw [← integral_const_mul]
    refine integral_congr_ae (Eventually.of_forall fun y => ?_)
    unfold meanSq
    rcases Nat.eq_zero_or_pos n with rfl | hn
    · simp [sqAfter]
    · have : (n : ℝ) ≠ 0 := by positivity
      simp only
      field_simp
  rw [h2] at h1
  set I := ∫ y, meanSq P f n y ∂P z with hI
  have hI0 : 0 ≤ I := integral_nonneg fun y => meanSq_nonneg hf hC n y
  have hn0 : (0 : ℝ) ≤ n := Nat.cast_nonneg n
  unfold meanSq
  rw [div_le_iff₀ (by positivity)]
  push_cast
  have e : (2 * C ^ 2 / (n + 1) + I) * ((n : ℝ) + 1) ^ 2 = 2 * C ^ 2 * (n + 1) + I * (n + 1) ^ 2 := by
    field_simp
  rw [e]
  have h3 : (n : ℝ) ^ 2 * I ≤ I * (n + 1) ^ 2 := by nlinarith
  nlinarith [sq_nonneg C]

include hinv in
/-- The mean square of the averages of a stationary chain converges to zero. -/
theorem meanSq_tendsto (hirr : ∀ z, π ≪ P z) {f : α → ℝ} (hf : Measurable f) {C : ℝ} (hC : ∀ z, |f z| ≤ C)
    (h0 : ∫ z, f z ∂π = 0) : Tendsto (fun n => ∫ z, meanSq P f n z ∂π) atTop (𝓝 0) := by
  have hC0 : 0 ≤ C := by
    obtain ⟨z⟩ : Nonempty α := by
      by_contra h
      rw [not_nonempty_iff] at h
      have := measure_univ (μ := π)
      rw [Set.univ_eq_empty_iff.2 h] at this
      simp at this
    exact (abs_nonneg _).trans (hC z)
  set a : ℕ → ℝ := fun m => ∫ z, |(m : ℝ)⁻¹ * sumAfter P f m z| ∂π with ha
  have hX : ∀ m : ℕ, ∀ z, |(m : ℝ)⁻¹ * sumAfter P f m z| ≤ C := by
    intro m z
    rcases Nat.eq_zero_or_pos m with rfl | hm
    · simpa using hC0
    · have hm' : (0 : ℝ) < m := by positivity
      rw [abs_mul, abs_of_pos (by positivity), inv_mul_le_iff₀ hm']
      exact sumAfter_le hf hC m z
  have hXm : ∀ m : ℕ, Measurable fun z => |(m : ℝ)⁻¹ * sumAfter P f m z| := fun m =>
    measurable_norm.comp ((sumAfter_measurable hf hC m).const_mul _)
  have ha0 : ∀ m, 0 ≤ a m := fun m => integral_nonneg fun z => abs_nonneg _
  have hlim : Tendsto a atTop (𝓝 0) := by
    have h1 := mean_ergodic hinv hirr (stepMean_measurable hf) (stepMean_le (P := P) hC)
      (by rw [stepMean_integral hinv hf hC, h0])
    have h2 := h1.sqrt
    rw [Real.sqrt_zero] at h2
    refine squeeze_zero ha0 (fun m => ?_) h2
    refine Real.le_sqrt_of_sq_le ?_
    have hmem : MemLp (fun z => |(m : ℝ)⁻¹ * sumAfter P f m z|) 2 π :=
      bounded_memLp (C := C) (hXm m) (fun z => by rw [abs_abs]; exact hX m z) π
    have hv := variance_nonneg (fun z => |(m : ℝ)⁻¹ * sumAfter P f m z|) π
    rw [variance_eq_sub hmem] at hv
    have : ∫ z, (fun z => |(m : ℝ)⁻¹ * sumAfter P f m z|) z ^ 2 ∂π =
        ∫ z, ((m : ℝ)⁻¹ * sumAfter P f m z) ^ 2 ∂π := by simp only [sq_abs]
    simp only [Pi.pow_apply] at hv
    rw [this] at hv
    have hv' : 0 ≤ ∫ z, ((m : ℝ)⁻¹ * sumAfter P f m z) ^ 2 ∂π - a m ^ 2 := hv
    show a m ^ 2 ≤ ∫ z, ((m : ℝ)⁻¹ * sumAfter P f m z) ^ 2 ∂π
    linarith
  -- the sums of squares
  have hsum : ∀ n : ℕ, ∫ z, sqAfter P f n z ∂π ≤ n * (C ^ 2 + 2 * C * ∑ m ∈ Finset.range n, a m) := by
    have hstep : ∀ n : ℕ, ∫ z, sqAfter P f (n + 1) z ∂π ≤ C ^ 2 + 2 * C * (n * a n) + ∫ z, sqAfter P f n z ∂π := by
      intro n
      have hB := sqAfter_all (P := P) hf hC n
      have hA := sumAfter_measurable (P := P) hf hC n
      have hAb := sumAfter_le (P := P) hf hC n
      have hbd : ∀ y, |f y ^ 2 + 2 * f y * sumAfter P f n y + sqAfter P f n y| ≤
          C ^ 2 + 2 * C * (n * C) + (n * C) ^ 2 := by
        intro y
        refine (abs_add_le _ _).trans (add_le_add ((abs_add_le _ _).trans (add_le_add ?_ ?_)) (hB.2.1 y))
        · rw [abs_pow]; exact pow_le_pow_left₀ (abs_nonneg _) (hC y) 2
        · rw [abs_mul, abs_mul, abs_two]
          have := hC y
          have h0 := abs_nonneg (f y)
          have h1 := abs_nonneg (sumAfter P f n y)
          have := hAb y
          gcongr
      have hmeas : Measurable fun y => f y ^ 2 + 2 * f y * sumAfter P f n y + sqAfter P f n y := by
        have := hB.1
        fun_prop
      have e : ∫ z, sqAfter P f (n + 1) z ∂π =
          ∫ y, (f y ^ 2 + 2 * f y * sumAfter P f n y + sqAfter P f n y) ∂π := stepMean_integral hinv hmeas hbd
      rw [e]
      have i2 := bounded_integrable hB.1 hB.2.1 π
      have i3 : Integrable (fun z => |(n : ℝ)⁻¹ * sumAfter P f n z|) π :=
        bounded_integrable (C := C) (hXm n) (fun z => by rw [abs_abs]; exact hX n z) π
      have i4 : Integrable (fun z => C ^ 2 + 2 * C * (n * |(n : ℝ)⁻¹ * sumAfter P f n z|)) π :=
        (integrable_const _).add ((i3.const_mul _).const_mul _)
      have h1 : ∫ y, (f y ^ 2 + 2 * f y * sumAfter P f n y + sqAfter P f n y) ∂π ≤
          ∫ y, (C ^ 2 + 2 * C * (n * |(n : ℝ)⁻¹ * sumAfter P f n y|) + sqAfter P f n y) ∂π := by
        refine integral_mono (bounded_integrable hmeas hbd _) (i4.add i2) fun y => ?_
        refine add_le_add (add_le_add ?_ ?_) le_rfl
        · rw [← sq_abs]; exact pow_le_pow_left₀ (abs_nonneg _) (hC y) 2
        · refine (le_abs_self _).trans ?_
          have e2 : (n : ℝ) * |(n : ℝ)⁻¹ * sumAfter P f n y| = |sumAfter P f n y| := by
            rcases Nat.eq_zero_or_pos n with rfl | hn
            · simp [sumAfter, sumMean]
            · have hn' : (0 : ℝ) < n := by positivity
              rw [abs_mul, abs_of_pos (by positivity : (0 : ℝ) < (n : ℝ)⁻¹), ← mul_assoc,
                mul_inv_cancel₀ hn'.ne', one_mul]
          rw [e2, abs_mul, abs_mul, abs_two]
          have := hC y
          gcongr
      rw [integral_add i4 i2, integral_add (integrable_const _) ((i3.const_mul _).const_mul _),
        integral_const_mul, integral_const_mul] at h1
      rw [integral_const, probReal_univ, one_smul] at h1
      exact h1
    intro n
    induction n with
    | zero => simp [sqAfter]
    | succ n ih =>
      refine (hstep n).trans ?_
      rw [Finset.sum_range_succ]
      push_cast
      have hs : 0 ≤ ∑ m ∈ Finset.range n, a m := Finset.sum_nonneg fun m _ => ha0 m
      have han := ha0 n
      have hn0 : (0 : ℝ) ≤ n := Nat.cast_nonneg n
      nlinarith [mul_nonneg hC0 hs, mul_nonneg hC0 han, mul_nonneg hn0 (mul_nonneg hC0 han)]
  have hlim2 : Tendsto (fun n : ℕ => C ^ 2 * (n : ℝ)⁻¹ + 2 * C * ((n : ℝ)⁻¹ * ∑ m ∈ Finset.range n, a m))
      atTop (𝓝 0) := by
    have h1 := (tendsto_inv_atTop_nhds_zero_nat (𝕜 := ℝ)).const_mul (C ^ 2)
    have h2 := hlim.cesaro.const_mul (2 * C)
    have := h1.add h2
    simpa using this
  refine squeeze_zero (fun n => integral_nonneg fun z => meanSq_nonneg hf hC n z) (fun n => ?_) hlim2
  rcases Nat.eq_zero_or_pos n with rfl | hn
  · simp [meanSq]
  · have hn' : (0 : ℝ) < n := by positivity
    unfold meanSq
    rw [integral_div, div_le_iff₀ (by positivity)]
    refine (hsum n).trans (le_of_eq ?_)
    field_simp

include hinv in
/-- ... and also from every initial distribution with a density. -/
theorem meanSq_tendsto_ac (hirr : ∀ z, π ≪ P z) {f : α → ℝ} (hf : Measurable f) {C : ℝ} (hC : ∀ z, |f z| ≤ C)
    (h0 : ∫ z, f z ∂π = 0) (ρ : Measure α) [IsFiniteMeasure ρ] (hρ : ρ ≪ π) :
    Tendsto (fun n => ∫ z, meanSq P f n z ∂ρ) atTop (𝓝 0) := by
  have h1 := meanSq_tendsto hinv hirr hf hC h0
  have hm : TendstoInMeasure π (meanSq P f) atTop (fun _ => (0 : ℝ)) := by
    refine tendstoInMeasure_of_tendsto_eLpNorm one_ne_zero
      (fun n => (meanSq_measurable hf hC n).aestronglyMeasurable) aestronglyMeasurable_const ?_
    have e : ∀ n, eLpNorm (meanSq P f n - fun _ => (0 : ℝ)) 1 π = ENNReal.ofReal (∫ z, meanSq P f n z ∂π) := by
      intro n
      rw [eLpNorm_one_eq_lintegral_enorm, ofReal_integral_eq_lintegral_ofReal
        (bounded_integrable (meanSq_measurable hf hC n) (meanSq_le hf hC n) π)
        (Eventually.of_forall fun z => meanSq_nonneg hf hC n z)]
      refine lintegral_congr fun z => ?_
      rw [Pi.sub_apply, sub_zero, Real.enorm_of_nonneg (meanSq_nonneg hf hC n z)]
    simp_rw [e]
    have := ENNReal.tendsto_ofReal h1
    rwa [ENNReal.ofReal_zero] at this
  refine tendsto_of_subseq_tendsto fun ns hns => ?_
  obtain ⟨ms, hms, hae⟩ := (hm.comp hns).exists_seq_tendsto_ae
  refine ⟨ms, ?_⟩
  have := tendsto_integral_of_dominated_convergence (μ := ρ) (F := fun n => meanSq P f (ns (ms n))) (f := fun _ => (0 : ℝ))
    (fun _ => C ^ 2) (fun n => (meanSq_measurable hf hC _).aestronglyMeasurable) (integrable_const _)
    (fun n => Eventually.of_forall fun z => meanSq_le hf hC _ z) (hρ.ae_le hae)
  simpa using this

/-- A contracting recursion with vanishing errors. -/
theorem tendsto_of_contraction {s d : ℕ → ℝ} {r K : ℝ} (hr0 : 0 ≤ r) (hr : r < 1) (hs0 : ∀ n, 0 ≤ s n)
    (hsK : ∀ n, s n ≤ K) (hd : Tendsto d atTop (𝓝 0)) (h : ∀ n, s (n + 1) ≤ d n + r * s n) :
    Tendsto s atTop (𝓝 0) := by
  rw [Metric.tendsto_atTop]
  intro ε hε
  have hr1 : 0 < 1 - r := by linarith
  obtain ⟨N, hN⟩ := Metric.tendsto_atTop.1 hd (ε / 2 * (1 - r)) (by positivity)
  have hk : ∀ k, s (N + k) ≤ ε / 2 + r ^ k * K := by
    intro k
    induction k with
    | zero => simpa using (hsK N).trans (by linarith)
    | succ k ih =>
      have h1 := h (N + k)
      have h2 := (abs_lt.1 (by simpa [Real.dist_eq] using hN (N + k) (by omega))).2
      have h3 : r * s (N + k) ≤ r * (ε / 2 + r ^ k * K) := mul_le_mul_of_nonneg_left ih hr0
      rw [← add_assoc, pow_succ]
      nlinarith
  have hp : Tendsto (fun k => r ^ k * K) atTop (𝓝 0) := by
    simpa using (tendsto_pow_atTop_nhds_zero_of_lt_one hr0 hr).mul_const K
  obtain ⟨M, hM⟩ := Metric.tendsto_atTop.1 hp (ε / 2) (by positivity)
  refine ⟨N + M, fun n hn => ?_⟩
  obtain ⟨k, rfl⟩ : ∃ k, n = N + k := ⟨n - N, by omega⟩
  have h1 := hk k
  have h3 := hM k (by omega)
  rw [Real.dist_eq, sub_zero] at h3
  have h2 := (abs_lt.1 h3).2
  rw [Real.dist_eq, sub_zero, abs_of_nonneg (hs0 _)]
  linarith

include hinv in
/-- If a step from `z` either has a density or leads to `star z`, the averages converge from every point. -/
theorem meanSq_tendsto_point (hirr : ∀ z, π ≪ P z) {f : α → ℝ} (hf : Measurable f) {C : ℝ} (hC : ∀ z, |f z| ≤ C)
    (h0 : ∫ z, f z ∂π = 0) (star : α → α) (a : α → Measure α) (r : α → ENNReal)
    (hP : ∀ z, P z = a z + r z • Measure.dirac (star z)) (ha : ∀ z, a z ≪ π) (hr : ∀ z, r z < 1)
    (z : α) (hz : star (star z) = z) : Tendsto (fun n => meanSq P f n z) atTop (𝓝 0) := by
  have hfin : ∀ y, IsFiniteMeasure (a y) := fun y => by
    refine isFiniteMeasure_of_le (P y) ?_
    rw [hP y]
    exact Measure.le_add_right le_rfl
  have hstep : ∀ y n, meanSq P f (n + 1) y ≤ (2 * C ^ 2 / (n + 1) + ∫ x, meanSq P f n x ∂a y) +
      (r y).toReal * meanSq P f n (star y) := by
    intro y n
    refine (meanSq_succ hf hC n y).trans (le_of_eq ?_)
    have hm := meanSq_measurable (P := P) hf hC n
    have hfin' : IsFiniteMeasure (r y • Measure.dirac (star y)) := by
      refine ⟨?_⟩
      simpa using (hr y).trans ENNReal.one_lt_top
    have := hfin y
    conv_lhs => rw [hP y]
    rw [integral_add_measure (bounded_integrable hm (meanSq_le hf hC n) _)
      (bounded_integrable hm (meanSq_le hf hC n) _), integral_smul_measure,
      integral_dirac' _ _ hm.stronglyMeasurable, smul_eq_mul, add_assoc]
  set s : ℕ → ℝ := fun n => max (meanSq P f n z) (meanSq P f n (star z)) with hs
  set d : ℕ → ℝ := fun n => 2 * C ^ 2 / (n + 1) + ((∫ x, meanSq P f n x ∂a z) + ∫ x, meanSq P f n x ∂a (star z)) with hd
  have hdlim : Tendsto d atTop (𝓝 0) := by
    have := hfin z
    have := hfin (star z)
    have h1 := meanSq_tendsto_ac hinv hirr hf hC h0 (a z) (ha z)
    have h2 := meanSq_tendsto_ac hinv hirr hf hC h0 (a (star z)) (ha (star z))
    have h3 := (tendsto_one_div_add_atTop_nhds_zero_nat (𝕜 := ℝ)).const_mul (2 * C ^ 2)
    have h4 := h3.add (h1.add h2)
    simp only [mul_zero, add_zero] at h4
    refine h4.congr fun n => ?_
    simp only [hd]
    ring
  have hrr : ∀ y, (r y).toReal < 1 := fun y => by
    rw [← ENNReal.toReal_one]
    exact (ENNReal.toReal_lt_toReal ((hr y).trans ENNReal.one_lt_top).ne ENNReal.one_ne_top).2 (hr y)
  have hI : ∀ y n, 0 ≤ ∫ x, meanSq P f n x ∂a y := fun y n => integral_nonneg fun x => meanSq_nonneg hf hC n x
  have key : Tendsto s atTop (𝓝 0) := by
    refine tendsto_of_contraction (r := max (r z).toReal (r (star z)).toReal) (K := C ^ 2) (d := d)
      (le_max_of_le_left ENNReal.toReal_nonneg) (max_lt (hrr z) (hrr _))
      (fun n => le_max_of_le_left (meanSq_nonneg hf hC n z))
      (fun n => max_le ((le_abs_self _).trans (meanSq_le hf hC n z)) ((le_abs_self _).trans (meanSq_le hf hC n _)))
      hdlim (fun n => ?_)
    have n1 := meanSq_nonneg (P := P) hf hC n z
    have n2 := meanSq_nonneg (P := P) hf hC n (star z)
    refine max_le ((hstep z n).trans (add_le_add ?_ ?_)) ((hstep (star z) n).trans (add_le_add ?_ ?_))
    · have := hI (star z) n
      simp only [hd]; linarith
    · exact mul_le_mul (le_max_left _ _) (le_max_right _ _) n2 (le_max_of_le_left ENNReal.toReal_nonneg)
    · have := hI z n
      simp only [hd]; linarith
    · rw [hz]
      exact mul_le_mul (le_max_right _ _) (le_max_left _ _) n1 (le_max_of_le_left ENNReal.toReal_nonneg)
  exact squeeze_zero (fun n => meanSq_nonneg hf hC n z) (fun n => le_max_left _ _) key

end

end JaxSgmc
