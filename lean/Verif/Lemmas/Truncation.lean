import Mathlib.Probability.Kernel.MeasurableLIntegral
import Mathlib.Probability.Kernel.Composition.MeasureComp
import Mathlib.Probability.Kernel.Composition.Lemmas
import Mathlib.Probability.Kernel.Invariance
import Verif.Lemmas.Ergodic

/-!
# Rare large values along a chain

The sum of a nonnegative function with a small expectation is unlikely to be large along a chain which starts where the function
vanishes, eventually moves, and moves to a distribution of (up to a small probability) bounded density.
-/

namespace JaxSgmc

open MeasureTheory ProbabilityTheory Filter Topology

variable {Θ α : Type*} [MeasurableSpace α]

/-- The expectation of a weighted sum over a chain in units of `K`, capped at one. -/
noncomputable def cappedSum (P : Θ → Kernel α α) (g : α → ENNReal) (K : ENNReal) : List (Θ × ENNReal) → ENNReal → α → ENNReal
  | [], c, _ => min 1 (c / K)
  | (θ, a) :: l, c, z => ∫⁻ y, cappedSum P g K l (c + a * g y) y ∂P θ z

/-- The expectation of a weighted sum over a chain. -/
noncomputable def chainSum (P : Θ → Kernel α α) (g : α → ENNReal) : List (Θ × ENNReal) → α → ENNReal
  | [], _ => 0
  | (θ, a) :: l, z => ∫⁻ y, (a * g y + chainSum P g l y) ∂P θ z

/-- The sum of the weights. -/
noncomputable def weightTotal (l : List (Θ × ENNReal)) : ENNReal := (l.map Prod.snd).sum

section
variable {P : Θ → Kernel α α} [∀ θ, IsMarkovKernel (P θ)] {g : α → ENNReal} {K : ENNReal}

theorem chainSum_measurable (hg : Measurable g) (l : List (Θ × ENNReal)) : Measurable (chainSum P g l) := by
  induction l with
  | nil => exact measurable_const
  | cons x l ih =>
    obtain ⟨θ, a⟩ := x
    have : Measurable fun y => a * g y + chainSum P g l y := (hg.const_mul a).add ih
    exact this.lintegral_kernel

theorem cappedSum_measurable (hg : Measurable g) (l : List (Θ × ENNReal)) :
    Measurable fun q : ENNReal × α => cappedSum P g K l q.1 q.2 := by
  induction l with
  | nil =>
    show Measurable fun q : ENNReal × α => min 1 (q.1 / K)
    exact measurable_const.min (measurable_fst.div_const K)
  | cons x l ih =>
    obtain ⟨θ, a⟩ := x
    have h1 : Measurable fun p : (ENNReal × α) × α => ((p.1.1 + a * g p.2, p.2) : ENNReal × α) := by
      have : Measurable fun p : (ENNReal × α) × α => a * g p.2 := (hg.comp measurable_snd).const_mul a
      exact ((measurable_fst.comp measurable_fst).add this).prodMk measurable_snd
    have h2 : Measurable fun p : (ENNReal × α) × α => cappedSum P g K l (p.1.1 + a * g p.2) p.2 := ih.comp h1
    exact Measurable.lintegral_kernel_prod_right' (κ := (P θ).comap Prod.snd measurable_snd) h2

theorem cappedSum_step_measurable (hg : Measurable g) (l : List (Θ × ENNReal)) (a c : ENNReal) :
    Measurable fun y => cappedSum P g K l (c + a * g y) y :=
  (cappedSum_measurable hg l).comp (((hg.const_mul a).const_add c).prodMk measurable_id)

theorem cappedSum_le_one (l : List (Θ × ENNReal)) : ∀ (c : ENNReal) (z : α), cappedSum P g K l c z ≤ 1 := by
  induction l with
  | nil => intro c z; exact min_le_left _ _
  | cons x l ih =>
    obtain ⟨θ, a⟩ := x
    intro c z
    calc _ ≤ ∫⁻ _, 1 ∂P θ z := lintegral_mono fun y => ih _ y
      _ = 1 := by simp

theorem cappedSum_le (hg : Measurable g) (l : List (Θ × ENNReal)) : ∀ (c : ENNReal) (z : α),
    cappedSum P g K l c z ≤ (c + chainSum P g l z) / K := by
  induction l with
  | nil =>
    intro c z
    show min 1 (c / K) ≤ (c + 0) / K
    rw [add_zero]
    exact min_le_right _ _
  | cons x l ih =>
    obtain ⟨θ, a⟩ := x
    intro c z
    have hm : Measurable fun y => a * g y + chainSum P g l y := (hg.const_mul a).add (chainSum_measurable hg l)
    calc cappedSum P g K ((θ, a) :: l) c z ≤ ∫⁻ y, (c + (a * g y + chainSum P g l y)) / K ∂P θ z :=
          lintegral_mono fun y => (ih _ y).trans (by rw [add_assoc])
      _ = (c + chainSum P g ((θ, a) :: l) z) / K := by
          simp only [ENNReal.div_eq_inv_mul]
          rw [lintegral_const_mul _ (hm.const_add c), lintegral_add_left measurable_const, lintegral_const, measure_univ, mul_one]
          rfl

theorem chainSum_integral {π : Measure α} (hinv : ∀ θ, P θ ∘ₘ π = π) (hg : Measurable g) (l : List (Θ × ENNReal)) :
    ∫⁻ z, chainSum P g l z ∂π = weightTotal l * ∫⁻ z, g z ∂π := by
  induction l with
  | nil => simp [chainSum, weightTotal]
  | cons x l ih =>
    obtain ⟨θ, a⟩ := x
    have hm : Measurable fun y => a * g y + chainSum P g l y := (hg.const_mul a).add (chainSum_measurable hg l)
    show ∫⁻ z, ∫⁻ y, (a * g y + chainSum P g l y) ∂P θ z ∂π = _
    rw [← Measure.lintegral_bind (P θ).measurable.aemeasurable hm.aemeasurable, hinv θ, lintegral_add_left (hg.const_mul a),
      lintegral_const_mul _ hg, ih, ← add_mul]
    simp [weightTotal]

/-- A sum of rare values is unlikely to be large. -/
theorem cappedSum_small {π : Measure α} (hinv : ∀ θ, P θ ∘ₘ π = π) (hg : Measurable g) (mv : Θ → α → Measure α)
    (stay : Θ → α → ENNReal) (R : α → α) (hP : ∀ θ z, P θ z = mv θ z + stay θ z • Measure.dirac (R z)) {Z : Set α}
    (hR : ∀ z ∈ Z, R z ∈ Z) (hZ : ∀ z ∈ Z, g z = 0) {s c δ d B : ENNReal} (hstay : ∀ θ, ∀ z ∈ Z, stay θ z ≤ s)
    (hmv : ∀ θ, ∀ z ∈ Z, ∃ η : Measure α, η Set.univ ≤ δ ∧ mv θ z ≤ c • π + η) (hB : d + δ + s * B ≤ B)
    (l : List (Θ × ENNReal)) (hl : c * (weightTotal l * (∫⁻ z, g z ∂π) / K) ≤ d) : ∀ z ∈ Z, cappedSum P g K l 0 z ≤ B := by
  induction l with
  | nil => intro z _; simp [cappedSum]
  | cons x l ih =>
    obtain ⟨θ, a⟩ := x
    have hl' : c * (weightTotal l * (∫⁻ z, g z ∂π) / K) ≤ d := by
      refine le_trans ?_ hl
      gcongr
      simp [weightTotal]
    intro z hz
    obtain ⟨η, hη, hle⟩ := hmv θ z hz
    have hm := cappedSum_step_measurable (P := P) (K := K) hg l a 0
    have hm2 : Measurable fun y => (a * g y + chainSum P g l y) / K :=
      ((hg.const_mul a).add (chainSum_measurable hg l)).div_const K
    show ∫⁻ y, cappedSum P g K l (0 + a * g y) y ∂P θ z ≤ B
    rw [hP, lintegral_add_measure, lintegral_smul_measure, lintegral_dirac' _ hm, smul_eq_mul, hZ _ (hR z hz), mul_zero, add_zero]
    refine le_trans (add_le_add ?_ (mul_le_mul' (hstay θ z hz) (ih hl' _ (hR z hz)))) hB
    calc ∫⁻ y, cappedSum P g K l (0 + a * g y) y ∂mv θ z
        ≤ ∫⁻ y, cappedSum P g K l (0 + a * g y) y ∂(c • π + η) := lintegral_mono' hle le_rfl
      _ = c * ∫⁻ y, cappedSum P g K l (0 + a * g y) y ∂π + ∫⁻ y, cappedSum P g K l (0 + a * g y) y ∂η := by
          rw [lintegral_add_measure, lintegral_smul_measure, smul_eq_mul]
      _ ≤ c * ∫⁻ y, (a * g y + chainSum P g l y) / K ∂π + ∫⁻ _, 1 ∂η := by
          gcongr with y y
          · refine (cappedSum_le hg l _ y).trans ?_
            rw [zero_add]
          · exact cappedSum_le_one l _ y
      _ ≤ d + δ := by
          refine add_le_add (le_trans (le_of_eq ?_) hl) (by simpa using hη)
          congr 1
          simp only [ENNReal.div_eq_inv_mul]
          have hm3 : Measurable fun y => a * g y + chainSum P g l y := (hg.const_mul a).add (chainSum_measurable hg l)
          rw [lintegral_const_mul _ hm3, lintegral_add_left (hg.const_mul a),
            lintegral_const_mul _ hg, chainSum_integral hinv hg, ← add_mul]
          simp only [weightTotal, List.map_cons, List.sum_cons]

end

end JaxSgmc
