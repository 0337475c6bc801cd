import Verif.Lemmas.Volume
import Verif.Lemmas.Solver

/-! # Metropolis-Hastings with volume preserving, path-reversible proposals -/

namespace JaxSgmc

open MeasureTheory

theorem Spec.acceptProb_measurable : Measurable Spec.acceptProb := by
  unfold Spec.acceptProb
  fun_prop

/-- The probability flow from `x` to `x'` is symmetric. -/
theorem flow_symm (E E' : ℝ) : Real.exp (-E) * Spec.acceptProb (E' - E) =
    Real.exp (-E') * Spec.acceptProb (E - E') := by
  have : ∀ a b : ℝ, Real.exp (-a) * Spec.acceptProb (b - a) = min (Real.exp (-a)) (Real.exp (-b)) := by
    intro a b
    unfold Spec.acceptProb
    rw [mul_min_of_nonneg _ _ (Real.exp_pos _).le, mul_one, ← Real.exp_add]
    congr 2; ring
  rw [this, this, min_comm]

/-- Proposals `T b` preserve the volume and are inverted by `T (rev b)`; they are accepted with probabilities
`a b` which satisfy detailed balance with respect to the density `d`.  Then the density is stationary. -/
theorem balanced_stationary {X B : Type} [MeasurableSpace X] (ν : Measure X)
    (d : X → ENNReal) (hd : Measurable d) (T : B → X → X) (rev : B ≃ B)
    (hT : ∀ b, MeasurePreserving (T b) ν ν) (hinv : ∀ b x, T (rev b) (T b x) = x)
    (a : B → X → ℝ) (hacc : ∀ b, Measurable (a b)) (h0 : ∀ b x, 0 ≤ a b x) (h1 : ∀ b x, a b x ≤ 1)
    (hsym : ∀ b x, d x * ENNReal.ofReal (a b x) = d (T b x) * ENNReal.ofReal (a (rev b) (T b x)))
    (w : B → ENNReal) (hw : ∀ b, w (rev b) = w b) (F : X → ENNReal) (hF : Measurable F) :
    ∑' b, w b * ∫⁻ x, d x * (ENNReal.ofReal (a b x) * F (T b x) + ENNReal.ofReal (1 - a b x) * F x) ∂ν =
      (∑' b, w b) * ∫⁻ x, d x * F x ∂ν := by
  have hTm := fun b => (hT b).measurable
  -- the flow of accepted proposals
  let A : B → ENNReal := fun b => ∫⁻ x, d x * (ENNReal.ofReal (a b x) * F x) ∂ν
  have hflow : ∀ b, ∫⁻ x, d x * (ENNReal.ofReal (a b x) * F (T b x)) ∂ν = A (rev b) := by
    intro b
    have hm : Measurable fun x => d x * (ENNReal.ofReal (a (rev b) x) * F x) := by
      have := hacc (rev b)
      fun_prop
    refine Eq.trans ?_ ((hT b).lintegral_comp hm)
    refine lintegral_congr fun x => ?_
    rw [← mul_assoc, ← mul_assoc, hsym]
  have hsplit : ∀ b, ∫⁻ x, d x * (ENNReal.ofReal (a b x) * F (T b x) + ENNReal.ofReal (1 - a b x) * F x) ∂ν =
      A (rev b) + ∫⁻ x, d x * (ENNReal.ofReal (1 - a b x) * F x) ∂ν := by
    intro b
    rw [← hflow b, ← lintegral_add_left]
    · exact lintegral_congr fun x => mul_add _ _ _
    · have := hacc b
      have := hF.comp (hTm b)
      fun_prop
  have hmerge : ∀ b, A b + ∫⁻ x, d x * (ENNReal.ofReal (1 - a b x) * F x) ∂ν = ∫⁻ x, d x * F x ∂ν := by
    intro b
    show (∫⁻ x, d x * (ENNReal.ofReal (a b x) * F x) ∂ν) + _ = _
    rw [← lintegral_add_left]
    · refine lintegral_congr fun x => ?_
      rw [← mul_add, ← add_mul, ← ENNReal.ofReal_add (h0 b x)
        (sub_nonneg.2 (h1 b x)), add_sub_cancel, ENNReal.ofReal_one, one_mul]
    · have := hacc b
      fun_prop
  rw [tsum_congr fun b => (by rw [hsplit b, mul_add] :
    w b * ∫⁻ x, d x * (ENNReal.ofReal (a b x) * F (T b x) + ENNReal.ofReal (1 - a b x) * F x) ∂ν =
      w b * A (rev b) + w b * ∫⁻ x, d x * (ENNReal.ofReal (1 - a b x) * F x) ∂ν), ENNReal.tsum_add]
  have hre : ∑' b, w b * A (rev b) = ∑' b, w b * A b := by
    rw [← rev.tsum_eq (fun b => w b * A b)]
    exact tsum_congr fun b => by rw [hw]
  rw [hre, ← ENNReal.tsum_add, ← ENNReal.tsum_mul_right]
  exact tsum_congr fun b => by rw [← mul_add, hmerge]

/-- Integrating over the uniform number of the acceptance step. -/
theorem unif_accept {α : Type} (a : ℝ) (h0 : 0 ≤ a) (h1 : a ≤ 1) (f : α → ENNReal) (y n : α)
    (g : ℝ → α) (hg : ∀ u, 0 ≤ u → g u = if u < a then y else n) :
    ∫⁻ u, f (g u) ∂(volume.restrict (Set.Ico (0 : ℝ) 1)) =
      ENNReal.ofReal a * f y + ENNReal.ofReal (1 - a) * f n := by
  have hU : Set.Ico (0 : ℝ) 1 = Set.Ico 0 a ∪ Set.Ico a 1 := (Set.Ico_union_Ico_eq_Ico h0 h1).symm
  rw [hU, lintegral_union measurableSet_Ico]
  · congr 1
    · rw [setLIntegral_congr_fun measurableSet_Ico (g := fun _ => f y) (fun u hu => by
        rw [hg u hu.1, if_pos hu.2])]
      rw [setLIntegral_const, Real.volume_Ico, sub_zero, mul_comm]
    · rw [setLIntegral_congr_fun measurableSet_Ico (g := fun _ => f n) (fun u hu => by
        rw [hg u (h0.trans hu.1), if_neg (not_lt.2 hu.1)])]
      rw [setLIntegral_const, Real.volume_Ico, mul_comm]
  · exact Set.Ico_disjoint_Ico_same

end JaxSgmc
