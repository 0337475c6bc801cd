import Verif.Spec.MassRun
import Verif.Spec.Adaption
import Verif.Props.AmagoldErgodic

/-!
# Lemmas: the path map of the leapfrog integrator depends measurably on a diagonal mass
-/

namespace JaxSgmc

open MeasureTheory

variable {ι : Type} [Fintype ι]

/-- The diagonal mass matrix with the masses `c`. -/
noncomputable def diagonalMass (c : ι → ℝ) : MassMatrix ι := Spec.usedMass none (some c)

/-- The inverse of the square root of a diagonal mass matrix. -/
noncomputable def diagonalRoot (c : ι → ℝ) : (ι → ℝ) →ₗ[ℝ] (ι → ℝ) where
  toFun r i := r i / Real.sqrt (c i)
  map_add' a b := by funext i; simp [add_div]
  map_smul' a b := by funext i; simp [mul_div_assoc]

theorem diagonalRoot_inverse {c : ι → ℝ} (hc : ∀ i, 0 < c i) (r : ι → ℝ) :
    (diagonalMass c).sqrt.mul (diagonalRoot c r) = r := by
  funext i
  have : Real.sqrt (c i) ≠ 0 := (Real.sqrt_pos.2 (hc i)).ne'
  show Real.sqrt (c i) * (r i / Real.sqrt (c i)) = r i
  field_simp

section
variable {X : Type} [MeasurableSpace X] {L : ℕ} {c : X → ι → ℝ} (hc : Measurable c)

include hc

theorem massInv_param {y : X → ι → ℝ} (hy : Measurable y) : Measurable fun q => (diagonalMass (c q)).inv.mul (y q) := by
  refine measurable_pi_lambda _ fun i => ?_
  have h1 : Measurable fun q => c q i := (measurable_pi_apply i).comp hc
  have h2 : Measurable fun q => y q i := (measurable_pi_apply i).comp hy
  show Measurable fun q => (c q i)⁻¹ * y q i
  fun_prop

theorem massSqrt_param {y : X → ι → ℝ} (hy : Measurable y) : Measurable fun q => (diagonalMass (c q)).sqrt.mul (y q) := by
  refine measurable_pi_lambda _ fun i => ?_
  have h1 : Measurable fun q => c q i := (measurable_pi_apply i).comp hc
  have h2 : Measurable fun q => y q i := (measurable_pi_apply i).comp hy
  show Measurable fun q => Real.sqrt (c q i) * y q i
  fun_prop

theorem massRoot_param {y : X → ι → ℝ} (hy : Measurable y) : Measurable fun q => diagonalRoot (c q) (y q) := by
  refine measurable_pi_lambda _ fun i => ?_
  have h1 : Measurable fun q => c q i := (measurable_pi_apply i).comp hc
  have h2 : Measurable fun q => y q i := (measurable_pi_apply i).comp hy
  show Measurable fun q => y q i / Real.sqrt (c q i)
  fun_prop

theorem driftMass_param (t : ℝ) {y : X → PathSpace ι L} (hy : Measurable y) :
    Measurable fun q => drift t (diagonalMass (c q)) (y q) := by
  have h2 : Measurable fun q => (y q).1.2 := by fun_prop
  have h4 := massInv_param hc h2
  unfold drift
  fun_prop

theorem kickMass_param (γ h : ℝ) {g : (ι → ℝ) → (ι → ℝ)} (hg : Measurable g) (n : Fin L) {y : X → PathSpace ι L}
    (hy : Measurable y) : Measurable fun q => kickMap γ h (diagonalMass (c q)) (diagonalRoot (c q)) g n (y q) := by
  have h1 : Measurable fun q => (y q).1.1 := by fun_prop
  have h2 : Measurable fun q => (y q).1.2 := by fun_prop
  have hg1 : Measurable fun q => g (y q).1.1 := hg.comp h1
  have hj : ∀ j, Measurable fun q => (y q).2 j := fun j => (measurable_pi_apply j).comp (measurable_snd.comp hy)
  have hξ : Measurable fun q => fun i : ι => (y q).2 (n, i) := measurable_pi_lambda _ fun i => hj _
  have hsx := massSqrt_param hc hξ
  have hk : Measurable fun q => kick γ h (diagonalMass (c q)) (y q).1.2 (g (y q).1.1) (fun i => (y q).2 (n, i)) := by
    unfold kick
    exact (((h2.const_smul (1 - h * γ)).add (hg1.const_smul (-h))).add
      (hsx.const_smul (Real.sqrt (4 * γ * h)))).const_smul (1 / (1 + h * γ))
  have hr : Measurable fun q => kickRev γ h (diagonalRoot (c q) ((y q).1.2 +
      kick γ h (diagonalMass (c q)) (y q).1.2 (g (y q).1.1) (fun i => (y q).2 (n, i)))) (fun i => (y q).2 (n, i)) := by
    unfold kickRev
    exact hξ.add ((massRoot_param hc (h2.add hk)).const_smul (-Real.sqrt (h * γ)))
  refine (h1.prodMk hk).prodMk (measurable_pi_lambda _ fun j => ?_)
  by_cases hjn : j.1 = n
  · simp only [hjn, if_true]
    exact (measurable_pi_apply j.2).comp hr
  · simp only [hjn, if_false]
    exact hj j

theorem flowMass_param (γ h : ℝ) {g : ℕ → (ι → ℝ) → (ι → ℝ)} (hg : ∀ n, Measurable (g n)) {y : X → PathSpace ι L}
    (hy : Measurable y) (n : ℕ) :
    Measurable fun q => leapFlow γ h (diagonalMass (c q)) (diagonalRoot (c q)) g n (y q) := by
  induction n with
  | zero => exact hy
  | succ n ih =>
    simp only [leapFlow]
    by_cases hn : n < L
    · simp only [hn, dif_pos]
      by_cases h0 : n = 0
      · simp only [h0, if_true] at ih ⊢
        exact kickMass_param hc γ h (hg 0) _ ih
      · simp only [h0, if_false]
        exact kickMass_param hc γ h (hg n) _ (driftMass_param hc h ih)
    · simp only [hn, dif_neg, not_false_eq_true]
      exact ih

/-- The path map depends measurably on the masses. -/
theorem leapMass_param (γ h : ℝ) {g : ℕ → (ι → ℝ) → (ι → ℝ)} (hg : ∀ n, Measurable (g n)) {y : X → PathSpace ι L}
    (hy : Measurable y) : Measurable fun q => leapMap γ h (diagonalMass (c q)) (diagonalRoot (c q)) g (y q) := by
  have hd := driftMass_param hc (h / 2) (flowMass_param hc γ h hg (driftMass_param hc (h / 2) hy) L)
  exact flipMap_measurePreserving.measurable.comp hd

theorem energyMass_param {U : (ι → ℝ) → ℝ} (hU : Measurable U) {y : X → PathSpace ι L} (hy : Measurable y) :
    Measurable fun q => pathEnergy (diagonalMass (c q)) U (y q) := by
  have h1 : Measurable fun q => (y q).1.1 := by fun_prop
  have h2 : Measurable fun q => (y q).1.2 := by fun_prop
  have h3 := massInv_param hc h2
  have hj : ∀ j, Measurable fun q => (y q).2 j := fun j => (measurable_pi_apply j).comp (measurable_snd.comp hy)
  unfold pathEnergy Spec.kinetic
  refine ((hU.comp h1).add (Measurable.div_const (Finset.measurable_fun_sum _ fun i _ => ?_) _)).add
    (Measurable.div_const (Finset.measurable_fun_sum _ fun j _ => (hj j).mul (hj j)) _)
  exact ((measurable_pi_apply i).comp h2).mul ((measurable_pi_apply i).comp h3)

end

end JaxSgmc
