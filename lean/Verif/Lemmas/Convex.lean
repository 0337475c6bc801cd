import Verif.Spec.Sgld
import Verif.Spec.Solver
import Mathlib.Analysis.Calculus.Deriv.MeanValue
import Mathlib.Analysis.Calculus.FDeriv.Pi
import Mathlib.Data.Matrix.Mul
import Mathlib.Tactic.Ring
import Mathlib.Tactic.Linarith
import Mathlib.Tactic.FieldSimp
import Mathlib.Tactic.Positivity
import Verif.Props.Gradient

/-! # Strongly convex potentials: inequalities for a Langevin step -/

namespace JaxSgmc

open Matrix

variable {ι : Type} [Fintype ι]

theorem sqLen_dot (v : ι → ℝ) : Spec.sqLen v = v ⬝ᵥ v := by
  unfold Spec.sqLen dotProduct
  exact Finset.sum_congr rfl fun i _ => sq _

theorem dot_nonneg (v : ι → ℝ) : 0 ≤ v ⬝ᵥ v := Finset.sum_nonneg fun i _ => mul_self_nonneg _

theorem sqLen_nonneg (v : ι → ℝ) : 0 ≤ Spec.sqLen v := by rw [sqLen_dot]; exact dot_nonneg v

/-- `2⟨a, b⟩ ≤ t|a|² + |b|²/t`. -/
theorem dot_amgm (a b : ι → ℝ) {t : ℝ} (ht : 0 < t) : 2 * (a ⬝ᵥ b) ≤ t * (a ⬝ᵥ a) + (b ⬝ᵥ b) / t := by
  unfold dotProduct
  rw [Finset.mul_sum, Finset.mul_sum, Finset.sum_div, ← Finset.sum_add_distrib]
  refine Finset.sum_le_sum fun i _ => ?_
  have h : 0 ≤ (t * a i - b i) ^ 2 / t := by positivity
  have e : (t * a i - b i) ^ 2 / t = t * (a i * a i) + b i * b i / t - 2 * (a i * b i) := by
    field_simp; ring
  linarith

theorem dot_amgm_abs (a b : ι → ℝ) {t : ℝ} (ht : 0 < t) : |2 * (a ⬝ᵥ b)| ≤ t * (a ⬝ᵥ a) + (b ⬝ᵥ b) / t := by
  rw [abs_le]
  refine ⟨?_, dot_amgm a b ht⟩
  have h := dot_amgm (-a) b ht
  simp only [neg_dotProduct, dotProduct_neg, neg_neg] at h
  linarith

theorem sq_add_le (a b : ι → ℝ) : (a + b) ⬝ᵥ (a + b) ≤ 2 * (a ⬝ᵥ a) + 2 * (b ⬝ᵥ b) := by
  have h := dot_amgm a b one_pos
  simp only [add_dotProduct, dotProduct_add, dotProduct_comm b a]
  linarith

section
variable [DecidableEq ι] {U : (ι → ℝ) → ℝ} {G : (ι → ℝ) → ι → ℝ} {m L : ℝ} (hU : Spec.Convex U G m L)

include hU in
theorem convex_fderiv (x v : ι → ℝ) : fderiv ℝ U x v = G x ⬝ᵥ v := by
  have h : ∀ i, G x i = fderiv ℝ U x (Pi.single i 1) := fun i => by
    rw [hU.gradient, ← gradOf_eq_partial (hU.differentiable x)]
    rfl
  have e : v = ∑ i, v i • (Pi.single i (1 : ℝ) : ι → ℝ) := by
    funext j
    simp [Finset.sum_apply, Pi.single_apply]
  conv_lhs => rw [e, map_sum]
  unfold dotProduct
  refine Finset.sum_congr rfl fun i _ => ?_
  rw [map_smul, h, smul_eq_mul, mul_comm]

include hU in
/-- Strong convexity: the potential lies above its tangent parabolas. -/
theorem convex_above (x y : ι → ℝ) : U x + G x ⬝ᵥ (y - x) + m / 2 * Spec.sqLen (y - x) ≤ U y := by
  set v := y - x with hv
  let φ : ℝ → ℝ := fun t => U (x + t • v) - t * (G x ⬝ᵥ v) - t ^ 2 * (m / 2 * (v ⬝ᵥ v))
  have hd : ∀ t, HasDerivAt φ (G (x + t • v) ⬝ᵥ v - G x ⬝ᵥ v - 2 * t * (m / 2 * (v ⬝ᵥ v))) t := by
    intro t
    have h1 : HasDerivAt (fun t : ℝ => x + t • v) v t := by
      have := ((hasDerivAt_id t).smul_const v).const_add x
      simpa using this
    have h2 := (hU.differentiable (x + t • v)).hasFDerivAt.comp_hasDerivAt t h1
    rw [convex_fderiv hU] at h2
    have h3 : HasDerivAt (fun t : ℝ => t * (G x ⬝ᵥ v)) (G x ⬝ᵥ v) t := by
      simpa using (hasDerivAt_id t).mul_const (G x ⬝ᵥ v)
    have h4 : HasDerivAt (fun t : ℝ => t ^ 2 * (m / 2 * (v ⬝ᵥ v))) (2 * t * (m / 2 * (v ⬝ᵥ v))) t := by
      simpa using (hasDerivAt_pow 2 t).mul_const (m / 2 * (v ⬝ᵥ v))
    exact (h2.sub h3).sub h4
  have hmono : MonotoneOn φ (Set.Icc 0 1) := by
    refine monotoneOn_of_deriv_nonneg (convex_Icc 0 1) (fun t _ => (hd t).continuousAt.continuousWithinAt)
      (fun t _ => (hd t).differentiableAt.differentiableWithinAt) fun t ht => ?_
    rw [interior_Icc] at ht
    rw [(hd t).deriv]
    have h1 := hU.monotone (x + t • v) x
    rw [sqLen_dot, add_sub_cancel_left] at h1
    have h2 : ∑ i, (G (x + t • v) i - G x i) * ((x + t • v) i - x i) = t * ((G (x + t • v) - G x) ⬝ᵥ v) := by
      unfold dotProduct
      rw [Finset.mul_sum]
      refine Finset.sum_congr rfl fun i _ => ?_
      simp only [Pi.add_apply, Pi.smul_apply, Pi.sub_apply, smul_eq_mul]
      ring
    rw [h2, smul_dotProduct, dotProduct_smul, smul_eq_mul, smul_eq_mul] at h1
    have h3 : t * (m * t * (v ⬝ᵥ v)) ≤ t * (G (x + t • v) ⬝ᵥ v - G x ⬝ᵥ v) := by
      rw [← sub_dotProduct]; linarith
    have h4 := le_of_mul_le_mul_left h3 ht.1
    nlinarith
  have h := hmono (Set.left_mem_Icc.2 zero_le_one) (Set.right_mem_Icc.2 zero_le_one) zero_le_one
  have e0 : φ 0 = U x := by simp [φ]
  have e1 : φ 1 = U y - G x ⬝ᵥ v - m / 2 * (v ⬝ᵥ v) := by simp [φ, hv]
  rw [e0, e1] at h
  rw [sqLen_dot]
  linarith

include hU in
theorem convex_lipschitz_dot (x y : ι → ℝ) : (G x - G y) ⬝ᵥ (G x - G y) ≤ L ^ 2 * ((x - y) ⬝ᵥ (x - y)) := by
  have := hU.lipschitz x y
  rwa [sqLen_dot, sqLen_dot] at this

include hU in
theorem convex_monotone_dot (x y : ι → ℝ) : m * ((x - y) ⬝ᵥ (x - y)) ≤ (G x - G y) ⬝ᵥ (x - y) := by
  have := hU.monotone x y
  rwa [sqLen_dot] at this

include hU in
/-- A gradient step contracts. -/
theorem convex_contract (x y : ι → ℝ) {h : ℝ} (hh : 0 ≤ h) :
    (x - y - h • (G x - G y)) ⬝ᵥ (x - y - h • (G x - G y)) ≤ (1 - 2 * m * h + h ^ 2 * L ^ 2) * ((x - y) ⬝ᵥ (x - y)) := by
  have h1 := convex_monotone_dot hU x y
  have h2 := convex_lipschitz_dot hU x y
  set v := x - y
  set d := G x - G y
  have e : (v - h • d) ⬝ᵥ (v - h • d) = v ⬝ᵥ v - 2 * h * (d ⬝ᵥ v) + h ^ 2 * (d ⬝ᵥ d) := by
    simp only [sub_dotProduct, dotProduct_sub, smul_dotProduct, dotProduct_smul, smul_eq_mul, dotProduct_comm v d]
    ring
  rw [e]
  have h3 := mul_le_mul_of_nonneg_left h1 hh
  have h4 := mul_le_mul_of_nonneg_left h2 (sq_nonneg h)
  nlinarith

include hU in
/-- The error of the trapezoidal rule. -/
theorem convex_trapezoid (q q' : ι → ℝ) :
    |U q' - U q - (1 / 2) * ((G q + G q') ⬝ᵥ (q' - q))| ≤ L / 2 * ((q' - q) ⬝ᵥ (q' - q)) := by
  have h1 := convex_above hU q q'
  have h2 := convex_above hU q' q
  have hm := hU.m_pos
  have hL := hU.L_pos
  have h3 := convex_lipschitz_dot hU q' q
  have h4 := dot_amgm (q' - q) (G q' - G q) hL
  have h5 := sqLen_nonneg (q' - q)
  have h6 := sqLen_nonneg (q - q')
  have e1 : (G q + G q') ⬝ᵥ (q' - q) = 2 * (G q ⬝ᵥ (q' - q)) + (q' - q) ⬝ᵥ (G q' - G q) := by
    rw [dotProduct_comm (q' - q), sub_dotProduct, add_dotProduct]; ring
  have e2 : G q' ⬝ᵥ (q - q') = -(G q ⬝ᵥ (q' - q)) - (q' - q) ⬝ᵥ (G q' - G q) := by
    rw [dotProduct_comm (q' - q), sub_dotProduct, ← neg_sub q' q, dotProduct_neg]; ring
  have h7 : ((G q' - G q) ⬝ᵥ (G q' - G q)) / L ≤ L * ((q' - q) ⬝ᵥ (q' - q)) := by
    rw [div_le_iff₀ hL]; nlinarith
  rw [e2] at h2
  rw [e1, abs_le]
  have h8 : 0 ≤ m / 2 * Spec.sqLen (q' - q) := by positivity
  have h9 : 0 ≤ m / 2 * Spec.sqLen (q - q') := by positivity
  constructor <;> nlinarith

end

/-! ## The Metropolis adjusted step -/

/-- The Langevin proposal. -/
noncomputable def langevinMove (G : (ι → ℝ) → ι → ℝ) (h : ℝ) (y ξ : ι → ℝ) : ι → ℝ := y - h • G y + Real.sqrt (2 * h) • ξ

/-- The noise with which the reverse move would be made (negated). -/
noncomputable def langevinBack (G : (ι → ℝ) → ι → ℝ) (h : ℝ) (y ξ : ι → ℝ) : ι → ℝ :=
  (Real.sqrt (2 * h) / 2) • (G y + G (langevinMove G h y ξ)) - ξ

/-- The energy error of the move. -/
noncomputable def moveError (U : (ι → ℝ) → ℝ) (G : (ι → ℝ) → ι → ℝ) (h : ℝ) (y ξ : ι → ℝ) : ℝ :=
  (U (langevinMove G h y ξ) + (langevinBack G h y ξ ⬝ᵥ langevinBack G h y ξ) / 2) - (U y + (ξ ⬝ᵥ ξ) / 2)

section
variable [DecidableEq ι] {U : (ι → ℝ) → ℝ} {G : (ι → ℝ) → ι → ℝ} {m L : ℝ} (hU : Spec.Convex U G m L)

omit [DecidableEq ι] in
theorem moveError_eq (U : (ι → ℝ) → ℝ) (G : (ι → ℝ) → ι → ℝ) {h : ℝ} (hh : 0 ≤ h) (y ξ : ι → ℝ) :
    let q' := langevinMove G h y ξ
    moveError U G h y ξ = (U q' - U y - (1 / 2) * ((G y + G q') ⬝ᵥ (q' - y)))
      + h / 4 * ((G y + G q') ⬝ᵥ (G q' - G y)) := by
  intro q'
  have hs : Real.sqrt (2 * h) * Real.sqrt (2 * h) = 2 * h := Real.mul_self_sqrt (by linarith)
  have hΔ : q' - y = Real.sqrt (2 * h) • ξ - h • G y := by
    simp only [q', langevinMove]; abel
  set r := Real.sqrt (2 * h) with hr
  have e1 : langevinBack G h y ξ = (r / 2) • (G y + G q') - ξ := rfl
  unfold moveError
  rw [e1, hΔ]
  show U q' + _ / 2 - _ = _
  simp only [sub_dotProduct, dotProduct_sub, smul_dotProduct, dotProduct_smul, smul_eq_mul, add_dotProduct, dotProduct_add,
    dotProduct_comm ξ (G y), dotProduct_comm ξ (G q'), dotProduct_comm (G q') (G y)]
  have hs' : r ^ 2 = 2 * h := by rw [sq]; exact hs
  linear_combination ((G y ⬝ᵥ G y) + 2 * (G y ⬝ᵥ G q') + (G q' ⬝ᵥ G q')) / 8 * hs'

/-- The constant of the rejection probability. -/
noncomputable def rejectConst (L : ℝ) : ℝ := 2 * L + 2 * L ^ 2 + 1 / 4

omit [DecidableEq ι] in
theorem move_length (G : (ι → ℝ) → ι → ℝ) {h : ℝ} (hh : 0 ≤ h) (h1 : h ≤ 1) (y ξ : ι → ℝ) :
    (langevinMove G h y ξ - y) ⬝ᵥ (langevinMove G h y ξ - y) ≤ 4 * h * (G y ⬝ᵥ G y + ξ ⬝ᵥ ξ) := by
  have hs : Real.sqrt (2 * h) * Real.sqrt (2 * h) = 2 * h := Real.mul_self_sqrt (by linarith)
  have e : langevinMove G h y ξ - y = (-h) • G y + Real.sqrt (2 * h) • ξ := by
    unfold langevinMove
    rw [neg_smul]
    abel
  rw [e]
  refine (sq_add_le _ _).trans ?_
  simp only [smul_dotProduct, dotProduct_smul, smul_eq_mul]
  have h2 := dot_nonneg (G y)
  have h3 : Real.sqrt (2 * h) * (Real.sqrt (2 * h) * (ξ ⬝ᵥ ξ)) = 2 * h * (ξ ⬝ᵥ ξ) := by rw [← mul_assoc, hs]
  rw [h3]
  nlinarith [mul_nonneg hh h2, mul_nonneg (mul_nonneg hh h2) (sub_nonneg.2 h1)]

include hU in
theorem moveError_le {h : ℝ} (hh : 0 < h) (h1 : h ≤ 1) (y ξ : ι → ℝ) :
    |moveError U G h y ξ| ≤ rejectConst L * h * (G y ⬝ᵥ G y + ξ ⬝ᵥ ξ) := by
  have e := moveError_eq U G hh.le y ξ
  have hlen := move_length G hh.le h1 y ξ
  simp only at e
  rw [e]
  set q' := langevinMove G h y ξ with hq
  have t1 := convex_trapezoid hU y q'
  have hL := hU.L_pos
  have lip := convex_lipschitz_dot hU q' y
  set d := G q' - G y with hd
  have e2 : (G y + G q') ⬝ᵥ d = 2 * (G y ⬝ᵥ d) + d ⬝ᵥ d := by
    have : G y + G q' = (2 : ℝ) • G y + d := by rw [hd, two_smul]; abel
    rw [this, add_dotProduct, smul_dotProduct, smul_eq_mul]
  have t2 := dot_amgm_abs (G y) d hh
  have hdd := dot_nonneg d
  have t3 : |h / 4 * ((G y + G q') ⬝ᵥ d)| ≤ h / 4 * (h * (G y ⬝ᵥ G y) + (d ⬝ᵥ d) / h + d ⬝ᵥ d) := by
    rw [abs_mul, abs_of_pos (by positivity : 0 < h / 4), e2]
    refine mul_le_mul_of_nonneg_left ((abs_add_le _ _).trans ?_) (by positivity)
    rw [abs_of_nonneg hdd]
    linarith
  have e3 : h / 4 * (h * (G y ⬝ᵥ G y) + (d ⬝ᵥ d) / h + d ⬝ᵥ d) = h ^ 2 / 4 * (G y ⬝ᵥ G y) + (1 + h) / 4 * (d ⬝ᵥ d) := by
    field_simp
    ring
  rw [e3] at t3
  have hg := dot_nonneg (G y)
  have hx := dot_nonneg ξ
  set Δ := (q' - y) ⬝ᵥ (q' - y) with hΔ
  set S := G y ⬝ᵥ G y + ξ ⬝ᵥ ξ with hS
  have hS0 : 0 ≤ S := add_nonneg hg hx
  refine (abs_add_le _ _).trans ((add_le_add t1 t3).trans ?_)
  have b1 : (1 + h) / 4 * (d ⬝ᵥ d) ≤ L ^ 2 / 2 * Δ := by nlinarith
  have b2 : h ^ 2 / 4 * (G y ⬝ᵥ G y) ≤ 1 / 4 * (h * S) := by
    have : G y ⬝ᵥ G y ≤ S := by rw [hS]; linarith
    have : h ^ 2 * (G y ⬝ᵥ G y) ≤ h * S := by
      calc h ^ 2 * (G y ⬝ᵥ G y) = h * (h * (G y ⬝ᵥ G y)) := by ring
        _ ≤ h * (1 * S) := mul_le_mul_of_nonneg_left (mul_le_mul h1 this hg zero_le_one) hh.le
        _ = h * S := by ring
    linarith
  have b3 : (L / 2 + L ^ 2 / 2) * Δ ≤ (L / 2 + L ^ 2 / 2) * (4 * h * S) :=
    mul_le_mul_of_nonneg_left hlen (by positivity)
  unfold rejectConst
  nlinarith

include hU in
/-- The probability to reject the move. -/
theorem reject_le {h : ℝ} (hh : 0 < h) (h1 : h ≤ 1) (y ξ : ι → ℝ) :
    1 - Spec.acceptProb (moveError U G h y ξ) ≤ rejectConst L * h * (G y ⬝ᵥ G y + ξ ⬝ᵥ ξ) := by
  have h2 := moveError_le hU hh h1 y ξ
  refine le_trans ?_ h2
  unfold Spec.acceptProb
  rcases le_total 1 (Real.exp (-moveError U G h y ξ)) with h3 | h3
  · rw [min_eq_left h3, sub_self]; exact abs_nonneg _
  · rw [min_eq_right h3]
    have := Real.add_one_le_exp (-moveError U G h y ξ)
    exact le_trans (by linarith) (le_abs_self _)

end

end JaxSgmc
