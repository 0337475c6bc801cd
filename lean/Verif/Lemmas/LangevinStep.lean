import Verif.Lemmas.Mala
import Verif.Lemmas.Oracle

/-! # One step of SGLD and of the Metropolis adjusted Langevin algorithm with the same noise -/

namespace JaxSgmc

open Matrix MeasureTheory

variable {ι β : Type} [Fintype ι]

/-! ## The mini-batch -/

/-- The law of the mini-batch. -/
noncomputable def batchLaw [MeasurableSpace β] (w : β → ENNReal) : Measure β := Measure.sum fun b => w b • Measure.dirac b

theorem batchLaw_sfinite [MeasurableSpace β] [Countable β] (w : β → ENNReal) : SFinite (batchLaw w) := by
  unfold batchLaw; infer_instance

theorem batchLaw_lintegral [MeasurableSpace β] [MeasurableSingletonClass β] (w : β → ENNReal) (f : β → ENNReal) :
    ∫⁻ b, f b ∂batchLaw w = ∑' b, w b * f b := by
  unfold batchLaw
  rw [lintegral_sum_measure]
  refine tsum_congr fun b => ?_
  rw [lintegral_smul_measure, lintegral_dirac, smul_eq_mul]

/-- The mean squared distance after adding mean zero noise. -/
theorem unbiased_sq {w : β → ENNReal} {g : (ι → ℝ) → β → (ι → ℝ)} {G : (ι → ℝ) → ι → ℝ} {s : ℝ}
    (hg : Spec.Unbiased w g G s) (x c : ι → ℝ) (h : ℝ) :
    ∑' b, w b * ENNReal.ofReal ((c - h • (g x b - G x)) ⬝ᵥ (c - h • (g x b - G x))) ≤
      ENNReal.ofReal (c ⬝ᵥ c + h ^ 2 * (s * (1 + Spec.sqLen x))) := by
  have hfin : ∀ b, w b ≠ ⊤ := fun b => ne_top_of_le_ne_top ENNReal.one_ne_top (hg.probability ▸ ENNReal.le_tsum b)
  have hp0 : ∀ b, 0 ≤ (w b).toReal := fun b => ENNReal.toReal_nonneg
  have conv : ∀ b {q : ℝ}, 0 ≤ q → w b * ENNReal.ofReal q = ENNReal.ofReal ((w b).toReal * q) := by
    intro b q hq
    rw [ENNReal.ofReal_mul (hp0 b), ENNReal.ofReal_toReal (hfin b)]
  have hsum1 : HasSum (fun b => (w b).toReal) 1 := by
    have h1 : ∑' b, w b ≠ ⊤ := by rw [hg.probability]; exact ENNReal.one_ne_top
    have h2 := (ENNReal.summable_toReal h1).hasSum
    rwa [← ENNReal.tsum_toReal_eq hfin, hg.probability, ENNReal.toReal_one] at h2
  set e : β → (ι → ℝ) := fun b => g x b - G x with he
  -- the noise has mean zero
  have hmean : HasSum (fun b => (w b).toReal * (c ⬝ᵥ e b)) 0 := by
    have h1 : ∀ i ∈ Finset.univ, HasSum (fun b => (w b).toReal * (c i * e b i)) 0 := by
      intro i _
      have h2 := ((hg.mean x i).sub (hsum1.mul_right (G x i))).mul_left (c i)
      rw [one_mul, sub_self, mul_zero] at h2
      refine h2.congr_fun ?_ |> fun h => h
      intro b
      simp only [he, Pi.sub_apply]
      ring
    have h3 := hasSum_sum h1
    rw [Finset.sum_const_zero] at h3
    refine h3.congr_fun ?_ |> fun h => h
    intro b
    unfold dotProduct
    rw [Finset.mul_sum]
  have hvar := hg.variance x
  have hv0 : 0 ≤ s * (1 + Spec.sqLen x) := mul_nonneg hg.s_nonneg (by have := sqLen_nonneg x; linarith)
  have hve : ∑' b, ENNReal.ofReal ((w b).toReal * (e b ⬝ᵥ e b)) ≤ ENNReal.ofReal (s * (1 + Spec.sqLen x)) := by
    refine le_trans (le_of_eq (tsum_congr fun b => ?_)) hvar
    rw [sqLen_dot, conv b (dot_nonneg _)]
  have hsv : Summable fun b => (w b).toReal * (e b ⬝ᵥ e b) := by
    have h1 := ENNReal.summable_toReal (ne_top_of_le_ne_top ENNReal.ofReal_ne_top hve)
    refine h1.congr fun b => ?_
    rw [ENNReal.toReal_ofReal (mul_nonneg (hp0 b) (dot_nonneg _))]
  have hvr : ∑' b, (w b).toReal * (e b ⬝ᵥ e b) ≤ s * (1 + Spec.sqLen x) := by
    rw [← ENNReal.ofReal_tsum_of_nonneg (fun b => mul_nonneg (hp0 b) (dot_nonneg _)) hsv] at hve
    exact (ENNReal.ofReal_le_ofReal_iff hv0).1 hve
  have hall : HasSum (fun b => (w b).toReal * ((c - h • e b) ⬝ᵥ (c - h • e b)))
      (c ⬝ᵥ c + h ^ 2 * ∑' b, (w b).toReal * (e b ⬝ᵥ e b)) := by
    have h1 := ((hsum1.mul_right (c ⬝ᵥ c)).add (hmean.mul_left (-(2 * h)))).add (hsv.hasSum.mul_left (h ^ 2))
    rw [one_mul, mul_zero, add_zero] at h1
    refine h1.congr_fun ?_ |> fun h => h
    intro b
    simp only [sub_dotProduct, dotProduct_sub, smul_dotProduct, dotProduct_smul, smul_eq_mul, dotProduct_comm (e b) c]
    ring
  rw [tsum_congr fun b => conv b (dot_nonneg _),
    ← ENNReal.ofReal_tsum_of_nonneg (fun b => mul_nonneg (hp0 b) (dot_nonneg _)) hall.summable, hall.tsum_eq]
  refine ENNReal.ofReal_le_ofReal ?_
  have := mul_le_mul_of_nonneg_left hvr (sq_nonneg h)
  linarith

/-! ## The coupled step -/

/-- The random numbers of one update: mini-batch, noise and the uniform number of the Metropolis adjusted algorithm. -/
noncomputable def stepNoise (ι : Type) [Fintype ι] [MeasurableSpace β] (w : β → ENNReal) : Measure (β × (ι → ℝ) × ℝ) :=
  (batchLaw w).prod ((Spec.normals ι).prod Spec.unif)

/-- One update of SGLD. -/
noncomputable def sgldNext (g : (ι → ℝ) → β → (ι → ℝ)) (h : ℝ) (v : β × (ι → ℝ) × ℝ) (x : ι → ℝ) : ι → ℝ :=
  x - h • g x v.1 + Real.sqrt (2 * h) • v.2.1

/-- The step size up to which the estimates hold. -/
noncomputable def maxStep (m L s : ℝ) : ℝ := min (min 1 (1 / m)) (m / (2 * (L ^ 2 * (1 + m) + 2 * s)))

/-- The local error. -/
noncomputable def localError (G : (ι → ℝ) → ι → ℝ) (m L s : ℝ) (y ξ : ι → ℝ) : ℝ :=
  s * (1 + 2 * (y ⬝ᵥ y)) + 4 * rejectConst L ^ 2 / m * (G y ⬝ᵥ G y + ξ ⬝ᵥ ξ) ^ 3
    + 4 * rejectConst L * (G y ⬝ᵥ G y + ξ ⬝ᵥ ξ) ^ 2

theorem maxStep_pos {m L s : ℝ} (hm : 0 < m) (hL : 0 < L) (hs : 0 ≤ s) : 0 < maxStep m L s := by
  unfold maxStep
  refine lt_min (lt_min one_pos (by positivity)) (div_pos hm ?_)
  positivity

theorem maxStep_le_one {m L s h : ℝ} (hh : h ≤ maxStep m L s) : h ≤ 1 :=
  hh.trans ((min_le_left _ _).trans (min_le_left _ _))

theorem maxStep_factor {m L s h : ℝ} (hm : 0 < m) (hh : h ≤ maxStep m L s) : 0 ≤ 1 - m * h / 2 := by
  have h1 : h ≤ 1 / m := hh.trans ((min_le_left _ _).trans (min_le_right _ _))
  rw [le_div_iff₀ hm] at h1
  linarith

theorem maxStep_le {m L s h : ℝ} (hm : 0 < m) (hL : 0 < L) (hs : 0 ≤ s) (hh : h ≤ maxStep m L s) :
    h * (L ^ 2 * (1 + m) + 2 * s) ≤ m / 2 := by
  have h1 := hh.trans (min_le_right _ _)
  have h2 : 0 < 2 * (L ^ 2 * (1 + m) + 2 * s) := by positivity
  rw [le_div_iff₀ h2] at h1
  linarith

section
variable [DecidableEq ι] {U : (ι → ℝ) → ℝ} {G : (ι → ℝ) → ι → ℝ} {m L : ℝ} (hU : Spec.Convex U G m L)

theorem rejectConst_pos (hL : 0 < L) : 0 < rejectConst L := by unfold rejectConst; positivity

include hU in
/-- The inequality of one step. -/
theorem step_real {s h : ℝ} (hs : 0 ≤ s) (hh : 0 < h) (hmax : h ≤ maxStep m L s) (x y ξ : ι → ℝ) :
    let a := x - y - h • (G x - G y)
    let Δ := langevinMove G h y ξ - y
    let R := 1 - Spec.acceptProb (moveError U G h y ξ)
    a ⬝ᵥ a + R * (2 * (a ⬝ᵥ Δ) + Δ ⬝ᵥ Δ) + h ^ 2 * (s * (1 + Spec.sqLen x)) ≤
      (1 - m * h / 2) * ((x - y) ⬝ᵥ (x - y)) + h ^ 2 * localError G m L s y ξ := by
  intro a Δ R
  have hm := hU.m_pos
  have hL := hU.L_pos
  have h1 : h ≤ 1 := maxStep_le_one hmax
  have hc := rejectConst_pos hL
  set c := rejectConst L with hcdef
  set S := G y ⬝ᵥ G y + ξ ⬝ᵥ ξ with hS
  have hS0 : 0 ≤ S := add_nonneg (dot_nonneg _) (dot_nonneg _)
  have hR0 : 0 ≤ R := sub_nonneg.2 (min_le_left _ _)
  have hR : R ≤ c * h * S := reject_le hU hh h1 y ξ
  have hΔ : Δ ⬝ᵥ Δ ≤ 4 * h * S := move_length G hh.le h1 y ξ
  have hΔ0 := dot_nonneg Δ
  have hA : a ⬝ᵥ a ≤ _ := convex_contract hU x y hh.le
  set D := (x - y) ⬝ᵥ (x - y) with hD
  have hD0 : 0 ≤ D := dot_nonneg _
  -- the mixed term
  have t1 : R * (2 * (a ⬝ᵥ Δ)) ≤ m * h * (a ⬝ᵥ a) + R ^ 2 * (Δ ⬝ᵥ Δ) / (m * h) := by
    have := dot_amgm a (R • Δ) (mul_pos hm hh)
    simp only [smul_dotProduct, dotProduct_smul, smul_eq_mul] at this
    calc R * (2 * (a ⬝ᵥ Δ)) = 2 * (R * (a ⬝ᵥ Δ)) := by ring
      _ ≤ _ := this
      _ = _ := by ring
  have t2 : R ^ 2 * (Δ ⬝ᵥ Δ) / (m * h) ≤ h ^ 2 * (4 * c ^ 2 / m * S ^ 3) := by
    rw [div_le_iff₀ (mul_pos hm hh)]
    have b1 : R ^ 2 ≤ (c * h * S) ^ 2 := pow_le_pow_left₀ hR0 hR 2
    calc R ^ 2 * (Δ ⬝ᵥ Δ) ≤ (c * h * S) ^ 2 * (4 * h * S) := mul_le_mul b1 hΔ hΔ0 (sq_nonneg _)
      _ = h ^ 2 * (4 * c ^ 2 / m * S ^ 3) * (m * h) := by field_simp
  have t3 : R * (Δ ⬝ᵥ Δ) ≤ h ^ 2 * (4 * c * S ^ 2) := by
    calc R * (Δ ⬝ᵥ Δ) ≤ (c * h * S) * (4 * h * S) := mul_le_mul hR hΔ hΔ0 (hR0.trans hR)
      _ = _ := by ring
  have t4 : (1 + m * h) * (a ⬝ᵥ a) ≤ (1 - m * h + h ^ 2 * (L ^ 2 * (1 + m))) * D := by
    have hmh : 0 ≤ m * h := (mul_pos hm hh).le
    have b1 := mul_le_mul_of_nonneg_left hA (by linarith : 0 ≤ 1 + m * h)
    refine b1.trans ?_
    rw [← mul_assoc]
    refine mul_le_mul_of_nonneg_right ?_ hD0
    have b2 : m * h * (h ^ 2 * L ^ 2) ≤ m * (h ^ 2 * L ^ 2) := by
      have : 0 ≤ m * (h ^ 2 * L ^ 2) := by positivity
      nlinarith
    nlinarith [sq_nonneg (m * h)]
  have t5 : Spec.sqLen x ≤ 2 * D + 2 * (y ⬝ᵥ y) := by
    have := sq_add_le (x - y) y
    rwa [sub_add_cancel, ← sqLen_dot] at this
  have t6 : h ^ 2 * (s * (1 + Spec.sqLen x)) ≤ h ^ 2 * (s * (1 + 2 * (y ⬝ᵥ y))) + h ^ 2 * (2 * s) * D := by
    have : s * (1 + Spec.sqLen x) ≤ s * (1 + (2 * D + 2 * (y ⬝ᵥ y))) := mul_le_mul_of_nonneg_left (by linarith) hs
    have := mul_le_mul_of_nonneg_left this (sq_nonneg h)
    linarith
  have t7 : h ^ 2 * (L ^ 2 * (1 + m) + 2 * s) * D ≤ m * h / 2 * D := by
    refine mul_le_mul_of_nonneg_right ?_ hD0
    have := mul_le_mul_of_nonneg_left (maxStep_le hm hL hs hmax) hh.le
    nlinarith
  unfold localError
  rw [← hS, ← hcdef]
  linarith

variable [MeasurableSpace β] [MeasurableSingletonClass β] [Countable β] {w : β → ENNReal} {g : (ι → ℝ) → β → (ι → ℝ)} {s : ℝ}

omit [Fintype ι] [DecidableEq ι] in
theorem sgldNext_measurable (hg : ∀ b, Measurable fun x => g x b) (h : ℝ) :
    Measurable fun q : (β × (ι → ℝ) × ℝ) × (ι → ℝ) => sgldNext g h q.1 q.2 := by
  have h1 : Measurable fun q : β × (ι → ℝ) => g q.2 q.1 := measurable_from_prod_countable_right fun b => hg b
  have h2 : Measurable fun q : (β × (ι → ℝ) × ℝ) × (ι → ℝ) => g q.2 q.1.1 :=
    h1.comp (by fun_prop : Measurable fun q : (β × (ι → ℝ) × ℝ) × (ι → ℝ) => (q.1.1, q.2))
  have h3 : Measurable fun q : (β × (ι → ℝ) × ℝ) × (ι → ℝ) => q.1.2.1 := by fun_prop
  exact (measurable_snd.sub (h2.const_smul h)).add (h3.const_smul (Real.sqrt (2 * h)))

include hU in
theorem localError_measurable (s : ℝ) : Measurable fun z : (ι → ℝ) × (ι → ℝ) => localError G m L s z.1 z.2 := by
  have hGm := (convex_gradient_continuous hU).measurable
  have h1 : Measurable fun z : (ι → ℝ) × (ι → ℝ) => G z.1 ⬝ᵥ G z.1 := dot_measurable.comp (hGm.comp measurable_fst)
  have h2 : Measurable fun z : (ι → ℝ) × (ι → ℝ) => z.1 ⬝ᵥ z.1 := dot_measurable.comp measurable_fst
  have h3 : Measurable fun z : (ι → ℝ) × (ι → ℝ) => z.2 ⬝ᵥ z.2 := dot_measurable.comp measurable_snd
  unfold localError
  fun_prop

omit [DecidableEq ι] [Countable β] in
/-- The mean over the mini-batch. -/
theorem step_batch (U : (ι → ℝ) → ℝ) (hg : Spec.Unbiased w g G s) (h : ℝ) (x y ξ : ι → ℝ) (u : ℝ) :
    ∫⁻ b, ENNReal.ofReal (Spec.sqLen (sgldNext g h (b, ξ, u) x - malaNext U G h y ξ u)) ∂batchLaw w ≤
      (fun c : ι → ℝ => ENNReal.ofReal (c ⬝ᵥ c + h ^ 2 * (s * (1 + Spec.sqLen x))))
        (if u < Spec.acceptProb (moveError U G h y ξ) then x - y - h • (G x - G y)
          else x - y - h • (G x - G y) + (langevinMove G h y ξ - y)) := by
  rw [batchLaw_lintegral]
  refine le_trans (le_of_eq (tsum_congr fun b => ?_)) (unbiased_sq hg x _ h)
  rw [← sqLen_dot]
  congr 3
  unfold sgldNext malaNext
  by_cases hu : u < Spec.acceptProb (moveError U G h y ξ)
  · rw [if_pos hu, if_pos hu]
    unfold langevinMove
    simp only [smul_sub]
    abel
  · rw [if_neg hu, if_neg hu]
    unfold langevinMove
    simp only [smul_sub]
    abel

include hU in
omit [Countable β] in
/-- The mean over the mini-batch and the uniform number. -/
theorem step_unif (hg : Spec.Unbiased w g G s) {h : ℝ} (hh : 0 < h) (hmax : h ≤ maxStep m L s) (x y ξ : ι → ℝ) :
    ∫⁻ u, ∫⁻ b, ENNReal.ofReal (Spec.sqLen (sgldNext g h (b, ξ, u) x - malaNext U G h y ξ u)) ∂batchLaw w ∂Spec.unif ≤
      ENNReal.ofReal ((1 - m * h / 2) * Spec.sqLen (x - y)) + ENNReal.ofReal (h ^ 2 * localError G m L s y ξ) := by
  have hmain := step_real hU hg.s_nonneg hh hmax x y ξ
  refine (lintegral_mono fun u => step_batch U hg h x y ξ u).trans ?_
  have hV0 : 0 ≤ h ^ 2 * (s * (1 + Spec.sqLen x)) :=
    mul_nonneg (sq_nonneg h) (mul_nonneg hg.s_nonneg (by have := sqLen_nonneg x; linarith))
  have hA0 : 0 ≤ Spec.acceptProb (moveError U G h y ξ) := le_min zero_le_one (Real.exp_pos _).le
  have hA1 : Spec.acceptProb (moveError U G h y ξ) ≤ 1 := min_le_left _ _
  simp only [← sqLen_dot (x - y)] at hmain
  generalize h ^ 2 * (s * (1 + Spec.sqLen x)) = V at *
  generalize Spec.acceptProb (moveError U G h y ξ) = A at *
  generalize x - y - h • (G x - G y) = a at *
  generalize langevinMove G h y ξ - y = Δ at *
  unfold Spec.unif
  rw [unif_accept A hA0 hA1 (fun c : ι → ℝ => ENNReal.ofReal (c ⬝ᵥ c + V)) a (a + Δ) _ fun u _ => rfl]
  have p1 : 0 ≤ a ⬝ᵥ a + V := add_nonneg (dot_nonneg _) hV0
  have p2 : 0 ≤ (a + Δ) ⬝ᵥ (a + Δ) + V := add_nonneg (dot_nonneg _) hV0
  rw [← ENNReal.ofReal_mul hA0, ← ENNReal.ofReal_mul (sub_nonneg.2 hA1),
    ← ENNReal.ofReal_add (mul_nonneg hA0 p1) (mul_nonneg (sub_nonneg.2 hA1) p2)]
  refine le_trans (ENNReal.ofReal_le_ofReal ?_) ENNReal.ofReal_add_le
  refine le_trans (le_of_eq ?_) hmain
  simp only [add_dotProduct, dotProduct_add, dotProduct_comm Δ a]
  ring

omit [DecidableEq ι] in
theorem sqLen_measurable : Measurable fun v : ι → ℝ => Spec.sqLen v := by unfold Spec.sqLen; fun_prop

include hU in
theorem step_measurable (hgm : ∀ b, Measurable fun x => g x b) (h : ℝ) :
    Measurable fun q : ((ι → ℝ) × (ι → ℝ)) × (β × (ι → ℝ) × ℝ) =>
      (sgldNext g h q.2 q.1.1, malaNext U G h q.1.2 q.2.2.1 q.2.2.2) := by
  have hGm := (convex_gradient_continuous hU).measurable
  have hUm := hU.differentiable.continuous.measurable
  have h1 : Measurable fun q : ((ι → ℝ) × (ι → ℝ)) × (β × (ι → ℝ) × ℝ) => sgldNext g h q.2 q.1.1 :=
    (sgldNext_measurable hgm h).comp
      (by fun_prop : Measurable fun q : ((ι → ℝ) × (ι → ℝ)) × (β × (ι → ℝ) × ℝ) => (q.2, q.1.1))
  have h2 : Measurable fun q : ((ι → ℝ) × (ι → ℝ)) × (β × (ι → ℝ) × ℝ) => malaNext U G h q.1.2 q.2.2.1 q.2.2.2 :=
    (malaNext_measurable hUm hGm).comp
      (by fun_prop : Measurable fun q : ((ι → ℝ) × (ι → ℝ)) × (β × (ι → ℝ) × ℝ) => (q.1.2, q.2.2.1, q.2.2.2))
  exact h1.prodMk h2

include hU in
theorem step_dist_measurable (hgm : ∀ b, Measurable fun x => g x b) (h : ℝ) (x y : ι → ℝ) :
    Measurable fun v : β × (ι → ℝ) × ℝ =>
      ENNReal.ofReal (Spec.sqLen (sgldNext g h v x - malaNext U G h y v.2.1 v.2.2)) := by
  have h1 := (step_measurable hU hgm h).comp
    (measurable_prodMk_left : Measurable fun v : β × (ι → ℝ) × ℝ => ((x, y), v))
  exact ENNReal.measurable_ofReal.comp (sqLen_measurable.comp (h1.fst.sub h1.snd))

attribute [local irreducible] sgldNext malaNext localError Spec.sqLen batchLaw Spec.normals Spec.unif

include hU in
/-- The mean squared distance after one step. -/
theorem step_mean (hg : Spec.Unbiased w g G s) (hgm : ∀ b, Measurable fun x => g x b) {h : ℝ} (hh : 0 < h)
    (hmax : h ≤ maxStep m L s) (x y : ι → ℝ) :
    ∫⁻ v, ENNReal.ofReal (Spec.sqLen (sgldNext g h v x - malaNext U G h y v.2.1 v.2.2)) ∂stepNoise ι w ≤
      ENNReal.ofReal (1 - m * h / 2) * ENNReal.ofReal (Spec.sqLen (x - y))
        + ENNReal.ofReal (h ^ 2) * ∫⁻ ξ, ENNReal.ofReal (localError G m L s y ξ) ∂Spec.normals ι := by
  have hsfin := batchLaw_sfinite w
  have hdist := step_dist_measurable hU hgm h x y
  have hmes : Measurable fun q : (ι → ℝ) × ℝ =>
      ∫⁻ b, ENNReal.ofReal (Spec.sqLen (sgldNext g h (b, q.1, q.2) x - malaNext U G h y q.1 q.2)) ∂batchLaw w :=
    Measurable.lintegral_prod_left' hdist
  unfold stepNoise
  rw [lintegral_prod_symm' _ hdist, lintegral_prod _ hmes.aemeasurable]
  refine (lintegral_mono fun ξ => step_unif hU hg hh hmax x y ξ).trans ?_
  have hle : Measurable fun ξ => ENNReal.ofReal (localError G m L s y ξ) :=
    ENNReal.measurable_ofReal.comp ((localError_measurable hU s).comp measurable_prodMk_left)
  rw [lintegral_add_left measurable_const, lintegral_const, measure_univ, mul_one, ENNReal.ofReal_mul' (sqLen_nonneg _),
    ← lintegral_const_mul _ hle]
  refine add_le_add le_rfl (lintegral_mono fun ξ => ?_)
  rw [ENNReal.ofReal_mul (sq_nonneg h)]

end

end JaxSgmc
