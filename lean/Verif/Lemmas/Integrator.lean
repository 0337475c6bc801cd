import Verif.Spec.Integrator
import Mathlib.Tactic.Linarith
import Mathlib.Tactic.Ring
import Mathlib.Tactic.FieldSimp

/-! # Lemmas about the integrators -/

namespace JaxSgmc

variable {ι κ δ β μ : Type} [Fintype ι]

theorem VTensor.mul_add (t : VTensor ι) (a b : ι → ℝ) : t.mul (a + b) = t.mul a + t.mul b := by
  cases t with
  | diag d => funext i; simp [VTensor.mul, _root_.mul_add]
  | full m => simp [VTensor.mul, Matrix.mulVec_add]

theorem VTensor.mul_smul (t : VTensor ι) (c : ℝ) (a : ι → ℝ) : t.mul (c • a) = c • t.mul a := by
  cases t with
  | diag d => funext i; simp [VTensor.mul]; ring
  | full m => simp [VTensor.mul, Matrix.mulVec_smul]

theorem VTensor.mul_neg (t : VTensor ι) (a : ι → ℝ) : t.mul (-a) = -t.mul a := by
  have := t.mul_smul (-1) a
  simpa using this

/-- The mass matrix used by the integrators is the specified one. -/
theorem resolveMass_eq {ι : Type} (mass : Option (MassMatrix ι)) (cm : Option (ι → ℝ)) :
    resolveMass mass cm = Spec.usedMass mass cm := by
  cases mass with
  | some m => rfl
  | none =>
    cases cm with
    | some c => simp [resolveMass, initMass, Spec.usedMass, Real.rpow_neg_one]
    | none => simp [resolveMass, initMass, Spec.usedMass]

/-- `init_mass` of a positive diagonal is consistent. -/
theorem massOk_initMass {mass : ι → ℝ} (h : ∀ i, 0 < mass i) : Spec.MassOk (initMass mass) where
  symm a b := by
    simp only [initMass, VTensor.mul]
    exact Finset.sum_congr rfl fun i _ => by ring
  surj r := ⟨fun i => r i / Real.sqrt (mass i), by
    funext i
    simp only [initMass, VTensor.mul]
    have := (Real.sqrt_pos.mpr (h i)).ne'
    field_simp⟩
  root v w := by
    simp only [initMass, VTensor.mul]
    refine Finset.sum_congr rfl fun i _ => ?_
    rw [Real.rpow_neg_one]
    have h1 := Real.mul_self_sqrt (h i).le
    have h2 := (h i).ne'
    calc Real.sqrt (mass i) * v i * ((mass i)⁻¹ * (Real.sqrt (mass i) * w i))
        = (Real.sqrt (mass i) * Real.sqrt (mass i)) * (mass i)⁻¹ * (v i * w i) := by ring
      _ = v i * w i := by rw [h1, mul_inv_cancel₀ h2, one_mul]

/-- Positive constant masses are consistent. -/
theorem massOk_const {mass : ι → ℝ} (h : ∀ i, 0 < mass i) :
    Spec.MassOk (Spec.usedMass none (some mass)) := by
  rw [← resolveMass_eq]; exact massOk_initMass h

/-- The default mass is consistent. -/
theorem massOk_default : Spec.MassOk (Spec.usedMass none (none : Option (ι → ℝ))) := by
  rw [← resolveMass_eq]; exact massOk_initMass fun _ => one_pos

/-- The bilinear form `aᵀ M⁻¹ b`. -/
noncomputable def bil (m : MassMatrix ι) (a b : ι → ℝ) : ℝ := ∑ i, a i * m.inv.mul b i

theorem bil_add_left (m : MassMatrix ι) (a b c : ι → ℝ) : bil m (a + b) c = bil m a c + bil m b c := by
  simp [bil, add_mul, Finset.sum_add_distrib]

theorem bil_add_right (m : MassMatrix ι) (a b c : ι → ℝ) : bil m a (b + c) = bil m a b + bil m a c := by
  simp [bil, VTensor.mul_add, mul_add, Finset.sum_add_distrib]

theorem bil_smul_left (m : MassMatrix ι) (t : ℝ) (a b : ι → ℝ) : bil m (t • a) b = t * bil m a b := by
  simp [bil, Finset.mul_sum, mul_assoc]

theorem bil_smul_right (m : MassMatrix ι) (t : ℝ) (a b : ι → ℝ) : bil m a (t • b) = t * bil m a b := by
  simp only [bil, VTensor.mul_smul, Finset.mul_sum, Pi.smul_apply, smul_eq_mul]
  exact Finset.sum_congr rfl fun i _ => by ring

theorem bil_neg_left (m : MassMatrix ι) (a b : ι → ℝ) : bil m (-a) b = -bil m a b := by
  simp [bil]

theorem bil_neg_right (m : MassMatrix ι) (a b : ι → ℝ) : bil m a (-b) = -bil m a b := by
  simp [bil, VTensor.mul_neg]

theorem kinetic_eq_bil (m : MassMatrix ι) (p : ι → ℝ) : Spec.kinetic m p = bil m p p / 2 := rfl

theorem kinetic_neg (m : MassMatrix ι) (p : ι → ℝ) : Spec.kinetic m (-p) = Spec.kinetic m p := by
  rw [kinetic_eq_bil, kinetic_eq_bil, bil_neg_left, bil_neg_right, neg_neg]

/-- The momentum update of `reversible_leapfrog`. -/
noncomputable def kick (γ h : ℝ) (m : MassMatrix ι) (r g ξ : ι → ℝ) : ι → ℝ :=
  (1 / (1 + h * γ)) • ((1 - h * γ) • r + (-h) • g + Real.sqrt (4 * γ * h) • m.sqrt.mul ξ)

/-- The noise of the reversed momentum update. -/
noncomputable def kickRev (γ h : ℝ) (w ξ : ι → ℝ) : ι → ℝ := ξ + (-Real.sqrt (h * γ)) • w

theorem sqrt_four {γ h : ℝ} : Real.sqrt (4 * γ * h) = 2 * Real.sqrt (h * γ) := by
  have : 4 * γ * h = 2 ^ 2 * (h * γ) := by ring
  rw [this, Real.sqrt_mul (by norm_num), Real.sqrt_sq (by norm_num)]

/-- `kick` in implicit form. -/
theorem kick_implicit {γ h : ℝ} (hγ : 0 ≤ γ) (hh : 0 ≤ h) (m : MassMatrix ι) (r g ξ : ι → ℝ) :
    (1 + h * γ) • kick γ h m r g ξ =
      (1 - h * γ) • r + (-h) • g + (2 * Real.sqrt (h * γ)) • m.sqrt.mul ξ := by
  have : 1 + h * γ ≠ 0 := by positivity
  rw [kick, smul_smul, mul_one_div_cancel this, one_smul, sqrt_four]

/-- The reversed momentum update leads back to the negated momentum. -/
theorem kick_reverse {γ h : ℝ} (hγ : 0 ≤ γ) (hh : 0 ≤ h) (m : MassMatrix ι) (r g ξ w : ι → ℝ)
    (hw : m.sqrt.mul w = r + kick γ h m r g ξ) :
    kick γ h m (-kick γ h m r g ξ) g (kickRev γ h w ξ) = -r := by
  have hne : 1 + h * γ ≠ 0 := by positivity
  have hi := kick_implicit hγ hh m r g ξ
  set r' := kick γ h m r g ξ with hr'
  have hi2 := kick_implicit hγ hh m (-r') g (kickRev γ h w ξ)
  have hs := Real.mul_self_sqrt (mul_nonneg hh hγ)
  set b := Real.sqrt (h * γ)
  have key : (1 + h * γ) • kick γ h m (-r') g (kickRev γ h w ξ) = (1 + h * γ) • (-r) := by
    rw [hi2, kickRev, VTensor.mul_add, VTensor.mul_smul, hw]
    funext i
    have hii := congrFun hi i
    simp only [Pi.smul_apply, Pi.add_apply, Pi.neg_apply, smul_eq_mul] at hii ⊢
    have : (2 * b) * (-b * (r i + r' i)) = -2 * (h * γ) * (r i + r' i) := by
      rw [← hs]; ring
    linear_combination this + (-1) * hii
  exact smul_right_injective _ hne key

/-- Energy balance of one momentum update. -/
theorem kick_energy {γ h : ℝ} (hγ : 0 ≤ γ) (hh : 0 ≤ h) {m : MassMatrix ι} (hm : Spec.MassOk m)
    (r g ξ w : ι → ℝ) (hw : m.sqrt.mul w = r + kick γ h m r g ξ) :
    Spec.kinetic m r + (∑ i, ξ i * ξ i) / 2 =
      Spec.kinetic m (kick γ h m r g ξ) + (∑ i, kickRev γ h w ξ i * kickRev γ h w ξ i) / 2 +
        h / 2 * bil m (r + kick γ h m r g ξ) g := by
  have hi := kick_implicit hγ hh m r g ξ
  set r' := kick γ h m r g ξ with hr'
  have hs := Real.mul_self_sqrt (mul_nonneg hh hγ)
  set b := Real.sqrt (h * γ) with hb
  have sym : ∀ x y, bil m x y = bil m y x := hm.symm
  -- the noise in terms of momenta
  have e1 : ∑ i, ξ i * w i = bil m (m.sqrt.mul ξ) (r + r') := by rw [← hw]; exact (hm.root ξ w).symm
  have e2 : ∑ i, w i * w i = bil m (r + r') (r + r') := by rw [← hw]; exact (hm.root w w).symm
  have e3 : ∑ i, kickRev γ h w ξ i * kickRev γ h w ξ i =
      ∑ i, ξ i * ξ i - 2 * b * ∑ i, ξ i * w i + b * b * ∑ i, w i * w i := by
    rw [Finset.mul_sum, Finset.mul_sum, ← Finset.sum_sub_distrib, ← Finset.sum_add_distrib]
    refine Finset.sum_congr rfl fun i _ => ?_
    simp only [kickRev, Pi.add_apply, Pi.smul_apply, smul_eq_mul, ← hb]
    ring
  have e4 : (2 * b) * bil m (m.sqrt.mul ξ) (r + r') =
      (1 + h * γ) * bil m r' (r + r') - (1 - h * γ) * bil m r (r + r') + h * bil m g (r + r') := by
    have := congrArg (fun v => bil m v (r + r')) hi
    simp only [bil_add_left, bil_smul_left] at this
    linarith
  rw [e3, e1, e2, e4, hs, kinetic_eq_bil, kinetic_eq_bil]
  simp only [bil_add_left, bil_add_right]
  rw [sym r' r, sym g r, sym g r']
  ring

end JaxSgmc
