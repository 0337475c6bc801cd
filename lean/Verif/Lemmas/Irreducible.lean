import Verif.Lemmas.Stationary
import Mathlib.MeasureTheory.Measure.Decomposition.Hahn
import Mathlib.MeasureTheory.Measure.Sub

/-!
# Irreducibility of AMAGOLD and uniqueness of invariant distributions
-/

namespace JaxSgmc

open MeasureTheory

variable {ι : Type} [Fintype ι]

/-! ## Noises -/

theorem volume_ac_normals (κ : Type) [Fintype κ] : (volume : Measure (κ → ℝ)) ≪ Spec.normals κ := by
  unfold Spec.normals
  rw [pi_gaussian]
  refine withDensity_absolutelyContinuous' ?_ (Filter.Eventually.of_forall fun x => ?_)
  · have := ProbabilityTheory.measurable_gaussianPDFReal 0 1
    refine (ENNReal.measurable_ofReal.comp ?_).aemeasurable
    exact Finset.measurable_prod _ fun j _ => this.comp (measurable_pi_apply j)
  · rw [Ne, ENNReal.ofReal_eq_zero, not_le]
    exact Finset.prod_pos fun i _ => ProbabilityTheory.gaussianPDFReal_pos 0 1 _ one_ne_zero

/-- The noises of `n + 2` steps from those of `n` steps and of two steps. -/
def glue {n : ℕ} (y : (Fin n × ι → ℝ) × ((ι → ℝ) × (ι → ℝ))) (j : Fin (n + 2) × ι) : ℝ :=
  if h : (j.1 : ℕ) < n then y.1 (⟨j.1, h⟩, j.2) else if (j.1 : ℕ) = n then y.2.1 j.2 else y.2.2 j.2

theorem glue_measurable {n : ℕ} :
    Measurable (glue : (Fin n × ι → ℝ) × ((ι → ℝ) × (ι → ℝ)) → Fin (n + 2) × ι → ℝ) := by
  refine measurable_pi_lambda _ fun j => ?_
  unfold glue
  by_cases h : (j.1 : ℕ) < n
  · simp only [h, dif_pos]
    exact (measurable_pi_apply _).comp measurable_fst
  · by_cases h' : (j.1 : ℕ) = n
    · simp only [h, h', dif_neg, not_false_iff, if_true]
      simp
      exact (measurable_pi_apply _).comp (measurable_fst.comp measurable_snd)
    · simp only [h, h', dif_neg, not_false_iff, if_false]
      exact (measurable_pi_apply _).comp (measurable_snd.comp measurable_snd)

instance (κ : Type) [Fintype κ] : IsProbabilityMeasure (Spec.normals κ) := by
  unfold Spec.normals; infer_instance

theorem glue_map (n : ℕ) : Measure.map (glue : (Fin n × ι → ℝ) × ((ι → ℝ) × (ι → ℝ)) → Fin (n + 2) × ι → ℝ)
    ((Spec.normals (Fin n × ι)).prod ((Spec.normals ι).prod (Spec.normals ι))) =
      Spec.normals (Fin (n + 2) × ι) := by
  symm
  refine Measure.pi_eq fun s hs => ?_
  rw [Measure.map_apply glue_measurable (MeasurableSet.univ_pi hs)]
  have hpre : (glue : (Fin n × ι → ℝ) × ((ι → ℝ) × (ι → ℝ)) → Fin (n + 2) × ι → ℝ) ⁻¹' Set.univ.pi s =
      (Set.univ.pi fun j : Fin n × ι => s (j.1.castSucc.castSucc, j.2)) ×ˢ
        ((Set.univ.pi fun i => s ((Fin.last n).castSucc, i)) ×ˢ
          (Set.univ.pi fun i => s (Fin.last (n + 1), i))) := by
    ext y
    simp only [Set.mem_preimage, Set.mem_pi, Set.mem_univ, true_implies, Set.mem_prod]
    constructor
    · intro h
      refine ⟨fun j => ?_, fun i => ?_, fun i => ?_⟩
      · have := h (j.1.castSucc.castSucc, j.2)
        simpa [glue] using this
      · have := h ((Fin.last n).castSucc, i)
        simpa [glue] using this
      · have := h (Fin.last (n + 1), i)
        simpa [glue] using this
    · rintro ⟨h1, h2, h3⟩ ⟨k, i⟩
      unfold glue
      by_cases h : (k : ℕ) < n
      · rw [dif_pos h]
        exact h1 (⟨k, h⟩, i)
      · by_cases h' : (k : ℕ) = n
        · rw [dif_neg h, if_pos h']
          have : k = (Fin.last n).castSucc := Fin.ext (by simp [h'])
          rw [this]; exact h2 i
        · rw [dif_neg h, if_neg h']
          have : k = Fin.last (n + 1) := Fin.ext (by simp; omega)
          rw [this]; exact h3 i
  rw [hpre, Measure.prod_prod, Measure.prod_prod]
  unfold Spec.normals
  rw [Measure.pi_pi, Measure.pi_pi, Measure.pi_pi, Fintype.prod_prod_type, Fintype.prod_prod_type,
    Fin.prod_univ_castSucc, Fin.prod_univ_castSucc, mul_assoc]

/-! ## Masses -/

/-- The inverse of a consistent mass matrix has an inverse. -/
theorem massOk_inv_bij {m : MassMatrix ι} (hm : Spec.MassOk m) :
    LinearMap.det ({ toFun := m.inv.mul, map_add' := m.inv.mul_add, map_smul' := m.inv.mul_smul } :
      (ι → ℝ) →ₗ[ℝ] (ι → ℝ)) ≠ 0 := by
  classical
  rw [← isUnit_iff_ne_zero, ← LinearMap.isUnit_iff_isUnit_det, LinearMap.isUnit_iff_ker_eq_bot,
    LinearMap.ker_eq_bot']
  intro r hr
  obtain ⟨w, rfl⟩ := hm.surj r
  have h := hm.root w w
  have hr' : m.inv.mul (m.sqrt.mul w) = 0 := hr
  rw [hr'] at h
  simp only [Pi.zero_apply, mul_zero, Finset.sum_const_zero] at h
  have : w = 0 := by
    funext i
    have h2 := (Finset.sum_eq_zero_iff_of_nonneg (fun i _ => mul_self_nonneg (w i))).1 h.symm i (Finset.mem_univ i)
    exact mul_self_eq_zero.1 h2
  rw [this]
  have := m.sqrt.mul_smul 0 0
  simpa using this

theorem massOk_sqrt_det {m : MassMatrix ι} (hm : Spec.MassOk m) :
    LinearMap.det ({ toFun := m.sqrt.mul, map_add' := m.sqrt.mul_add, map_smul' := m.sqrt.mul_smul } :
      (ι → ℝ) →ₗ[ℝ] (ι → ℝ)) ≠ 0 := by
  classical
  rw [← isUnit_iff_ne_zero, ← LinearMap.isUnit_iff_isUnit_det, LinearMap.isUnit_iff_range_eq_top,
    LinearMap.range_eq_top]
  exact hm.surj

/-- If an affine function of a normally distributed vector, with an invertible linear part, almost surely has a
property, all vectors up to a null set have it. -/
theorem ae_of_affine {A : (ι → ℝ) →ₗ[ℝ] (ι → ℝ)} (hA : LinearMap.det A ≠ 0) (c : ι → ℝ) {p : (ι → ℝ) → Prop}
    (h : ∀ᵐ a ∂Spec.normals ι, p (c + A a)) : ∀ᵐ y ∂(volume : Measure (ι → ℝ)), p y := by
  classical
  have hu : IsUnit A := by
    rw [LinearMap.isUnit_iff_isUnit_det]; exact isUnit_iff_ne_zero.2 hA
  obtain ⟨u, rfl⟩ := hu
  have hdet : LinearMap.det ((u⁻¹ : _) : (ι → ℝ) →ₗ[ℝ] (ι → ℝ)) ≠ 0 := by
    have : IsUnit (LinearMap.det ((u⁻¹ : ((ι → ℝ) →ₗ[ℝ] (ι → ℝ))ˣ) : (ι → ℝ) →ₗ[ℝ] (ι → ℝ))) := by
      rw [← LinearMap.isUnit_iff_isUnit_det]; exact Units.isUnit _
    exact this.ne_zero
  have h1 : ∀ᵐ a ∂(volume : Measure (ι → ℝ)), p (c + u.1 a) := (volume_ac_normals ι).ae_le h
  have h2 := (Measure.LinearMap.quasiMeasurePreserving volume _ hdet).ae h1
  have h3 := (measurePreserving_add_left (volume : Measure (ι → ℝ)) (-c)).quasiMeasurePreserving.ae h2
  filter_upwards [h3] with y hy
  have e : u.1 ((u⁻¹).1 (-c + y)) = -c + y := LinearMap.congr_fun (Units.mul_inv u) _
  rw [e] at hy
  simpa using hy

theorem normals_ac_volume (κ : Type) [Fintype κ] : Spec.normals κ ≪ (volume : Measure (κ → ℝ)) := by
  unfold Spec.normals
  rw [pi_gaussian]
  exact withDensity_absolutelyContinuous _ _

/-- The converse: an affine function of a normally distributed vector, with an invertible linear part, almost surely
has every property of all vectors up to a null set. -/
theorem ae_affine {A : (ι → ℝ) →ₗ[ℝ] (ι → ℝ)} (hA : LinearMap.det A ≠ 0) (c : ι → ℝ) {p : (ι → ℝ) → Prop}
    (h : ∀ᵐ y ∂(volume : Measure (ι → ℝ)), p y) : ∀ᵐ a ∂Spec.normals ι, p (c + A a) := by
  have h1 := (measurePreserving_add_left (volume : Measure (ι → ℝ)) c).quasiMeasurePreserving.ae h
  have h2 := (Measure.LinearMap.quasiMeasurePreserving volume _ hA).ae h1
  exact (normals_ac_volume ι).ae_le h2

/-! ## The last two steps reach every region -/

/-- Position and momentum after the last two steps of the integrator, from position `q` and momentum `p` before
the momentum update, with noises `a` and `b`. -/
noncomputable def lastTwo (γ h : ℝ) (m : MassMatrix ι) (g₁ g₂ : (ι → ℝ) → (ι → ℝ)) (s : (ι → ℝ) × (ι → ℝ))
    (a b : ι → ℝ) : (ι → ℝ) × (ι → ℝ) :=
  let p₁ := kick γ h m s.2 (g₁ s.1) a
  let q₂ := s.1 + h • m.inv.mul p₁
  let p₂ := kick γ h m p₁ (g₂ q₂) b
  (q₂ + (h / 2) • m.inv.mul p₂, p₂)

theorem lastTwo_reaches {γ h : ℝ} (hγ : 0 < γ) (hh : 0 < h) {m : MassMatrix ι} (hm : Spec.MassOk m)
    (g₁ g₂ : (ι → ℝ) → (ι → ℝ)) (s : (ι → ℝ) × (ι → ℝ))
    {A : Set ((ι → ℝ) × (ι → ℝ))} (hA : MeasurableSet A)
    (h0 : ∀ᵐ a ∂Spec.normals ι, ∀ᵐ b ∂Spec.normals ι, lastTwo γ h m g₁ g₂ s a b ∉ A) :
    volume A = 0 := by
  set Sq : (ι → ℝ) →ₗ[ℝ] (ι → ℝ) :=
    { toFun := m.sqrt.mul, map_add' := m.sqrt.mul_add, map_smul' := m.sqrt.mul_smul } with hSq
  set In : (ι → ℝ) →ₗ[ℝ] (ι → ℝ) :=
    { toFun := m.inv.mul, map_add' := m.inv.mul_add, map_smul' := m.inv.mul_smul } with hIn
  have hSd : LinearMap.det Sq ≠ 0 := massOk_sqrt_det hm
  have hId : LinearMap.det In ≠ 0 := massOk_inv_bij hm
  have hden : 0 < 1 + h * γ := by positivity
  set c : ℝ := 1 / (1 + h * γ) * Real.sqrt (4 * γ * h) with hc
  have hcpos : 0 < c := by
    have : 0 < Real.sqrt (4 * γ * h) := Real.sqrt_pos.2 (by positivity)
    positivity
  have hkick : ∀ p g a, kick γ h m p g a = (1 / (1 + h * γ)) • ((1 - h * γ) • p + (-h) • g) + (c • Sq) a := by
    intro p g a
    show (1 / (1 + h * γ)) • (_ + Real.sqrt (4 * γ * h) • m.sqrt.mul a) = _ + c • m.sqrt.mul a
    rw [smul_add, smul_smul]
  have hdet1 : LinearMap.det (c • Sq) ≠ 0 := by
    rw [LinearMap.det_smul]
    exact mul_ne_zero (pow_ne_zero _ hcpos.ne') hSd
  have hdet2 : LinearMap.det (h • (In ∘ₗ (c • Sq))) ≠ 0 := by
    rw [LinearMap.det_smul, LinearMap.det_comp]
    exact mul_ne_zero (pow_ne_zero _ hh.ne') (mul_ne_zero hId hdet1)
  -- all momenta, for almost all noises of the first step
  have h1 : ∀ᵐ a ∂Spec.normals ι, ∀ᵐ p₂ ∂(volume : Measure (ι → ℝ)),
      (s.1 + h • m.inv.mul (kick γ h m s.2 (g₁ s.1) a) + (h / 2) • m.inv.mul p₂, p₂) ∉ A := by
    filter_upwards [h0] with a ha
    refine ae_of_affine hdet1 ((1 / (1 + h * γ)) • ((1 - h * γ) • kick γ h m s.2 (g₁ s.1) a +
      (-h) • g₂ (s.1 + h • m.inv.mul (kick γ h m s.2 (g₁ s.1) a)))) ?_
    filter_upwards [ha] with b hb
    rw [← hkick]
    exact hb
  -- all positions
  have h2 : ∀ᵐ q₂ ∂(volume : Measure (ι → ℝ)), ∀ᵐ p₂ ∂(volume : Measure (ι → ℝ)),
      (q₂ + (h / 2) • m.inv.mul p₂, p₂) ∉ A := by
    refine ae_of_affine hdet2 (s.1 + h • m.inv.mul ((1 / (1 + h * γ)) • ((1 - h * γ) • s.2 +
      (-h) • g₁ s.1))) (p := fun q₂ => ∀ᵐ p₂ ∂(volume : Measure (ι → ℝ)),
        (q₂ + (h / 2) • m.inv.mul p₂, p₂) ∉ A) ?_
    filter_upwards [h1] with a ha
    have e : s.1 + h • m.inv.mul ((1 / (1 + h * γ)) • ((1 - h * γ) • s.2 + (-h) • g₁ s.1)) +
        (h • (In ∘ₗ (c • Sq))) a = s.1 + h • m.inv.mul (kick γ h m s.2 (g₁ s.1) a) := by
      rw [hkick]
      generalize (1 / (1 + h * γ)) • ((1 - h * γ) • s.2 + (-h) • g₁ s.1) = v
      rw [m.inv.mul_add, smul_add, ← add_assoc]
      rfl
    rw [e]
    exact ha
  have hmeas := m.inv.measurable_mul
  have hsh : MeasurePreserving (fun z : (ι → ℝ) × (ι → ℝ) => (z.1 + (-(h / 2)) • m.inv.mul z.2, z.2))
      volume volume := by
    have h1 : MeasurePreserving (fun z : (ι → ℝ) × (ι → ℝ) => (z.1, z.2 + (-(h / 2)) • m.inv.mul z.1))
        ((volume : Measure (ι → ℝ)).prod volume) ((volume : Measure (ι → ℝ)).prod volume) := by
      refine MeasurePreserving.skew_product (f := id) (MeasurePreserving.id _)
        (g := fun p q => q + (-(h / 2)) • m.inv.mul p) ?_ (Filter.Eventually.of_forall fun p => ?_)
      · show Measurable fun z : (ι → ℝ) × (ι → ℝ) => z.2 + (-(h / 2)) • m.inv.mul z.1
        fun_prop
      · exact (measurePreserving_add_right volume ((-(h / 2)) • m.inv.mul p)).map_eq
    exact (Measure.measurePreserving_swap (μ := (volume : Measure (ι → ℝ)))
      (ν := (volume : Measure (ι → ℝ)))).comp (h1.comp (Measure.measurePreserving_swap
        (μ := (volume : Measure (ι → ℝ))) (ν := (volume : Measure (ι → ℝ)))))
  have hset : MeasurableSet {z : (ι → ℝ) × (ι → ℝ) | (z.1 + (h / 2) • m.inv.mul z.2, z.2) ∉ A} := by
    have hf : Measurable fun z : (ι → ℝ) × (ι → ℝ) => (z.1 + (h / 2) • m.inv.mul z.2, z.2) := by fun_prop
    exact hf hA.compl
  have h3 : ∀ᵐ z ∂(volume : Measure ((ι → ℝ) × (ι → ℝ))), (z.1 + (h / 2) • m.inv.mul z.2, z.2) ∉ A := by
    rw [Measure.volume_eq_prod]
    exact (Measure.ae_prod_iff_ae_ae hset).2 h2
  have h4 := hsh.quasiMeasurePreserving.ae h3
  have h5 : ∀ᵐ z ∂(volume : Measure ((ι → ℝ) × (ι → ℝ))), z ∉ A := by
    filter_upwards [h4] with z hz
    rw [neg_smul, neg_add_cancel_right] at hz
    exact hz
  exact measure_eq_zero_iff_ae_notMem.2 h5

/-- The last two steps do not lead to null sets. -/
theorem lastTwo_ac {γ h : ℝ} (hγ : 0 < γ) (hh : 0 < h) {m : MassMatrix ι} (hm : Spec.MassOk m)
    (g₁ g₂ : (ι → ℝ) → (ι → ℝ)) (s : (ι → ℝ) × (ι → ℝ))
    {A : Set ((ι → ℝ) × (ι → ℝ))} (hA : MeasurableSet A) (h0 : volume A = 0) :
    ∀ᵐ a ∂Spec.normals ι, ∀ᵐ b ∂Spec.normals ι, lastTwo γ h m g₁ g₂ s a b ∉ A := by
  set Sq : (ι → ℝ) →ₗ[ℝ] (ι → ℝ) :=
    { toFun := m.sqrt.mul, map_add' := m.sqrt.mul_add, map_smul' := m.sqrt.mul_smul } with hSq
  set In : (ι → ℝ) →ₗ[ℝ] (ι → ℝ) :=
    { toFun := m.inv.mul, map_add' := m.inv.mul_add, map_smul' := m.inv.mul_smul } with hIn
  have hSd : LinearMap.det Sq ≠ 0 := massOk_sqrt_det hm
  have hId : LinearMap.det In ≠ 0 := massOk_inv_bij hm
  have hden : 0 < 1 + h * γ := by positivity
  set c : ℝ := 1 / (1 + h * γ) * Real.sqrt (4 * γ * h) with hc
  have hcpos : 0 < c := by
    have : 0 < Real.sqrt (4 * γ * h) := Real.sqrt_pos.2 (by positivity)
    positivity
  have hkick : ∀ p g a, kick γ h m p g a = (1 / (1 + h * γ)) • ((1 - h * γ) • p + (-h) • g) + (c • Sq) a := by
    intro p g a
    show (1 / (1 + h * γ)) • (_ + Real.sqrt (4 * γ * h) • m.sqrt.mul a) = _ + c • m.sqrt.mul a
    rw [smul_add, smul_smul]
  have hdet1 : LinearMap.det (c • Sq) ≠ 0 := by
    rw [LinearMap.det_smul]
    exact mul_ne_zero (pow_ne_zero _ hcpos.ne') hSd
  have hdet2 : LinearMap.det (h • (In ∘ₗ (c • Sq))) ≠ 0 := by
    rw [LinearMap.det_smul, LinearMap.det_comp]
    exact mul_ne_zero (pow_ne_zero _ hh.ne') (mul_ne_zero hId hdet1)
  have hmeas := m.inv.measurable_mul
  have hsh : MeasurePreserving (fun z : (ι → ℝ) × (ι → ℝ) => (z.1 + (h / 2) • m.inv.mul z.2, z.2))
      volume volume := by
    have h1 : MeasurePreserving (fun z : (ι → ℝ) × (ι → ℝ) => (z.1, z.2 + (h / 2) • m.inv.mul z.1))
        ((volume : Measure (ι → ℝ)).prod volume) ((volume : Measure (ι → ℝ)).prod volume) := by
      refine MeasurePreserving.skew_product (f := id) (MeasurePreserving.id _)
        (g := fun p q => q + (h / 2) • m.inv.mul p) ?_ (Filter.Eventually.of_forall fun p => ?_)
      · show Measurable fun z : (ι → ℝ) × (ι → ℝ) => z.2 + (h / 2) • m.inv.mul z.1
        fun_prop
      · exact (measurePreserving_add_right volume ((h / 2) • m.inv.mul p)).map_eq
    exact (Measure.measurePreserving_swap (μ := (volume : Measure (ι → ℝ)))
      (ν := (volume : Measure (ι → ℝ)))).comp (h1.comp (Measure.measurePreserving_swap
        (μ := (volume : Measure (ι → ℝ))) (ν := (volume : Measure (ι → ℝ)))))
  have h3 : ∀ᵐ z ∂(volume : Measure ((ι → ℝ) × (ι → ℝ))), (z.1 + (h / 2) • m.inv.mul z.2, z.2) ∉ A :=
    hsh.quasiMeasurePreserving.ae (measure_eq_zero_iff_ae_notMem.1 h0)
  rw [Measure.volume_eq_prod] at h3
  have h2 := Measure.ae_ae_of_ae_prod h3
  have h1 := ae_affine hdet2 (s.1 + h • m.inv.mul ((1 / (1 + h * γ)) • ((1 - h * γ) • s.2 + (-h) • g₁ s.1))) h2
  filter_upwards [h1] with a ha
  have e : s.1 + h • m.inv.mul ((1 / (1 + h * γ)) • ((1 - h * γ) • s.2 + (-h) • g₁ s.1)) +
      (h • (In ∘ₗ (c • Sq))) a = s.1 + h • m.inv.mul (kick γ h m s.2 (g₁ s.1) a) := by
    rw [hkick]
    generalize (1 / (1 + h * γ)) • ((1 - h * γ) • s.2 + (-h) • g₁ s.1) = v
    rw [m.inv.mul_add, smul_add, ← add_assoc]
    rfl
  rw [e] at ha
  have h4 := ae_affine hdet1 ((1 / (1 + h * γ)) • ((1 - h * γ) • kick γ h m s.2 (g₁ s.1) a +
      (-h) • g₂ (s.1 + h • m.inv.mul (kick γ h m s.2 (g₁ s.1) a)))) ha
  filter_upwards [h4] with b hb
  rw [← hkick] at hb
  exact hb

/-! ## Paths -/

section
variable {L : ℕ} (γ h : ℝ) (m : MassMatrix ι) (w : (ι → ℝ) →ₗ[ℝ] (ι → ℝ)) (g : ℕ → (ι → ℝ) → (ι → ℝ))

/-- The first `n` steps do not change later noises. -/
theorem leapFlow_noise (x : PathSpace ι L) (n : ℕ) (j : Fin L × ι) (hj : n ≤ j.1) :
    (leapFlow γ h m w g n x).2 j = x.2 j := by
  induction n with
  | zero => rfl
  | succ n ih =>
    have hn : n < L := by have := j.1.isLt; omega
    show (if hn : n < L then kickMap γ h m w (g n) ⟨n, hn⟩
      (if n = 0 then leapFlow γ h m w g n x else drift h m (leapFlow γ h m w g n x))
      else leapFlow γ h m w g n x).2 j = _
    rw [dif_pos hn]
    have hne : j.1 ≠ ⟨n, hn⟩ := fun e => by rw [e] at hj; simp at hj
    simp only [kickMap]
    rw [if_neg hne, ← ih (by omega)]
    split <;> rfl

/-- The first `n` steps depend only on the first `n` noises. -/
theorem leapFlow_congr (z : (ι → ℝ) × (ι → ℝ)) (x x' : Fin L × ι → ℝ) (n : ℕ)
    (hx : ∀ j, (j.1 : ℕ) < n → x j = x' j) :
    (leapFlow γ h m w g n (z, x)).1 = (leapFlow γ h m w g n (z, x')).1 := by
  induction n with
  | zero => rfl
  | succ n ih =>
    show (if hn : n < L then kickMap γ h m w (g n) ⟨n, hn⟩
      (if n = 0 then leapFlow γ h m w g n (z, x) else drift h m (leapFlow γ h m w g n (z, x)))
      else leapFlow γ h m w g n (z, x)).1 = (if hn : n < L then kickMap γ h m w (g n) ⟨n, hn⟩
      (if n = 0 then leapFlow γ h m w g n (z, x') else drift h m (leapFlow γ h m w g n (z, x')))
      else leapFlow γ h m w g n (z, x')).1
    have ih' := ih fun j hj => hx j (by omega)
    by_cases hn : n < L
    · rw [dif_pos hn, dif_pos hn]
      have hno : ∀ i, (leapFlow γ h m w g n (z, x)).2 (⟨n, hn⟩, i) =
          (leapFlow γ h m w g n (z, x')).2 (⟨n, hn⟩, i) := by
        intro i
        rw [leapFlow_noise γ h m w g _ n _ le_rfl, leapFlow_noise γ h m w g _ n _ le_rfl]
        exact hx _ (Nat.lt_succ_self n)
      by_cases h0 : n = 0
      · rw [if_pos h0, if_pos h0]
        simp only [kickMap, ih', hno]
      · rw [if_neg h0, if_neg h0]
        simp only [kickMap, drift, ih', hno]
    · rw [dif_neg hn, dif_neg hn]
      exact ih'

/-- Position and momentum before the last two steps. -/
noncomputable def beforeTwo (n : ℕ) (z : (ι → ℝ) × (ι → ℝ)) (y : Fin n × ι → ℝ) : (ι → ℝ) × (ι → ℝ) :=
  let x : PathSpace ι (n + 2) := leapFlow γ h m w g n (drift (h / 2) m (z, glue (y, (0, 0))))
  if n = 0 then x.1 else (x.1.1 + h • m.inv.mul x.1.2, x.1.2)

/-- A path ends with the last two steps. -/
theorem leapMap_lastTwo (n : ℕ) (z : (ι → ℝ) × (ι → ℝ))
    (y : (Fin n × ι → ℝ) × ((ι → ℝ) × (ι → ℝ))) :
    let e := lastTwo γ h m (g n) (g (n + 1)) (beforeTwo γ h m w g n z y.1) y.2.1 y.2.2
    (leapMap γ h m w g ((z, glue y) : PathSpace ι (n + 2))).1 = (e.1, -e.2) := by
  intro e
  set x₀ : PathSpace ι (n + 2) := drift (h / 2) m (z, glue y) with hx₀
  have hn1 : n < n + 2 := by omega
  have hn2 : n + 1 < n + 2 := by omega
  set a₁ := (if n = 0 then leapFlow γ h m w g n x₀ else drift h m (leapFlow γ h m w g n x₀)) with ha₁
  have hf1 : leapFlow γ h m w g (n + 1) x₀ = kickMap γ h m w (g n) ⟨n, hn1⟩ a₁ := by
    show (if hn : n < n + 2 then _ else _) = _
    rw [dif_pos hn1]
  have hf2 : leapFlow γ h m w g (n + 2) x₀ = kickMap γ h m w (g (n + 1)) ⟨n + 1, hn2⟩
      (drift h m (leapFlow γ h m w g (n + 1) x₀)) := by
    show (if hn : n + 1 < n + 2 then _ else _) = _
    rw [dif_pos hn2, if_neg (Nat.succ_ne_zero n)]
  have hnoise1 : (fun i => a₁.2 ((⟨n, hn1⟩ : Fin (n + 2)), i)) = y.2.1 := by
    funext i
    have : a₁.2 ((⟨n, hn1⟩ : Fin (n + 2)), i) = (leapFlow γ h m w g n x₀).2 (⟨n, hn1⟩, i) := by
      rw [ha₁]; split <;> rfl
    rw [this, leapFlow_noise γ h m w g x₀ n _ le_rfl]
    show glue y _ = _
    simp [glue]
  have hnoise2 : (fun i => (drift h m (leapFlow γ h m w g (n + 1) x₀)).2 ((⟨n + 1, hn2⟩ : Fin (n + 2)), i)) =
      y.2.2 := by
    funext i
    show (leapFlow γ h m w g (n + 1) x₀).2 _ = _
    rw [leapFlow_noise γ h m w g x₀ (n + 1) _ le_rfl]
    show glue y _ = _
    simp [glue]
  have hstate : a₁.1 = beforeTwo γ h m w g n z y.1 := by
    have hc : (leapFlow γ h m w g n x₀).1 =
        (leapFlow γ h m w g n (drift (h / 2) m ((z, glue (y.1, ((0 : ι → ℝ), (0 : ι → ℝ)))) : PathSpace ι (n + 2)))).1 := by
      refine leapFlow_congr γ h m w g _ _ _ n fun j hj => ?_
      simp [glue, hj]
    unfold beforeTwo
    dsimp only
    rw [ha₁]
    by_cases h0 : n = 0
    · rw [if_pos h0, if_pos h0, hc]
    · rw [if_neg h0, if_neg h0, ← hc]
      rfl
  unfold leapMap
  rw [← hx₀, hf2]
  simp only [kickMap, flipMap, drift] at hnoise2 ⊢
  rw [hnoise2, hf1]
  simp only [kickMap]
  rw [hnoise1, hstate]
  rfl

/-- Paths reach every region. -/
theorem leapMap_reaches {γ h : ℝ} (hγ : 0 < γ) (hh : 0 < h) {m : MassMatrix ι} (hm : Spec.MassOk m)
    (hL : 2 ≤ L) (z : (ι → ℝ) × (ι → ℝ)) {A : Set ((ι → ℝ) × (ι → ℝ))} (hA : MeasurableSet A)
    (h0 : ∀ᵐ x ∂Spec.normals (Fin L × ι), ((leapMap γ h m w g ((z, x) : PathSpace ι L)).1.1,
      -(leapMap γ h m w g ((z, x) : PathSpace ι L)).1.2) ∉ A) : volume A = 0 := by
  obtain ⟨n, rfl⟩ : ∃ n, L = n + 2 := ⟨L - 2, by omega⟩
  rw [← glue_map] at h0
  have h1 := ae_of_ae_map glue_measurable.aemeasurable h0
  have h2 := Measure.ae_ae_of_ae_prod h1
  obtain ⟨y, hy⟩ := h2.exists
  have h3 := Measure.ae_ae_of_ae_prod hy
  refine lastTwo_reaches hγ hh hm (g n) (g (n + 1)) (beforeTwo γ h m w g n z y) hA ?_
  filter_upwards [h3] with a ha
  filter_upwards [ha] with b hb
  rw [leapMap_lastTwo γ h m w g n z (y, (a, b))] at hb
  simpa using hb

end

section
variable {L : ℕ} (w : (ι → ℝ) →ₗ[ℝ] (ι → ℝ)) (g : ℕ → (ι → ℝ) → (ι → ℝ))

/-- Paths do not lead to null sets. -/
theorem leapMap_ac {γ h : ℝ} (hγ : 0 < γ) (hh : 0 < h) {m : MassMatrix ι} (hm : Spec.MassOk m)
    (hL : 2 ≤ L) (z : (ι → ℝ) × (ι → ℝ)) (hT : Measurable (leapMap γ h m w g : PathSpace ι L → PathSpace ι L))
    {A : Set ((ι → ℝ) × (ι → ℝ))} (hA : MeasurableSet A) (h0 : volume A = 0) :
    ∀ᵐ x ∂Spec.normals (Fin L × ι), ((leapMap γ h m w g ((z, x) : PathSpace ι L)).1.1,
      -(leapMap γ h m w g ((z, x) : PathSpace ι L)).1.2) ∉ A := by
  obtain ⟨n, rfl⟩ : ∃ n, L = n + 2 := ⟨L - 2, by omega⟩
  have hf : Measurable fun x : Fin (n + 2) × ι → ℝ => ((leapMap γ h m w g ((z, x) : PathSpace ι (n + 2))).1.1,
      -(leapMap γ h m w g ((z, x) : PathSpace ι (n + 2))).1.2) := by
    have h1 : Measurable fun x : Fin (n + 2) × ι → ℝ => leapMap γ h m w g ((z, x) : PathSpace ι (n + 2)) :=
      hT.comp (by fun_prop)
    exact (measurable_fst.comp (measurable_fst.comp h1)).prodMk (measurable_snd.comp (measurable_fst.comp h1)).neg
  have hset : MeasurableSet {x : Fin (n + 2) × ι → ℝ | ((leapMap γ h m w g ((z, x) : PathSpace ι (n + 2))).1.1,
      -(leapMap γ h m w g ((z, x) : PathSpace ι (n + 2))).1.2) ∉ A} := hf hA.compl
  rw [← glue_map, ae_map_iff glue_measurable.aemeasurable hset]
  have hset2 : MeasurableSet {y : (Fin n × ι → ℝ) × ((ι → ℝ) × (ι → ℝ)) |
      ((leapMap γ h m w g ((z, glue y) : PathSpace ι (n + 2))).1.1,
        -(leapMap γ h m w g ((z, glue y) : PathSpace ι (n + 2))).1.2) ∉ A} := glue_measurable hset
  refine (Measure.ae_prod_iff_ae_ae hset2).2 (Filter.Eventually.of_forall fun y => ?_)
  have hset3 : MeasurableSet {ab : (ι → ℝ) × (ι → ℝ) |
      ((leapMap γ h m w g ((z, glue (y, ab)) : PathSpace ι (n + 2))).1.1,
        -(leapMap γ h m w g ((z, glue (y, ab)) : PathSpace ι (n + 2))).1.2) ∉ A} :=
    (by fun_prop : Measurable fun ab : (ι → ℝ) × (ι → ℝ) => (y, ab)) hset2
  refine (Measure.ae_prod_iff_ae_ae hset3).2 ?_
  filter_upwards [lastTwo_ac hγ hh hm (g n) (g (n + 1)) (beforeTwo γ h m w g n z y) hA h0] with a ha
  filter_upwards [ha] with b hb
  rw [leapMap_lastTwo γ h m w g n z (y, (a, b))]
  simpa using hb

end

/-! ## Uniqueness of invariant distributions -/

/-- A Markov operator `K` which reaches every set of positive measure from everywhere has at most one invariant
distribution. -/
theorem invariant_unique {α : Type*} [MeasurableSpace α] (K : (α → ENNReal) → α → ENNReal)
    (hadd : ∀ f g : α → ENNReal, Measurable f → Measurable g → ∀ x, K (f + g) x = K f x + K g x)
    (hone : ∀ x, K (fun _ => 1) x = 1) (hK : ∀ f : α → ENNReal, Measurable f → Measurable (K f))
    (ν : Measure α) (hν : ν ≠ 0)
    (hpos : ∀ A, MeasurableSet A → ν A ≠ 0 → ∀ x, K (A.indicator fun _ => 1) x ≠ 0)
    (μ π : Measure α) [IsProbabilityMeasure μ] [IsProbabilityMeasure π]
    (hμ : ∀ f : α → ENNReal, Measurable f → ∫⁻ x, K f x ∂μ = ∫⁻ x, f x ∂μ)
    (hπ : ∀ f : α → ENNReal, Measurable f → ∫⁻ x, K f x ∂π = ∫⁻ x, f x ∂π) : μ = π := by
  -- it is enough to find that the differences vanish
  have key : ∀ (μ π : Measure α) [IsProbabilityMeasure μ] [IsProbabilityMeasure π],
      (∀ f : α → ENNReal, Measurable f → ∫⁻ x, K f x ∂μ = ∫⁻ x, f x ∂μ) →
      (∀ f : α → ENNReal, Measurable f → ∫⁻ x, K f x ∂π = ∫⁻ x, f x ∂π) →
      ∀ S, MeasurableSet S → (∀ t, MeasurableSet t → t ⊆ S → π t ≤ μ t) →
      (∀ t, MeasurableSet t → t ⊆ Sᶜ → μ t ≤ π t) → ν S ≠ 0 → μ = π := by
    intro μ π _ _ hμ hπ S hS h1 h2 hνS
    have le1 : π.restrict S ≤ μ.restrict S := Measure.le_iff.2 fun t ht => by
      rw [Measure.restrict_apply ht, Measure.restrict_apply ht]
      exact h1 _ (ht.inter hS) Set.inter_subset_right
    have le2 : μ.restrict Sᶜ ≤ π.restrict Sᶜ := Measure.le_iff.2 fun t ht => by
      rw [Measure.restrict_apply ht, Measure.restrict_apply ht]
      exact h2 _ (ht.inter hS.compl) Set.inter_subset_right
    set ρ₁ := μ.restrict S - π.restrict S with hρ₁
    set ρ₂ := π.restrict Sᶜ - μ.restrict Sᶜ with hρ₂
    have e1 : ρ₁ + π.restrict S = μ.restrict S := Measure.sub_add_cancel_of_le le1
    have e2 : ρ₂ + μ.restrict Sᶜ = π.restrict Sᶜ := Measure.sub_add_cancel_of_le le2
    have eμ : μ.restrict S + μ.restrict Sᶜ = μ := Measure.restrict_add_restrict_compl hS
    have eπ : π.restrict S + π.restrict Sᶜ = π := Measure.restrict_add_restrict_compl hS
    have hsum : ρ₁ + π = ρ₂ + μ := by
      rw [← eμ, ← eπ, ← e1, ← e2]
      abel
    have hf1 : IsFiniteMeasure ρ₁ := isFiniteMeasure_of_le (μ.restrict S) (Measure.sub_le)
    have hf2 : IsFiniteMeasure ρ₂ := isFiniteMeasure_of_le (π.restrict Sᶜ) (Measure.sub_le)
    set f : α → ENNReal := S.indicator fun _ => 1 with hf
    have hfm : Measurable f := measurable_const.indicator hS
    have hle : ∀ x, K f x ≤ 1 := by
      intro x
      have hfc : Measurable (Sᶜ.indicator fun _ => (1 : ENNReal)) := measurable_const.indicator hS.compl
      have := hadd f _ hfm hfc x
      rw [show f + Sᶜ.indicator (fun _ => (1 : ENNReal)) = fun _ => 1 from
        Set.indicator_self_add_compl S _, hone] at this
      rw [this]
      exact le_self_add
    have hint : ∀ ρ : Measure α, ∫⁻ x, f x ∂ρ = ρ S := fun ρ => lintegral_indicator_one hS
    -- apply the invariance to both sides
    have hK1 : ∫⁻ x, K f x ∂(ρ₁ + π) = ∫⁻ x, K f x ∂(ρ₂ + μ) := by rw [hsum]
    rw [lintegral_add_measure, lintegral_add_measure, hμ f hfm, hπ f hfm, hint, hint] at hK1
    have hS1 : ρ₁ S + π S = μ S := by
      have := congrArg (fun ρ : Measure α => ρ S) e1
      simpa [Measure.restrict_apply hS] using this
    have hSu : ρ₁ Set.univ = ρ₁ S := by
      have h0 : ρ₁ Sᶜ = 0 := by
        have := Measure.le_iff'.1 (Measure.sub_le : ρ₁ ≤ μ.restrict S) Sᶜ
        rw [Measure.restrict_apply hS.compl, Set.compl_inter_self, measure_empty] at this
        exact le_antisymm this bot_le
      rw [← measure_add_measure_compl hS (μ := ρ₁), h0, add_zero]
    have hub : ∫⁻ x, K f x ∂ρ₁ ≤ ρ₁ S := by
      calc ∫⁻ x, K f x ∂ρ₁ ≤ ∫⁻ _, 1 ∂ρ₁ := lintegral_mono hle
        _ = ρ₁ S := by rw [lintegral_one, hSu]
    have hz : ∫⁻ x, K f x ∂ρ₂ = 0 := by
      have h3 : ∫⁻ x, K f x ∂ρ₂ + μ S ≤ μ S := by
        rw [← hK1]
        calc _ ≤ ρ₁ S + π S := add_le_add hub le_rfl
          _ = μ S := hS1
      have hfin : μ S ≠ ⊤ := measure_ne_top μ S
      by_contra hne
      have : μ S < ∫⁻ x, K f x ∂ρ₂ + μ S := by
        rw [add_comm]
        exact ENNReal.lt_add_right hfin hne
      exact absurd h3 (not_le.2 this)
    have hρ2 : ρ₂ = 0 := by
      rw [lintegral_eq_zero_iff (hK f hfm)] at hz
      by_contra hne
      have : NeZero ρ₂ := ⟨hne⟩
      obtain ⟨x, hx⟩ := hz.exists
      exact hpos S hS hνS x hx
    have hρ1 : ρ₁ = 0 := by
      have h4 := congrArg (fun ρ : Measure α => ρ Set.univ) hsum
      rw [hρ2] at h4
      simp only [Measure.coe_add, Pi.add_apply, measure_univ, Measure.coe_zero, Pi.zero_apply, zero_add] at h4
      have h5 : ρ₁ Set.univ = 0 := by
        by_contra hne
        have : (1 : ENNReal) < 1 + ρ₁ Set.univ := ENNReal.lt_add_right ENNReal.one_ne_top hne
        rw [add_comm, h4] at this
        exact lt_irrefl _ this
      exact Measure.measure_univ_eq_zero.1 h5
    rw [hρ1, hρ2, zero_add, zero_add] at hsum
    exact hsum.symm
  obtain ⟨S, hS, h1, h2⟩ := hahn_decomposition μ π
  by_cases hνS : ν S = 0
  · have hνc : ν Sᶜ ≠ 0 := by
      intro h0
      apply hν
      rw [← Measure.measure_univ_eq_zero, ← measure_add_measure_compl hS (μ := ν), hνS, h0, add_zero]
    refine (key π μ hπ hμ Sᶜ hS.compl h2 (fun t ht hts => h1 t ht ?_) hνc).symm
    rwa [compl_compl] at hts
  · exact key μ π hμ hπ S hS h1 h2 hνS

end JaxSgmc
