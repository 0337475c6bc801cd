import Verif.Lemmas.Volume
import Verif.Spec.Invariance

/-! # The reversible leapfrog integrator as a volume preserving map of positions, momenta and noises -/

namespace JaxSgmc

open MeasureTheory

variable {ι β μ : Type} [Fintype ι] {L : ℕ}

/-- Positions, momenta and the entries of `L` noise vectors. -/
abbrev PathSpace (ι : Type) (L : ℕ) := ((ι → ℝ) × (ι → ℝ)) × (Fin L × ι → ℝ)

/-- Position update. -/
def drift (t : ℝ) (m : MassMatrix ι) (x : PathSpace ι L) : PathSpace ι L :=
  ((x.1.1 + t • m.inv.mul x.1.2, x.1.2), x.2)

/-- Momentum update with noise `n`, replacing this noise by the one of the reversed update. -/
noncomputable def kickMap (γ h : ℝ) (m : MassMatrix ι) (w : (ι → ℝ) →ₗ[ℝ] (ι → ℝ))
    (g : (ι → ℝ) → (ι → ℝ)) (n : Fin L) (x : PathSpace ι L) : PathSpace ι L :=
  ((x.1.1, kick γ h m x.1.2 (g x.1.1) (fun i => x.2 (n, i))),
    fun j => if j.1 = n then kickRev γ h (w (x.1.2 + kick γ h m x.1.2 (g x.1.1) (fun i => x.2 (n, i))))
      (fun i => x.2 (n, i)) j.2 else x.2 j)

/-- Momentum flip and reversal of the order of the noises. -/
def flipMap (x : PathSpace ι L) : PathSpace ι L :=
  ((x.1.1, -x.1.2), fun j => x.2 (Fin.rev j.1, j.2))

/-! ## Volume preservation -/

theorem mp_congr {α α' : Type*} [MeasurableSpace α] [MeasurableSpace α'] {ν : Measure α}
    {ν' : Measure α'} {f g : α → α'} (hf : MeasurePreserving f ν ν') (h : ∀ x, f x = g x) :
    MeasurePreserving g ν ν' := by
  rw [show g = f from (funext h).symm]; exact hf

instance : (volume : Measure ((ι → ℝ) × (Fin L × ι → ℝ))).IsAddHaarMeasure :=
  Measure.prod.instIsAddHaarMeasure (volume : Measure (ι → ℝ)) (volume : Measure (Fin L × ι → ℝ))

theorem drift_measurePreserving (t : ℝ) (m : MassMatrix ι) :
    MeasurePreserving (drift t m : PathSpace ι L → PathSpace ι L) volume volume := by
  have hm := m.inv.measurable_mul
  -- the shear on positions, written with swapped components
  have h1 : MeasurePreserving (fun z : (ι → ℝ) × (ι → ℝ) => (z.1, z.2 + t • m.inv.mul z.1))
      ((volume : Measure (ι → ℝ)).prod volume) ((volume : Measure (ι → ℝ)).prod volume) := by
    refine MeasurePreserving.skew_product (f := id) (MeasurePreserving.id _)
      (g := fun p q => q + t • m.inv.mul p) ?_ (Filter.Eventually.of_forall fun p => ?_)
    · show Measurable fun z : (ι → ℝ) × (ι → ℝ) => z.2 + t • m.inv.mul z.1
      fun_prop
    · exact (measurePreserving_add_right volume (t • m.inv.mul p)).map_eq
  have h2 := (Measure.measurePreserving_swap (μ := (volume : Measure (ι → ℝ)))
    (ν := (volume : Measure (ι → ℝ)))).comp (h1.comp (Measure.measurePreserving_swap
      (μ := (volume : Measure (ι → ℝ))) (ν := (volume : Measure (ι → ℝ)))))
  exact h2.prod (MeasurePreserving.id (volume : Measure (Fin L × ι → ℝ)))

theorem flipMap_measurePreserving :
    MeasurePreserving (flipMap : PathSpace ι L → PathSpace ι L) volume volume := by
  have h1 : MeasurePreserving (fun z : (ι → ℝ) × (ι → ℝ) => (z.1, -z.2)) volume volume :=
    (MeasurePreserving.id (volume : Measure (ι → ℝ))).prod (Measure.measurePreserving_neg volume)
  have h2 : MeasurePreserving (fun (y : Fin L × ι → ℝ) (j : Fin L × ι) => y (Fin.rev j.1, j.2))
      volume volume :=
    mp_congr (volume_preserving_arrowCongr' (β₁ := ℝ) (β₂ := ℝ)
      ((Equiv.prodCongr Fin.revPerm (Equiv.refl ι)).symm) (MeasurableEquiv.refl ℝ)
      (MeasurePreserving.id _)) fun y => by
        funext j
        rfl
  exact h1.prod h2

section
variable (γ h : ℝ) (m : MassMatrix ι) (w : (ι → ℝ) →ₗ[ℝ] (ι → ℝ)) (n : Fin L)

/-- The momentum update without gradient, composed with a momentum flip. -/
noncomputable def kickLin : ((ι → ℝ) × (Fin L × ι → ℝ)) →ₗ[ℝ] ((ι → ℝ) × (Fin L × ι → ℝ)) where
  toFun v := (-kick γ h m v.1 0 (fun i => v.2 (n, i)),
    fun j => if j.1 = n then kickRev γ h (w (v.1 + kick γ h m v.1 0 (fun i => v.2 (n, i))))
      (fun i => v.2 (n, i)) j.2 else v.2 j)
  map_add' a b := by
    have hk : kick γ h m (a + b).1 0 (fun i => (a + b).2 (n, i)) =
        kick γ h m a.1 0 (fun i => a.2 (n, i)) + kick γ h m b.1 0 (fun i => b.2 (n, i)) := by
      have : (fun i => (a + b).2 (n, i)) = (fun i => a.2 (n, i)) + (fun i => b.2 (n, i)) := rfl
      rw [this]
      simp only [kick, VTensor.mul_add, Prod.fst_add, smul_add, smul_zero, add_zero]
      abel
    rw [hk]
    refine Prod.ext ?_ ?_
    · simp only [Prod.fst_add]; abel
    · funext j
      simp only [Prod.snd_add, Pi.add_apply]
      by_cases hj : j.1 = n
      · simp only [hj, if_true, kickRev, Prod.fst_add]
        have : a.1 + b.1 + (kick γ h m a.1 0 (fun i => a.2 (n, i)) +
            kick γ h m b.1 0 (fun i => b.2 (n, i))) =
            (a.1 + kick γ h m a.1 0 (fun i => a.2 (n, i))) +
            (b.1 + kick γ h m b.1 0 (fun i => b.2 (n, i))) := by abel
        rw [this, w.map_add]
        simp only [Pi.add_apply, Pi.smul_apply, smul_eq_mul]
        ring
      · simp only [hj, if_false]
  map_smul' c a := by
    have hk : kick γ h m (c • a).1 0 (fun i => (c • a).2 (n, i)) =
        c • kick γ h m a.1 0 (fun i => a.2 (n, i)) := by
      have : (fun i => (c • a).2 (n, i)) = c • (fun i => a.2 (n, i)) := rfl
      rw [this]
      simp only [kick, VTensor.mul_smul, Prod.smul_fst, smul_add, smul_zero, add_zero, smul_smul]
      congr 2 <;> ring
    rw [hk]
    refine Prod.ext ?_ ?_
    · simp only [Prod.smul_fst, RingHom.id_apply, smul_neg]
    · funext j
      simp only [Prod.smul_snd, Pi.smul_apply, RingHom.id_apply]
      by_cases hj : j.1 = n
      · simp only [hj, if_true, kickRev, Prod.smul_fst]
        rw [← smul_add, w.map_smul]
        simp only [Pi.add_apply, Pi.smul_apply, smul_eq_mul]
        ring
      · simp only [hj, if_false]

variable {γ h m w}

theorem kickLin_involution (hγ : 0 ≤ γ) (hh : 0 ≤ h) (hw : ∀ r, m.sqrt.mul (w r) = r)
    (v : (ι → ℝ) × (Fin L × ι → ℝ)) : kickLin γ h m w n (kickLin γ h m w n v) = v := by
  have h1 := kick_reverse hγ hh m v.1 0 (fun i => v.2 (n, i))
    (w (v.1 + kick γ h m v.1 0 (fun i => v.2 (n, i)))) (hw _)
  have hξ : (fun i => (kickLin γ h m w n v).2 (n, i)) =
      kickRev γ h (w (v.1 + kick γ h m v.1 0 (fun i => v.2 (n, i)))) (fun i => v.2 (n, i)) := by
    funext i; simp [kickLin]
  refine Prod.ext ?_ ?_
  · show -kick γ h m (-kick γ h m v.1 0 (fun i => v.2 (n, i))) 0
      (fun i => (kickLin γ h m w n v).2 (n, i)) = v.1
    rw [hξ, h1, neg_neg]
  · funext j
    show (if j.1 = n then kickRev γ h (w (-kick γ h m v.1 0 (fun i => v.2 (n, i)) +
      kick γ h m (-kick γ h m v.1 0 (fun i => v.2 (n, i))) 0
        (fun i => (kickLin γ h m w n v).2 (n, i)))) (fun i => (kickLin γ h m w n v).2 (n, i)) j.2
      else (kickLin γ h m w n v).2 j) = v.2 j
    rw [hξ, h1]
    by_cases hj : j.1 = n
    · rw [if_pos hj]
      have e : -kick γ h m v.1 0 (fun i => v.2 (n, i)) + -v.1 =
          -(v.1 + kick γ h m v.1 0 (fun i => v.2 (n, i))) := by abel
      rw [e, w.map_neg]
      simp only [kickRev, Pi.add_apply, Pi.smul_apply, Pi.neg_apply, smul_eq_mul, ← hj]
      ring
    · rw [if_neg hj]
      show (if j.1 = n then _ else v.2 j) = _
      rw [if_neg hj]

theorem kickMap_measurePreserving (hγ : 0 ≤ γ) (hh : 0 ≤ h) (hw : ∀ r, m.sqrt.mul (w r) = r)
    {g : (ι → ℝ) → (ι → ℝ)} (hg : Measurable g) :
    MeasurePreserving (kickMap γ h m w g n : PathSpace ι L → PathSpace ι L) volume volume := by
  let κ : (ι → ℝ) → ((ι → ℝ) × (Fin L × ι → ℝ)) → ((ι → ℝ) × (Fin L × ι → ℝ)) := fun q v =>
    (kick γ h m v.1 (g q) (fun i => v.2 (n, i)),
      fun j => if j.1 = n then kickRev γ h (w (v.1 + kick γ h m v.1 (g q) (fun i => v.2 (n, i))))
        (fun i => v.2 (n, i)) j.2 else v.2 j)
  have hwm : Measurable w := w.continuous_of_finiteDimensional.measurable
  have hsm := m.sqrt.measurable_mul
  have hkm : Measurable fun z : (ι → ℝ) × ((ι → ℝ) × (Fin L × ι → ℝ)) =>
      kick γ h m z.2.1 (g z.1) (fun i => z.2.2 (n, i)) := by
    have : Measurable fun z : (ι → ℝ) × ((ι → ℝ) × (Fin L × ι → ℝ)) => m.sqrt.mul (fun i => z.2.2 (n, i)) :=
      hsm.comp (by fun_prop)
    unfold kick
    fun_prop
  have hκm : Measurable (Function.uncurry κ) := by
    refine Measurable.prodMk hkm ?_
    refine measurable_pi_lambda _ fun j => ?_
    show Measurable fun z : (ι → ℝ) × ((ι → ℝ) × (Fin L × ι → ℝ)) => if j.1 = n then
      kickRev γ h (w (z.2.1 + kick γ h m z.2.1 (g z.1) (fun i => z.2.2 (n, i))))
        (fun i => z.2.2 (n, i)) j.2 else z.2.2 j
    split
    · have : Measurable fun z : (ι → ℝ) × ((ι → ℝ) × (Fin L × ι → ℝ)) =>
          w (z.2.1 + kick γ h m z.2.1 (g z.1) (fun i => z.2.2 (n, i))) := hwm.comp (by fun_prop)
      simp only [kickRev, Pi.add_apply, Pi.smul_apply]
      fun_prop
    · fun_prop
  -- the affine map for fixed positions
  have hκ : ∀ q, MeasurePreserving (κ q) volume volume := by
    intro q
    have hlin := involution_measurePreserving (volume : Measure ((ι → ℝ) × (Fin L × ι → ℝ))) (kickLin γ h m w n)
      (kickLin_involution n hγ hh hw)
    have htr := measurePreserving_add_right (volume : Measure ((ι → ℝ) × (Fin L × ι → ℝ)))
      ((h / (1 + h * γ)) • g q, fun j => if j.1 = n then
        -Real.sqrt (h * γ) * w (-((h / (1 + h * γ)) • g q)) j.2 else 0)
    have hneg : MeasurePreserving (fun v : ((ι → ℝ) × (Fin L × ι → ℝ)) => (-v.1, v.2)) volume volume :=
      (Measure.measurePreserving_neg (volume : Measure (ι → ℝ))).prod
        (MeasurePreserving.id (volume : Measure (Fin L × ι → ℝ)))
    refine mp_congr (hneg.comp (htr.comp hlin)) fun v => ?_
    have hk : kick γ h m v.1 (g q) (fun i => v.2 (n, i)) =
        kick γ h m v.1 0 (fun i => v.2 (n, i)) + -((h / (1 + h * γ)) • g q) := by
      funext i
      simp only [kick, Pi.add_apply, Pi.smul_apply, Pi.neg_apply, smul_eq_mul, Pi.zero_apply]
      ring
    refine Prod.ext ?_ ?_
    · show -(-kick γ h m v.1 0 (fun i => v.2 (n, i)) + (h / (1 + h * γ)) • g q) = 
        kick γ h m v.1 (g q) (fun i => v.2 (n, i))
      rw [hk]; abel
    · funext j
      show (if j.1 = n then kickRev γ h (w (v.1 + kick γ h m v.1 0 (fun i => v.2 (n, i))))
          (fun i => v.2 (n, i)) j.2 else v.2 j) + (if j.1 = n then
        -Real.sqrt (h * γ) * w (-((h / (1 + h * γ)) • g q)) j.2 else 0) =
        if j.1 = n then kickRev γ h (w (v.1 + kick γ h m v.1 (g q) (fun i => v.2 (n, i))))
        (fun i => v.2 (n, i)) j.2 else v.2 j
      by_cases hj : j.1 = n
      · simp only [if_pos hj]
        rw [hk, ← add_assoc, w.map_add (v.1 + kick γ h m v.1 0 (fun i => v.2 (n, i)))]
        simp only [kickRev, Pi.add_apply, Pi.smul_apply, smul_eq_mul]
        ring
      · simp only [if_neg hj, add_zero]
  have hskew : MeasurePreserving (fun z : (ι → ℝ) × ((ι → ℝ) × (Fin L × ι → ℝ)) => (z.1, κ z.1 z.2))
      ((volume : Measure (ι → ℝ)).prod volume) ((volume : Measure (ι → ℝ)).prod volume) :=
    MeasurePreserving.skew_product (f := id) (MeasurePreserving.id _) hκm
      (Filter.Eventually.of_forall fun q => (hκ q).map_eq)
  have ha := measurePreserving_prodAssoc (volume : Measure (ι → ℝ)) (volume : Measure (ι → ℝ))
    (volume : Measure (Fin L × ι → ℝ))
  exact (ha.symm MeasurableEquiv.prodAssoc).comp (hskew.comp ha)

end

end JaxSgmc
