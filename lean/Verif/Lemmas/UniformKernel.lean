import Verif.Lemmas.UniformMoves
import Verif.Lemmas.Inhomogeneous
import Verif.Props.AmagoldErgodic

/-!
# Accepted proposals, uniform over step sizes and mini-batches
-/

namespace JaxSgmc

open MeasureTheory

variable {ι β Θ : Type} [Fintype ι]

/-! ## Kinetic energies -/

theorem kinetic_nonneg {m : MassMatrix ι} (hm : Spec.MassOk m) (p : ι → ℝ) : 0 ≤ Spec.kinetic m p := by
  obtain ⟨w, rfl⟩ := hm.surj p
  unfold Spec.kinetic
  rw [hm.root w w]
  have : 0 ≤ ∑ i, w i * w i := Finset.sum_nonneg fun i _ => mul_self_nonneg _
  positivity

theorem kinetic_bounded (m : MassMatrix ι) (R : ℝ) : ∃ K : ℝ, ∀ p : ι → ℝ, ‖p‖ ≤ R → Spec.kinetic m p ≤ K := by
  obtain ⟨R₁, h₁⟩ := (BoundedMaps.id (I := Unit) (X := ι → ℝ)).tensor m.inv R
  refine ⟨(∑ _i : ι, R * R₁) / 2, fun p hp => ?_⟩
  unfold Spec.kinetic
  have : ∀ i ∈ Finset.univ, p i * m.inv.mul p i ≤ R * R₁ := fun i _ => by
    have a1 : |p i| ≤ R := (norm_le_pi_norm p i).trans hp
    have a2 : |m.inv.mul p i| ≤ R₁ := (norm_le_pi_norm (m.inv.mul p) i).trans (h₁ () p hp)
    calc p i * m.inv.mul p i ≤ |p i * m.inv.mul p i| := le_abs_self _
      _ = |p i| * |m.inv.mul p i| := abs_mul _ _
      _ ≤ R * R₁ := mul_le_mul a1 a2 (abs_nonneg _) ((abs_nonneg _).trans a1)
  have := Finset.sum_le_sum this
  linarith

theorem acceptProb_antitone {a b : ℝ} (h : a ≤ b) : Spec.acceptProb b ≤ Spec.acceptProb a :=
  min_le_min le_rfl (Real.exp_le_exp.2 (neg_le_neg h))

/-! ## Regions of bounded states and potentials -/

/-- The states in the support with bounded position, momentum and potential. -/
def levelSet (U : (ι → ℝ) → ℝ) (D : Set (ι → ℝ)) (R : ℝ) : Set ((ι → ℝ) × (ι → ℝ)) :=
  {z | z.1 ∈ D ∧ ‖z‖ ≤ R ∧ |U z.1| ≤ R}

section
variable {U : (ι → ℝ) → ℝ} (hU : Measurable U) {D : Set (ι → ℝ)} (hD : MeasurableSet D)

include hU hD in
theorem levelSet_measurable (R : ℝ) : MeasurableSet (levelSet U D R) := by
  have h1 : MeasurableSet {z : (ι → ℝ) × (ι → ℝ) | z.1 ∈ D} := measurable_fst hD
  have h2 : MeasurableSet {z : (ι → ℝ) × (ι → ℝ) | ‖z‖ ≤ R} := measurable_norm measurableSet_Iic
  have h3 : MeasurableSet {z : (ι → ℝ) × (ι → ℝ) | |U z.1| ≤ R} :=
    (abs_measurable (hU.comp measurable_fst)) measurableSet_Iic
  exact h1.inter (h2.inter h3)

theorem levelSet_mono {R R' : ℝ} (h : R ≤ R') : levelSet U D R ⊆ levelSet U D R' :=
  fun _ hz => ⟨hz.1, hz.2.1.trans h, hz.2.2.trans h⟩

theorem levelSet_flip {R : ℝ} {z : (ι → ℝ) × (ι → ℝ)} (hz : z ∈ levelSet U D R) : (z.1, -z.2) ∈ levelSet U D R := by
  refine ⟨hz.1, ?_, hz.2.2⟩
  have := hz.2.1
  rw [Prod.norm_def] at this ⊢
  rwa [norm_neg]

end

/-! ## Accepted proposals -/

section
variable [Inhabited β] {n : ℕ} {γ l u : ℝ} (hγ : 0 < γ) (hl : 0 < l) {h : Θ → ℝ}
  (hh : ∀ i, l ≤ h i ∧ h i ≤ u) {m : MassMatrix ι} (hm : Spec.MassOk m) {v : (ι → ℝ) →ₗ[ℝ] (ι → ℝ)}
  (hv : ∀ r, m.sqrt.mul (v r) = r)
  {G : (ι → ℝ) → β → (ι → ℝ)} (hGm : ∀ b, Measurable fun x => G x b)
  (hGb : ∀ R : ℝ, ∃ B : ℝ, ∀ b q, ‖q‖ ≤ R → ‖G q b‖ ≤ B)
  {U : (ι → ℝ) → ℝ} (hU : Measurable U) {D : Set (ι → ℝ)} (hD : MeasurableSet D)
  (w : (Fin (n + 2) → β) → ENNReal) (hw1 : ∑' b, w b = 1)

/-- The paths for the step size of `θ` and the mini-batches `b`. -/
noncomputable def leapPaths (γ : ℝ) (m : MassMatrix ι) (v : (ι → ℝ) →ₗ[ℝ] (ι → ℝ)) (G : (ι → ℝ) → β → (ι → ℝ)) (n : ℕ)
    (h : ℝ) (b : Fin (n + 2) → β) : PathSpace ι (n + 2) → PathSpace ι (n + 2) :=
  leapMap γ h m v (fun k q => G q (Spec.batchSeq b k))

include hγ hl hh hv hGm in
theorem leapPaths_measurable (i : Θ × (Fin (n + 2) → β)) : Measurable (leapPaths γ m v G n (h i.1) i.2) :=
  (leapMap_measurePreserving (L := n + 2) hγ.le (hl.le.trans (hh i.1).1) hv
    (g := fun k q => G q (Spec.batchSeq i.2 k)) (fun _ => hGm _)).measurable

include hGb in
theorem batches_bounded (k : ℕ) : BoundedMaps fun (i : Θ × (Fin (n + 2) → β)) q => G q (Spec.batchSeq i.2 k) := by
  intro R
  obtain ⟨B, hB⟩ := hGb R
  exact ⟨B, fun i q hq => hB _ q hq⟩

theorem pathEnd_leapEnd (θ : ℝ) (b : Fin (n + 2) → β) (z : (ι → ℝ) × (ι → ℝ)) (x : Fin (n + 2) × ι → ℝ) :
    pathEnd (leapPaths γ m v G n θ b) z x = leapEnd γ θ m v (fun k q => G q (Spec.batchSeq b k)) n z x := rfl

theorem moveLaw_apply {T : (Fin (n + 2) → β) → PathSpace ι (n + 2) → PathSpace ι (n + 2)} (hT : ∀ b, Measurable (T b))
    (z : (ι → ℝ) × (ι → ℝ)) {A : Set ((ι → ℝ) × (ι → ℝ))} (hA : MeasurableSet A) :
    moveLaw m U D w T z A = ∑' b, w b * ∫⁻ x in {x | pathEnd (T b) z x ∈ A}, ENNReal.ofReal (pathAccept m U D (T b) z x)
      ∂Spec.normals (Fin (n + 2) × ι) := by
  rw [moveLaw, Measure.sum_apply _ hA]
  refine tsum_congr fun b => ?_
  have hend := pathEnd_measurable (hT b) z
  rw [Measure.smul_apply, Measure.map_apply hend hA, withDensity_apply _ (hend hA), smul_eq_mul]
  rfl

include hγ hl hh hm hv hGm hGb hU hD hw1 in
/-- Proposals are accepted in bounded regions with a probability proportional to their volume. -/
theorem moveLaw_ge (R : ℝ) : ∃ κ : ℝ, 0 < κ ∧ ∀ θ, ∀ z ∈ levelSet U D R, ∀ A : Set ((ι → ℝ) × (ι → ℝ)), MeasurableSet A →
    A ⊆ levelSet U D R → ENNReal.ofReal κ * volume A ≤ moveLaw m U D w (leapPaths γ m v G n (h θ)) z A := by
  obtain ⟨b, hb⟩ : ∃ b, w b ≠ 0 := by
    by_contra hc
    push Not at hc
    simp [hc] at hw1
  have hb1 : w b ≤ 1 := by rw [← hw1]; exact ENNReal.le_tsum b
  have hbt : w b ≠ ⊤ := (hb1.trans_lt ENNReal.one_lt_top).ne
  have hbr : 0 < (w b).toReal := ENNReal.toReal_pos hb hbt
  have hTi := leapPaths_measurable (n := n) hγ hl hh hv hGm
  obtain ⟨k, R', hk, hge⟩ := leapEnd_ge (I := Θ × (Fin (n + 2) → β)) (n := n) (h := fun i => h i.1) hγ hl (fun i => hh i.1)
    hm v (g := fun i k q => G q (Spec.batchSeq i.2 k)) (batches_bounded hGb) hTi R
  obtain ⟨K, hK⟩ := kinetic_bounded m R'
  set c : ℝ := R + K + (Fintype.card (Fin (n + 2) × ι) * R' ^ 2) / 2 + R with hc
  have ha := Spec.acceptProb_pos c
  refine ⟨(w b).toReal * (Spec.acceptProb c * k), by positivity, fun θ z hz A hA hAR => ?_⟩
  have hT : ∀ b, Measurable (leapPaths γ m v G n (h θ) b) := fun b => hTi (θ, b)
  rw [moveLaw_apply w hT z hA]
  refine le_trans ?_ (ENNReal.le_tsum b)
  rw [ENNReal.ofReal_mul hbr.le, ENNReal.ofReal_toReal hbt, mul_assoc]
  gcongr
  rw [ENNReal.ofReal_mul ha.le, mul_assoc]
  have h1 := hge (θ, b) z hz.2.1 A hA (fun y hy => (hAR hy).2.1)
  set S : Set (Fin (n + 2) × ι → ℝ) := {x | leapEnd γ (h θ) m v (fun k q => G q (Spec.batchSeq b k)) n z x ∈ A ∧
    ‖leapMap γ (h θ) m v (fun k q => G q (Spec.batchSeq b k)) ((z, x) : PathSpace ι (n + 2))‖ ≤ R'} with hS
  have hSm : MeasurableSet S := by
    have m1 : Measurable fun x : Fin (n + 2) × ι → ℝ => leapPaths γ m v G n (h θ) b (z, x) := (hT b).comp (by fun_prop)
    have m2 : MeasurableSet {x : Fin (n + 2) × ι → ℝ | ‖leapPaths γ m v G n (h θ) b (z, x)‖ ≤ R'} :=
      (measurable_norm.comp m1) measurableSet_Iic
    exact ((pathEnd_measurable (hT b) z) hA).inter m2
  calc ENNReal.ofReal (Spec.acceptProb c) * (ENNReal.ofReal k * volume A)
      ≤ ENNReal.ofReal (Spec.acceptProb c) * Spec.normals (Fin (n + 2) × ι) S := by gcongr
    _ = ∫⁻ _x in S, ENNReal.ofReal (Spec.acceptProb c) ∂Spec.normals (Fin (n + 2) × ι) := by
        rw [lintegral_const, Measure.restrict_apply_univ]
    _ ≤ ∫⁻ x in S, ENNReal.ofReal (pathAccept m U D (leapPaths γ m v G n (h θ) b) z x) ∂Spec.normals (Fin (n + 2) × ι) := by
        refine setLIntegral_mono' hSm fun x hx => ENNReal.ofReal_le_ofReal ?_
        have hend := hAR hx.1
        have hDm : (leapPaths γ m v G n (h θ) b (z, x)).1.1 ∈ D := hend.1
        rw [pathAccept, Set.indicator_of_mem hDm]
        refine acceptProb_antitone ?_
        have hn : ‖leapPaths γ m v G n (h θ) b (z, x)‖ ≤ R' := hx.2
        have hUe : |U (leapPaths γ m v G n (h θ) b (z, x)).1.1| ≤ R := hend.2.2
        generalize leapPaths γ m v G n (h θ) b (z, x) = t at *
        have e1 : Spec.kinetic m t.1.2 ≤ K := hK _ ((norm_snd_le t.1).trans ((norm_fst_le t).trans hn))
        have e2 := sum_sq_le ((norm_snd_le t).trans hn)
        have e3 := kinetic_nonneg hm z.2
        have e4 : 0 ≤ ∑ j, x j * x j := Finset.sum_nonneg fun j _ => mul_self_nonneg _
        have e5 := (abs_le.1 hUe).2
        have e6 := (abs_le.1 hz.2.2).1
        unfold pathEnergy
        dsimp only
        rw [hc]
        linarith
    _ ≤ _ := lintegral_mono_set fun x hx => hx.1

include hγ hl hh hm hv hGm hU hD hw1 in
/-- Accepted proposals have a bounded density. -/
theorem moveLaw_le : ∃ J : ℝ, 0 < J ∧ ∀ θ z (A : Set ((ι → ℝ) × (ι → ℝ))), MeasurableSet A →
    moveLaw m U D w (leapPaths γ m v G n (h θ)) z A ≤ ENNReal.ofReal J * volume (A ∩ {z | z.1 ∈ D}) := by
  have hTi := leapPaths_measurable (n := n) hγ hl hh hv hGm
  obtain ⟨J, hJ, hle⟩ := leapEnd_le (I := Θ × (Fin (n + 2) → β)) (n := n) (h := fun i => h i.1) hγ hl (fun i => hh i.1)
    hm v (g := fun i k q => G q (Spec.batchSeq i.2 k)) hTi
  refine ⟨J, hJ, fun θ z A hA => ?_⟩
  have hT : ∀ b, Measurable (leapPaths γ m v G n (h θ) b) := fun b => hTi (θ, b)
  have hs : MeasurableSet {z : (ι → ℝ) × (ι → ℝ) | z.1 ∈ D} := measurable_fst hD
  rw [moveLaw_apply w hT z hA]
  calc _ ≤ ∑' b, w b * (ENNReal.ofReal J * volume (A ∩ {z | z.1 ∈ D})) := by
        refine ENNReal.tsum_le_tsum fun b => ?_
        gcongr
        have hend := pathEnd_measurable (hT b) z
        have hin : MeasurableSet {x | pathEnd (leapPaths γ m v G n (h θ) b) z x ∈ A} := hend hA
        have hin2 : MeasurableSet {x | pathEnd (leapPaths γ m v G n (h θ) b) z x ∈ A ∩ {z | z.1 ∈ D}} := hend (hA.inter hs)
        refine le_trans ?_ (hle (θ, b) z _ (hA.inter hs))
        show _ ≤ Spec.normals (Fin (n + 2) × ι) {x | pathEnd (leapPaths γ m v G n (h θ) b) z x ∈ A ∩ {z | z.1 ∈ D}}
        rw [← lintegral_indicator_one hin2, ← lintegral_indicator hin]
        refine lintegral_mono fun x => ?_
        by_cases hx : x ∈ {x | pathEnd (leapPaths γ m v G n (h θ) b) z x ∈ A}
        · rw [Set.indicator_of_mem hx]
          by_cases hxD : (leapPaths γ m v G n (h θ) b (z, x)).1.1 ∈ D
          · rw [Set.indicator_of_mem (show x ∈ {x | pathEnd (leapPaths γ m v G n (h θ) b) z x ∈ A ∩ {z | z.1 ∈ D}} from
              ⟨hx, hxD⟩)]
            exact ENNReal.ofReal_le_one.2 (pathAccept_le _ _ _ _ _ _).2
          · rw [pathAccept, Set.indicator_of_notMem hxD, ENNReal.ofReal_zero]
            exact bot_le
        · rw [Set.indicator_of_notMem hx]
          exact bot_le
    _ = _ := by rw [ENNReal.tsum_mul_right, hw1, one_mul]

include hγ hl hh hv hGm hGb hw1 in
/-- Accepted proposals from bounded states are seldom far away. -/
theorem moveLaw_tail (R : ℝ) {δ : ℝ} (hδ : 0 < δ) : ∃ R' : ℝ, ∀ θ z, ‖z‖ ≤ R →
    moveLaw m U D w (leapPaths γ m v G n (h θ)) z {y | R' < ‖y‖} ≤ ENNReal.ofReal δ := by
  have hTi := leapPaths_measurable (n := n) hγ hl hh hv hGm
  obtain ⟨R', hR'⟩ := leapEnd_tail (I := Θ × (Fin (n + 2) → β)) (n := n) (h := fun i => h i.1) hγ hl (fun i => hh i.1)
    v (m := m) (g := fun i k q => G q (Spec.batchSeq i.2 k)) (batches_bounded hGb) R hδ
  refine ⟨R', fun θ z hz => ?_⟩
  have hT : ∀ b, Measurable (leapPaths γ m v G n (h θ) b) := fun b => hTi (θ, b)
  have hs : MeasurableSet {z : (ι → ℝ) × (ι → ℝ) | R' < ‖z‖} := measurable_norm measurableSet_Ioi
  rw [moveLaw_apply w hT z hs]
  calc _ ≤ ∑' b, w b * ENNReal.ofReal δ := by
        refine ENNReal.tsum_le_tsum fun b => ?_
        gcongr
        refine le_trans ?_ (hR' (θ, b) z hz)
        calc _ ≤ ∫⁻ _x in {x | pathEnd (leapPaths γ m v G n (h θ) b) z x ∈ {y | R' < ‖y‖}}, 1
              ∂Spec.normals (Fin (n + 2) × ι) :=
              lintegral_mono fun x => ENNReal.ofReal_le_one.2 (pathAccept_le _ _ _ _ _ _).2
          _ = Spec.normals (Fin (n + 2) × ι) {x | pathEnd (leapPaths γ m v G n (h θ) b) z x ∈ {y | R' < ‖y‖}} := by
              rw [lintegral_one, Measure.restrict_apply_univ]
          _ ≤ _ := le_rfl
    _ = _ := by rw [ENNReal.tsum_mul_right, hw1, one_mul]

end

/-! ## The target -/

section
variable {U : (ι → ℝ) → ℝ} (hU : Measurable U) {D : Set (ι → ℝ)} (hD : MeasurableSet D) {m : MassMatrix ι}
  (hm : Spec.MassOk m) {π : Measure ((ι → ℝ) × (ι → ℝ))} {k₀ : ENNReal} (hk0 : k₀ ≠ 0) (hkt : k₀ ≠ ⊤)
  (hπ : ∀ A, MeasurableSet A → π A = k₀ * ∫⁻ z in A ∩ {z | z.1 ∈ D}, ENNReal.ofReal (Real.exp (-(U z.1 + Spec.kinetic m z.2))))

include hU hD hm hkt hπ in
/-- The density of the target is bounded in regions of bounded potential. -/
theorem target_le (R : ℝ) : ∃ c : ℝ, 0 < c ∧ ∀ A, MeasurableSet A → A ⊆ levelSet U D R →
    π A ≤ ENNReal.ofReal c * volume A := by
  refine ⟨k₀.toReal * Real.exp R + 1, by positivity, fun A hA hAR => ?_⟩
  have hs : MeasurableSet {z : (ι → ℝ) × (ι → ℝ) | z.1 ∈ D} := measurable_fst hD
  rw [hπ A hA]
  calc k₀ * ∫⁻ z in A ∩ {z | z.1 ∈ D}, ENNReal.ofReal (Real.exp (-(U z.1 + Spec.kinetic m z.2)))
      ≤ k₀ * ∫⁻ _z in A ∩ {z | z.1 ∈ D}, ENNReal.ofReal (Real.exp R) := by
        refine mul_le_mul_right (setLIntegral_mono' (hA.inter hs) fun z hz =>
          ENNReal.ofReal_le_ofReal (Real.exp_le_exp.2 ?_)) _
        have := kinetic_nonneg hm z.2
        have := (abs_le.1 (hAR hz.1).2.2).1
        linarith
    _ ≤ k₀ * (ENNReal.ofReal (Real.exp R) * volume A) := by
        rw [lintegral_const, Measure.restrict_apply_univ]
        gcongr
        exact Set.inter_subset_left
    _ = ENNReal.ofReal (k₀.toReal * Real.exp R) * volume A := by
        rw [ENNReal.ofReal_mul ENNReal.toReal_nonneg, ENNReal.ofReal_toReal hkt, mul_assoc]
    _ ≤ _ := by gcongr; linarith

include hU hD hk0 hkt hπ in
/-- The density of the target is bounded below in regions of bounded states and potentials. -/
theorem target_ge (R s : ℝ) : ∃ c : ℝ, 0 < c ∧ ∀ A, MeasurableSet A → A ⊆ {z | z.1 ∈ D ∧ ‖z‖ ≤ R ∧ U z.1 ≤ s} →
    volume A ≤ ENNReal.ofReal c * π A := by
  obtain ⟨K, hK⟩ := kinetic_bounded m R
  have hkr : 0 < k₀.toReal := ENNReal.toReal_pos hk0 hkt
  have hs : MeasurableSet {z : (ι → ℝ) × (ι → ℝ) | z.1 ∈ D} := measurable_fst hD
  refine ⟨(k₀.toReal * Real.exp (-(s + K)))⁻¹, by positivity, fun A hA hAR => ?_⟩
  have hAD : A ∩ {z | z.1 ∈ D} = A := Set.inter_eq_left.2 fun z hz => (hAR hz).1
  rw [hπ A hA, hAD]
  have h1 : ENNReal.ofReal (Real.exp (-(s + K))) * volume A ≤
      ∫⁻ z in A, ENNReal.ofReal (Real.exp (-(U z.1 + Spec.kinetic m z.2))) := by
    calc _ = ∫⁻ _z in A, ENNReal.ofReal (Real.exp (-(s + K))) := by rw [lintegral_const, Measure.restrict_apply_univ]
      _ ≤ _ := setLIntegral_mono' hA fun z hz => ENNReal.ofReal_le_ofReal (Real.exp_le_exp.2 (by
          have a1 := (hAR hz).2.2
          have a2 := hK z.2 ((norm_snd_le z).trans (hAR hz).2.1)
          linarith))
  calc volume A = ENNReal.ofReal ((k₀.toReal * Real.exp (-(s + K)))⁻¹) *
        (k₀ * (ENNReal.ofReal (Real.exp (-(s + K))) * volume A)) := by
        have e : ENNReal.ofReal ((k₀.toReal * Real.exp (-(s + K)))⁻¹) * (ENNReal.ofReal k₀.toReal *
            (ENNReal.ofReal (Real.exp (-(s + K))) * volume A)) = volume A := by
          rw [← mul_assoc, ← mul_assoc, ← ENNReal.ofReal_mul (by positivity), ← ENNReal.ofReal_mul (by positivity), mul_assoc,
            inv_mul_cancel₀ (by positivity), ENNReal.ofReal_one, one_mul]
        rw [ENNReal.ofReal_toReal hkt] at e
        exact e.symm
    _ ≤ _ := by gcongr

include hU hD hπ in
/-- Regions of bounded states and potentials carry most of the target. -/
theorem target_levels [IsProbabilityMeasure π] {t : ℝ} (ht : 0 < t) (R₀ : ℝ) : ∃ R, R₀ ≤ R ∧ π.real (levelSet U D R)ᶜ ≤ t := by
  have hm' : ∀ n : ℕ, MeasurableSet (levelSet U D (n : ℝ))ᶜ := fun n => (levelSet_measurable hU hD _).compl
  have htd := tendsto_measure_iInter_atTop (μ := π) (s := fun n : ℕ => (levelSet U D (n : ℝ))ᶜ)
    (fun n => (hm' n).nullMeasurableSet) (fun a b hab => Set.compl_subset_compl.2 (levelSet_mono (by exact_mod_cast hab)))
    ⟨0, measure_ne_top _ _⟩
  have hs : MeasurableSet {z : (ι → ℝ) × (ι → ℝ) | z.1 ∈ D} := measurable_fst hD
  have h0 : π (⋂ n : ℕ, (levelSet U D (n : ℝ))ᶜ) = 0 := by
    have hsub : ⋂ n : ℕ, (levelSet U D (n : ℝ))ᶜ ⊆ {z | z.1 ∈ D}ᶜ := by
      intro z hz hzD
      obtain ⟨n, hn⟩ := exists_nat_ge (max ‖z‖ |U z.1|)
      exact Set.mem_iInter.1 hz n ⟨hzD, (le_max_left _ _).trans hn, (le_max_right _ _).trans hn⟩
    refine measure_mono_null hsub ?_
    rw [hπ _ hs.compl, Set.compl_inter_self]
    simp
  rw [h0] at htd
  have hev := (htd.eventually (ge_mem_nhds (ENNReal.ofReal_pos.2 ht))).and (Filter.eventually_ge_atTop ⌈R₀⌉₊)
  obtain ⟨n, hn, hn'⟩ := hev.exists
  refine ⟨n, (Nat.le_ceil R₀).trans (by exact_mod_cast hn'), ?_⟩
  rw [measureReal_def]
  exact ENNReal.toReal_le_of_le_ofReal ht.le hn

end

/-! ## The law of large numbers -/

section
open ProbabilityTheory
variable [Inhabited β] {n : ℕ} {γ l u : ℝ} (hγ : 0 < γ) (hl : 0 < l) {h : Θ → ℝ}
  (hh : ∀ i, l ≤ h i ∧ h i ≤ u) {m : MassMatrix ι} (hm : Spec.MassOk m) {v : (ι → ℝ) →ₗ[ℝ] (ι → ℝ)}
  (hv : ∀ r, m.sqrt.mul (v r) = r)
  {G : (ι → ℝ) → β → (ι → ℝ)} (hGm : ∀ b, Measurable fun x => G x b)
  (hGb : ∀ R : ℝ, ∃ B : ℝ, ∀ b q, ‖q‖ ≤ R → ‖G q b‖ ≤ B)
  {U : (ι → ℝ) → ℝ} (hU : Measurable U) {D : Set (ι → ℝ)} (hD : MeasurableSet D)
  (w : (Fin (n + 2) → β) → ENNReal) (hw1 : ∑' b, w b = 1)
  {π : Measure ((ι → ℝ) × (ι → ℝ))} {k₀ : ENNReal} (hk0 : k₀ ≠ 0) (hkt : k₀ ≠ ⊤)
  (hπ : ∀ A, MeasurableSet A → π A = k₀ * ∫⁻ z in A ∩ {z | z.1 ∈ D}, ENNReal.ofReal (Real.exp (-(U z.1 + Spec.kinetic m z.2))))

include hγ hl hh hm hv hGm hGb hU hD hw1 hkt hπ in
/-- Proposals are accepted in bounded regions with a probability proportional to their target probability. -/
theorem moveLaw_target (R : ℝ) : ∃ κ : ℝ, 0 < κ ∧ ∀ θ, ∀ z ∈ levelSet U D R,
    ENNReal.ofReal κ • π.restrict (levelSet U D R) ≤ moveLaw m U D w (leapPaths γ m v G n (h θ)) z := by
  obtain ⟨κ, hκ, hge⟩ := moveLaw_ge (Θ := Θ) hγ hl hh hm hv hGm hGb hU hD w hw1 R
  obtain ⟨c, hc, hle⟩ := target_le hU hD hm hkt hπ R
  have hlm := levelSet_measurable hU hD R
  refine ⟨κ / c, by positivity, fun θ z hz => Measure.le_iff.2 fun A hA => ?_⟩
  rw [Measure.smul_apply, Measure.restrict_apply hA, smul_eq_mul]
  calc ENNReal.ofReal (κ / c) * π (A ∩ levelSet U D R)
      ≤ ENNReal.ofReal (κ / c) * (ENNReal.ofReal c * volume (A ∩ levelSet U D R)) := by
        gcongr
        exact hle _ (hA.inter hlm) Set.inter_subset_right
    _ = ENNReal.ofReal κ * volume (A ∩ levelSet U D R) := by
        rw [← mul_assoc, ← ENNReal.ofReal_mul (by positivity), div_mul_cancel₀ _ hc.ne']
    _ ≤ moveLaw m U D w (leapPaths γ m v G n (h θ)) z (A ∩ levelSet U D R) :=
        hge θ z hz _ (hA.inter hlm) Set.inter_subset_right
    _ ≤ _ := measure_mono Set.inter_subset_left

include hγ hl hh hm hv hGm hGb hU hD hw1 hk0 hkt hπ in
/-- Accepted proposals from bounded states have, up to a small probability, a bounded density. -/
theorem moveLaw_density (R : ℝ) {δ : ℝ} (hδ : 0 < δ) : ∃ c : ℝ, 0 ≤ c ∧ ∀ θ, ∀ z ∈ levelSet U D R,
    ∃ η : Measure ((ι → ℝ) × (ι → ℝ)), η Set.univ ≤ ENNReal.ofReal δ ∧
      moveLaw m U D w (leapPaths γ m v G n (h θ)) z ≤ ENNReal.ofReal c • π + η := by
  obtain ⟨J, hJ, hle⟩ := moveLaw_le (Θ := Θ) hγ hl hh hm hv hGm hU hD w hw1
  obtain ⟨R', hR'⟩ := moveLaw_tail (Θ := Θ) (m := m) (U := U) (D := D) hγ hl hh hv hGm hGb w hw1 R (half_pos hδ)
  -- large potentials
  have hs : MeasurableSet {z : (ι → ℝ) × (ι → ℝ) | z.1 ∈ D} := measurable_fst hD
  have hball : MeasurableSet {z : (ι → ℝ) × (ι → ℝ) | ‖z‖ ≤ R'} := measurable_norm measurableSet_Iic
  have hpot : ∀ s : ℝ, MeasurableSet {z : (ι → ℝ) × (ι → ℝ) | s < U z.1} := fun s =>
    (hU.comp measurable_fst) measurableSet_Ioi
  have hE : ∀ k : ℕ, MeasurableSet {z : (ι → ℝ) × (ι → ℝ) | ‖z‖ ≤ R' ∧ (k : ℝ) < U z.1} := fun k => hball.inter (hpot k)
  have hfin : (volume : Measure ((ι → ℝ) × (ι → ℝ))) {z | ‖z‖ ≤ R' ∧ ((0 : ℕ) : ℝ) < U z.1} ≠ ⊤ := by
    refine ne_top_of_le_ne_top (measure_closedBall_lt_top (x := (0 : (ι → ℝ) × (ι → ℝ))) (r := R')).ne
      (measure_mono fun z hz => ?_)
    exact mem_closedBall_zero_iff.2 hz.1
  have htd := tendsto_measure_iInter_atTop (μ := (volume : Measure ((ι → ℝ) × (ι → ℝ))))
    (s := fun k : ℕ => {z : (ι → ℝ) × (ι → ℝ) | ‖z‖ ≤ R' ∧ (k : ℝ) < U z.1}) (fun k => (hE k).nullMeasurableSet)
    (fun a b hab z hz => ⟨hz.1, lt_of_le_of_lt (by exact_mod_cast hab) hz.2⟩) ⟨0, hfin⟩
  have he : ⋂ k : ℕ, {z : (ι → ℝ) × (ι → ℝ) | ‖z‖ ≤ R' ∧ (k : ℝ) < U z.1} = ∅ := by
    refine Set.eq_empty_of_forall_notMem fun z hz => ?_
    obtain ⟨k, hk⟩ := exists_nat_ge (U z.1)
    exact absurd (Set.mem_iInter.1 hz k).2 (not_lt.2 hk)
  rw [he, measure_empty] at htd
  obtain ⟨k, hk⟩ := (htd.eventually (ge_mem_nhds (ENNReal.ofReal_pos.2 (show 0 < δ / 2 / J by positivity)))).exists
  obtain ⟨c, hc, hge⟩ := target_ge hU hD hk0 hkt hπ R' (k : ℝ)
  refine ⟨J * c, by positivity, fun θ z hz => ?_⟩
  set mv := moveLaw m U D w (leapPaths γ m v G n (h θ)) z with hmv
  set W : Set ((ι → ℝ) × (ι → ℝ)) := {z | z.1 ∈ D ∧ ‖z‖ ≤ R' ∧ U z.1 ≤ k} with hW
  have hWm : MeasurableSet W := by
    have h3 : MeasurableSet {z : (ι → ℝ) × (ι → ℝ) | U z.1 ≤ k} := (hU.comp measurable_fst) measurableSet_Iic
    exact hs.inter (hball.inter h3)
  refine ⟨mv.restrict Wᶜ, ?_, ?_⟩
  · rw [Measure.restrict_apply_univ]
    have hsub : Wᶜ ⊆ {y | R' < ‖y‖} ∪ ({z | ‖z‖ ≤ R' ∧ (k : ℝ) < U z.1} ∪ {z | z.1 ∈ D}ᶜ) := by
      intro y hy
      by_cases h1 : R' < ‖y‖
      · exact Or.inl h1
      · by_cases h2 : y.1 ∈ D
        · refine Or.inr (Or.inl ⟨not_lt.1 h1, ?_⟩)
          by_contra h3
          exact hy ⟨h2, not_lt.1 h1, not_lt.1 h3⟩
        · exact Or.inr (Or.inr h2)
    have h0 : mv {z | z.1 ∈ D}ᶜ = 0 := by
      have := hle θ z _ hs.compl
      rw [Set.compl_inter_self, measure_empty, mul_zero] at this
      exact le_antisymm this bot_le
    have h1 : mv {z | ‖z‖ ≤ R' ∧ (k : ℝ) < U z.1} ≤ ENNReal.ofReal (δ / 2) := by
      refine (hle θ z _ (hE k)).trans ?_
      calc _ ≤ ENNReal.ofReal J * ENNReal.ofReal (δ / 2 / J) := by
            gcongr
            exact (measure_mono Set.inter_subset_left).trans hk
        _ = _ := by rw [← ENNReal.ofReal_mul hJ.le, mul_div_cancel₀ _ hJ.ne']
    calc mv Wᶜ ≤ mv {y | R' < ‖y‖} + (mv {z | ‖z‖ ≤ R' ∧ (k : ℝ) < U z.1} + mv {z | z.1 ∈ D}ᶜ) :=
          (measure_mono hsub).trans ((measure_union_le _ _).trans (add_le_add le_rfl (measure_union_le _ _)))
      _ ≤ ENNReal.ofReal (δ / 2) + (ENNReal.ofReal (δ / 2) + 0) :=
          add_le_add (hR' θ z hz.2.1) (add_le_add h1 h0.le)
      _ = ENNReal.ofReal δ := by
          rw [add_zero, ← ENNReal.ofReal_add (by positivity) (by positivity), add_halves]
  · conv_lhs => rw [← Measure.restrict_add_restrict_compl (μ := mv) hWm]
    refine add_le_add (Measure.le_iff.2 fun A hA => ?_) le_rfl
    rw [Measure.restrict_apply hA, Measure.smul_apply, smul_eq_mul]
    calc mv (A ∩ W) ≤ ENNReal.ofReal J * volume ((A ∩ W) ∩ {z | z.1 ∈ D}) := hle θ z _ (hA.inter hWm)
      _ ≤ ENNReal.ofReal J * (ENNReal.ofReal c * π (A ∩ W)) := by
          gcongr
          exact (measure_mono Set.inter_subset_left).trans (hge _ (hA.inter hWm) Set.inter_subset_right)
      _ = ENNReal.ofReal (J * c) * π (A ∩ W) := by rw [← mul_assoc, ← ENNReal.ofReal_mul hJ.le]
      _ ≤ _ := by gcongr; exact Set.inter_subset_left

include hγ hl hh hm hv hGm hGb hU hD hw1 hkt hπ in
/-- Proposals from bounded regions are accepted with a probability bounded from below. -/
theorem moves_stay [IsProbabilityMeasure π] {P : Θ → Kernel ((ι → ℝ) × (ι → ℝ)) ((ι → ℝ) × (ι → ℝ))}
    [∀ θ, IsMarkovKernel (P θ)] (hP : ∀ θ z, P θ z = moveLaw m U D w (leapPaths γ m v G n (h θ)) z +
      stayProb m U D w (leapPaths γ m v G n (h θ)) z • Measure.dirac (z.1, -z.2)) {R : ℝ}
    (hRt : π.real (levelSet U D R)ᶜ ≤ 1 / 2) : ∃ κ : ℝ, 0 < κ ∧
    ∀ θ, ∀ z ∈ levelSet U D R, stayProb m U D w (leapPaths γ m v G n (h θ)) z ≤ ENNReal.ofReal (1 - κ / 2) := by
  have hlm := levelSet_measurable hU hD R
  obtain ⟨κ, hκ, hmove⟩ := moveLaw_target (Θ := Θ) hγ hl hh hm hv hGm hGb hU hD w hw1 hkt hπ R
  refine ⟨κ, hκ, ?_⟩
  intro θ z hz
  have h1 : P θ z Set.univ = 1 := measure_univ
  rw [hP] at h1
  simp only [Measure.coe_add, Measure.coe_smul, Pi.add_apply, Pi.smul_apply, measure_univ, smul_eq_mul,
    mul_one] at h1
  have h2 := Measure.le_iff'.1 (hmove θ z hz) Set.univ
  rw [Measure.smul_apply, Measure.restrict_apply_univ, smul_eq_mul] at h2
  have h3 : ENNReal.ofReal (1 / 2) ≤ π (levelSet U D R) := by
    have e := probReal_add_probReal_compl (μ := π) hlm
    rw [← ofReal_measureReal]
    exact ENNReal.ofReal_le_ofReal (by linarith)
  have h4 : ENNReal.ofReal (κ / 2) ≤ moveLaw m U D w (leapPaths γ m v G n (h θ)) z Set.univ := by
    refine le_trans ?_ h2
    rw [show κ / 2 = κ * (1 / 2) by ring, ENNReal.ofReal_mul hκ.le]
    gcongr
  have h5 : stayProb m U D w (leapPaths γ m v G n (h θ)) z =
      1 - moveLaw m U D w (leapPaths γ m v G n (h θ)) z Set.univ := by
    rw [← h1, ENNReal.add_sub_cancel_left]
    intro ht
    rw [ht] at h1
    simp at h1
  rw [h5, ENNReal.ofReal_sub _ (by positivity), ENNReal.ofReal_one]
  exact tsub_le_tsub_left h4 1

include hγ hl hh hm hv hGm hGb hU hD hw1 hk0 hkt hπ in
/-- The mean square of weighted averages over chains of proposals with changing step sizes is uniformly small. -/
theorem moves_average [IsProbabilityMeasure π] {P : Θ → Kernel ((ι → ℝ) × (ι → ℝ)) ((ι → ℝ) × (ι → ℝ))}
    [∀ θ, IsMarkovKernel (P θ)] (hP : ∀ θ z, P θ z = moveLaw m U D w (leapPaths γ m v G n (h θ)) z +
      stayProb m U D w (leapPaths γ m v G n (h θ)) z • Measure.dirac (z.1, -z.2)) (hinv : ∀ θ, P θ ∘ₘ π = π)
    {g : (ι → ℝ) × (ι → ℝ) → ℝ} (hg : Measurable g) {C : ℝ} (hC : ∀ z, |g z| ≤ C) (h0 : ∫ z, g z ∂π = 0) (R₀ : ℝ)
    {ε : ℝ} (hε : 0 < ε) :
    ∃ N₀ : ℝ, ∀ z ∈ levelSet U D R₀, ∀ l : List (Θ × ℝ), (∀ x ∈ l, 0 ≤ x.2 ∧ x.2 ≤ 1) → N₀ ≤ totalWeight l →
      weightedSq P g l z ≤ ε * totalWeight l ^ 2 := by
  obtain ⟨R, hR, hRt⟩ := target_levels hU hD hπ (show (0 : ℝ) < 1 / 2 by norm_num) R₀
  obtain ⟨κ, hκ, hstay⟩ := moves_stay hγ hl hh hm hv hGm hGb hU hD w hw1 hkt hπ hP hRt
  obtain ⟨N₀, hN⟩ := weightedSq_small (P := P) (π := π) (Z := levelSet U D R) hinv (fun t ht => by
      obtain ⟨R₁, -, h1⟩ := target_levels hU hD hπ ht R₀
      obtain ⟨κ₁, hκ₁, hmove₁⟩ := moveLaw_target (Θ := Θ) hγ hl hh hm hv hGm hGb hU hD w hw1 hkt hπ R₁
      refine ⟨levelSet U D R₁, levelSet_measurable hU hD R₁, h1, κ₁, hκ₁, fun θ z hz => ?_⟩
      rw [hP]
      exact (hmove₁ θ z hz).trans (Measure.le_add_right le_rfl)) (fun δ hδ =>
      chain_density hinv (fun θ z => moveLaw m U D w (leapPaths γ m v G n (h θ)) z)
        (fun θ z => stayProb m U D w (leapPaths γ m v G n (h θ)) z) (fun z => (z.1, -z.2)) hP
        (fun z hz => levelSet_flip hz) (ε := κ / 2) (by positivity) hstay
        (fun δ hδ => moveLaw_density (Θ := Θ) hγ hl hh hm hv hGm hGb hU hD w hw1 hk0 hkt hπ R hδ) hδ) hg hC h0 hε
  exact ⟨N₀, fun z hz => hN z (levelSet_mono hR hz)⟩

end

end JaxSgmc
