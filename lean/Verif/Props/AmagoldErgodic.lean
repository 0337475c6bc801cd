import Verif.Lemmas.Ergodic
import Verif.Props.AmagoldUnique

/-!
# C130: averages over an AMAGOLD chain converge to posterior expectations
-/

namespace JaxSgmc

open MeasureTheory ProbabilityTheory Filter Topology

variable {ι β μ φ : Type} [Fintype ι]

/-! ## The kernel -/

/-- The acceptance probability of a path. -/
noncomputable def pathAccept {L : ℕ} (m : MassMatrix ι) (U : (ι → ℝ) → ℝ) (D : Set (ι → ℝ))
    (T : PathSpace ι L → PathSpace ι L) (z : (ι → ℝ) × (ι → ℝ)) (x : Fin L × ι → ℝ) : ℝ :=
  D.indicator (fun _ => Spec.acceptProb (pathEnergy m U (T (z, x)) - pathEnergy m U (z, x))) (T (z, x)).1.1

/-- The end of a path. -/
def pathEnd {L : ℕ} (T : PathSpace ι L → PathSpace ι L) (z : (ι → ℝ) × (ι → ℝ)) (x : Fin L × ι → ℝ) :
    (ι → ℝ) × (ι → ℝ) := ((T (z, x)).1.1, -(T (z, x)).1.2)

/-- The distribution of accepted proposals. -/
noncomputable def moveLaw {L : ℕ} (m : MassMatrix ι) (U : (ι → ℝ) → ℝ) (D : Set (ι → ℝ)) (w : (Fin L → β) → ENNReal)
    (T : (Fin L → β) → PathSpace ι L → PathSpace ι L) (z : (ι → ℝ) × (ι → ℝ)) : Measure ((ι → ℝ) × (ι → ℝ)) :=
  Measure.sum fun b => w b • ((Spec.normals (Fin L × ι)).withDensity
    fun x => ENNReal.ofReal (pathAccept m U D (T b) z x)).map (pathEnd (T b) z)

/-- The probability of a rejection. -/
noncomputable def stayProb {L : ℕ} (m : MassMatrix ι) (U : (ι → ℝ) → ℝ) (D : Set (ι → ℝ)) (w : (Fin L → β) → ENNReal)
    (T : (Fin L → β) → PathSpace ι L → PathSpace ι L) (z : (ι → ℝ) × (ι → ℝ)) : ENNReal :=
  ∑' b, w b * ∫⁻ x, ENNReal.ofReal (1 - pathAccept m U D (T b) z x) ∂Spec.normals (Fin L × ι)

theorem pathEnd_measurable {L : ℕ} {T : PathSpace ι L → PathSpace ι L} (hT : Measurable T)
    (z : (ι → ℝ) × (ι → ℝ)) : Measurable (pathEnd T z) := by
  have h1 : Measurable fun x : Fin L × ι → ℝ => T (z, x) := hT.comp (by fun_prop)
  exact (measurable_fst.comp (measurable_fst.comp h1)).prodMk (measurable_snd.comp (measurable_fst.comp h1)).neg

theorem pathEnergy_measurable {L : ℕ} (m : MassMatrix ι) {U : (ι → ℝ) → ℝ} (hU : Measurable U) :
    Measurable (pathEnergy m U : PathSpace ι L → ℝ) := by
  have hK := kinetic_measurable m
  unfold pathEnergy
  have h1 : Measurable fun y : PathSpace ι L => Spec.kinetic m y.1.2 := hK.comp (by fun_prop)
  have h2 : ∀ j, Measurable fun y : PathSpace ι L => y.2 j := fun j =>
    (measurable_pi_apply j).comp measurable_snd
  fun_prop

theorem pathAccept_measurable {L : ℕ} (m : MassMatrix ι) {U : (ι → ℝ) → ℝ} (hU : Measurable U)
    {D : Set (ι → ℝ)} (hD : MeasurableSet D) {T : PathSpace ι L → PathSpace ι L} (hT : Measurable T)
    (z : (ι → ℝ) × (ι → ℝ)) : Measurable (pathAccept m U D T z) := by
  have h0 : Measurable fun x : Fin L × ι → ℝ => ((z, x) : PathSpace ι L) := by fun_prop
  have h1 : Measurable fun x : Fin L × ι → ℝ => T (z, x) := hT.comp h0
  have hE := pathEnergy_measurable (L := L) m hU
  have hs : MeasurableSet {x : Fin L × ι → ℝ | (T (z, x)).1.1 ∈ D} :=
    (measurable_fst.comp (measurable_fst.comp h1)) hD
  exact Measurable.indicator (s := {x | (T (z, x)).1.1 ∈ D})
    (Spec.acceptProb_measurable.comp ((hE.comp h1).sub (hE.comp h0))) hs

theorem pathAccept_le {L : ℕ} (m : MassMatrix ι) (U : (ι → ℝ) → ℝ) (D : Set (ι → ℝ))
    (T : PathSpace ι L → PathSpace ι L) (z : (ι → ℝ) × (ι → ℝ)) (x : Fin L × ι → ℝ) :
    0 ≤ pathAccept m U D T z x ∧ pathAccept m U D T z x ≤ 1 :=
  ⟨Set.indicator_nonneg (fun _ _ => (Spec.acceptProb_pos _).le) _,
    Set.indicator_le' (fun _ _ => Spec.acceptProb_le _) (fun _ _ => zero_le_one) _⟩

/-! ## Expectations over paths -/

section
variable [Inhabited β] (lay : Layout ι) (γ : ℝ) (am : Option (MassMatrix ι)) (cm : Option (ι → ℝ)) (L : ℕ)
  (sg : StochGrad ι β μ) (fullPot : FullPotFn ι φ μ) (U : (ι → ℝ) → ℝ) (f₀ : φ) (ms : μ) (w : (Fin L → β) → ENNReal)

theorem amagoldPath_cons (F : List ((ι → ℝ) × (ι → ℝ)) → ENNReal) (prm : Params) (prms : List Params)
    (past : List ((ι → ℝ) × (ι → ℝ))) (z : (ι → ℝ) × (ι → ℝ)) :
    Spec.amagoldPath lay γ am cm L sg fullPot U f₀ ms w F (prm :: prms) past z =
      Spec.amagoldExpect lay γ am cm L sg fullPot U f₀ ms w
        (fun z' => Spec.amagoldPath lay γ am cm L sg fullPot U f₀ ms w F prms (past ++ [z']) z') [prm] z := rfl

theorem amagoldExpect_mono {f g : (ι → ℝ) × (ι → ℝ) → ENNReal} (h : ∀ z, f z ≤ g z) (prm : Params)
    (z : (ι → ℝ) × (ι → ℝ)) :
    Spec.amagoldExpect lay γ am cm L sg fullPot U f₀ ms w f [prm] z ≤
      Spec.amagoldExpect lay γ am cm L sg fullPot U f₀ ms w g [prm] z :=
  ENNReal.tsum_le_tsum fun _ => mul_le_mul_right (lintegral_mono fun _ => lintegral_mono fun _ => h _) _

theorem amagoldExpect_mul {r : ENNReal} (hr : r ≠ ⊤) (f : (ι → ℝ) × (ι → ℝ) → ENNReal) (prm : Params)
    (z : (ι → ℝ) × (ι → ℝ)) :
    Spec.amagoldExpect lay γ am cm L sg fullPot U f₀ ms w (fun z => r * f z) [prm] z =
      r * Spec.amagoldExpect lay γ am cm L sg fullPot U f₀ ms w f [prm] z := by
  show ∑' b, w b * ∫⁻ x, ∫⁻ u, r * f (Spec.amagoldNext lay γ am cm L sg fullPot U f₀ ms prm b z x u) ∂Spec.unif
    ∂Spec.normals (Fin L × ι) = r * ∑' b, w b * ∫⁻ x, ∫⁻ u,
      f (Spec.amagoldNext lay γ am cm L sg fullPot U f₀ ms prm b z x u) ∂Spec.unif ∂Spec.normals (Fin L × ι)
  rw [← ENNReal.tsum_mul_left]
  refine tsum_congr fun b => ?_
  rw [mul_left_comm, ← lintegral_const_mul' _ _ hr]
  congr 2
  funext x
  rw [lintegral_const_mul' _ _ hr]

theorem amagoldPath_mono {F F' : List ((ι → ℝ) × (ι → ℝ)) → ENNReal} (prms : List Params) :
    ∀ (past : List ((ι → ℝ) × (ι → ℝ))) (z : (ι → ℝ) × (ι → ℝ)),
      (∀ zs, zs.length = past.length + prms.length → F zs ≤ F' zs) →
      Spec.amagoldPath lay γ am cm L sg fullPot U f₀ ms w F prms past z ≤
        Spec.amagoldPath lay γ am cm L sg fullPot U f₀ ms w F' prms past z := by
  induction prms with
  | nil => intro past z h; exact h past rfl
  | cons prm prms ih =>
    intro past z h
    rw [amagoldPath_cons, amagoldPath_cons]
    refine amagoldExpect_mono lay γ am cm L sg fullPot U f₀ ms w (fun z' => ih _ _ fun zs hzs => h zs ?_) prm z
    rw [hzs, List.length_append, List.length_cons]
    simp only [List.length_cons, List.length_nil]
    omega

theorem amagoldPath_mul {r : ENNReal} (hr : r ≠ ⊤) (F : List ((ι → ℝ) × (ι → ℝ)) → ENNReal) (prms : List Params) :
    ∀ (past : List ((ι → ℝ) × (ι → ℝ))) (z : (ι → ℝ) × (ι → ℝ)),
      Spec.amagoldPath lay γ am cm L sg fullPot U f₀ ms w (fun zs => r * F zs) prms past z =
        r * Spec.amagoldPath lay γ am cm L sg fullPot U f₀ ms w F prms past z := by
  induction prms with
  | nil => intro past z; rfl
  | cons prm prms ih =>
    intro past z
    rw [amagoldPath_cons, amagoldPath_cons, ← amagoldExpect_mul lay γ am cm L sg fullPot U f₀ ms w hr]
    simp only [ih]

end

attribute [local irreducible] Spec.amagoldNext leapMap Spec.amagoldExpect

section
variable [Inhabited β] {lay : Layout ι} {γ : ℝ} {am : Option (MassMatrix ι)} {cm : Option (ι → ℝ)} {L : ℕ}
  {sg : StochGrad ι β μ} {fullPot : FullPotFn ι φ μ} {U : (ι → ℝ) → ℝ} {f₀ : φ} {ms : μ} {w : (Fin L → β) → ENNReal}

/-- The expected square of a sum over a path. -/
theorem amagoldPath_sq {prm : Params} {P : Kernel ((ι → ℝ) × (ι → ℝ)) ((ι → ℝ) × (ι → ℝ))} [IsMarkovKernel P]
    (hP : ∀ z (f : (ι → ℝ) × (ι → ℝ) → ENNReal), Measurable f → ∫⁻ y, f y ∂P z =
      Spec.amagoldExpect lay γ am cm L sg fullPot U f₀ ms w f [prm] z)
    {f : (ι → ℝ) × (ι → ℝ) → ℝ} (hf : Measurable f) {C : ℝ} (hC : ∀ z, |f z| ≤ C) (n : ℕ) :
    ∀ (past : List ((ι → ℝ) × (ι → ℝ))) (z : (ι → ℝ) × (ι → ℝ)),
      Spec.amagoldPath lay γ am cm L sg fullPot U f₀ ms w (fun zs => ENNReal.ofReal ((zs.map f).sum ^ 2))
        (List.replicate n prm) past z = ENNReal.ofReal (shiftSq P f n (past.map f).sum z) := by
  induction n with
  | zero =>
    intro past z
    show ENNReal.ofReal ((past.map f).sum ^ 2) = _
    simp [shiftSq, sumAfter, sumMean, sqAfter]
  | succ n ih =>
    intro past z
    rw [List.replicate_succ, amagoldPath_cons]
    simp only [ih]
    obtain ⟨hm, hb, hp, hr⟩ := sqAfter_all (P := P) hf hC n
    have hA := sumAfter_measurable (P := P) hf hC n
    have hAb := sumAfter_le (P := P) hf hC n
    have hmeas : Measurable fun y => shiftSq P f n ((past.map f).sum + f y) y := by
      unfold shiftSq
      fun_prop
    have hsum : ∀ y : (ι → ℝ) × (ι → ℝ), ((past ++ [y]).map f).sum = (past.map f).sum + f y := by
      intro y; simp
    simp only [hsum]
    rw [← hP z _ hmeas.ennreal_ofReal, hr, ofReal_integral_eq_lintegral_ofReal _
      (Eventually.of_forall fun y => hp _ _)]
    have hn : (0 : ℝ) ≤ n := Nat.cast_nonneg n
    set c := (past.map f).sum with hc
    refine bounded_integrable (C := (|c| + C) ^ 2 + 2 * (|c| + C) * (n * C) + (n * C) ^ 2) hmeas (fun y => ?_) _
    unfold shiftSq
    have h1 : |c + f y| ≤ |c| + C := (abs_add_le _ _).trans (add_le_add le_rfl (hC y))
    have h0 : 0 ≤ |c + f y| := abs_nonneg _
    refine (abs_add_le _ _).trans (add_le_add ((abs_add_le _ _).trans (add_le_add ?_ ?_)) (hb y))
    · rw [abs_pow]; exact pow_le_pow_left₀ h0 h1 2
    · rw [abs_mul, abs_mul, abs_two]
      have := hAb y
      have h2 := abs_nonneg (sumAfter P f n y)
      have h3 : 0 ≤ |c| + C := h0.trans h1
      gcongr

end

section
variable [Inhabited β] [Countable β] {lay : Layout ι} (hl : Spec.Layout.Injective lay) {γ : ℝ} (hγ : 0 < γ)
  (am : Option (MassMatrix ι)) (cm : Option (ι → ℝ)) (hm : Spec.MassOk (Spec.usedMass am cm)) {L : ℕ}
  (hL : 2 ≤ L) (sg : StochGrad ι β μ) {G : (ι → ℝ) → β → (ι → ℝ)} (hG : ∀ x b ms, (sg x b ms).2 = G x b)
  (hGm : ∀ b, Measurable fun x => G x b) (fullPot : FullPotFn ι φ μ) {U : (ι → ℝ) → ℝ}
  (hU : Measurable U) {D : Set (ι → ℝ)} (hD : MeasurableSet D) (hfp : Spec.PotentialOn fullPot U D)
  (f₀ : φ) (ms : μ) (w : (Fin L → β) → ENNReal) (hw : ∀ b, w (fun i => b (Fin.rev i)) = w b)
  (hw1 : ∑' b, w b = 1) (prm : Params) (hh : 0 < prm.stepSize)
  {v : (ι → ℝ) →ₗ[ℝ] (ι → ℝ)} (hv : ∀ r, (Spec.usedMass am cm).sqrt.mul (v r) = r)

include hl hγ hm hG hGm hU hD hfp hh hv in
/-- An update accepts a proposal or negates the momentum. -/
theorem amagold_law (z : (ι → ℝ) × (ι → ℝ)) (f : (ι → ℝ) × (ι → ℝ) → ENNReal) (hf : Measurable f) :
    let T := fun b : Fin L → β => (leapMap γ prm.stepSize (Spec.usedMass am cm) v
      (fun n q => G q (Spec.batchSeq b n)) : PathSpace ι L → PathSpace ι L)
    ∫⁻ y, f y ∂(moveLaw (Spec.usedMass am cm) U D w T z +
        stayProb (Spec.usedMass am cm) U D w T z • Measure.dirac (z.1, -z.2)) =
      Spec.amagoldExpect lay γ am cm L sg fullPot U f₀ ms w f [prm] z := by
  intro T
  have hT : ∀ b, Measurable (T b) := fun b => (leapMap_measurePreserving (L := L) hγ.le hh.le hv
    (g := fun n q => G q (Spec.batchSeq b n)) (fun n => hGm _)).measurable
  rw [amagoldExpect_single, lintegral_add_measure, lintegral_smul_measure, lintegral_dirac' _ hf, moveLaw,
    lintegral_sum_measure, stayProb, smul_eq_mul, ← ENNReal.tsum_mul_right, ← ENNReal.tsum_add]
  refine tsum_congr fun b => ?_
  have hacc := pathAccept_measurable (Spec.usedMass am cm) hU hD (hT b) z
  have hend := pathEnd_measurable (hT b) z
  have hcomp : Measurable fun x => f (pathEnd (T b) z x) := hf.comp hend
  rw [lintegral_smul_measure, smul_eq_mul, lintegral_map hf hend,
    lintegral_withDensity_eq_lintegral_mul _ hacc.ennreal_ofReal hcomp, mul_assoc, ← mul_add]
  congr 1
  have h1acc : Measurable fun x => ENNReal.ofReal (1 - pathAccept (Spec.usedMass am cm) U D (T b) z x) :=
    (Measurable.sub measurable_const hacc).ennreal_ofReal
  rw [← lintegral_mul_const _ h1acc, ← lintegral_add_left (hacc.ennreal_ofReal.mul hcomp)]
  refine lintegral_congr fun x => ?_
  exact (amagold_unif hl hγ.le am cm hm sg hG fullPot hfp f₀ ms hv prm hh.le f b z x).symm

include hγ hm hL hGm hU hD hh hv in
/-- The accepted proposals have a density in the support. -/
theorem moveLaw_ac (z : (ι → ℝ) × (ι → ℝ)) :
    moveLaw (Spec.usedMass am cm) U D w (fun b : Fin L → β => (leapMap γ prm.stepSize (Spec.usedMass am cm) v
      (fun n q => G q (Spec.batchSeq b n)) : PathSpace ι L → PathSpace ι L)) z ≪
      (volume : Measure ((ι → ℝ) × (ι → ℝ))).restrict {z | z.1 ∈ D} := by
  have hT : ∀ b : Fin L → β, Measurable (leapMap γ prm.stepSize (Spec.usedMass am cm) v
      (fun n q => G q (Spec.batchSeq b n)) : PathSpace ι L → PathSpace ι L) := fun b =>
    (leapMap_measurePreserving (L := L) hγ.le hh.le hv
      (g := fun n q => G q (Spec.batchSeq b n)) (fun n => hGm _)).measurable
  have hs : MeasurableSet {z : (ι → ℝ) × (ι → ℝ) | z.1 ∈ D} := measurable_fst hD
  refine Measure.AbsolutelyContinuous.mk fun A hA h0 => ?_
  rw [Measure.restrict_apply hA] at h0
  rw [moveLaw, Measure.sum_apply _ hA, ENNReal.tsum_eq_zero]
  intro b
  have hend := pathEnd_measurable (hT b) z
  have hacc := pathAccept_measurable (Spec.usedMass am cm) hU hD (hT b) z
  rw [Measure.smul_apply, Measure.map_apply hend hA, withDensity_apply _ (hend hA), smul_eq_mul]
  refine mul_eq_zero_of_right _ ?_
  rw [setLIntegral_eq_zero_iff (hend hA) hacc.ennreal_ofReal]
  filter_upwards [leapMap_ac v (fun n q => G q (Spec.batchSeq b n)) hγ hh hm hL z (hT b) (hA.inter hs) h0]
    with x hx hxA
  rw [pathAccept, Set.indicator_of_notMem, ENNReal.ofReal_zero]
  exact fun hxD => hx ⟨hxA, hxD⟩

include hγ hm hL hGm hU hD hw1 hh hv in
/-- The accepted proposals reach every region of the support. -/
theorem moveLaw_reaches (z : (ι → ℝ) × (ι → ℝ)) :
    (volume : Measure ((ι → ℝ) × (ι → ℝ))).restrict {z | z.1 ∈ D} ≪
    moveLaw (Spec.usedMass am cm) U D w (fun b : Fin L → β => (leapMap γ prm.stepSize (Spec.usedMass am cm) v
      (fun n q => G q (Spec.batchSeq b n)) : PathSpace ι L → PathSpace ι L)) z := by
  have hT : ∀ b : Fin L → β, Measurable (leapMap γ prm.stepSize (Spec.usedMass am cm) v
      (fun n q => G q (Spec.batchSeq b n)) : PathSpace ι L → PathSpace ι L) := fun b =>
    (leapMap_measurePreserving (L := L) hγ.le hh.le hv
      (g := fun n q => G q (Spec.batchSeq b n)) (fun n => hGm _)).measurable
  have hs : MeasurableSet {z : (ι → ℝ) × (ι → ℝ) | z.1 ∈ D} := measurable_fst hD
  obtain ⟨b, hb⟩ : ∃ b, w b ≠ 0 := by
    by_contra h
    push_neg at h
    simp [h] at hw1
  refine Measure.AbsolutelyContinuous.mk fun A hA h0 => ?_
  rw [Measure.restrict_apply hA]
  rw [moveLaw, Measure.sum_apply _ hA, ENNReal.tsum_eq_zero] at h0
  have h1 := h0 b
  have hend := pathEnd_measurable (hT b) z
  have hacc := pathAccept_measurable (Spec.usedMass am cm) hU hD (hT b) z
  rw [Measure.smul_apply, Measure.map_apply hend hA, withDensity_apply _ (hend hA), smul_eq_mul] at h1
  have h2 := (mul_eq_zero.1 h1).resolve_left hb
  rw [setLIntegral_eq_zero_iff (hend hA) hacc.ennreal_ofReal] at h2
  refine leapMap_reaches v (fun n q => G q (Spec.batchSeq b n)) hγ hh hm hL z (hA.inter hs) ?_
  filter_upwards [h2] with x hx hmem
  have h3 := hx hmem.1
  have hmD : (leapMap γ prm.stepSize (Spec.usedMass am cm) v (fun n q => G q (Spec.batchSeq b n))
    ((z, x) : PathSpace ι L)).1.1 ∈ D := hmem.2
  rw [pathAccept, Set.indicator_of_mem hmD, ENNReal.ofReal_eq_zero] at h3
  exact absurd (Spec.acceptProb_pos _) (not_lt.2 h3)

omit [Countable β] in
/-- The normalised target and the volume of the support have the same null sets. -/
theorem target_equiv (hZ0 : Spec.posterior U D Set.univ ≠ 0) (hZ : Spec.posterior U D Set.univ ≠ ⊤)
    (hU : Measurable U) {m : MassMatrix ι} {ν : Measure (ι → ℝ)} [IsProbabilityMeasure ν] (hν : Spec.IsMomentumLaw m ν) :
    ((Spec.posterior U D Set.univ)⁻¹ • Spec.posterior U D).prod ν ≪
      (volume : Measure ((ι → ℝ) × (ι → ℝ))).restrict {z | z.1 ∈ D} ∧
    (volume : Measure ((ι → ℝ) × (ι → ℝ))).restrict {z | z.1 ∈ D} ≪
      ((Spec.posterior U D Set.univ)⁻¹ • Spec.posterior U D).prod ν := by
  have hfin : IsFiniteMeasure (Spec.posterior U D) := ⟨lt_top_iff_ne_top.2 hZ⟩
  have hprob : IsProbabilityMeasure ((Spec.posterior U D Set.univ)⁻¹ • Spec.posterior U D) :=
    ⟨by rw [Measure.smul_apply, smul_eq_mul]; exact ENNReal.inv_mul_cancel hZ0 hZ⟩
  obtain ⟨c, hc0, hc, rfl⟩ := hν
  have hK := kinetic_measurable m
  have e : (volume : Measure ((ι → ℝ) × (ι → ℝ))).restrict {z | z.1 ∈ D} =
      ((volume : Measure (ι → ℝ)).restrict D).prod volume := by
    conv_rhs => rw [← Measure.restrict_univ (μ := (volume : Measure (ι → ℝ)))]
    rw [Measure.restrict_restrict_of_subset (Set.subset_univ D)] 
    rw [Measure.prod_restrict, Measure.volume_eq_prod]
    congr 1
    ext z
    simp
  rw [e]
  have hZi : (Spec.posterior U D Set.univ)⁻¹ ≠ 0 := ENNReal.inv_ne_zero.2 hZ
  constructor
  · refine Measure.AbsolutelyContinuous.prod ?_ ?_
    · exact (Measure.smul_absolutelyContinuous).trans (withDensity_absolutelyContinuous _ _)
    · exact (Measure.smul_absolutelyContinuous).trans (withDensity_absolutelyContinuous _ _)
  · refine Measure.AbsolutelyContinuous.prod ?_ ?_
    · refine Measure.AbsolutelyContinuous.trans ?_ (Measure.absolutelyContinuous_smul hZi)
      refine withDensity_absolutelyContinuous' (by fun_prop) (Eventually.of_forall fun x => ?_)
      rw [Ne, ENNReal.ofReal_eq_zero, not_le]
      exact Real.exp_pos _
    · refine Measure.AbsolutelyContinuous.trans ?_ (Measure.absolutelyContinuous_smul hc0)
      refine withDensity_absolutelyContinuous' (by fun_prop) (Eventually.of_forall fun x => ?_)
      rw [Ne, ENNReal.ofReal_eq_zero, not_le]
      exact Real.exp_pos _

omit hv in
include hl hγ hm hL hG hGm hU hD hfp hw hw1 hh in
/-- **C130.** Averages over an AMAGOLD chain converge to posterior expectations: for every bounded function `f` of the
position, every initial position and momentum, every stochastic gradient, friction and step size, the expected
squared difference between the average of `f` over `n` updates and the posterior mean of `f` converges to zero. -/
theorem c130_mean_square (hZ0 : Spec.posterior U D Set.univ ≠ 0) (hZ : Spec.posterior U D Set.univ ≠ ⊤)
    {f : (ι → ℝ) → ℝ} (hf : Measurable f) {C : ℝ} (hC : ∀ q, |f q| ≤ C) (z : (ι → ℝ) × (ι → ℝ)) :
    Tendsto (fun n => Spec.amagoldPath lay γ am cm L sg fullPot U f₀ ms w
      (fun zs => ENNReal.ofReal ((Spec.average f zs - Spec.posteriorMean U D f) ^ 2)) (List.replicate n prm) [] z)
      atTop (𝓝 0) := by
  obtain ⟨v, hv⟩ := exists_sqrt_inverse hm
  obtain ⟨ν, hν, hlaw⟩ := momentumLaw_exists hm
  have hfin : IsFiniteMeasure (Spec.posterior U D) := ⟨lt_top_iff_ne_top.2 hZ⟩
  have hprob : IsProbabilityMeasure ((Spec.posterior U D Set.univ)⁻¹ • Spec.posterior U D) :=
    ⟨by rw [Measure.smul_apply, smul_eq_mul]; exact ENNReal.inv_mul_cancel hZ0 hZ⟩
  set π := ((Spec.posterior U D Set.univ)⁻¹ • Spec.posterior U D).prod ν with hπ
  obtain ⟨eq1, eq2⟩ := target_equiv (D := D) hZ0 hZ hU hlaw
  set m := Spec.usedMass am cm with hmdef
  set T := fun b : Fin L → β => (leapMap γ prm.stepSize m v
      (fun n q => G q (Spec.batchSeq b n)) : PathSpace ι L → PathSpace ι L) with hT
  have hexp : ∀ z (g : (ι → ℝ) × (ι → ℝ) → ENNReal), Measurable g →
      ∫⁻ y, g y ∂(moveLaw m U D w T z + stayProb m U D w T z • Measure.dirac (z.1, -z.2)) =
        Spec.amagoldExpect lay γ am cm L sg fullPot U f₀ ms w g [prm] z := fun z g hg =>
    amagold_law hl hγ am cm hm sg hG hGm fullPot hU hD hfp f₀ ms w prm hh hv z g hg
  have hmeas := fun (g : (ι → ℝ) × (ι → ℝ) → ENNReal) (hg : Measurable g) =>
    (amagold_run_invariant_on hl hγ.le am cm hm sg hG hGm fullPot hU hD hfp f₀ ms w hw hw1 g hg [prm]
      (by intro q hq; rw [List.mem_singleton] at hq; rw [hq]; exact hh.le)).1
  have htot : ∀ z, Spec.amagoldExpect lay γ am cm L sg fullPot U f₀ ms w (fun _ => 1) [prm] z = 1 := by
    intro z
    rw [amagoldExpect_single]
    have hu : Spec.unif Set.univ = 1 := by
      unfold Spec.unif
      rw [Measure.restrict_apply_univ, Real.volume_Ico]
      simp
    simp only [lintegral_one, hu, measure_univ, mul_one, hw1]
  let P : Kernel ((ι → ℝ) × (ι → ℝ)) ((ι → ℝ) × (ι → ℝ)) :=
    ⟨fun z => moveLaw m U D w T z + stayProb m U D w T z • Measure.dirac (z.1, -z.2), by
      refine Measure.measurable_of_measurable_coe _ fun A hA => ?_
      have e : ∀ z, (moveLaw m U D w T z + stayProb m U D w T z • Measure.dirac (z.1, -z.2)) A =
          Spec.amagoldExpect lay γ am cm L sg fullPot U f₀ ms w (A.indicator 1) [prm] z := fun z => by
        rw [← hexp z _ (measurable_one.indicator hA), lintegral_indicator_one hA]
      simp only [e]
      exact hmeas _ (measurable_one.indicator hA)⟩
  have hPdef : ∀ z, P z = moveLaw m U D w T z + stayProb m U D w T z • Measure.dirac (z.1, -z.2) := fun z => rfl
  have hP : ∀ z (g : (ι → ℝ) × (ι → ℝ) → ENNReal), Measurable g → ∫⁻ y, g y ∂P z =
      Spec.amagoldExpect lay γ am cm L sg fullPot U f₀ ms w g [prm] z := hexp
  have hmarkov : IsMarkovKernel P := ⟨fun z => ⟨by rw [← lintegral_one, hP z _ measurable_const]; exact htot z⟩⟩
  have hinv : P ∘ₘ π = π := by
    refine Measure.ext fun A hA => ?_
    rw [Measure.bind_apply hA P.measurable.aemeasurable]
    have e : ∀ z, P z A = Spec.amagoldExpect lay γ am cm L sg fullPot U f₀ ms w (A.indicator 1) [prm] z := fun z => by
      rw [← hP z _ (measurable_one.indicator hA), lintegral_indicator_one hA]
    simp only [e]
    rw [amagold_normalised_invariant hl hγ am cm hm sg hG hGm fullPot hU hD hfp f₀ ms w hw hw1 prm hh ν hlaw _
      (measurable_one.indicator hA), lintegral_indicator_one hA]
  have hmr := fun z => moveLaw_reaches hγ am cm hm hL hGm hU hD w hw1 prm hh hv z
  have hmac := fun z => moveLaw_ac hγ am cm hm hL hGm hU hD w prm hh hv z
  have hirr : ∀ z, π ≪ P z := fun z => by
    rw [hPdef]
    exact (eq1.trans (hmr z)).add_right _
  have hstay : ∀ z, stayProb m U D w T z < 1 := by
    intro z
    have h1 : P z Set.univ = 1 := measure_univ
    rw [hPdef] at h1
    simp only [Measure.coe_add, Measure.coe_smul, Pi.add_apply, Pi.smul_apply, measure_univ, smul_eq_mul,
      mul_one] at h1
    have h2 : moveLaw m U D w T z Set.univ ≠ 0 := by
      intro h0
      have h3 := (eq1.trans (hmr z)) h0
      rw [measure_univ] at h3
      exact one_ne_zero h3
    have h4 : stayProb m U D w T z ≠ ⊤ := by
      intro h; rw [h] at h1; simp at h1
    rw [← h1, add_comm]
    exact ENNReal.lt_add_right h4 h2
  set M := Spec.posteriorMean U D f with hM
  set g : (ι → ℝ) × (ι → ℝ) → ℝ := fun z => f z.1 - M with hg
  have hgm : Measurable g := (hf.comp measurable_fst).sub measurable_const
  have hgC : ∀ z, |g z| ≤ C + |M| := fun z => (abs_sub _ _).trans (add_le_add (hC _) le_rfl)
  have hg0 : ∫ z, g z ∂π = 0 := by
    have i1 : Integrable (fun z : (ι → ℝ) × (ι → ℝ) => f z.1) π :=
      bounded_integrable (hf.comp measurable_fst) (fun z => hC z.1) π
    rw [hg, integral_sub i1 (integrable_const _), hπ, integral_fun_fst, integral_smul_measure]
    simp only [integral_const, probReal_univ, one_smul, smul_eq_mul]
    rw [hM, Spec.posteriorMean, ENNReal.toReal_inv]
    ring
  have key := meanSq_tendsto_point hinv hirr hgm hgC hg0 (fun z => (z.1, -z.2)) (fun z => moveLaw m U D w T z)
    (fun z => stayProb m U D w T z) hPdef (fun z => (hmac z).trans eq2) hstay z (by simp)
  have key2 := ENNReal.tendsto_ofReal key
  rw [ENNReal.ofReal_zero] at key2
  refine key2.congr' ?_
  filter_upwards [eventually_gt_atTop 0] with n hn
  have hn' : (0 : ℝ) < n := by exact_mod_cast hn
  have e1 := amagoldPath_sq hP hgm hgC n [] z
  have e2 := amagoldPath_mul lay γ am cm L sg fullPot U f₀ ms w (r := ENNReal.ofReal (1 / (n : ℝ) ^ 2)) ENNReal.ofReal_ne_top
    (fun zs => ENNReal.ofReal ((zs.map g).sum ^ 2)) (List.replicate n prm) [] z
  rw [e1] at e2
  have e3 : meanSq P g n z = 1 / (n : ℝ) ^ 2 * shiftSq P g n ([].map g).sum z := by
    simp [meanSq, shiftSq]
    ring
  rw [e3, ENNReal.ofReal_mul (by positivity), ← e2]
  have e4 : ∀ zs : List ((ι → ℝ) × (ι → ℝ)), zs.length = ([] : List ((ι → ℝ) × (ι → ℝ))).length +
      (List.replicate n prm).length →
      ENNReal.ofReal (1 / (n : ℝ) ^ 2) * ENNReal.ofReal ((zs.map g).sum ^ 2) =
        ENNReal.ofReal ((Spec.average f zs - M) ^ 2) := by
    intro zs hzs
    have hlen : zs.length = n := by simpa using hzs
    rw [← ENNReal.ofReal_mul (by positivity)]
    congr 1
    have hs : (zs.map g).sum = (zs.map fun z => f z.1).sum - n * M := by
      rw [← hlen, hg]
      clear hzs hlen
      induction zs with
      | nil => simp
      | cons a l ih => simp only [List.map_cons, List.sum_cons, ih, List.length_cons]; push_cast; ring
    rw [hs, Spec.average, hlen]
    field_simp
  exact le_antisymm
    (amagoldPath_mono lay γ am cm L sg fullPot U f₀ ms w _ _ _ fun zs hzs => (e4 zs hzs).le)
    (amagoldPath_mono lay γ am cm L sg fullPot U f₀ ms w _ _ _ fun zs hzs => (e4 zs hzs).ge)

open Classical in
omit hv in
include hl hγ hm hL hG hGm hU hD hfp hw hw1 hh in
/-- **C130.** The probability that the average over `n` updates differs from the posterior mean by `ε` or more
converges to zero. -/
theorem c130_probability (hZ0 : Spec.posterior U D Set.univ ≠ 0) (hZ : Spec.posterior U D Set.univ ≠ ⊤)
    {f : (ι → ℝ) → ℝ} (hf : Measurable f) {C : ℝ} (hC : ∀ q, |f q| ≤ C) {ε : ℝ} (hε : 0 < ε)
    (z : (ι → ℝ) × (ι → ℝ)) :
    Tendsto (fun n => Spec.amagoldPath lay γ am cm L sg fullPot U f₀ ms w
      (fun zs => if ε ≤ |Spec.average f zs - Spec.posteriorMean U D f| then 1 else 0) (List.replicate n prm) [] z)
      atTop (𝓝 0) := by
  have h1 := c130_mean_square hl hγ am cm hm hL sg hG hGm fullPot hU hD hfp f₀ ms w hw hw1 prm hh hZ0 hZ hf hC z
  have h2 := ENNReal.Tendsto.const_mul (a := ENNReal.ofReal (1 / ε ^ 2)) h1 (Or.inr ENNReal.ofReal_ne_top)
  rw [mul_zero] at h2
  refine tendsto_of_tendsto_of_tendsto_of_le_of_le tendsto_const_nhds h2 (fun n => bot_le) (fun n => ?_)
  dsimp only
  rw [← amagoldPath_mul lay γ am cm L sg fullPot U f₀ ms w ENNReal.ofReal_ne_top]
  refine amagoldPath_mono lay γ am cm L sg fullPot U f₀ ms w _ _ _ fun zs _ => ?_
  split
  · rename_i h
    rw [← ENNReal.ofReal_mul (by positivity), ← ENNReal.ofReal_one]
    refine ENNReal.ofReal_le_ofReal ?_
    rw [one_div, ← div_eq_inv_mul, le_div_iff₀ (by positivity), one_mul, ← sq_abs (Spec.average f zs - _)]
    exact pow_le_pow_left₀ hε.le h 2
  · exact bot_le

end

/-- The hypotheses are met by the truncated exponential distribution on `[0, 1]` with a stochastic gradient which
does not vanish: the average of the (bounded) coordinate converges from the start `(0, 0)`. -/
example : Tendsto (fun n => Spec.amagoldPath (Spec.vectorLayout 1) 1 none (some fun _ => 4) 2 expoGrad truncPot
      (fun x => x 0) () () (fun _ => 1)
      (fun zs => ENNReal.ofReal ((Spec.average (fun q : Fin 1 → ℝ => max 0 (min 1 (q 0))) zs -
        Spec.posteriorMean (fun x : Fin 1 → ℝ => x 0) (Set.Icc 0 1) (fun q : Fin 1 → ℝ => max 0 (min 1 (q 0)))) ^ 2))
      (List.replicate n ⟨1, 1⟩) [] (0, 0)) atTop (𝓝 0) := by
  have hm : Spec.MassOk (Spec.usedMass none (some fun _ : Fin 1 => (4 : ℝ))) := massOk_const fun _ => by norm_num
  have hU : Measurable fun x : Fin 1 → ℝ => x 0 := measurable_pi_apply 0
  have hw1 : ∑' _ : Fin 2 → Unit, (1 : ENNReal) = 1 := by rw [tsum_fintype]; simp
  have hf : Measurable fun q : Fin 1 → ℝ => max 0 (min 1 (q 0)) := by fun_prop
  refine c130_mean_square (L := 2) (Spec.vectorLayout_injective 1) one_pos none (some fun _ => 4) hm le_rfl expoGrad
    (G := fun _ _ _ => 1) (fun _ _ _ => rfl) (fun _ => measurable_const) truncPot hU measurableSet_Icc
    truncPot_on () () (fun _ => 1) (fun _ => rfl) hw1 ⟨1, 1⟩ (one_pos (α := ℝ)) trunc_proper.1 trunc_proper.2
    hf (C := 1) (fun q => ?_) (0, 0)
  rw [abs_of_nonneg (le_max_left _ _)]
  exact max_le zero_le_one (min_le_left _ _)

end JaxSgmc
