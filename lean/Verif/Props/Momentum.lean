import Verif.Lemmas.Stationary
import Verif.Lemmas.ObaboMap
import Verif.Props.Obabo

/-!
# C86: distribution of the momentum
-/

namespace JaxSgmc

open MeasureTheory

variable {ι κ δ β μ : Type} [Fintype ι]

/-- The square root of a consistent mass matrix has a linear inverse. -/
theorem massOk_inverse {m : MassMatrix ι} (hm : Spec.MassOk m) :
    ∃ w : (ι → ℝ) →ₗ[ℝ] (ι → ℝ), ∀ r, m.sqrt.mul (w r) = r := by
  let A : (ι → ℝ) →ₗ[ℝ] (ι → ℝ) :=
    { toFun := m.sqrt.mul, map_add' := m.sqrt.mul_add, map_smul' := m.sqrt.mul_smul }
  obtain ⟨w, hw⟩ := A.exists_rightInverse_of_surjective
    (LinearMap.range_eq_top.2 fun r => by obtain ⟨v, hv⟩ := hm.surj r; exact ⟨v, hv⟩)
  exact ⟨w, fun r => LinearMap.congr_fun hw r⟩

/-- `sqrt * noise` has the density `exp(-½ pᵀ M⁻¹ p)` up to a constant. -/
theorem map_sqrt_normals {m : MassMatrix ι} (hm : Spec.MassOk m) :
    ∃ c : ENNReal, c ≠ 0 ∧ c ≠ ⊤ ∧ Measure.map m.sqrt.mul (Spec.normals ι) =
      c • (volume : Measure (ι → ℝ)).withDensity
        (fun p => ENNReal.ofReal (Real.exp (-Spec.kinetic m p))) := by
  obtain ⟨w, hw⟩ := massOk_inverse hm
  let A : (ι → ℝ) →ₗ[ℝ] (ι → ℝ) :=
    { toFun := m.sqrt.mul, map_add' := m.sqrt.mul_add, map_smul' := m.sqrt.mul_smul }
  have hdet : LinearMap.det A ≠ 0 := by
    have h1 : A * w = 1 := LinearMap.ext fun r => hw r
    intro h0
    have h2 := congrArg LinearMap.det h1
    rw [map_mul, h0, zero_mul, map_one] at h2
    exact zero_ne_one h2
  have hA : Measurable m.sqrt.mul := m.sqrt.measurable_mul
  have hK := kinetic_measurable m
  set C : ℝ := Fintype.card ι * Real.log (Real.sqrt (2 * Real.pi)) with hC
  have hg : Measurable fun p : ι → ℝ => ENNReal.ofReal (Real.exp (-Spec.kinetic m p)) := by fun_prop
  have hd : ∀ x : ι → ℝ, ENNReal.ofReal (∏ i, ProbabilityTheory.gaussianPDFReal 0 1 (x i)) =
      ENNReal.ofReal (Real.exp (-C)) * ENNReal.ofReal (Real.exp (-Spec.kinetic m (m.sqrt.mul x))) := by
    intro x
    rw [prod_gaussian, ← ENNReal.ofReal_mul (Real.exp_pos _).le, ← Real.exp_add]
    congr 2
    rw [Spec.kinetic, hm.root]
    ring
  refine ⟨ENNReal.ofReal (Real.exp (-C)) * ENNReal.ofReal |(LinearMap.det A)⁻¹|, ?_, ?_, ?_⟩
  · refine mul_ne_zero ?_ ?_
    · rw [Ne, ENNReal.ofReal_eq_zero, not_le]; exact Real.exp_pos _
    · rw [Ne, ENNReal.ofReal_eq_zero, not_le]; exact abs_pos.2 (inv_ne_zero hdet)
  · exact ENNReal.mul_ne_top ENNReal.ofReal_ne_top ENNReal.ofReal_ne_top
  · refine Measure.ext_of_lintegral _ fun f hf => ?_
    have hfA : Measurable fun x => f (m.sqrt.mul x) := hf.comp hA
    have hpdf : Measurable fun x : ι → ℝ =>
        ENNReal.ofReal (∏ j, ProbabilityTheory.gaussianPDFReal 0 1 (x j)) := by
      have := ProbabilityTheory.measurable_gaussianPDFReal 0 1
      refine ENNReal.measurable_ofReal.comp ?_
      exact Finset.measurable_prod _ fun j _ => this.comp (measurable_pi_apply j)
    rw [lintegral_map hf hA, lintegral_smul_measure, lintegral_withDensity_eq_lintegral_mul _ hg hf]
    unfold Spec.normals
    rw [pi_gaussian, lintegral_withDensity_eq_lintegral_mul _ hpdf hfA]
    have e : ∀ x, ((fun x : ι → ℝ => ENNReal.ofReal (∏ j, ProbabilityTheory.gaussianPDFReal 0 1 (x j))) *
        fun x => f (m.sqrt.mul x)) x = ENNReal.ofReal (Real.exp (-C)) *
        ((fun p => ENNReal.ofReal (Real.exp (-Spec.kinetic m p))) * f) (A x) := by
      intro x
      show ENNReal.ofReal _ * f (m.sqrt.mul x) = _
      rw [hd, mul_assoc]
      rfl
    rw [lintegral_congr e, lintegral_const_mul]
    · have hmap := Measure.map_linearMap_addHaar_eq_smul_addHaar (volume : Measure (ι → ℝ)) hdet
      have hAm : Measurable A := hA
      rw [← lintegral_map (hg.mul hf) hAm, hmap, lintegral_smul_measure, smul_eq_mul, smul_eq_mul, mul_assoc]
    · exact (hg.mul hf).comp hA

/-- C86: the initial state of `reversible_leapfrog` (AMAGOLD): the position is the sample of the user, and
the momentum is normally distributed with the mass matrix as covariance. -/
theorem c86_initial {lay : Layout ι} (hl : Spec.Layout.Injective lay) (cm : Option (ι → ℝ)) (d : δ)
    (sample : ι → ℝ) (ms : μ) (mass : Option (MassMatrix ι))
    (hm : Spec.MassOk (Spec.usedMass mass cm)) :
    let init := fun x : ι → ℝ =>
      revInit (Spec.scripted lay (fun _ => x) 0) lay cm d sample (.main 0) ms mass
    (∀ x, (init x).positions = sample) ∧
    Spec.IsMomentumLaw (Spec.usedMass mass cm)
      (Measure.map (fun x => (init x).momentum) (Spec.normals ι)) := by
  intro init
  refine ⟨fun _ => rfl, ?_⟩
  have h : (fun x => (init x).momentum) = (Spec.usedMass mass cm).sqrt.mul := by
    funext x
    show (resolveMass mass cm).sqrt.mul (randomTree (Spec.scripted lay (fun _ => x) 0) lay
      ((Spec.scripted lay (fun _ => x) 0).split (.main 0) 2 1)).1 = _
    have e : (Spec.scripted lay (fun _ => x) 0).split (.main 0) 2 1 = .noise 0 := by
      simp [Spec.scripted]
    rw [e, Spec.scripted_tree hl, resolveMass_eq]
  rw [h]
  exact map_sqrt_normals hm

/-- C86: the initial state of `amagold` with `reversible_leapfrog`: the integrator starts with the sample of
the user and a momentum which is normally distributed with the mass matrix (the adapted one, if a mass
adaption is used) as covariance; the potential is the one of the sample. -/
theorem c86_amagold_initial {φ Ms : Type} {lay : Layout ι} (hl : Spec.Layout.Injective lay)
    (cm : Option (ι → ℝ)) (d : δ) (ma : Option (MassAdaption ι Ms)) (fullPot : FullPotFn ι φ μ) (full : φ)
    (sample : ι → ℝ) (ms : μ)
    (hm : Spec.MassOk (Spec.usedMass (ma.map fun a => a.get (a.init sample)) cm)) :
    let init := fun x : ι → ℝ => amagoldInit (Spec.scripted lay (fun _ => x) 0) ma
      (revInitForAmagold (Spec.scripted lay (fun _ => x) 0) lay cm d) fullPot full sample (.main 0) ms
    (∀ x, (init x).integratorState.positions = sample ∧ (init x).integratorState.dataState = d ∧
      (init x).potential = (fullPot sample full ms).1) ∧
    Spec.IsMomentumLaw (Spec.usedMass (ma.map fun a => a.get (a.init sample)) cm)
      (Measure.map (fun x => (init x).integratorState.momentum) (Spec.normals ι)) := by
  intro init
  refine ⟨fun _ => ⟨rfl, rfl, rfl⟩, ?_⟩
  have h : (fun x => (init x).integratorState.momentum)
      = (Spec.usedMass (ma.map fun a => a.get (a.init sample)) cm).sqrt.mul := by
    funext x
    show (resolveMass (ma.map fun a => a.get (a.init sample)) cm).sqrt.mul
      (randomTree (Spec.scripted lay (fun _ => x) 0) lay ((Spec.scripted lay (fun _ => x) 0).split
        ((Spec.scripted lay (fun _ => x) 0).split (.main 0) 2 0) 2 1)).1 = _
    have e : (Spec.scripted lay (fun _ => x) 0).split
        ((Spec.scripted lay (fun _ => x) 0).split (.main 0) 2 0) 2 1 = .noise 1 := by
      simp [Spec.scripted]
    rw [e, Spec.scripted_tree hl, resolveMass_eq]
  rw [h]
  exact map_sqrt_normals hm

/-- C86: `friction_leapfrog` (SGHMC) discards the momentum of the previous sample. -/
theorem c86_friction_independent (P : Prng κ) (lay : Layout ι) (nm : Option (NoiseFn ι β μ))
    (fr : ℝ ⊕ (ι → ℝ)) (cm : Option (ι → ℝ)) (L : ℕ) (getData : δ → δ × β) (sg : StochGrad ι β μ)
    (s : LeapfrogState ι ℝ κ δ μ) (prm : Params) (mass : Option (MassMatrix ι)) (p : ι → ℝ) :
    fricIntegrate P lay nm fr cm L getData sg { s with momentum := p } prm mass =
      fricIntegrate P lay nm fr cm L getData sg s prm mass := rfl

/-- C86: `friction_leapfrog` starts every integration with a momentum which is normally distributed with
the mass matrix as covariance. -/
theorem c86_friction {lay : Layout ι} (hl : Spec.Layout.Injective lay) (nm : Option (NoiseFn ι β μ))
    (fr : ℝ ⊕ (ι → ℝ)) (cm : Option (ι → ℝ)) (getData : δ → δ × β) (sg : StochGrad ι β μ)
    (s : LeapfrogState ι ℝ Spec.SKey δ μ) (hs : s.key = .main 0) (prm : Params)
    (mass : Option (MassMatrix ι)) (hm : Spec.MassOk (Spec.usedMass mass cm)) :
    Spec.IsMomentumLaw (Spec.usedMass mass cm) (Measure.map (fun x =>
      (fricIntegrate (Spec.scripted lay (fun _ => x) 0) lay nm fr cm 0 getData sg s prm mass).momentum)
      (Spec.normals ι)) := by
  have h : (fun x => (fricIntegrate (Spec.scripted lay (fun _ => x) 0) lay nm fr cm 0 getData sg s prm
      mass).momentum) = (Spec.usedMass mass cm).sqrt.mul := by
    funext x
    show (resolveMass mass cm).sqrt.mul (randomTree (Spec.scripted lay (fun _ => x) 0) lay
      ((Spec.scripted lay (fun _ => x) 0).split s.key 2 1)).1 = _
    have e : (Spec.scripted lay (fun _ => x) 0).split s.key 2 1 = .noise 0 := by
      rw [hs]; simp [Spec.scripted]
    rw [e, Spec.scripted_tree hl, resolveMass_eq]
  rw [h]
  exact map_sqrt_normals hm

/-- Without gradients, an OBABO run conserves kinetic energy and noises. -/
theorem compFlow_kinNoise {γ : ℝ} (hγ : 0 ≤ γ) {prm : Params} (hh : 0 ≤ prm.stepSize)
    (hT : 0 < prm.temperature) {m : MassMatrix ι} (hm : Spec.MassOk m) {w : (ι → ℝ) →ₗ[ℝ] (ι → ℝ)}
    (hw : ∀ r, m.sqrt.mul (w r) = r) {L : ℕ} {g : ℕ → (ι → ℝ) → (ι → ℝ)} (hg : ∀ k q, g k q = 0) (n : ℕ)
    (x : PathSpace ι (2 * L)) :
    kinNoise prm.temperature m (compFlow (obaboBody γ prm m w g) n x) =
      kinNoise prm.temperature m x := by
  have hpush : ∀ (t : ℝ) k (y : PathSpace ι (2 * L)), pushMap t (g k) y = y := by
    intro t k y
    unfold pushMap
    rw [hg, smul_zero, add_zero]
  induction n with
  | zero => rfl
  | succ n ih =>
    show kinNoise _ m (obaboBody γ prm m w g n (compFlow (obaboBody γ prm m w g) n x)) = _
    set y := compFlow (obaboBody γ prm m w g) n x
    unfold obaboBody
    split
    · rw [refreshMap_energy hγ hh hT hm hw, hpush, hpush]
      show kinNoise _ m (refreshMap γ prm m w _ _) = _
      rw [refreshMap_energy hγ hh hT hm hw, ih]
    · exact ih

/-- C86: the momentum refreshments of `obabo` (SGGMC) preserve the normal distribution with covariance
temperature times mass: for potentials without gradient, `L` steps of the integrator leave the
distribution with density `exp(-½ pᵀ M⁻¹ p / T)` invariant. -/
theorem c86_obabo {lay : Layout ι} (hl : Spec.Layout.Injective lay) {γ : ℝ} (hγ : 0 ≤ γ)
    (cm : Option (ι → ℝ)) (mass : Option (MassMatrix ι)) (hm : Spec.MassOk (Spec.usedMass mass cm))
    (L : ℕ) (b : ℕ → β) (sg : StochGrad ι β μ) (hsg : ∀ x b ms, (sg x b ms).2 = 0) (prm : Params)
    (hh : 0 ≤ prm.stepSize) (hT : 0 < prm.temperature) (ms : μ)
    (f : (ι → ℝ) × (ι → ℝ) → ENNReal) (hf : Measurable f) :
    let final := fun (z : (ι → ℝ) × (ι → ℝ)) (x : Fin (2 * L) × ι → ℝ) =>
      obaboIntegrate (Spec.scripted lay (Spec.noiseSeq x) 0) lay γ cm L (Spec.batchSource b) sg
        ⟨0, .main 0, z.1, z.2, 0, ms, 0, 0, []⟩ prm mass
    ∫⁻ z, ∫⁻ x, f ((final z x).positions, (final z x).momentum) ∂Spec.normals (Fin (2 * L) × ι)
        ∂Spec.target (Spec.usedMass mass cm) (fun _ => 0) prm.temperature =
      ∫⁻ z, f z ∂Spec.target (Spec.usedMass mass cm) (fun _ => 0) prm.temperature := by
  intro final
  set m := Spec.usedMass mass cm with hmdef
  obtain ⟨w, hw⟩ := massOk_inverse hm
  let g : ℕ → (ι → ℝ) → (ι → ℝ) := fun _ _ => 0
  let F : PathSpace ι (2 * L) → PathSpace ι (2 * L) := compFlow (obaboBody γ prm m w g) L
  have hF : MeasurePreserving F volume volume := by
    have h1 := obaboMap_measurePreserving (L := L) (g := g) hγ hh hT hw (fun _ => measurable_const)
    exact mp_congr (flipMap_measurePreserving.comp h1) fun x => flipMap_flipMap _
  have hfin : ∀ z x, ((final z x).positions, (final z x).momentum) = (F (z, x)).1 := by
    intro z x
    have h := (obaboFlow_eq hγ hh hT hw hl hm b sg (G := fun _ _ => 0) (fun x b ms => hsg x b ms) 0 ms 0
      (z, x) L le_rfl).1
    have e : final z x = obaboSt (Spec.scripted lay (Spec.noiseSeq x) 0) lay γ (Spec.batchSource b) sg
        prm m (obaboStart (z, x) ms 0) L := obaboIntegrate_eq _ _ _ _ _ _ _ _ _ _
    rw [e]
    exact h.symm
  have hK := kinetic_measurable m
  simp only [hfin]
  have h1 := target_prod_normals m (U := fun _ => 0) measurable_const prm.temperature
    (Fin (2 * L) × ι) (fun y => f (F y).1) (hf.comp (measurable_fst.comp hF.measurable))
  have h2 := target_prod_normals m (U := fun _ => 0) measurable_const prm.temperature
    (Fin (2 * L) × ι) (fun y => f y.1) (hf.comp measurable_fst)
  have h3 : ∀ z : (ι → ℝ) × (ι → ℝ), ∫⁻ _x : Fin (2 * L) × ι → ℝ, f z ∂Spec.normals (Fin (2 * L) × ι)
      = f z := by
    intro z; rw [lintegral_const, measure_univ, mul_one]
  simp only [h3] at h2
  rw [h1, h2]
  set C : ℝ := Fintype.card (Fin (2 * L) × ι) * Real.log (Real.sqrt (2 * Real.pi)) with hC
  have hE : ∀ y : PathSpace ι (2 * L), ((0 : ℝ) + Spec.kinetic m y.1.2) / prm.temperature +
      (∑ j, y.2 j * y.2 j) / 2 + C = kinNoise prm.temperature m y + C := by
    intro y; rw [zero_add]; rfl
  have hmeas : Measurable fun y : PathSpace ι (2 * L) =>
      ENNReal.ofReal (Real.exp (-(kinNoise prm.temperature m y + C))) * f y.1 := by
    have a1 : Measurable fun y : PathSpace ι (2 * L) => Spec.kinetic m y.1.2 := hK.comp (by fun_prop)
    have a2 : ∀ j, Measurable fun y : PathSpace ι (2 * L) => y.2 j := fun j =>
      (measurable_pi_apply j).comp measurable_snd
    have a3 : Measurable fun y : PathSpace ι (2 * L) => kinNoise prm.temperature m y := by
      unfold kinNoise; fun_prop
    exact (ENNReal.measurable_ofReal.comp (Real.measurable_exp.comp (a3.add_const C).neg)).mul
      (hf.comp measurable_fst)
  simp only [hE]
  rw [← hF.lintegral_comp hmeas]
  refine lintegral_congr fun y => ?_
  rw [show kinNoise prm.temperature m (F y) = kinNoise prm.temperature m y from
    compFlow_kinNoise hγ hh hT hm hw (fun _ _ => rfl) L y]

/-- A case of `c86_obabo`: two variables with masses 1 and 4, friction 1/2, temperature 2, three steps. -/
example (f : (Fin 2 → ℝ) × (Fin 2 → ℝ) → ENNReal) (hf : Measurable f) :=
  c86_obabo (Spec.vectorLayout_injective 2) (γ := 1 / 2) (by norm_num) (some ![1, 4]) none
    (massOk_const (fun i => by fin_cases i <;> norm_num)) 3 (fun i => i)
    (fun _ _ _ => ((0, ()), 0)) (fun _ _ _ => rfl) ⟨1, 2⟩ (by norm_num) (by norm_num) () f hf

/-- A case of `c86_initial`. -/
example := c86_initial (δ := Unit) (μ := Unit) (Spec.vectorLayout_injective 2) (some ![1, 4]) ()
    ![5, 6] () none (massOk_const (fun i => by fin_cases i <;> norm_num))

end JaxSgmc
