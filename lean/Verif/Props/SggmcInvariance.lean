import Verif.Lemmas.ObaboMap
import Verif.Lemmas.Stationary
import Verif.Props.Invariance
import Mathlib.MeasureTheory.Measure.Lebesgue.Basic

/-!
# C83: SGGMC does not leave the target distribution invariant

On rejection the code keeps the momentum instead of negating it (solver.py:530-541).
-/

namespace JaxSgmc

open MeasureTheory

variable {ι β μ φ : Type} [Fintype ι]

/-- C83: one step of SGGMC leaves the distribution with density proportional to `exp(-(U(q) + K(p))/T)`
invariant. -/
def C83Statement : Prop :=
  ∀ (ι β μ φ : Type) [Fintype ι] [Inhabited β] (lay : Layout ι), Spec.Layout.Injective lay →
  ∀ γ : ℝ, 0 ≤ γ → ∀ cm : Option (ι → ℝ), Spec.MassOk (Spec.usedMass none cm) →
  ∀ (L : ℕ) (sg : StochGrad ι β μ) (G : (ι → ℝ) → β → (ι → ℝ)), (∀ x b ms, (sg x b ms).2 = G x b) →
  (∀ b, Measurable fun x => G x b) →
  ∀ (fullPot : FullPotFn ι φ μ) (U : (ι → ℝ) → ℝ), Measurable U →
  (∀ x f ms, (fullPot x f ms).1 = .fin (U x)) →
  ∀ (f₀ : φ) (ms : μ) (prm : Params), 0 ≤ prm.stepSize → 0 < prm.temperature →
  ∀ w : (Fin (2 * L) → β) → ENNReal, (∀ b, w (fun i => b (Fin.rev i)) = w b) →
  ∀ f : (ι → ℝ) × (ι → ℝ) → ENNReal, Measurable f →
    ∑' b, w b * ∫⁻ z, ∫⁻ x, ∫⁻ u, f (Spec.sggmcNext lay γ cm L sg fullPot U f₀ ms prm b z x u)
        ∂Spec.unif ∂Spec.normals (Fin (2 * L) × ι)
        ∂Spec.target (Spec.usedMass none cm) U prm.temperature =
      (∑' b, w b) * ∫⁻ z, f z ∂Spec.target (Spec.usedMass none cm) U prm.temperature

/-- The energy of positions, momenta and noises at temperature `T`. -/
noncomputable def pathEnergyT {N : ℕ} (T : ℝ) (m : MassMatrix ι) (U : (ι → ℝ) → ℝ)
    (x : PathSpace ι N) : ℝ :=
  (U x.1.1 + Spec.kinetic m x.1.2) / T + (∑ j, x.2 j * x.2 j) / 2

section
variable [Inhabited β] {lay : Layout ι} (hl : Spec.Layout.Injective lay) {γ : ℝ} (hγ : 0 ≤ γ)
  (cm : Option (ι → ℝ)) (hm : Spec.MassOk (Spec.usedMass none cm)) {L : ℕ} (sg : StochGrad ι β μ)
  {G : (ι → ℝ) → β → (ι → ℝ)} (hG : ∀ x b ms, (sg x b ms).2 = G x b)
  (fullPot : FullPotFn ι φ μ) {U : (ι → ℝ) → ℝ}
  (hfp : ∀ x f ms, (fullPot x f ms).1 = .fin (U x)) (f₀ : φ) (ms : μ) (prm : Params)
  (hh : 0 ≤ prm.stepSize) (hT : 0 < prm.temperature)

include hfp hT in
/-- One step of SGGMC in terms of the states of the integrator. -/
theorem sggmcStep_eq (b : Fin (2 * L) → β) (z : (ι → ℝ) × (ι → ℝ)) (x : Fin (2 * L) × ι → ℝ) (u : ℝ)
    (hu : 0 ≤ u) :
    let S := obaboSt (Spec.scripted lay (Spec.noiseSeq x) u) lay γ (Spec.batchSource (Spec.batchSeq b))
      sg prm (Spec.usedMass none cm) (obaboStart (z, x) ms 0) L
    let α := Spec.acceptProb ((U S.positions - U z.1 + S.kineticEnd - S.kineticStart) / prm.temperature)
    Spec.sggmcNext lay γ cm L sg fullPot U f₀ ms prm b z x u =
      (if u < α then (S.positions, S.momentum) else z) ∧
    (Spec.sggmcStep lay γ cm L sg fullPot U f₀ ms prm b z x u).2 = .fin α := by
  rw [← resolveMass_eq]
  intro S α
  set P := Spec.scripted lay (Spec.noiseSeq x) u with hP
  let st : ObaboState ι XF Spec.SKey ℕ μ := ⟨0, .main 0, z.1, z.2, 0, ms, .fin 0, .fin 0, []⟩
  have hprop : obaboForSggmc P lay γ cm L (Spec.batchSource (Spec.batchSeq b)) sg st prm none =
      ⟨S.potential, S.key, S.positions, S.momentum, S.dataState, S.modelState, .fin S.kineticStart,
        .fin S.kineticEnd, S.drawn⟩ := rfl
  constructor
  · unfold Spec.sggmcNext Spec.sggmcStep
    dsimp only
    rw [← hP]
    unfold sggmcUpdate
    dsimp only [currentMass]
    rw [hprop]
    dsimp only
    rw [hfp, sggmcLogAlpha_fin hT.ne']
    have hacc : XF.Lt (XF.logOf (P.uniform (P.split (.main 0) 2 1)))
        (.fin (min 0 (-(U S.positions - U z.1 + S.kineticEnd - S.kineticStart) / prm.temperature))) ↔
        u < α := by
      show XF.Lt (XF.logOf u) _ ↔ _
      rw [XF.lt_logOf_fin hu, neg_div, exp_min_zero]
    by_cases h : u < α
    · rw [if_pos (hacc.2 h), if_pos h]
    · rw [if_neg (fun hx => h (hacc.1 hx)), if_neg h]
  · exact sggmc_ratio P (obaboForSggmc P lay γ cm L (Spec.batchSource (Spec.batchSeq b)) sg) fullPot
      _ prm (U z.1) (U S.positions) S.kineticStart S.kineticEnd hT.ne' rfl ⟨hfp _ _ _, rfl, rfl⟩

include hl hγ hm hG hfp hh hT in
/-- One step of SGGMC in terms of the path map. -/
theorem sggmcNext_eq {w : (ι → ℝ) →ₗ[ℝ] (ι → ℝ)}
    (hw : ∀ r, (Spec.usedMass none cm).sqrt.mul (w r) = r) (b : Fin (2 * L) → β)
    (z : (ι → ℝ) × (ι → ℝ)) (x : Fin (2 * L) × ι → ℝ) (u : ℝ) (hu : 0 ≤ u) :
    let m := Spec.usedMass none cm
    let T := obaboMap γ prm m w (fun n q => G q (Spec.batchSeq b n))
    let α := Spec.acceptProb (pathEnergyT prm.temperature m U (T (z, x)) -
      pathEnergyT prm.temperature m U (z, x))
    Spec.sggmcNext lay γ cm L sg fullPot U f₀ ms prm b z x u =
      (if u < α then ((T (z, x)).1.1, -(T (z, x)).1.2) else z) ∧
    (Spec.sggmcStep lay γ cm L sg fullPot U f₀ ms prm b z x u).2 = .fin α := by
  intro m T α
  obtain ⟨h1, h2⟩ := sggmcStep_eq (lay := lay) (γ := γ) cm sg fullPot hfp f₀ ms prm hT b z x u hu
  obtain ⟨f1, -, f3⟩ := obaboFlow_eq hγ hh hT hw hl hm (Spec.batchSeq b) sg hG u ms 0 (z, x) L le_rfl
  set S := obaboSt (Spec.scripted lay (Spec.noiseSeq x) u) lay γ (Spec.batchSource (Spec.batchSeq b))
      sg prm (Spec.usedMass none cm) (obaboStart (z, x) ms 0) L with hS
  set y := compFlow (obaboBody γ prm (Spec.usedMass none cm) w fun k q => G q (Spec.batchSeq b k)) L
    (z, x) with hy
  have hTy : T (z, x) = flipMap y := rfl
  have e1 : (T (z, x)).1.1 = S.positions := by
    rw [hTy]; exact congrArg Prod.fst f1
  have e2 : -(T (z, x)).1.2 = S.momentum := by
    rw [hTy]
    show -(-y.1.2) = _
    rw [neg_neg]
    exact congrArg Prod.snd f1
  have hsum : ∑ j, (T (z, x)).2 j * (T (z, x)).2 j = ∑ j, y.2 j * y.2 j := by
    rw [hTy]
    exact Equiv.sum_comp (Equiv.prodCongr Fin.revPerm (Equiv.refl ι)) (fun j => y.2 j * y.2 j)
  have hα : pathEnergyT prm.temperature m U (T (z, x)) - pathEnergyT prm.temperature m U (z, x) =
      (U S.positions - U z.1 + S.kineticEnd - S.kineticStart) / prm.temperature := by
    have hk : Spec.kinetic m (T (z, x)).1.2 = Spec.kinetic m y.1.2 := by
      rw [hTy]; exact kinetic_neg m y.1.2
    unfold pathEnergyT
    rw [hsum, hk, e1]
    unfold kinNoise at f3
    have f3' : Spec.kinetic m y.1.2 / prm.temperature + (∑ j, y.2 j * y.2 j) / 2 =
      Spec.kinetic m z.2 / prm.temperature + (∑ j, x j * x j) / 2 +
        (S.kineticEnd - S.kineticStart) / prm.temperature := f3
    simp only [add_div, sub_div] at f3' ⊢
    linarith
  have hα' : α = Spec.acceptProb ((U S.positions - U z.1 + S.kineticEnd - S.kineticStart) /
      prm.temperature) := by show Spec.acceptProb _ = _; rw [hα]
  rw [hα', e1, e2]
  exact ⟨h1, h2⟩

include hl hγ hm hG hfp hh hT in
/-- C83, partial: if the momentum were negated on rejection, the target distribution would be
invariant. -/
theorem c83_negated_partial (hU : Measurable U) (hGm : ∀ b, Measurable fun x => G x b)
    (w : (Fin (2 * L) → β) → ENNReal) (hw : ∀ b, w (fun i => b (Fin.rev i)) = w b)
    (f : (ι → ℝ) × (ι → ℝ) → ENNReal) (hf : Measurable f) :
    ∑' b, w b * ∫⁻ z, ∫⁻ x, ∫⁻ u, f (Spec.sggmcNegated lay γ cm L sg fullPot U f₀ ms prm b z x u)
        ∂Spec.unif ∂Spec.normals (Fin (2 * L) × ι)
        ∂Spec.target (Spec.usedMass none cm) U prm.temperature =
      (∑' b, w b) * ∫⁻ z, f z ∂Spec.target (Spec.usedMass none cm) U prm.temperature := by
  obtain ⟨v, hv⟩ := exists_sqrt_inverse hm
  refine stationary_of_paths (Spec.usedMass none cm) hU prm.temperature
    (fun b => obaboMap γ prm (Spec.usedMass none cm) v (fun n q => G q (Spec.batchSeq b n)))
    (revBatches (2 * L) β)
    (fun b => obaboMap_measurePreserving hγ hh hT hv fun n => hGm _) (fun b x => ?_) w hw _
    (pathEnergyT prm.temperature (Spec.usedMass none cm) U) (fun y => rfl)
    (fun b z x u hu => ?_) f hf
  · refine obaboMap_inverse hγ hh hT hv (fun k hk => ?_) x
    have h' : 2 * L - 1 - k < 2 * L := by omega
    funext q
    congr 1
    simp only [Spec.batchSeq, hk, h', dif_pos, revBatches, Equiv.coe_fn_mk]
    congr 1
    exact Fin.ext (by rw [Fin.val_rev]; show 2 * L - (2 * L - 1 - k + 1) = k; omega)
  · obtain ⟨h1, h2⟩ := sggmcNext_eq hl hγ cm hm sg hG fullPot hfp f₀ ms prm hh hT hv b z x u hu
    unfold Spec.sggmcNegated
    dsimp only
    rw [h1, h2]
    split
    · next h =>
      have h' : u < _ := h
      rw [if_pos h', if_pos h']
    · next h =>
      have h' : ¬ u < _ := h
      rw [if_neg h', if_neg h']

include hl hγ hm hG hfp hh hT in
/-- C83, partial: one step does not change expectations of functions which do not depend on the sign of
the momentum; in particular, one step leaves the distribution of the positions unchanged. -/
theorem c83_even_partial (hU : Measurable U) (hGm : ∀ b, Measurable fun x => G x b)
    (w : (Fin (2 * L) → β) → ENNReal) (hw : ∀ b, w (fun i => b (Fin.rev i)) = w b)
    (f : (ι → ℝ) × (ι → ℝ) → ENNReal) (hf : Measurable f) (heven : ∀ q p, f (q, -p) = f (q, p)) :
    ∑' b, w b * ∫⁻ z, ∫⁻ x, ∫⁻ u, f (Spec.sggmcNext lay γ cm L sg fullPot U f₀ ms prm b z x u)
        ∂Spec.unif ∂Spec.normals (Fin (2 * L) × ι)
        ∂Spec.target (Spec.usedMass none cm) U prm.temperature =
      (∑' b, w b) * ∫⁻ z, f z ∂Spec.target (Spec.usedMass none cm) U prm.temperature := by
  rw [← c83_negated_partial hl hγ cm hm sg hG fullPot hfp f₀ ms prm hh hT hU hGm w hw f hf]
  refine tsum_congr fun b => ?_
  congr 1
  refine lintegral_congr fun z => lintegral_congr fun x => lintegral_congr fun u => ?_
  unfold Spec.sggmcNegated
  dsimp only
  split
  · rfl
  · rw [heven]

end

/-- C83, partial, for friction, two variables of masses 1 and 4, temperature 2 and two mini-batches: the
distribution of the positions does not change in one step. -/
example (A : Set (Fin 2 → ℝ)) (hA : MeasurableSet A) :
    ∑' b : Fin (2 * 2) → Bool, (1 / 16 : ENNReal) * ∫⁻ z, ∫⁻ x, ∫⁻ u, (A ×ˢ Set.univ).indicator 1
        (Spec.sggmcNext (Spec.vectorLayout 2) (1 / 2) (some ![1, 4]) 2
          (fun x (b : Bool) (_ : Unit) => ((0, ()), fun i => if b then x i + 1 else x i))
          (fun x (_ : Unit) _ => (.fin (x 0 ^ 2 + x 1 ^ 2), ((), ())))
          (fun x => x 0 ^ 2 + x 1 ^ 2) () () ⟨1, 2⟩ b z x u)
        ∂Spec.unif ∂Spec.normals (Fin (2 * 2) × Fin 2)
        ∂Spec.target (Spec.usedMass none (some ![1, 4])) (fun x => x 0 ^ 2 + x 1 ^ 2) 2 =
      Spec.target (Spec.usedMass none (some ![1, 4])) (fun x : Fin 2 → ℝ => x 0 ^ 2 + x 1 ^ 2) 2
        (A ×ˢ Set.univ) := by
  have hm : Spec.MassOk (Spec.usedMass none (some (![1, 4] : Fin 2 → ℝ))) :=
    massOk_const (fun i => by fin_cases i <;> norm_num)
  have hw : ∑' _ : Fin (2 * 2) → Bool, (1 / 16 : ENNReal) = 1 := by
    rw [tsum_fintype, Finset.sum_const, Finset.card_univ]
    simp only [Fintype.card_pi, Fintype.card_bool, Finset.prod_const, Finset.card_univ,
      Fintype.card_fin, nsmul_eq_mul]
    norm_num
    exact ENNReal.mul_inv_cancel (by norm_num) (by norm_num)
  have hA' : MeasurableSet (A ×ˢ (Set.univ : Set (Fin 2 → ℝ))) := hA.prod MeasurableSet.univ
  have := c83_even_partial (Spec.vectorLayout_injective 2) (γ := 1 / 2) (by norm_num) (some ![1, 4]) hm (L := 2)
    (fun x (b : Bool) (_ : Unit) => ((0, ()), fun i => if b then x i + 1 else x i))
    (G := fun x b i => if b then x i + 1 else x i) (fun _ _ _ => rfl)
    (fun x (_ : Unit) _ => (.fin (x 0 ^ 2 + x 1 ^ 2), ((), ())))
    (U := fun x => x 0 ^ 2 + x 1 ^ 2) (fun _ _ _ => rfl) () () ⟨1, 2⟩
    (by norm_num) (by norm_num) (by fun_prop) (fun b => by cases b <;> simp <;> fun_prop)
    (fun _ => 1 / 16) (fun _ => rfl) _ (measurable_one.indicator hA')
    (fun q p => by by_cases h : q ∈ A <;> simp [Set.indicator, h])
  rw [this, hw, one_mul, lintegral_indicator_one hA']

/-! ## The code performs the step of the specification -/

/-- Positions, momentum and kinetic energies depend only on noises and mini-batches. -/
theorem obaboSt_congr {κ κ' δ δ' μ' : Type} (P : Prng κ) (P' : Prng κ') (lay : Layout ι) (γ : ℝ)
    (getData : δ → δ × β) (getData' : δ' → δ' × β) (sg : StochGrad ι β μ) (sg' : StochGrad ι β μ')
    (prm : Params) (m : MassMatrix ι) (s : ObaboState ι ℝ κ δ μ) (s' : ObaboState ι ℝ κ' δ' μ')
    {G : (ι → ℝ) → β → (ι → ℝ)} (hG : ∀ x b ms, (sg x b ms).2 = G x b)
    (hG' : ∀ x b ms, (sg' x b ms).2 = G x b) (L : ℕ)
    (h1 : s.positions = s'.positions) (h2 : s.momentum = s'.momentum)
    (h3 : s.kineticStart = s'.kineticStart) (h4 : s.kineticEnd = s'.kineticEnd)
    (hb : ∀ i < 2 * L, Spec.nthBatch getData s.dataState i = Spec.nthBatch getData' s'.dataState i)
    (hn : ∀ i < 2 * L, Spec.obaboNoise P lay s.key i = Spec.obaboNoise P' lay s'.key i) :
    ∀ n ≤ L,
      (obaboSt P lay γ getData sg prm m s n).positions =
        (obaboSt P' lay γ getData' sg' prm m s' n).positions ∧
      (obaboSt P lay γ getData sg prm m s n).momentum =
        (obaboSt P' lay γ getData' sg' prm m s' n).momentum ∧
      (obaboSt P lay γ getData sg prm m s n).kineticStart =
        (obaboSt P' lay γ getData' sg' prm m s' n).kineticStart ∧
      (obaboSt P lay γ getData sg prm m s n).kineticEnd =
        (obaboSt P' lay γ getData' sg' prm m s' n).kineticEnd := by
  intro n
  induction n with
  | zero => intro _; exact ⟨h1, h2, h3, h4⟩
  | succ n ih =>
    intro hn'
    obtain ⟨i1, i2, i3, i4⟩ := ih (by omega)
    obtain ⟨a1, a2, a3, a4⟩ := obaboSt_pure P lay γ getData sg prm m s hG n
    obtain ⟨b1, b2, b3, b4⟩ := obaboSt_pure P' lay γ getData' sg' prm m s' hG' n
    rw [a1, a2, a3, a4, b1, b2, b3, b4, i1, i2, i3, i4, hb (2 * n) (by omega),
      hb (2 * n + 1) (by omega), hn (2 * n) (by omega), hn (2 * n + 1) (by omega)]
    exact ⟨rfl, rfl, rfl, rfl⟩

section
variable {κ δ Ms : Type} [Inhabited β]

/-- C83: the code performs the step of the specification: from every state of SGGMC with any
generator and data source, positions and momenta of the next state are `Spec.sggmcNext` of the noises
drawn by the integrator, the next mini-batches and the uniform number drawn by the solver, and the
reported acceptance ratio is that of the specification. -/
theorem c83_code_step (P : Prng κ) {lay : Layout ι} (hl : Spec.Layout.Injective lay) (γ : ℝ)
    (cm : Option (ι → ℝ)) (L : ℕ) (getData : δ → δ × β) (sg : StochGrad ι β μ)
    {G : (ι → ℝ) → β → (ι → ℝ)} (hG : ∀ x b ms, (sg x b ms).2 = G x b) (fullPot : FullPotFn ι φ μ)
    {U : (ι → ℝ) → ℝ} (hfp : ∀ x f ms, (fullPot x f ms).1 = .fin (U x))
    (s : SggmcState ι κ δ μ φ Ms) (hs : s.potential = .fin (U s.integratorState.positions))
    (prm : Params) (f₀ : φ) (ms : μ) :
    let r := sggmcUpdate P none (obaboForSggmc P lay γ cm L getData sg) fullPot s prm
    let b : Fin (2 * L) → β := fun i => Spec.nthBatch getData s.integratorState.dataState i
    let z := (s.integratorState.positions, s.integratorState.momentum)
    let x : Fin (2 * L) × ι → ℝ := fun j => Spec.obaboNoise P lay s.integratorState.key j.1 j.2
    let u := P.uniform (P.split s.key 2 1)
    (r.1.integratorState.positions, r.1.integratorState.momentum) =
      Spec.sggmcNext lay γ cm L sg fullPot U f₀ ms prm b z x u ∧
    r.2 = (Spec.sggmcStep lay γ cm L sg fullPot U f₀ ms prm b z x u).2 ∧
    r.1.potential = .fin (U r.1.integratorState.positions) := by
  intro r b z x u
  set P' := Spec.scripted lay (Spec.noiseSeq x) u with hP'
  set m := resolveMass none cm with hm
  let st : ObaboState ι ℝ κ δ μ := ⟨s.integratorState.potential, s.integratorState.key,
    s.integratorState.positions, s.integratorState.momentum, s.integratorState.dataState,
    s.integratorState.modelState, 0, 0, s.integratorState.drawn⟩
  let st' : ObaboState ι ℝ Spec.SKey ℕ μ := ⟨0, .main 0, z.1, z.2, 0, ms, 0, 0, []⟩
  obtain ⟨c1, c2, c3, c4⟩ := obaboSt_congr P P' lay γ getData (Spec.batchSource (Spec.batchSeq b)) sg sg
    prm m st st' hG hG L rfl rfl rfl rfl
    (fun i hi => by
      show _ = Spec.nthBatch _ 0 i
      rw [Spec.batchSource_nth, Spec.batchSeq, dif_pos hi])
    (fun i hi => by
      show _ = Spec.obaboNoise P' lay (.main 0) i
      rw [hP', Spec.scripted_obaboNoise hl]
      funext k
      simp only [Spec.noiseSeq, hi, dif_pos, x]
      rfl)
    L le_rfl
  set S := obaboSt P lay γ getData sg prm m st L with hS
  set S' := obaboSt P' lay γ (Spec.batchSource (Spec.batchSeq b)) sg prm m st' L with hS'
  have p1 : obaboForSggmc P lay γ cm L getData sg s.integratorState prm none =
      ⟨S.potential, S.key, S.positions, S.momentum, S.dataState, S.modelState, .fin S.kineticStart,
        .fin S.kineticEnd, S.drawn⟩ := rfl
  have p2 : obaboForSggmc P' lay γ cm L (Spec.batchSource (Spec.batchSeq b)) sg
      (⟨0, .main 0, z.1, z.2, 0, ms, .fin 0, .fin 0, []⟩ : ObaboState ι XF Spec.SKey ℕ μ) prm none =
      ⟨S'.potential, S'.key, S'.positions, S'.momentum, S'.dataState, S'.modelState,
        .fin S'.kineticStart, .fin S'.kineticEnd, S'.drawn⟩ := rfl
  have hr : r = sggmcUpdate P none (obaboForSggmc P lay γ cm L getData sg) fullPot s prm := rfl
  unfold sggmcUpdate at hr
  dsimp only [currentMass] at hr
  rw [p1, hs] at hr
  dsimp only at hr
  rw [hfp] at hr
  unfold Spec.sggmcNext Spec.sggmcStep
  dsimp only
  rw [← hP']
  unfold sggmcUpdate
  dsimp only [currentMass]
  rw [p2]
  dsimp only
  rw [hfp, ← c1, ← c2, ← c3, ← c4]
  have huu : P'.uniform (P'.split (.main 0) 2 1) = u := rfl
  rw [huu]
  rw [show P.uniform (P.split s.key 2 1) = u from rfl] at hr
  have hz : z.1 = s.integratorState.positions := rfl
  rw [hz]
  by_cases h : XF.Lt (XF.logOf u) (sggmcLogAlpha prm.temperature (.fin (U s.integratorState.positions))
      (.fin (U S.positions)) (.fin S.kineticStart) (.fin S.kineticEnd))
  · rw [if_pos h] at hr ⊢
    rw [hr]
    exact ⟨rfl, rfl, rfl⟩
  · rw [if_neg h] at hr ⊢
    rw [hr]
    exact ⟨rfl, rfl, rfl⟩

end

/-! ## Counterexample -/

/-- The potential `q²/2` in one dimension with its exact gradient. -/
def c83Grad : StochGrad (Fin 1) Unit Unit := fun x _ _ => ((0, ()), x)

/-- The full potential. -/
noncomputable def c83Pot : FullPotFn (Fin 1) Unit Unit := fun x _ _ => (.fin (x 0 ^ 2 / 2), ((), ()))

/-- The step with step size 2 and without friction. -/
theorem c83_step (b : Fin (2 * 1) → Unit) (z : (Fin 1 → ℝ) × (Fin 1 → ℝ)) (x : Fin (2 * 1) × Fin 1 → ℝ)
    (u : ℝ) (hu : 0 ≤ u) :
    let α := Spec.acceptProb (2 * z.2 0 * (z.2 0 - z.1 0))
    Spec.sggmcNext (Spec.vectorLayout 1) 0 none 1 c83Grad c83Pot (fun x => x 0 ^ 2 / 2) () () ⟨2, 1⟩ b
        z x u = (if u < α then (fun _ => 2 * z.2 0 - z.1 0, fun _ => -z.2 0) else z) ∧
    (Spec.sggmcStep (Spec.vectorLayout 1) 0 none 1 c83Grad c83Pot (fun x => x 0 ^ 2 / 2) () () ⟨2, 1⟩ b
        z x u).2 = .fin α := by
  intro α
  obtain ⟨h1, h2⟩ := sggmcStep_eq (lay := Spec.vectorLayout 1) (γ := 0) (U := fun x => x 0 ^ 2 / 2)
    none c83Grad c83Pot (fun _ _ _ => rfl) () () ⟨2, 1⟩ one_pos b z x u hu
  have hp := obaboSt_pure (Spec.scripted (Spec.vectorLayout 1) (Spec.noiseSeq x) u) (Spec.vectorLayout 1) 0
    (Spec.batchSource (Spec.batchSeq b)) c83Grad ⟨2, 1⟩ (Spec.usedMass none none)
    (obaboStart (z, x) () 0) (G := fun x _ => x) (fun _ _ _ => rfl) 0
  set S := obaboSt (Spec.scripted (Spec.vectorLayout 1) (Spec.noiseSeq x) u) (Spec.vectorLayout 1) 0
      (Spec.batchSource (Spec.batchSeq b)) c83Grad ⟨2, 1⟩ (Spec.usedMass none none)
      (obaboStart (z, x) () 0) with hS
  have hS0 : S 0 = obaboStart (z, x) () 0 := rfl
  rw [hS0] at hp
  have hinv : ∀ v : Fin 1 → ℝ, (Spec.usedMass none none : MassMatrix (Fin 1)).inv.mul v = v := by
    intro v; funext i; simp [Spec.usedMass, VTensor.mul]
  have hkin : ∀ v : Fin 1 → ℝ, Spec.kinetic (Spec.usedMass none none) v = v 0 * v 0 / 2 := by
    intro v; simp [Spec.kinetic, hinv]
  simp only [obaboPure, resampling_eq, hinv, hkin] at hp
  obtain ⟨p1, p2, p3, p4⟩ := hp
  have q1 : (S 1).positions = fun _ => 2 * z.2 0 - z.1 0 := by
    rw [p1]; funext i
    rw [Subsingleton.elim i 0]
    simp [obaboStart]; ring
  have q2 : (S 1).momentum = fun _ => -z.2 0 := by
    rw [p2]; funext i
    rw [Subsingleton.elim i 0]
    simp [obaboStart]; ring
  have q3 : (S 1).kineticStart = z.2 0 * z.2 0 / 2 := by
    rw [p3]; simp [obaboStart]
  have q4 : (S 1).kineticEnd = z.2 0 * z.2 0 / 2 := by
    rw [p4]; simp [obaboStart]; ring
  have e : ((S 1).positions 0 ^ 2 / 2 - z.1 0 ^ 2 / 2 + (S 1).kineticEnd - (S 1).kineticStart) / 1 =
      2 * z.2 0 * (z.2 0 - z.1 0) := by
    rw [q1, q3, q4]; ring
  dsimp only at h1 h2
  rw [e] at h1 h2
  rw [h1, h2, q1, q2]
  exact ⟨rfl, rfl⟩

/-- The set with positions in `(0, 1)` and momenta in `(-1, 0)`. -/
def c83Set : Set ((Fin 1 → ℝ) × (Fin 1 → ℝ)) :=
  (Set.univ.pi fun _ => Set.Ioo 0 1) ×ˢ (Set.univ.pi fun _ => Set.Ioo (-1) 0)

theorem c83Set_measurable : MeasurableSet c83Set :=
  (MeasurableSet.univ_pi fun _ => measurableSet_Ioo).prod
    (MeasurableSet.univ_pi fun _ => measurableSet_Ioo)

theorem c83Set_volume : volume c83Set = 1 := by
  unfold c83Set
  rw [Measure.volume_eq_prod, Measure.prod_prod, Real.volume_pi_Ioo, Real.volume_pi_Ioo]
  simp

/-- **C83 is false**: for the potential `q²/2` with exact gradients, friction 0, step size 2 and one
OBABO step per proposal, the set of positions in `(0, 1)` with momenta in `(-1, 0)` has another probability
after one step. -/
theorem c83_false : ¬ C83Statement := by
  intro H
  have hm : Spec.MassOk (Spec.usedMass none none : MassMatrix (Fin 1)) := massOk_default
  have hUm : Measurable fun x : Fin 1 → ℝ => x 0 ^ 2 / 2 := by fun_prop
  have hf : Measurable (c83Set.indicator (1 : (Fin 1 → ℝ) × (Fin 1 → ℝ) → ENNReal)) :=
    measurable_one.indicator c83Set_measurable
  have h1 := H (Fin 1) Unit Unit Unit (Spec.vectorLayout 1) (Spec.vectorLayout_injective 1) 0 le_rfl none
    hm 1 c83Grad (fun x _ => x) (fun _ _ _ => rfl) (fun _ => measurable_id) c83Pot
    (fun x => x 0 ^ 2 / 2) hUm (fun _ _ _ => rfl) () () ⟨2, 1⟩ (by norm_num) one_pos (fun _ => 1)
    (fun _ => rfl) _ hf
  have h2 := c83_negated_partial (Spec.vectorLayout_injective 1) le_rfl none hm (L := 1) c83Grad
    (G := fun x _ => x) (fun _ _ _ => rfl) c83Pot (U := fun x => x 0 ^ 2 / 2) (fun _ _ _ => rfl) () ()
    ⟨2, 1⟩ (by norm_num) one_pos hUm (fun _ => measurable_id) (fun _ => 1) (fun _ => rfl) _ hf
  dsimp only at h1 h2
  set f := c83Set.indicator (1 : (Fin 1 → ℝ) × (Fin 1 → ℝ) → ENNReal) with hfdef
  set π := Spec.target (Spec.usedMass none none) (fun x : Fin 1 → ℝ => x 0 ^ 2 / 2) 1 with hπ
  let α : (Fin 1 → ℝ) × (Fin 1 → ℝ) → ℝ := fun z => Spec.acceptProb (2 * z.2 0 * (z.2 0 - z.1 0))
  let τ : (Fin 1 → ℝ) × (Fin 1 → ℝ) → (Fin 1 → ℝ) × (Fin 1 → ℝ) := fun z =>
    (fun _ => 2 * z.2 0 - z.1 0, fun _ => -z.2 0)
  have hα : Measurable α := Spec.acceptProb_measurable.comp (by fun_prop)
  have hτ : Measurable τ := by
    refine Measurable.prodMk ?_ ?_ <;> refine measurable_pi_lambda _ fun _ => ?_ <;> fun_prop
  have e1 : ∀ b z, ∫⁻ x, ∫⁻ u, f (Spec.sggmcNext (Spec.vectorLayout 1) 0 none 1 c83Grad c83Pot
      (fun x => x 0 ^ 2 / 2) () () ⟨2, 1⟩ b z x u) ∂Spec.unif ∂Spec.normals (Fin (2 * 1) × Fin 1) =
      ENNReal.ofReal (α z) * f (τ z) + ENNReal.ofReal (1 - α z) * f z := by
    intro b z
    have : ∀ x, ∫⁻ u, f (Spec.sggmcNext (Spec.vectorLayout 1) 0 none 1 c83Grad c83Pot
      (fun x => x 0 ^ 2 / 2) () () ⟨2, 1⟩ b z x u) ∂Spec.unif =
      ENNReal.ofReal (α z) * f (τ z) + ENNReal.ofReal (1 - α z) * f z := fun x =>
      unif_accept _ (Spec.acceptProb_pos _).le (Spec.acceptProb_le _) f _ _ _
        fun u hu => (c83_step b z x u hu).1
    simp only [this]
    rw [lintegral_const, measure_univ, mul_one]
  have e2 : ∀ b z, ∫⁻ x, ∫⁻ u, f (Spec.sggmcNegated (Spec.vectorLayout 1) 0 none 1 c83Grad c83Pot
      (fun x => x 0 ^ 2 / 2) () () ⟨2, 1⟩ b z x u) ∂Spec.unif ∂Spec.normals (Fin (2 * 1) × Fin 1) =
      ENNReal.ofReal (α z) * f (τ z) + ENNReal.ofReal (1 - α z) * f (z.1, -z.2) := by
    intro b z
    have : ∀ x, ∫⁻ u, f (Spec.sggmcNegated (Spec.vectorLayout 1) 0 none 1 c83Grad c83Pot
      (fun x => x 0 ^ 2 / 2) () () ⟨2, 1⟩ b z x u) ∂Spec.unif =
      ENNReal.ofReal (α z) * f (τ z) + ENNReal.ofReal (1 - α z) * f (z.1, -z.2) := fun x =>
      unif_accept _ (Spec.acceptProb_pos _).le (Spec.acceptProb_le _) f _ _ _
        fun u hu => by
          obtain ⟨s1, s2⟩ := c83_step b z x u hu
          unfold Spec.sggmcNegated
          dsimp only
          rw [s1, s2]
          by_cases h : u < α z
          · rw [if_pos (show XF.Lt (.fin u) (.fin _) from h), if_pos h, if_pos h]
          · rw [if_neg (show ¬ XF.Lt (.fin u) (.fin _) from h), if_neg h, if_neg h]
    simp only [this]
    rw [lintegral_const, measure_univ, mul_one]
  simp only [e1] at h1
  simp only [e2] at h2
  simp only [tsum_fintype, Finset.univ_unique, Finset.sum_singleton, one_mul] at h1 h2
  -- the set has a finite, positive probability
  have hden : Measurable fun z : (Fin 1 → ℝ) × (Fin 1 → ℝ) =>
      ENNReal.ofReal (Real.exp (-(z.1 0 ^ 2 / 2 + Spec.kinetic (Spec.usedMass none none) z.2) / 1)) := by
    have : Measurable fun z : (Fin 1 → ℝ) × (Fin 1 → ℝ) =>
      Spec.kinetic (Spec.usedMass none none) z.2 := (kinetic_measurable _).comp (by fun_prop)
    fun_prop
  have hkin : ∀ v : Fin 1 → ℝ, Spec.kinetic (Spec.usedMass none none) v = v 0 * v 0 / 2 := by
    intro v; simp [Spec.kinetic, Spec.usedMass, VTensor.mul]
  have hfin : π c83Set ≠ ⊤ := by
    rw [hπ, Spec.target, withDensity_apply _ c83Set_measurable]
    refine ne_top_of_le_ne_top (b := ∫⁻ _ in c83Set, 1) ?_ (lintegral_mono fun z => ?_)
    · rw [lintegral_one, Measure.restrict_apply_univ, c83Set_volume]; exact ENNReal.one_ne_top
    · rw [← ENNReal.ofReal_one]
      refine ENNReal.ofReal_le_ofReal ?_
      rw [Real.exp_le_one_iff, hkin]
      nlinarith [sq_nonneg (z.1 0), mul_self_nonneg (z.2 0)]
  have hpos : π c83Set ≠ 0 := by
    intro h0
    have hac : volume ≪ π := withDensity_absolutelyContinuous' hden.aemeasurable
      (Filter.Eventually.of_forall fun z => by
        rw [Ne, ENNReal.ofReal_eq_zero, not_le]; exact Real.exp_pos _)
    have := hac h0
    rw [c83Set_volume] at this
    exact one_ne_zero this
  have hI : ∫⁻ z, f z ∂π = π c83Set := lintegral_indicator_one c83Set_measurable
  have hα1 : Measurable fun z => ENNReal.ofReal (α z) * f (τ z) :=
    (ENNReal.measurable_ofReal.comp hα).mul (hf.comp hτ)
  rw [lintegral_add_left hα1, hI] at h1 h2
  have hne : ∫⁻ z, ENNReal.ofReal (α z) * f (τ z) ∂π ≠ ⊤ :=
    ne_top_of_le_ne_top hfin (h1 ▸ le_self_add)
  have h3 := (ENNReal.add_right_inj hne).1 (h1.trans h2.symm)
  -- the flip moves to the acceptance probability
  have h4 := target_flip (Spec.usedMass none none) hUm 1
    (fun z => ENNReal.ofReal (1 - α (z.1, -z.2)) * f z)
    ((ENNReal.measurable_ofReal.comp (measurable_const.sub (hα.comp (by fun_prop)))).mul hf)
  simp only [neg_neg] at h4
  rw [← hπ] at h4
  change ∫⁻ z, ENNReal.ofReal (1 - α z) * f (z.1, -z.2) ∂π = _ at h4
  rw [h4] at h3
  -- but the acceptance probabilities differ on the set
  have hlt : ∀ z ∈ c83Set, α z < α (z.1, -z.2) := by
    intro z hz
    have hq := hz.1 0 (Set.mem_univ _)
    have hp := hz.2 0 (Set.mem_univ _)
    have hqp : z.2 0 * z.1 0 < 0 := mul_neg_of_neg_of_pos hp.2 hq.1
    have hp2 : 0 < z.2 0 * z.2 0 := mul_pos_of_neg_of_neg hp.2 hp.2
    show min 1 (Real.exp _) < min 1 (Real.exp _)
    simp only [Pi.neg_apply]
    have hb : Real.exp (-(2 * z.2 0 * (z.2 0 - z.1 0))) < 1 := by
      rw [Real.exp_lt_one_iff]; nlinarith
    refine lt_min ?_ ?_
    · exact (min_le_right _ _).trans_lt hb
    · refine (min_le_right _ _).trans_lt (Real.exp_lt_exp.2 ?_)
      nlinarith
  have hmeas : Measurable fun z => ENNReal.ofReal (1 - α z) * f z :=
    (ENNReal.measurable_ofReal.comp (measurable_const.sub hα)).mul hf
  have hstrict : ∫⁻ z, ENNReal.ofReal (1 - α (z.1, -z.2)) * f z ∂π <
      ∫⁻ z, ENNReal.ofReal (1 - α z) * f z ∂π := by
    refine lintegral_strict_mono_of_ae_le_of_ae_lt_on (μ := π) hmeas.aemeasurable ?_ ?_ hpos ?_
    · rw [← h3]
      refine ne_top_of_le_ne_top hfin ?_
      rw [← h1]
      exact le_add_self
    · refine Filter.Eventually.of_forall fun z => ?_
      by_cases hz : z ∈ c83Set
      · exact mul_le_mul_left (ENNReal.ofReal_le_ofReal (by linarith [hlt z hz])) _
      · simp [hfdef, hz]
    · refine Filter.Eventually.of_forall fun z hz => ?_
      have : f z = 1 := Set.indicator_of_mem hz _
      rw [this, mul_one, mul_one]
      refine (ENNReal.ofReal_lt_ofReal_iff ?_).2 (by linarith [hlt z hz])
      have := hlt z hz
      have := Spec.acceptProb_le (2 * (z.1, -z.2).2 0 * ((z.1, -z.2).2 0 - (z.1, -z.2).1 0))
      have h' : α (z.1, -z.2) ≤ 1 := this
      linarith
  exact absurd h3 (ne_of_gt hstrict)

end JaxSgmc
