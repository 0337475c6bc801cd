import Verif.Lemmas.Stationary

/-!
# C82: AMAGOLD leaves the target distribution invariant

The random numbers of one step are idealised as in `Verif/Spec/Invariance.lean`: independent standard
normal noises and an independent uniform number.  The mini-batches are drawn with any weights `w` which do
not change if the order of the mini-batches of a step is reversed (e.g. independent draws).
-/

namespace JaxSgmc

open MeasureTheory

variable {ι β μ φ : Type} [Fintype ι]

/-- A linear inverse of the square root of the mass. -/
theorem exists_sqrt_inverse {m : MassMatrix ι} (hm : Spec.MassOk m) :
    ∃ w : (ι → ℝ) →ₗ[ℝ] (ι → ℝ), ∀ r, m.sqrt.mul (w r) = r := by
  let A : (ι → ℝ) →ₗ[ℝ] (ι → ℝ) :=
    { toFun := m.sqrt.mul, map_add' := m.sqrt.mul_add, map_smul' := m.sqrt.mul_smul }
  obtain ⟨w, hw⟩ := A.exists_rightInverse_of_surjective (LinearMap.range_eq_top.2 hm.surj)
  exact ⟨w, fun r => LinearMap.congr_fun hw r⟩

theorem currentMass_const (am : Option (MassMatrix ι)) :
    currentMass (am.map Spec.constantMass) (am.map fun _ => ()) = am := by
  cases am <;> rfl

/-- Reversing the order of the mini-batches. -/
def revBatches (L : ℕ) (β : Type) : (Fin L → β) ≃ (Fin L → β) where
  toFun b i := b (Fin.rev i)
  invFun b i := b (Fin.rev i)
  left_inv b := by funext i; simp
  right_inv b := by funext i; simp

section
variable [Inhabited β] {lay : Layout ι} (hl : Spec.Layout.Injective lay) {γ : ℝ} (hγ : 0 ≤ γ)
  (am : Option (MassMatrix ι)) (cm : Option (ι → ℝ)) (hm : Spec.MassOk (Spec.usedMass am cm)) {L : ℕ} (sg : StochGrad ι β μ)
  {G : (ι → ℝ) → β → (ι → ℝ)} (hG : ∀ x b ms, (sg x b ms).2 = G x b)
  (fullPot : FullPotFn ι φ μ) {U : (ι → ℝ) → ℝ} {D : Set (ι → ℝ)}
  (hfp : Spec.PotentialOn fullPot U D) (f₀ : φ) (ms : μ) (prm : Params)
  (hh : 0 ≤ prm.stepSize)

include hl hγ hm hG hfp hh in
/-- One step of AMAGOLD in terms of the path map. -/
theorem amagoldNext_eq {w : (ι → ℝ) →ₗ[ℝ] (ι → ℝ)}
    (hw : ∀ r, (Spec.usedMass am cm).sqrt.mul (w r) = r) (b : Fin L → β) (z : (ι → ℝ) × (ι → ℝ))
    (x : Fin L × ι → ℝ) (u : ℝ) (hu : 0 ≤ u) :
    let m := Spec.usedMass am cm
    let T := leapMap γ prm.stepSize m w (fun n q => G q (Spec.batchSeq b n))
    Spec.amagoldNext lay γ am cm L sg fullPot U f₀ ms prm b z x u =
      if u < D.indicator (fun _ => Spec.acceptProb (pathEnergy m U (T (z, x)) - pathEnergy m U (z, x)))
          (T (z, x)).1.1 then
        ((T (z, x)).1.1, -(T (z, x)).1.2) else (z.1, -z.2) := by
  intro m T
  have hE := leapMap_energy hl prm (Spec.batchSeq b) sg hG u ms hγ hh hm hw U (z, x)
  have hT := leapMap_eq hl γ prm m w (Spec.batchSeq b) sg hG u ms (z, x)
  dsimp only at hE hT
  rw [show pathEnergy m U (T (z, x)) - pathEnergy m U (z, x) = _ from hE]
  rw [show T (z, x) = _ from hT]
  set S := revState (Spec.scripted lay (Spec.noiseSeq x) u) lay γ (Spec.batchSource (Spec.batchSeq b))
    sg prm m (scriptedStart (drift (prm.stepSize / 2) m (z, x)) ms) with hS
  set P := Spec.scripted lay (Spec.noiseSeq x) u with hP
  -- the proposal
  have hr := revIntegrate_eq P lay γ cm L (Spec.batchSource (Spec.batchSeq b)) sg
    (⟨0, .main 0, z.1, z.2, 0, ms, []⟩ : LeapfrogState ι ℝ Spec.SKey ℕ μ) prm am
  dsimp only at hr
  have hstart : (⟨0, .main 0, z.1 + (prm.stepSize / 2) • (Spec.usedMass am cm).inv.mul z.2,
      z.2, 0, ms, []⟩ : LeapfrogState ι ℝ Spec.SKey ℕ μ) =
      scriptedStart (drift (prm.stepSize / 2) m (z, x)) ms := rfl
  rw [hstart] at hr
  rw [show revState P lay γ (Spec.batchSource (Spec.batchSeq b)) sg prm (Spec.usedMass am cm)
    (scriptedStart (drift (prm.stepSize / 2) m (z, x)) ms) L = S L from rfl] at hr
  have hprop : revForAmagold P lay γ cm L (Spec.batchSource (Spec.batchSeq b)) sg
      (⟨.fin 0, .main 0, z.1, z.2, 0, ms, []⟩ : LeapfrogState ι XF Spec.SKey ℕ μ) prm am =
      ⟨.fin (S L).potential, (S L).key,
        (S L).positions + (prm.stepSize / 2) • m.inv.mul (S L).momentum, (S L).momentum,
        (S L).dataState, (S L).modelState, (S L).drawn⟩ := by
    unfold revForAmagold
    dsimp only
    rw [hr]
  unfold Spec.amagoldNext
  dsimp only
  rw [← hP]
  unfold amagoldUpdate
  dsimp only
  rw [currentMass_const, hprop]
  dsimp only
  set Q := (S L).positions + (prm.stepSize / 2) • m.inv.mul (S L).momentum with hQ
  by_cases hD : Q ∈ D
  · rw [Set.indicator_of_mem hD, hfp.fin _ _ _ hD, amagoldLogAlpha_fin]
    have hacc : XF.Lt (XF.logOf (P.uniform (P.split (.main 0) 2 1)))
        (.fin (min 0 (U z.1 - U Q + (S L).potential))) ↔
        u < Spec.acceptProb (U Q - U z.1 - (S L).potential) := by
      show XF.Lt (XF.logOf u) _ ↔ _
      rw [XF.lt_logOf_fin hu, ← exp_min_zero]
      rw [show -(U Q - U z.1 - (S L).potential) = U z.1 - U Q + (S L).potential by ring]
    by_cases h : u < Spec.acceptProb (U Q - U z.1 - (S L).potential)
    · rw [if_pos (hacc.2 h), if_pos h]
      refine Prod.ext rfl ?_
      simp only [vscale_eq]
      norm_num
    · rw [if_neg (fun hx => h (hacc.1 hx)), if_neg h]
      refine Prod.ext rfl ?_
      simp only [vscale_eq]
      norm_num
  · rw [Set.indicator_of_notMem hD, if_neg (not_lt.2 hu),
      if_neg (amagoldLogAlpha_out _ _ _ (hfp.out Q _ _ hD))]
    refine Prod.ext rfl ?_
    simp only [vscale_eq]
    norm_num

include hl hγ hm hG hfp hh in
theorem amagold_invariant_on (hU : Measurable U) (hD : MeasurableSet D) (hGm : ∀ b, Measurable fun x => G x b)
    (w : (Fin L → β) → ENNReal) (hw : ∀ b, w (fun i => b (Fin.rev i)) = w b)
    (f : (ι → ℝ) × (ι → ℝ) → ENNReal) (hf : Measurable f) :
    ∑' b, w b * ∫⁻ z, ∫⁻ x, ∫⁻ u, f (Spec.amagoldNext lay γ am cm L sg fullPot U f₀ ms prm b z x u)
        ∂Spec.unif ∂Spec.normals (Fin L × ι) ∂Spec.targetOn (Spec.usedMass am cm) U D 1 =
      (∑' b, w b) * ∫⁻ z, f z ∂Spec.targetOn (Spec.usedMass am cm) U D 1 := by
  obtain ⟨v, hv⟩ := exists_sqrt_inverse hm
  refine stationary_of_paths_on (Spec.usedMass am cm) hU hD 1
    (fun b => leapMap γ prm.stepSize (Spec.usedMass am cm) v (fun n q => G q (Spec.batchSeq b n)))
    (revBatches L β)
    (fun b => leapMap_measurePreserving hγ hh hv fun n => hGm _) (fun b x => ?_) w hw _
    (pathEnergy (Spec.usedMass am cm) U) (fun y => by simp [pathEnergy]) _ (fun b y => rfl)
    (fun b z x u hu => amagoldNext_eq hl hγ am cm hm sg hG fullPot hfp f₀ ms prm hh hv b z x u hu) f hf
  refine leapMap_inverse hl prm (Spec.batchSeq b) sg hG 0 ms hγ hh hm hv _ (fun i hi => ?_) x
  have h' : L - 1 - i < L := by omega
  simp only [Spec.batchSeq, hi, h', dif_pos, revBatches, Equiv.coe_fn_mk]
  congr 1
  exact Fin.ext (by rw [Fin.val_rev]; show L - (i + 1) = L - 1 - i; omega)

omit hfp in
include hl hγ hm hG hh in
/-- **C82.** If positions and momenta are distributed with density proportional to
`exp(-U(q) - ½ pᵀM⁻¹p)`, they have the same distribution after a step of AMAGOLD: expectations of all
non-negative functions `f` of positions and momenta do not change.  This holds for every step size, every
number of leapfrog steps, every friction, every constant or adapted mass and every stochastic gradient `G`,
however wrong. -/
theorem c82_amagold_invariant (hfp : ∀ x f ms, (fullPot x f ms).1 = .fin (U x)) (hU : Measurable U)
    (hGm : ∀ b, Measurable fun x => G x b)
    (w : (Fin L → β) → ENNReal) (hw : ∀ b, w (fun i => b (Fin.rev i)) = w b)
    (f : (ι → ℝ) × (ι → ℝ) → ENNReal) (hf : Measurable f) :
    ∑' b, w b * ∫⁻ z, ∫⁻ x, ∫⁻ u, f (Spec.amagoldNext lay γ am cm L sg fullPot U f₀ ms prm b z x u)
        ∂Spec.unif ∂Spec.normals (Fin L × ι) ∂Spec.target (Spec.usedMass am cm) U 1 =
      (∑' b, w b) * ∫⁻ z, f z ∂Spec.target (Spec.usedMass am cm) U 1 := by
  have := amagold_invariant_on hl hγ am cm hm sg hG fullPot (D := Set.univ)
    ⟨fun x f ms _ => hfp x f ms, fun x f ms h => absurd (Set.mem_univ x) h⟩ f₀ ms prm hh hU
    MeasurableSet.univ hGm w hw f hf
  rwa [Spec.targetOn_univ] at this

end

/-! ## Whole runs -/

/-- The path depends only on noises and mini-batches. -/
theorem revState_congr {κ κ' δ δ' μ' : Type} (P : Prng κ) (P' : Prng κ') (lay : Layout ι) (γ : ℝ)
    (getData : δ → δ × β) (getData' : δ' → δ' × β) (sg : StochGrad ι β μ) (sg' : StochGrad ι β μ')
    (prm : Params) (m : MassMatrix ι) (s : LeapfrogState ι ℝ κ δ μ) (s' : LeapfrogState ι ℝ κ' δ' μ')
    {G : (ι → ℝ) → β → (ι → ℝ)} (hG : ∀ x b ms, (sg x b ms).2 = G x b)
    (hG' : ∀ x b ms, (sg' x b ms).2 = G x b) (L : ℕ)
    (h1 : s.positions = s'.positions) (h2 : s.momentum = s'.momentum) (h3 : s.potential = s'.potential)
    (hb : ∀ i < L, Spec.nthBatch getData s.dataState i = Spec.nthBatch getData' s'.dataState i)
    (hn : ∀ i < L, Spec.leapNoise P lay s.key i = Spec.leapNoise P' lay s'.key i) :
    ∀ n ≤ L,
      (revState P lay γ getData sg prm m s n).positions =
        (revState P' lay γ getData' sg' prm m s' n).positions ∧
      (revState P lay γ getData sg prm m s n).momentum =
        (revState P' lay γ getData' sg' prm m s' n).momentum ∧
      (revState P lay γ getData sg prm m s n).potential =
        (revState P' lay γ getData' sg' prm m s' n).potential := by
  intro n
  induction n with
  | zero => intro _; exact ⟨h1, h2, h3⟩
  | succ n ih =>
    intro hn'
    obtain ⟨i1, i2, i3⟩ := ih (by omega)
    have hp : (revState P lay γ getData sg prm m s (n + 1)).positions =
        (revState P' lay γ getData' sg' prm m s' (n + 1)).positions := by
      rw [revState_positions, revState_positions, i1, i2]
    have hq : (revState P lay γ getData sg prm m s (n + 1)).momentum =
        (revState P' lay γ getData' sg' prm m s' (n + 1)).momentum := by
      rw [revState_momentum P lay γ getData sg prm m s hG,
        revState_momentum P' lay γ getData' sg' prm m s' hG', i2, hp, hb n (by omega),
        hn n (by omega)]
    refine ⟨hp, hq, ?_⟩
    rw [revState_potential P lay γ getData sg prm m s hG,
      revState_potential P' lay γ getData' sg' prm m s' hG', i2, i3, hp, hq, hb n (by omega)]

section
variable {κ δ Ms : Type} [Inhabited β]

/-- The entries of the first `L` noise vectors drawn with key `k`. -/
def drawnNoise (P : Prng κ) (lay : Layout ι) (k : κ) (L : ℕ) (j : Fin L × ι) : ℝ :=
  Spec.leapNoise P lay k j.1 j.2

/-- The code performs the step of the specification. -/
theorem amagold_code_step (P : Prng κ) {lay : Layout ι} (hl : Spec.Layout.Injective lay) (γ : ℝ)
    (ma : Option (MassAdaption ι Ms)) (cm : Option (ι → ℝ)) (L : ℕ) (getData : δ → δ × β)
    (sg : StochGrad ι β μ) {G : (ι → ℝ) → β → (ι → ℝ)} (hG : ∀ x b ms, (sg x b ms).2 = G x b)
    (fullPot : FullPotFn ι φ μ) {U : (ι → ℝ) → ℝ} {D : Set (ι → ℝ)} (hfp : Spec.PotentialOn fullPot U D)
    (s : AmagoldState ι κ δ μ φ Ms) (hsD : s.integratorState.positions ∈ D)
    (hs : s.potential = .fin (U s.integratorState.positions)) (prm : Params) (f₀ : φ) (ms : μ) :
    let s' := (amagoldUpdate P ma (revForAmagold P lay γ cm L getData sg) fullPot s prm).1
    (s'.integratorState.positions, s'.integratorState.momentum) =
      Spec.amagoldNext lay γ (currentMass ma s.massState) cm L sg fullPot U f₀ ms prm
        (fun i => Spec.nthBatch getData s.integratorState.dataState i)
        (s.integratorState.positions, s.integratorState.momentum)
        (drawnNoise P lay s.integratorState.key L) (P.uniform (P.split s.key 2 1)) ∧
    s'.integratorState.positions ∈ D ∧ s'.potential = .fin (U s'.integratorState.positions) := by
  intro s'
  obtain ⟨am, ham⟩ : ∃ am, am = currentMass ma s.massState := ⟨_, rfl⟩
  rw [← ham]
  set b : Fin L → β := fun i => Spec.nthBatch getData s.integratorState.dataState i with hb
  set x := drawnNoise P lay s.integratorState.key L with hx
  set u := P.uniform (P.split s.key 2 1) with hu
  set P' := Spec.scripted lay (Spec.noiseSeq x) u with hP'
  set m := Spec.usedMass am cm with hm
  set z := (s.integratorState.positions, s.integratorState.momentum) with hz
  -- both proposals
  let st : LeapfrogState ι ℝ κ δ μ := ⟨0, s.integratorState.key,
    s.integratorState.positions + (prm.stepSize / 2) • m.inv.mul s.integratorState.momentum,
    s.integratorState.momentum, s.integratorState.dataState, s.integratorState.modelState,
    s.integratorState.drawn⟩
  let st' : LeapfrogState ι ℝ Spec.SKey ℕ μ := ⟨0, .main 0,
    s.integratorState.positions + (prm.stepSize / 2) • m.inv.mul s.integratorState.momentum,
    s.integratorState.momentum, 0, ms, []⟩
  have e1 := revIntegrate_eq P lay γ cm L getData sg (⟨0, s.integratorState.key,
    s.integratorState.positions, s.integratorState.momentum, s.integratorState.dataState,
    s.integratorState.modelState, s.integratorState.drawn⟩ : LeapfrogState ι ℝ κ δ μ) prm am
  have e2 := revIntegrate_eq P' lay γ cm L (Spec.batchSource (Spec.batchSeq b)) sg
    (⟨0, .main 0, s.integratorState.positions, s.integratorState.momentum, 0, ms, []⟩ :
      LeapfrogState ι ℝ Spec.SKey ℕ μ) prm am
  dsimp only at e1 e2
  change _ = ({ revState P lay γ getData sg prm m st L with positions := _ } :
    LeapfrogState ι ℝ κ δ μ) at e1
  change _ = ({ revState P' lay γ (Spec.batchSource (Spec.batchSeq b)) sg prm m st' L with
    positions := _ } : LeapfrogState ι ℝ Spec.SKey ℕ μ) at e2
  obtain ⟨c1, c2, c3⟩ := revState_congr P P' lay γ getData (Spec.batchSource (Spec.batchSeq b)) sg sg
    prm m st st' hG hG L rfl rfl rfl
    (fun i hi => by
      show _ = Spec.nthBatch _ 0 i
      rw [Spec.batchSource_nth, Spec.batchSeq, dif_pos hi])
    (fun i hi => by
      show _ = Spec.leapNoise P' lay (.main 0) i
      rw [hP', Spec.scripted_leapNoise hl]
      funext k
      simp only [Spec.noiseSeq, hi, dif_pos, hx, drawnNoise]
      rfl)
    L le_rfl
  set S := revState P lay γ getData sg prm m st L with hS
  set S' := revState P' lay γ (Spec.batchSource (Spec.batchSeq b)) sg prm m st' L with hS'
  have p1 : revForAmagold P lay γ cm L getData sg s.integratorState prm am =
      ⟨.fin S.potential, S.key, S.positions + (prm.stepSize / 2) • m.inv.mul S.momentum, S.momentum,
        S.dataState, S.modelState, S.drawn⟩ := by
    unfold revForAmagold; dsimp only; rw [e1]
  have p2 : revForAmagold P' lay γ cm L (Spec.batchSource (Spec.batchSeq b)) sg
      (⟨.fin 0, .main 0, z.1, z.2, 0, ms, []⟩ : LeapfrogState ι XF Spec.SKey ℕ μ) prm am =
      ⟨.fin S'.potential, S'.key, S'.positions + (prm.stepSize / 2) • m.inv.mul S'.momentum,
        S'.momentum, S'.dataState, S'.modelState, S'.drawn⟩ := by
    unfold revForAmagold; dsimp only; rw [e2]
  have hs' : s' = (amagoldUpdate P ma (revForAmagold P lay γ cm L getData sg) fullPot s prm).1 := rfl
  unfold amagoldUpdate at hs'
  dsimp only at hs'
  rw [← ham, p1, hs] at hs'
  dsimp only at hs'
  unfold Spec.amagoldNext
  dsimp only
  rw [← hP']
  unfold amagoldUpdate
  dsimp only
  rw [currentMass_const, p2]
  dsimp only
  rw [← c1, ← c2, ← c3]
  have huu : P'.uniform (P'.split (.main 0) 2 1) = u := rfl
  rw [huu]
  rw [← hu] at hs'
  by_cases hQ : S.positions + (prm.stepSize / 2) • m.inv.mul S.momentum ∈ D
  · rw [hfp.fin _ _ _ hQ] at hs' ⊢
    by_cases h : XF.Lt (XF.logOf u) (amagoldLogAlpha (.fin (U s.integratorState.positions))
        (.fin (U (S.positions + (prm.stepSize / 2) • m.inv.mul S.momentum))) (.fin S.potential))
    · rw [if_pos h] at hs' ⊢
      rw [hs']
      exact ⟨rfl, hQ, rfl⟩
    · rw [if_neg h] at hs' ⊢
      rw [hs']
      exact ⟨rfl, hsD, rfl⟩
  · rw [if_neg (amagoldLogAlpha_out _ _ _ (hfp.out _ _ _ hQ))] at hs' ⊢
    rw [hs']
    exact ⟨rfl, hsD, rfl⟩

/-- **C82.** The code performs the step of the specification: from every state of AMAGOLD with any
generator, data source and mass adaption, positions and momenta of the next state are `Spec.amagoldNext` of
the current mass, the noises drawn by the integrator, the next mini-batches and the uniform number drawn by
the solver; and the next state stores the potential of its positions. -/
theorem c82_code_step (P : Prng κ) {lay : Layout ι} (hl : Spec.Layout.Injective lay) (γ : ℝ)
    (ma : Option (MassAdaption ι Ms)) (cm : Option (ι → ℝ)) (L : ℕ) (getData : δ → δ × β)
    (sg : StochGrad ι β μ) {G : (ι → ℝ) → β → (ι → ℝ)} (hG : ∀ x b ms, (sg x b ms).2 = G x b)
    (fullPot : FullPotFn ι φ μ) {U : (ι → ℝ) → ℝ} (hfp : ∀ x f ms, (fullPot x f ms).1 = .fin (U x))
    (s : AmagoldState ι κ δ μ φ Ms) (hs : s.potential = .fin (U s.integratorState.positions))
    (prm : Params) (f₀ : φ) (ms : μ) :
    let s' := (amagoldUpdate P ma (revForAmagold P lay γ cm L getData sg) fullPot s prm).1
    (s'.integratorState.positions, s'.integratorState.momentum) =
      Spec.amagoldNext lay γ (currentMass ma s.massState) cm L sg fullPot U f₀ ms prm
        (fun i => Spec.nthBatch getData s.integratorState.dataState i)
        (s.integratorState.positions, s.integratorState.momentum)
        (drawnNoise P lay s.integratorState.key L) (P.uniform (P.split s.key 2 1)) ∧
    s'.potential = .fin (U s'.integratorState.positions) := by
  intro s'
  obtain ⟨h1, -, h2⟩ := amagold_code_step P hl γ ma cm L getData sg hG fullPot (D := Set.univ)
    ⟨fun x f ms _ => hfp x f ms, fun x f ms h => absurd (Set.mem_univ x) h⟩ s (Set.mem_univ _) hs prm f₀ ms
  exact ⟨h1, h2⟩

end

section
variable [Inhabited β] [Countable β]

section
variable {lay : Layout ι} (hl : Spec.Layout.Injective lay) {γ : ℝ} (hγ : 0 ≤ γ) (am : Option (MassMatrix ι))
  (cm : Option (ι → ℝ)) (hm : Spec.MassOk (Spec.usedMass am cm)) {L : ℕ} (sg : StochGrad ι β μ)
  {G : (ι → ℝ) → β → (ι → ℝ)} (hG : ∀ x b ms, (sg x b ms).2 = G x b) (fullPot : FullPotFn ι φ μ)
  {U : (ι → ℝ) → ℝ} {D : Set (ι → ℝ)} (hfp : Spec.PotentialOn fullPot U D) (f₀ : φ) (ms : μ)
  {v : (ι → ℝ) →ₗ[ℝ] (ι → ℝ)} (hv : ∀ r, (Spec.usedMass am cm).sqrt.mul (v r) = r)

omit [Countable β] in
include hl hγ hm hG hfp hv in
/-- The expectation over the uniform number. -/
theorem amagold_unif (prm : Params) (hp : 0 ≤ prm.stepSize) (g : (ι → ℝ) × (ι → ℝ) → ENNReal)
    (b : Fin L → β) (z : (ι → ℝ) × (ι → ℝ)) (x : Fin L × ι → ℝ) :
    ∫⁻ u, g (Spec.amagoldNext lay γ am cm L sg fullPot U f₀ ms prm b z x u) ∂Spec.unif =
      (let m := Spec.usedMass am cm
      let T := leapMap γ prm.stepSize m v (fun n q => G q (Spec.batchSeq b n))
      ENNReal.ofReal (D.indicator (fun _ => Spec.acceptProb
          (pathEnergy m U (T (z, x)) - pathEnergy m U (z, x))) (T (z, x)).1.1) *
        g ((T (z, x)).1.1, -(T (z, x)).1.2) +
      ENNReal.ofReal (1 - D.indicator (fun _ => Spec.acceptProb
          (pathEnergy m U (T (z, x)) - pathEnergy m U (z, x))) (T (z, x)).1.1) *
        g (z.1, -z.2)) :=
  unif_accept _ (Set.indicator_nonneg (fun _ _ => (Spec.acceptProb_pos _).le) _)
    (Set.indicator_le' (fun _ _ => Spec.acceptProb_le _) (fun _ _ => zero_le_one) _) g _ _ _
    (fun u hu => amagoldNext_eq hl hγ am cm hm sg hG fullPot hfp f₀ ms prm hp hv b z x u hu)

omit [Countable β] in
include hl hγ hm hG hfp hv in
/-- It is a measurable function of the path. -/
theorem amagold_inner_measurable (hU : Measurable U) (hD : MeasurableSet D)
    (hGm : ∀ b, Measurable fun x => G x b) (prm : Params) (hp : 0 ≤ prm.stepSize)
    (g : (ι → ℝ) × (ι → ℝ) → ENNReal) (hg : Measurable g) (b : Fin L → β) :
    Measurable fun y : PathSpace ι L =>
      ∫⁻ u, g (Spec.amagoldNext lay γ am cm L sg fullPot U f₀ ms prm b y.1 y.2 u) ∂Spec.unif := by
  set m := Spec.usedMass am cm with hmdef
  have hEm : Measurable (pathEnergy m U : PathSpace ι L → ℝ) := by
    have hK := kinetic_measurable m
    unfold pathEnergy
    have h1 : Measurable fun y : PathSpace ι L => Spec.kinetic m y.1.2 := hK.comp (by fun_prop)
    have h2 : ∀ j, Measurable fun y : PathSpace ι L => y.2 j := fun j =>
      (measurable_pi_apply j).comp measurable_snd
    fun_prop
  have hT := (leapMap_measurePreserving (L := L) hγ hp hv
    (g := fun n q => G q (Spec.batchSeq b n)) (fun n => hGm _)).measurable
  simp only [amagold_unif hl hγ am cm hm sg hG fullPot hfp f₀ ms hv prm hp g b]
  simp only [← hmdef]
  have hacc : Measurable fun y : PathSpace ι L => D.indicator (fun _ => Spec.acceptProb (pathEnergy m U
      (leapMap γ prm.stepSize m v (fun n q => G q (Spec.batchSeq b n)) y) - pathEnergy m U y))
      (leapMap γ prm.stepSize m v (fun n q => G q (Spec.batchSeq b n)) y).1.1 :=
    Measurable.indicator (s := {y | (leapMap γ prm.stepSize m v (fun n q => G q (Spec.batchSeq b n)) y).1.1 ∈ D})
      (Spec.acceptProb_measurable.comp ((hEm.comp hT).sub hEm)) ((measurable_fst.comp (measurable_fst.comp hT)) hD)
  have h1 : Measurable fun y : PathSpace ι L =>
      g ((leapMap γ prm.stepSize m v (fun n q => G q (Spec.batchSeq b n)) y).1.1,
        -(leapMap γ prm.stepSize m v (fun n q => G q (Spec.batchSeq b n)) y).1.2) :=
    hg.comp ((measurable_fst.comp (measurable_fst.comp hT)).prodMk
      (measurable_snd.comp (measurable_fst.comp hT)).neg)
  have h2 : Measurable fun y : PathSpace ι L => g (y.1.1, -y.1.2) := hg.comp (by fun_prop)
  exact ((ENNReal.measurable_ofReal.comp hacc).mul h1).add
    ((ENNReal.measurable_ofReal.comp (measurable_const.sub hacc)).mul h2)

end

/-- Runs on a constrained support: expectations are measurable functions of the start, and the target
distribution is invariant. -/
theorem amagold_run_invariant_on {lay : Layout ι} (hl : Spec.Layout.Injective lay) {γ : ℝ} (hγ : 0 ≤ γ)
    (am : Option (MassMatrix ι)) (cm : Option (ι → ℝ)) (hm : Spec.MassOk (Spec.usedMass am cm)) {L : ℕ}
    (sg : StochGrad ι β μ) {G : (ι → ℝ) → β → (ι → ℝ)} (hG : ∀ x b ms, (sg x b ms).2 = G x b)
    (hGm : ∀ b, Measurable fun x => G x b) (fullPot : FullPotFn ι φ μ) {U : (ι → ℝ) → ℝ}
    (hU : Measurable U) {D : Set (ι → ℝ)} (hD : MeasurableSet D) (hfp : Spec.PotentialOn fullPot U D)
    (f₀ : φ) (ms : μ)
    (w : (Fin L → β) → ENNReal) (hw : ∀ b, w (fun i => b (Fin.rev i)) = w b) (hw1 : ∑' b, w b = 1)
    (f : (ι → ℝ) × (ι → ℝ) → ENNReal) (hf : Measurable f) (prms : List Params)
    (hh : ∀ prm ∈ prms, 0 ≤ prm.stepSize) :
    Measurable (Spec.amagoldExpect lay γ am cm L sg fullPot U f₀ ms w f prms) ∧
    ∫⁻ z, Spec.amagoldExpect lay γ am cm L sg fullPot U f₀ ms w f prms z
        ∂Spec.targetOn (Spec.usedMass am cm) U D 1 =
      ∫⁻ z, f z ∂Spec.targetOn (Spec.usedMass am cm) U D 1 := by
  obtain ⟨v, hv⟩ := exists_sqrt_inverse hm
  have hinner := fun (prm : Params) (hp : 0 ≤ prm.stepSize) (g : (ι → ℝ) × (ι → ℝ) → ENNReal)
    (hg : Measurable g) (b : Fin L → β) =>
      amagold_inner_measurable hl hγ am cm hm sg hG fullPot hfp f₀ ms hv hU hD hGm prm hp g hg b
  have hmeas : ∀ prms : List Params, (∀ prm ∈ prms, 0 ≤ prm.stepSize) →
      Measurable (Spec.amagoldExpect lay γ am cm L sg fullPot U f₀ ms w f prms) := by
    intro prms
    induction prms with
    | nil => intro _; exact hf
    | cons prm prms ih =>
      intro hp
      show Measurable fun z => ∑' b, w b * ∫⁻ x, ∫⁻ u, Spec.amagoldExpect lay γ am cm L sg fullPot U f₀ ms w f
        prms (Spec.amagoldNext lay γ am cm L sg fullPot U f₀ ms prm b z x u) ∂Spec.unif
          ∂Spec.normals (Fin L × ι)
      refine Measurable.ennreal_tsum fun b => Measurable.const_mul ?_ _
      exact Measurable.lintegral_prod_right' (ν := Spec.normals (Fin L × ι))
        (hinner prm (hp _ List.mem_cons_self) _ (ih fun q hq => hp q (List.mem_cons_of_mem _ hq)) b)
  refine ⟨hmeas prms hh, ?_⟩
  induction prms with
  | nil => rfl
  | cons prm prms ih =>
    rw [← ih fun q hq => hh q (List.mem_cons_of_mem _ hq)]
    have hg := hmeas prms fun q hq => hh q (List.mem_cons_of_mem _ hq)
    have := amagold_invariant_on hl hγ am cm hm sg hG fullPot hfp f₀ ms prm (hh _ List.mem_cons_self) hU
      hD hGm w hw _ hg
    rw [hw1, one_mul] at this
    rw [← this]
    show ∫⁻ z, ∑' b, w b * ∫⁻ x, ∫⁻ u, Spec.amagoldExpect lay γ am cm L sg fullPot U f₀ ms w f
        prms (Spec.amagoldNext lay γ am cm L sg fullPot U f₀ ms prm b z x u) ∂Spec.unif
          ∂Spec.normals (Fin L × ι) ∂_ = _
    have hb : ∀ b, Measurable fun z => ∫⁻ x, ∫⁻ u, Spec.amagoldExpect lay γ am cm L sg fullPot U f₀ ms w f
        prms (Spec.amagoldNext lay γ am cm L sg fullPot U f₀ ms prm b z x u) ∂Spec.unif
          ∂Spec.normals (Fin L × ι) := fun b =>
      Measurable.lintegral_prod_right' (ν := Spec.normals (Fin L × ι))
        (hinner prm (hh _ List.mem_cons_self) _ hg b)
    rw [lintegral_tsum fun b => ((hb b).const_mul _).aemeasurable]
    exact tsum_congr fun b => lintegral_const_mul _ (hb b)

/-- **C82.** Runs of any length with any schedule of step sizes leave the target distribution invariant. -/
theorem c82_run_invariant {lay : Layout ι} (hl : Spec.Layout.Injective lay) {γ : ℝ} (hγ : 0 ≤ γ)
    (am : Option (MassMatrix ι)) (cm : Option (ι → ℝ)) (hm : Spec.MassOk (Spec.usedMass am cm)) {L : ℕ}
    (sg : StochGrad ι β μ) {G : (ι → ℝ) → β → (ι → ℝ)} (hG : ∀ x b ms, (sg x b ms).2 = G x b)
    (hGm : ∀ b, Measurable fun x => G x b) (fullPot : FullPotFn ι φ μ) {U : (ι → ℝ) → ℝ}
    (hU : Measurable U) (hfp : ∀ x f ms, (fullPot x f ms).1 = .fin (U x)) (f₀ : φ) (ms : μ)
    (w : (Fin L → β) → ENNReal) (hw : ∀ b, w (fun i => b (Fin.rev i)) = w b) (hw1 : ∑' b, w b = 1)
    (f : (ι → ℝ) × (ι → ℝ) → ENNReal) (hf : Measurable f) (prms : List Params)
    (hh : ∀ prm ∈ prms, 0 ≤ prm.stepSize) :
    ∫⁻ z, Spec.amagoldExpect lay γ am cm L sg fullPot U f₀ ms w f prms z
        ∂Spec.target (Spec.usedMass am cm) U 1 =
      ∫⁻ z, f z ∂Spec.target (Spec.usedMass am cm) U 1 := by
  have := amagold_run_invariant_on hl hγ am cm hm sg hG hGm fullPot hU MeasurableSet.univ
    ⟨fun x f ms _ => hfp x f ms, fun x f ms h => absurd (Set.mem_univ x) h⟩ f₀ ms w hw hw1 f hf prms hh
  rw [Spec.targetOn_univ] at this
  exact this.2

end

/-- C82 for mini-batches drawn uniformly from two, two variables with masses 1 and 4, and a gradient
which is not the gradient of the potential. -/
example (A : Set ((Fin 2 → ℝ) × (Fin 2 → ℝ))) (hA : MeasurableSet A) :
    ∑' b : Fin 3 → Bool, (1 / 8 : ENNReal) * ∫⁻ z, ∫⁻ x, ∫⁻ u, A.indicator 1
        (Spec.amagoldNext (Spec.vectorLayout 2) (1 / 2) none (some ![1, 4]) 3
          (fun x (b : Bool) (_ : Unit) => ((0, ()), fun i => if b then x i + 1 else x i)) 
          (fun x (_ : Unit) _ => (.fin (x 0 ^ 2 + x 1 ^ 2), ((), ())))
          (fun x => x 0 ^ 2 + x 1 ^ 2) () () ⟨1, 1⟩ b z x u)
        ∂Spec.unif ∂Spec.normals (Fin 3 × Fin 2)
        ∂Spec.target (Spec.usedMass none (some ![1, 4])) (fun x => x 0 ^ 2 + x 1 ^ 2) 1 =
      Spec.target (Spec.usedMass none (some ![1, 4])) (fun x : Fin 2 → ℝ => x 0 ^ 2 + x 1 ^ 2) 1 A := by
  have hm : Spec.MassOk (Spec.usedMass none (some (![1, 4] : Fin 2 → ℝ))) :=
    massOk_const (fun i => by fin_cases i <;> norm_num)
  have hw : ∑' _ : Fin 3 → Bool, (1 / 8 : ENNReal) = 1 := by
    rw [tsum_fintype, Finset.sum_const, Finset.card_univ]
    simp only [Fintype.card_pi, Fintype.card_bool, Finset.prod_const, Finset.card_univ,
      Fintype.card_fin, nsmul_eq_mul]
    norm_num
    exact ENNReal.mul_inv_cancel (by norm_num) (by norm_num)
  rw [c82_amagold_invariant (Spec.vectorLayout_injective 2) (by norm_num) none (some ![1, 4]) hm _
    (G := fun x b i => if b then x i + 1 else x i) (fun _ _ _ => rfl) _ () () ⟨1, 1⟩
    (by norm_num) (fun _ _ _ => rfl) (by fun_prop) (fun b => by cases b <;> simp <;> fun_prop) (fun _ => 1 / 8)
    (fun _ => rfl) _ (measurable_one.indicator hA), hw, one_mul, lintegral_indicator_one hA]

end JaxSgmc
