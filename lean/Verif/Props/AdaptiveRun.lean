import Verif.Spec.AdaptiveRun
import Verif.Props.AmagoldRun
import Verif.Props.AliasRun

/-!
# C133: `alias.amagold` with adaptive step size samples the posterior
-/

namespace JaxSgmc

open MeasureTheory ProbabilityTheory Filter Topology

variable {ι κ δ β μ φ Ω Acc : Type} [Fintype ι]

/-! ## Dependence on the step size -/

section
variable {X : Type} [MeasurableSpace X] {L : ℕ}

theorem drift_param {t : X → ℝ} (ht : Measurable t) (m : MassMatrix ι) {y : X → PathSpace ι L} (hy : Measurable y) :
    Measurable fun q => drift (t q) m (y q) := by
  have hm := m.inv.measurable_mul
  have h2 : Measurable fun q => (y q).1.2 := by fun_prop
  have h3 := hm.comp h2
  have h4 : Measurable fun q => m.inv.mul (y q).1.2 := h3
  unfold drift
  fun_prop

theorem kickMap_param (γ : ℝ) {h : X → ℝ} (hh : Measurable h) (m : MassMatrix ι) (w : (ι → ℝ) →ₗ[ℝ] (ι → ℝ))
    {g : (ι → ℝ) → (ι → ℝ)} (hg : Measurable g) (n : Fin L) {y : X → PathSpace ι L} (hy : Measurable y) :
    Measurable fun q => kickMap γ (h q) m w g n (y q) := by
  have hw : Measurable w := (LinearMap.continuous_of_finiteDimensional w).measurable
  have hs := m.sqrt.measurable_mul
  have h1 : Measurable fun q => (y q).1.1 := by fun_prop
  have h2 : Measurable fun q => (y q).1.2 := by fun_prop
  have hg1 : Measurable fun q => g (y q).1.1 := hg.comp h1
  have hj : ∀ j, Measurable fun q => (y q).2 j := fun j => (measurable_pi_apply j).comp (measurable_snd.comp hy)
  have hξ : Measurable fun q => fun i : ι => (y q).2 (n, i) := measurable_pi_lambda _ fun i => hj _
  have hsx : Measurable fun q => m.sqrt.mul fun i : ι => (y q).2 (n, i) := hs.comp hξ
  have hk : Measurable fun q => kick γ (h q) m (y q).1.2 (g (y q).1.1) (fun i => (y q).2 (n, i)) := by
    unfold kick
    have e1 : Measurable fun q => 1 / (1 + h q * γ) := by fun_prop
    have e2 : Measurable fun q => Real.sqrt (4 * γ * h q) := by fun_prop
    exact e1.smul ((((by fun_prop : Measurable fun q => 1 - h q * γ).smul h2).add (hh.neg.smul hg1)).add (e2.smul hsx))
  have hr : Measurable fun q => kickRev γ (h q) (w ((y q).1.2 + kick γ (h q) m (y q).1.2 (g (y q).1.1)
      (fun i => (y q).2 (n, i)))) (fun i => (y q).2 (n, i)) := by
    unfold kickRev
    have e2 : Measurable fun q => -Real.sqrt (h q * γ) := by fun_prop
    exact hξ.add (e2.smul (hw.comp (h2.add hk)))
  refine (h1.prodMk hk).prodMk (measurable_pi_lambda _ fun j => ?_)
  by_cases hjn : j.1 = n
  · simp only [hjn, if_true]
    exact (measurable_pi_apply j.2).comp hr
  · simp only [hjn, if_false]
    exact hj j

theorem leapFlow_param (γ : ℝ) {h : X → ℝ} (hh : Measurable h) (m : MassMatrix ι) (w : (ι → ℝ) →ₗ[ℝ] (ι → ℝ))
    {g : ℕ → (ι → ℝ) → (ι → ℝ)} (hg : ∀ n, Measurable (g n)) {y : X → PathSpace ι L} (hy : Measurable y) (n : ℕ) :
    Measurable fun q => leapFlow γ (h q) m w g n (y q) := by
  induction n with
  | zero => exact hy
  | succ n ih =>
    simp only [leapFlow]
    by_cases hn : n < L
    · simp only [hn, dif_pos]
      by_cases h0 : n = 0
      · simp only [h0, if_true] at ih ⊢
        exact kickMap_param γ hh m w (hg 0) _ ih
      · simp only [h0, if_false]
        exact kickMap_param γ hh m w (hg n) _ (drift_param hh m ih)
    · simp only [hn, dif_neg, not_false_eq_true]
      exact ih

/-- The path map depends measurably on the step size. -/
theorem leapMap_param (γ : ℝ) {h : X → ℝ} (hh : Measurable h) (m : MassMatrix ι) (w : (ι → ℝ) →ₗ[ℝ] (ι → ℝ))
    {g : ℕ → (ι → ℝ) → (ι → ℝ)} (hg : ∀ n, Measurable (g n)) {y : X → PathSpace ι L} (hy : Measurable y) :
    Measurable fun q => leapMap γ (h q) m w g (y q) := by
  have h2 : Measurable fun q => h q / 2 := by fun_prop
  have hd := drift_param h2 m (leapFlow_param γ hh m w hg (drift_param h2 m hy) L)
  exact flipMap_measurePreserving.measurable.comp hd

end

/-! ## The reported acceptance ratio -/

section
variable [Inhabited β]

/-- The acceptance ratio reported by the code as a function of the random numbers. -/
theorem amagold_path_ratio (P : Prng κ) {lay : Layout ι} (hl : Spec.Layout.Injective lay) {γ : ℝ} (hγ : 0 ≤ γ)
    (cm : Option (ι → ℝ)) (hm : Spec.MassOk (Spec.usedMass none cm)) (L : ℕ) (getData : δ → δ × β)
    (sg : StochGrad ι β μ) {G : (ι → ℝ) → β → (ι → ℝ)} (hG : ∀ x b ms, (sg x b ms).2 = G x b)
    (fullPot : FullPotFn ι φ μ) {U : (ι → ℝ) → ℝ} {D : Set (ι → ℝ)}
    (hin : ∀ x f ms, x ∈ D → (fullPot x f ms).1 = .fin (U x)) (hout : ∀ x f ms, x ∉ D → (fullPot x f ms).1 = .pinf)
    {v : (ι → ℝ) →ₗ[ℝ] (ι → ℝ)} (hv : ∀ r, (Spec.usedMass none cm).sqrt.mul (v r) = r)
    (s : AmagoldState ι κ δ μ φ Unit)
    (hs : s.potential = .fin (U s.integratorState.positions)) (prm : Params) (hp : 0 ≤ prm.stepSize) :
    (amagoldUpdate P (none : Option (MassAdaption ι Unit)) (revForAmagold P lay γ cm L getData sg) fullPot s prm).2 =
      .fin (pathAccept (Spec.usedMass none cm) U D
        (leapMap γ prm.stepSize (Spec.usedMass none cm) v
          (fun n q => G q (Spec.batchSeq (fun i : Fin L => Spec.nthBatch getData s.integratorState.dataState i) n)))
        (s.integratorState.positions, s.integratorState.momentum) (drawnNoise P lay s.integratorState.key L)) := by
  set b : Fin L → β := fun i => Spec.nthBatch getData s.integratorState.dataState i with hb
  set x := drawnNoise P lay s.integratorState.key L with hx
  set u := P.uniform (P.split s.key 2 1) with hu
  set P' := Spec.scripted lay (Spec.noiseSeq x) u with hP'
  set m := Spec.usedMass none cm with hmm
  set z := (s.integratorState.positions, s.integratorState.momentum) with hz
  let st : LeapfrogState ι ℝ κ δ μ := ⟨0, s.integratorState.key,
    s.integratorState.positions + (prm.stepSize / 2) • m.inv.mul s.integratorState.momentum,
    s.integratorState.momentum, s.integratorState.dataState, s.integratorState.modelState,
    s.integratorState.drawn⟩
  have e1 := revIntegrate_eq P lay γ cm L getData sg (⟨0, s.integratorState.key,
    s.integratorState.positions, s.integratorState.momentum, s.integratorState.dataState,
    s.integratorState.modelState, s.integratorState.drawn⟩ : LeapfrogState ι ℝ κ δ μ) prm none
  dsimp only at e1
  change _ = ({ revState P lay γ getData sg prm m st L with positions := _ } :
    LeapfrogState ι ℝ κ δ μ) at e1
  let st' : LeapfrogState ι ℝ Spec.SKey ℕ μ :=
    scriptedStart (drift (prm.stepSize / 2) m ((z, x) : PathSpace ι L)) s.integratorState.modelState
  obtain ⟨c1, c2, c3⟩ := revState_congr P P' lay γ getData (Spec.batchSource (Spec.batchSeq b)) sg sg
    prm m st st' hG hG L rfl rfl rfl
    (fun i hi => by
      show _ = Spec.nthBatch _ 0 i
      rw [Spec.batchSource_nth, Spec.batchSeq, dif_pos hi])
    (fun i hi => by
      show _ = Spec.leapNoise P' lay (.main 0) i
      rw [hP', Spec.scripted_leapNoise hl]
      funext k
      simp only [Spec.noiseSeq, hi, dif_pos, hx, drawnNoise]
      rfl)
    L le_rfl
  set S := revState P lay γ getData sg prm m st L with hS
  have p1 : revForAmagold P lay γ cm L getData sg s.integratorState prm none =
      ⟨.fin S.potential, S.key, S.positions + (prm.stepSize / 2) • m.inv.mul S.momentum, S.momentum,
        S.dataState, S.modelState, S.drawn⟩ := by
    unfold revForAmagold; dsimp only; rw [e1]
  have hE := leapMap_energy hl prm (Spec.batchSeq b) sg hG u s.integratorState.modelState hγ hp hm hv U
    ((z, x) : PathSpace ι L)
  have hT := leapMap_eq hl γ prm m v (Spec.batchSeq b) sg hG u s.integratorState.modelState ((z, x) : PathSpace ι L)
  dsimp only at hE hT
  rw [← hP'] at hE hT
  have h2 : (amagoldUpdate P (none : Option (MassAdaption ι Unit)) (revForAmagold P lay γ cm L getData sg) fullPot s prm).2 =
      XF.exp (amagoldLogAlpha s.potential (fullPot (S.positions + (prm.stepSize / 2) • m.inv.mul S.momentum)
        s.fullDataState S.modelState).1 (.fin S.potential)) := by
    have h : (amagoldUpdate P (none : Option (MassAdaption ι Unit)) (revForAmagold P lay γ cm L getData sg) fullPot s prm).2 =
      XF.exp (amagoldLogAlpha s.potential (fullPot (revForAmagold P lay γ cm L getData sg s.integratorState prm none).positions
        s.fullDataState (revForAmagold P lay γ cm L getData sg s.integratorState prm none).modelState).1
        (revForAmagold P lay γ cm L getData sg s.integratorState prm none).potential) := rfl
    rw [h, p1]
  rw [h2, hs]
  unfold pathAccept
  have hpos : (leapMap γ prm.stepSize m v (fun n q => G q (Spec.batchSeq b n)) ((z, x) : PathSpace ι L)).1.1 =
      S.positions + (prm.stepSize / 2) • m.inv.mul S.momentum := by
    rw [hT, c1, c2]
  rw [hE, hpos]
  change S.positions = (revState P' lay γ (Spec.batchSource (Spec.batchSeq b)) sg prm m
    (scriptedStart (drift (prm.stepSize / 2) m ((z, x) : PathSpace ι L)) s.integratorState.modelState) L).positions at c1
  change S.momentum = (revState P' lay γ (Spec.batchSource (Spec.batchSeq b)) sg prm m
    (scriptedStart (drift (prm.stepSize / 2) m ((z, x) : PathSpace ι L)) s.integratorState.modelState) L).momentum at c2
  change S.potential = (revState P' lay γ (Spec.batchSource (Spec.batchSeq b)) sg prm m
    (scriptedStart (drift (prm.stepSize / 2) m ((z, x) : PathSpace ι L)) s.integratorState.modelState) L).potential at c3
  rw [← c1, ← c2, ← c3]
  set Q := S.positions + (prm.stepSize / 2) • m.inv.mul S.momentum with hQ
  by_cases hD : Q ∈ D
  · rw [Set.indicator_of_mem hD, hin _ _ _ hD, amagoldLogAlpha_fin]
    show XF.fin (Real.exp _) = _
    rw [← exp_min_zero]
    congr 3
    show U s.integratorState.positions - U Q + S.potential = _
    ring
  · rw [Set.indicator_of_notMem hD, hout _ _ _ hD]
    unfold amagoldLogAlpha
    simp [XF.sub, XF.add, XF.neg, XF.Lt, XF.exp]

end

/-! ## The step sizes as functions of the ratios -/

/-- Dual averaging uses only the ratios of earlier iterations. -/
theorem dualAverage_congr (ε₀ t₀ κ γ target : ℝ) {r r' : ℕ → ℝ} (n : ℕ) (h : ∀ k < n, r k = r' k) :
    Spec.dualAverage ε₀ t₀ κ γ target r n = Spec.dualAverage ε₀ t₀ κ γ target r' n := by
  induction n with
  | zero => rfl
  | succ n ih =>
    have e : Spec.averageError t₀ target r (n + 1) = Spec.averageError t₀ target r' (n + 1) := by
      unfold Spec.averageError
      congr 1
      exact Finset.sum_congr rfl fun i hi => by rw [h i (Finset.mem_range.1 hi)]
    rw [Spec.dualAverage, Spec.dualAverage, ih fun k hk => h k (by omega), e]

theorem dualAverage_measurable (ε₀ t₀ κ γ target : ℝ) (n : ℕ) :
    Measurable fun r : ℕ → ℝ => Spec.dualAverage ε₀ t₀ κ γ target r n := by
  induction n with
  | zero => exact measurable_const
  | succ n ih =>
    have e : Measurable fun r : ℕ → ℝ => Spec.averageError t₀ target r (n + 1) := by
      unfold Spec.averageError
      exact (Finset.measurable_fun_sum _ fun i _ => (measurable_pi_apply i).const_sub _).div_const _
    simp only [Spec.dualAverage]
    fun_prop

/-- The parameters of dual averaging. -/
structure DualArgs where
  first : ℝ
  stab : ℝ
  decay : ℝ
  speed : ℝ
  target : ℝ
  burnIn : ℕ

/-- The step size of iteration `i`. -/
noncomputable def DualArgs.step (a : DualArgs) (r : ℕ → ℝ) (i : ℕ) : ℝ :=
  Real.exp (Spec.dualAverage a.first a.stab a.decay a.speed a.target r (min i a.burnIn))

theorem DualArgs.step_congr (a : DualArgs) {r r' : ℕ → ℝ} {i : ℕ} (h : ∀ k < min i a.burnIn, r k = r' k) :
    a.step r i = a.step r' i := by
  unfold DualArgs.step
  rw [dualAverage_congr _ _ _ _ _ _ h]

theorem DualArgs.step_measurable (a : DualArgs) (i : ℕ) : Measurable fun r => a.step r i :=
  Real.measurable_exp.comp (dualAverage_measurable _ _ _ _ _ _)

attribute [local irreducible] Spec.amagoldNext leapMap Spec.amagoldExpect

/-! ## The chain of samples and ratios -/

section
variable [Inhabited β] (lay : Layout ι) (γ : ℝ) (cm : Option (ι → ℝ)) (L : ℕ) (sg : StochGrad ι β μ)
  (G : (ι → ℝ) → β → (ι → ℝ)) (v : (ι → ℝ) →ₗ[ℝ] (ι → ℝ))
  (fullPot : FullPotFn ι φ μ) (U : (ι → ℝ) → ℝ) (D : Set (ι → ℝ)) (f₀ : φ) (ms : μ) (a : DualArgs)

/-- Iteration `i` of AMAGOLD with adaptive step size as a function of its random numbers: positions and momenta, and
the acceptance ratios so far. -/
noncomputable def adaptiveDrive (i : ℕ) (e : (Fin L → β) × (Fin L × ι → ℝ) × ℝ)
    (q : ((ι → ℝ) × (ι → ℝ)) × (ℕ → ℝ)) : ((ι → ℝ) × (ι → ℝ)) × (ℕ → ℝ) :=
  (amagoldDrive lay γ cm L sg fullPot U f₀ ms ⟨a.step q.2 i, 1⟩ e q.1,
    Function.update q.2 i (pathAccept (Spec.usedMass none cm) U D
      (leapMap γ (a.step q.2 i) (Spec.usedMass none cm) v (fun n x => G x (Spec.batchSeq e.1 n))) q.1 e.2.1))

variable {lay γ cm L sg G v fullPot U D}

/-- A transition which is measurable for every list of mini-batches. -/
theorem adaptiveDrive_measurable [Countable β] [MeasurableSpace β] [MeasurableSingletonClass β]
    (hl : Spec.Layout.Injective lay) (hγ : 0 ≤ γ) (hm : Spec.MassOk (Spec.usedMass none cm))
    (hG : ∀ x b ms, (sg x b ms).2 = G x b) (hGm : ∀ b, Measurable fun x => G x b) (hU : Measurable U)
    (hD : MeasurableSet D) (hfp : Spec.PotentialOn fullPot U D)
    (hv : ∀ r, (Spec.usedMass none cm).sqrt.mul (v r) = r) (i : ℕ) :
    Measurable fun q : ((Fin L → β) × (Fin L × ι → ℝ) × ℝ) × (((ι → ℝ) × (ι → ℝ)) × (ℕ → ℝ)) =>
      adaptiveDrive lay γ cm L sg G v fullPot U D f₀ ms a i q.1 q.2 := by
  have key : Measurable fun q : (((Fin L × ι → ℝ) × ℝ) × (((ι → ℝ) × (ι → ℝ)) × (ℕ → ℝ))) × (Fin L → β) =>
      adaptiveDrive lay γ cm L sg G v fullPot U D f₀ ms a i (q.2, q.1.1) q.1.2 := by
    refine measurable_from_prod_countable_left fun b => ?_
    let X := ((Fin L × ι → ℝ) × ℝ) × (((ι → ℝ) × (ι → ℝ)) × (ℕ → ℝ))
    have hh : Measurable fun q : X => a.step q.2.2 i := (a.step_measurable i).comp (by fun_prop)
    have h0 : Measurable fun q : X => ((q.2.1, q.1.1) : PathSpace ι L) := by fun_prop
    have h1 := leapMap_param γ hh (Spec.usedMass none cm) v (g := fun n q => G q (Spec.batchSeq b n))
      (fun n => hGm _) h0
    have hE := pathEnergy_measurable (L := L) (Spec.usedMass none cm) hU
    let T : X → PathSpace ι L → PathSpace ι L := fun q =>
      leapMap γ (a.step q.2.2 i) (Spec.usedMass none cm) v (fun n q => G q (Spec.batchSeq b n))
    have h1' : Measurable fun q : X => T q (q.2.1, q.1.1) := h1
    have e : ∀ q : X, adaptiveDrive lay γ cm L sg G v fullPot U D f₀ ms a i (b, q.1) q.2 =
        (if max q.1.2 0 < pathAccept (Spec.usedMass none cm) U D (T q) q.2.1 q.1.1 then
            pathEnd (T q) q.2.1 q.1.1 else (q.2.1.1, -q.2.1.2),
          Function.update q.2.2 i (pathAccept (Spec.usedMass none cm) U D (T q) q.2.1 q.1.1)) := fun q => by
      refine Prod.ext ?_ rfl
      exact amagoldNext_eq hl hγ none cm hm sg hG fullPot hfp f₀ ms ⟨a.step q.2.2 i, 1⟩ (Real.exp_pos _).le hv b
        q.2.1 q.1.1 (max q.1.2 0) (le_max_right _ _)
    have hs : MeasurableSet {q : X | (T q (q.2.1, q.1.1)).1.1 ∈ D} :=
      (measurable_fst.comp (measurable_fst.comp h1')) hD
    have hacc : Measurable fun q : X => pathAccept (Spec.usedMass none cm) U D (T q) q.2.1 q.1.1 :=
      Measurable.indicator (s := {q : X | (T q (q.2.1, q.1.1)).1.1 ∈ D})
        (Spec.acceptProb_measurable.comp ((hE.comp h1').sub (hE.comp h0))) hs
    have hend : Measurable fun q : X => pathEnd (T q) q.2.1 q.1.1 :=
      (measurable_fst.comp (measurable_fst.comp h1')).prodMk (measurable_snd.comp (measurable_fst.comp h1')).neg
    have hu : Measurable fun q : X => max q.1.2 0 := by fun_prop
    have hst : Measurable fun q : X => (q.2.1.1, -q.2.1.2) := by fun_prop
    have hup : Measurable fun q : X => Function.update q.2.2 i
        (pathAccept (Spec.usedMass none cm) U D (T q) q.2.1 q.1.1) := by
      refine measurable_pi_lambda _ fun j => ?_
      by_cases hj : j = i
      · subst hj
        simpa using hacc
      · simp only [Function.update_of_ne hj]
        fun_prop
    show Measurable fun q : X => adaptiveDrive lay γ cm L sg G v fullPot U D f₀ ms a i (b, q.1) q.2
    rw [funext e]
    exact (Measurable.ite (measurableSet_lt hu hacc) hend hst).prodMk hup
  exact key.comp (by fun_prop : Measurable fun q : ((Fin L → β) × (Fin L × ι → ℝ) × ℝ) ×
    (((ι → ℝ) × (ι → ℝ)) × (ℕ → ℝ)) => ((q.1.2, q.2), q.1.1))

/-- After the burn in, the chain is AMAGOLD with a constant step size. -/
theorem adaptivePath_eq [MeasurableSpace β] (acc : Acc → (ι → ℝ) × (ι → ℝ) → Acc) (lam : Measure ((Fin L → β) × (Fin L × ι → ℝ) × ℝ))
    (F : Acc → ENNReal) (n : ℕ) :
    ∀ (k : ℕ) (_ : a.burnIn ≤ k) (c : Acc) (z : (ι → ℝ) × (ι → ℝ)) (r : ℕ → ℝ),
      drivePath (adaptiveDrive lay γ cm L sg G v fullPot U D f₀ ms a) (fun c q => acc c q.1) lam F (List.range' k n)
        (c, (z, r)) =
      drivePath (amagoldDrive lay γ cm L sg fullPot U f₀ ms) acc lam F (List.replicate n ⟨a.step r a.burnIn, 1⟩) (c, z) := by
  induction n with
  | zero => intros; rfl
  | succ n ih =>
    intro k hk c z r
    rw [List.range'_succ, List.replicate_succ, drivePath, drivePath]
    refine lintegral_congr fun e => ?_
    have e0 : adaptiveDrive lay γ cm L sg G v fullPot U D f₀ ms a k e (z, r) =
      (amagoldDrive lay γ cm L sg fullPot U f₀ ms ⟨a.step r k, 1⟩ e z,
        Function.update r k (pathAccept (Spec.usedMass none cm) U D
          (leapMap γ (a.step r k) (Spec.usedMass none cm) v (fun n x => G x (Spec.batchSeq e.1 n))) z e.2.1)) := rfl
    dsimp only
    rw [e0]
    dsimp only
    rw [ih (k + 1) (by omega)]
    have e1 : a.step r k = a.step r a.burnIn := by
      unfold DualArgs.step
      rw [Nat.min_eq_right hk, Nat.min_self]
    rw [e1]
    congr 3
    exact a.step_congr fun j hj => Function.update_of_ne (by omega) _ _

end

/-- A chain which visits given states. -/
theorem drive_states {E S : Type} (next : ℕ → E → S → S) (acc : Acc → S → Acc) (V : ℕ → E) (st : ℕ → S)
    (h : ∀ k, next k (V k) (st k) = st (k + 1)) (len : ℕ) :
    ∀ (n : ℕ) (c : Acc), drive next acc (List.range' n len) n V (c, st n) =
      ((List.range' (n + 1) len).foldl (fun c k => acc c (st k)) c, st (n + len)) := by
  induction len with
  | zero => intros; rfl
  | succ len ih =>
    intro n c
    rw [List.range'_succ, List.range'_succ, drive]
    dsimp only
    rw [h, ih, List.foldl_cons, show n + (len + 1) = n + 1 + len by omega]

/-! ## The code -/

/-- A state of AMAGOLD after `n` updates. -/
structure AmagoldAt (P : Prng κ) (L : ℕ) (data : δ → δ × β) (d₀ : δ) (U : (ι → ℝ) → ℝ) (D : Set (ι → ℝ)) (key : κ) (n : ℕ)
    (s : AmagoldState ι κ δ μ φ Unit) : Prop where
  inside : s.integratorState.positions ∈ D
  potential : s.potential = .fin (U s.integratorState.positions)
  key1 : s.integratorState.key = (fun k => P.split k 2 0)^[1 + n * L] (P.split key 2 0)
  key2 : s.key = (fun k => P.split k 2 0)^[n] (P.split key 2 1)
  state : s.integratorState.dataState = (fun d => (data d).1)^[n * L] d₀

section
variable [Inhabited β] {P : Prng κ} {sp : κ → ℕ → ℕ → κ} (hsp : P.split = sp) {lay : Layout ι}
    (hl : Spec.Layout.Injective lay) {γ : ℝ} (hγ : 0 ≤ γ) {cm : Option (ι → ℝ)}
    (hm : Spec.MassOk (Spec.usedMass none cm)) {L : ℕ} {data : δ → δ × β} {d₀ : δ}
    {sg : StochGrad ι β μ} {G : (ι → ℝ) → β → (ι → ℝ)} (hG : ∀ x b ms, (sg x b ms).2 = G x b)
    {fullPot : FullPotFn ι φ μ} {U : (ι → ℝ) → ℝ} {D : Set (ι → ℝ)}
    (hin : ∀ x f ms, x ∈ D → (fullPot x f ms).1 = .fin (U x)) (hout : ∀ x f ms, x ∉ D → (fullPot x f ms).1 = .pinf)
    {v : (ι → ℝ) →ₗ[ℝ] (ι → ℝ)} (hv : ∀ r, (Spec.usedMass none cm).sqrt.mul (v r) = r)
    (f₀ : φ) (ms : μ) {key : κ} (hu : ∀ n, 0 ≤ runUnif sp key n P)

include hsp hl hγ hm hG hin hout hv hu in
/-- One update of the code with the numbers of a run. -/
theorem amagoldAt_step {n : ℕ} {s : AmagoldState ι κ δ μ φ Unit} (hs : AmagoldAt P L data d₀ U D key n s) (p : Params)
    (hp : 0 ≤ p.stepSize) :
    let r := amagoldUpdate P (none : Option (MassAdaption ι Unit)) (revForAmagold P lay γ cm L data sg) fullPot s p
    let e := runInnov lay sp key d₀ L n P data
    let z := (s.integratorState.positions, s.integratorState.momentum)
    AmagoldAt P L data d₀ U D key (n + 1) r.1 ∧
      amagoldDrive lay γ cm L sg fullPot U f₀ ms p e z = (r.1.integratorState.positions, r.1.integratorState.momentum) ∧
      r.2 = .fin (pathAccept (Spec.usedMass none cm) U D
        (leapMap γ p.stepSize (Spec.usedMass none cm) v (fun n q => G q (Spec.batchSeq e.1 n))) z e.2.1) := by
  intro r e z
  have hfp : Spec.PotentialOn fullPot U D := ⟨hin, fun x f ms h => Or.inl (hout x f ms h)⟩
  obtain ⟨e1, e2, e3⟩ := amagold_code_step P hl γ none cm L data sg hG fullPot hfp s hs.inside hs.potential p f₀ ms
  obtain ⟨k1, k2, k3⟩ := amagold_keys P lay γ cm L data sg fullPot s p
  have h1 : (fun i : Fin L => Spec.nthBatch data s.integratorState.dataState i) = Spec.updateBatches data d₀ L n := by
    funext i
    unfold Spec.updateBatches Spec.nthBatch
    rw [hs.state, ← Function.iterate_add_apply, Nat.add_comm]
  have h2 : P.uniform (P.split s.key 2 1) = runUnif sp key n P := by
    rw [hs.key2]
    subst hsp
    rfl
  have h3 := drawnNoise_run hsp lay key L (1 + n * L)
  rw [← hs.key1] at h3
  refine ⟨⟨e2, e3, ?_, ?_, ?_⟩, ?_, ?_⟩
  · rw [k2, hs.key1, ← Function.iterate_add_apply]
    congr 1
    ring
  · rw [k1, hs.key2, Function.iterate_succ_apply']
  · rw [k3, hs.state, ← Function.iterate_add_apply]
    congr 1
    ring
  · show _ = (((amagoldUpdate P none (revForAmagold P lay γ cm L data sg) fullPot s p).1).integratorState.positions,
          ((amagoldUpdate P none (revForAmagold P lay γ cm L data sg) fullPot s p).1).integratorState.momentum)
    rw [e1]
    unfold amagoldDrive
    show Spec.amagoldNext lay γ none cm L sg fullPot U f₀ ms p (Spec.updateBatches data d₀ L n) z
      (fun j : Fin L × ι => runNoise lay sp key (1 + n * L + j.1) P j.2) (max (runUnif sp key n P) 0) = _
    rw [max_eq_left (hu n), h1, h2, h3]
    rfl
  · have h4 := amagold_path_ratio P hl hγ cm hm L data sg hG fullPot hin hout hv s hs.potential p hp
    rw [h1, h3] at h4
    exact h4

include hsp hl hγ hm hG hin hout hv hu in
/-- The code performs the transitions of the chain of samples and ratios. -/
theorem adaptive_states (a : DualArgs) {s₀ : AmagoldState ι κ δ μ φ Unit} (hs₀ : AmagoldAt P L data d₀ U D key 0 s₀)
    {step ratio : ℕ → ℝ}
    (hratio : ∀ k, (amagoldUpdate P (none : Option (MassAdaption ι Unit)) (revForAmagold P lay γ cm L data sg)
      fullPot (amagoldRun P (none : Option (MassAdaption ι Unit)) (revForAmagold P lay γ cm L data sg) fullPot s₀
        (Spec.paramsUpTo step 1 k)) ⟨step k, 1⟩).2 = .fin (ratio k))
    (hstep : ∀ k, step k = a.step ratio k) :
    let s := fun k => amagoldRun P (none : Option (MassAdaption ι Unit)) (revForAmagold P lay γ cm L data sg) fullPot s₀
        (Spec.paramsUpTo step 1 k)
    let st := fun k => (((s k).integratorState.positions, (s k).integratorState.momentum),
      fun j => if j < k then ratio j else 0)
    ∀ k, adaptiveDrive lay γ cm L sg G v fullPot U D f₀ ms a k (runInnov lay sp key d₀ L k P data) (st k) = st (k + 1) := by
  intro s st
  have hrun : ∀ k, s (k + 1) = (amagoldUpdate P (none : Option (MassAdaption ι Unit)) (revForAmagold P lay γ cm L data sg)
      fullPot (s k) ⟨step k, 1⟩).1 := by
    intro k
    show amagoldRun _ _ _ _ _ (Spec.paramsUpTo step 1 (k + 1)) = _
    rw [paramsUpTo_succ]
    exact List.foldl_append
  have hpos : ∀ k, 0 ≤ step k := fun k => by rw [hstep]; exact (Real.exp_pos _).le
  have hat : ∀ k, AmagoldAt P L data d₀ U D key k (s k) := by
    intro k
    induction k with
    | zero => exact hs₀
    | succ k ih =>
      rw [hrun]
      exact (amagoldAt_step hsp hl hγ hm hG hin hout hv f₀ ms hu ih ⟨step k, 1⟩ (hpos k)).1
  intro k
  obtain ⟨-, b2, b3⟩ := amagoldAt_step hsp hl hγ hm hG hin hout hv f₀ ms hu (hat k) ⟨step k, 1⟩ (hpos k)
  have hk : a.step (st k).2 k = step k := by
    rw [hstep]
    exact a.step_congr fun j hj => if_pos (by omega)
  refine Prod.ext ?_ ?_
  · show amagoldDrive lay γ cm L sg fullPot U f₀ ms ⟨a.step (st k).2 k, 1⟩ _ _ = _
    rw [hk, b2]
    show _ = ((s (k + 1)).integratorState.positions, (s (k + 1)).integratorState.momentum)
    rw [hrun]
  · show Function.update (st k).2 k (pathAccept (Spec.usedMass none cm) U D
      (leapMap γ (a.step (st k).2 k) (Spec.usedMass none cm) v (fun n x => G x (Spec.batchSeq _ n))) _ _) = _
    rw [hk]
    have h5 := (hratio k).symm.trans b3
    rw [XF.fin.injEq] at h5
    dsimp only at h5
    rw [← h5]
    funext j
    by_cases hj : j = k
    · subst hj
      show _ = if j < j + 1 then ratio j else 0
      rw [Function.update_self, if_pos (Nat.lt_succ_self j)]
    · rw [Function.update_of_ne hj]
      show (if j < k then ratio j else 0) = if j < k + 1 then ratio j else 0
      by_cases hjk : j < k
      · rw [if_pos hjk, if_pos (by omega)]
      · rw [if_neg hjk, if_neg (by omega)]

end

/-! ## The result of a run -/

omit [Fintype ι] in
theorem vectorLeaves_map (l : List (OutLeaf ι μ)) (xs : List (ι → ℝ)) (hlen : l.length = xs.length)
    (h : ∀ (j : ℕ) (x : ι → ℝ), xs[j]? = some x → l[j]? = some (.vector x)) : Spec.vectorLeaves l = xs := by
  have e : l = xs.map .vector := by
    refine List.ext_getElem? fun j => ?_
    rw [List.getElem?_map]
    cases hx : xs[j]? with
    | none => 
      rw [List.getElem?_eq_none_iff] at hx
      rw [List.getElem?_eq_none (by omega)]
      rfl
    | some x => rw [h j x hx]; rfl
  rw [e]
  clear e h hlen
  induction xs with
  | nil => rfl
  | cons x xs ih => simp only [List.map_cons, Spec.vectorLeaves, ih]

/-- The samples of the latent variables in a result of AMAGOLD. -/
theorem returnedVariables_eq (s : ℕ → AmagoldState ι κ δ μ φ Unit) {n : ℕ} (hn : 0 < n)
    {r : SaveResult (OutLeaf ι μ)}
    (h : Spec.ReturnedSamples ((List.range n).map fun j => Spec.reportedAmagold (s j)) r) :
    Spec.returnedVariables r = (List.range n).map fun j => (s j).integratorState.positions := by
  have hrow : ∀ j < n, r.samples.map (fun l => l[j]?) = (Spec.reportedAmagold (s j)).map some := fun j hj =>
    h.row j _ (by rw [List.getElem?_map, List.getElem?_range hj]; rfl)
  have hrows := h.rows
  rw [List.length_map, List.length_range] at hrows
  have h0 := hrow 0 hn
  unfold Spec.returnedVariables
  generalize r.samples = t at hrow hrows h0 ⊢
  cases t with
  | leaf l => simp [Spec.reportedAmagold, Spec.sampleDict, Tree.map] at h0
  | none => simp [Spec.reportedAmagold, Spec.sampleDict, Tree.map] at h0
  | node k ts =>
    simp only [Spec.reportedAmagold, Spec.sampleDict, Tree.map, Tree.node.injEq, List.map_cons, List.map_nil] at h0
    obtain ⟨rfl, h1⟩ := h0
    rcases ts with _ | ⟨t1, _ | ⟨t2, _ | ⟨t3, _ | ⟨t4, _ | ⟨t5, _ | ⟨t6, ts⟩⟩⟩⟩⟩⟩ <;>
      simp only [Tree.mapL, List.cons.injEq, and_true, reduceCtorEq, and_false] at h1
    obtain ⟨-, -, -, -, h5⟩ := h1
    cases t5 with
    | none => simp [Tree.map] at h5
    | node => simp [Tree.map] at h5
    | leaf l =>
      have hz : (List.zip ["acceptance_ratio".toList, "energy".toList, "model_state".toList, "step_size".toList,
          "variables".toList] [t1, t2, t3, t4, Tree.leaf l]).lookup "variables".toList = some (Tree.leaf l) := by
        simp [List.lookup]
      show (match (List.zip ["acceptance_ratio".toList, "energy".toList, "model_state".toList, "step_size".toList,
          "variables".toList] [t1, t2, t3, t4, Tree.leaf l]).lookup "variables".toList with
        | some (.leaf l) => Spec.vectorLeaves l
        | _ => []) = _
      rw [hz]
      refine vectorLeaves_map _ _ ?_ fun j x hx => ?_
      · rw [List.length_map, List.length_range]
        refine hrows l ?_
        simp [Tree.leaves, Tree.leavesL]
      · rw [List.getElem?_map] at hx
        by_cases hj : j < n
        · rw [List.getElem?_range hj, Option.map_some, Option.some.injEq] at hx
          have := hrow j hj
          simp only [Spec.reportedAmagold, Spec.sampleDict, Tree.map, Tree.node.injEq, List.map_cons, List.map_nil,
            Tree.mapL, List.cons.injEq, Tree.leaf.injEq] at this
          rw [this.2.2.2.2.2.1, hx]
        · rw [List.getElem?_eq_none (by simpa using hj)] at hx
          simp at hx

/-! ## C133 -/

section
variable [Inhabited β] [Countable β] [MeasurableSpace β] [MeasurableSingletonClass β] {lay : Layout ι}
  (hl : Spec.Layout.Injective lay) {γ : ℝ} (hγ : 0 < γ)
  (cm : Option (ι → ℝ)) (hm : Spec.MassOk (Spec.usedMass none cm)) {L : ℕ} (hL : 2 ≤ L)
  (sg : StochGrad ι β μ) {G : (ι → ℝ) → β → (ι → ℝ)} (hG : ∀ x b ms, (sg x b ms).2 = G x b)
  (hGm : ∀ b, Measurable fun x => G x b) (fullPot : FullPotFn ι φ μ) {U : (ι → ℝ) → ℝ}
  (hU : Measurable U) {D : Set (ι → ℝ)} (hD : MeasurableSet D) (hfp : Spec.PotentialOn fullPot U D)
  (f₀ : φ) (ms : μ) {w : (Fin L → β) → ENNReal} [SFinite (innovLaw ι L w)] (hw : ∀ b, w (fun i => b (Fin.rev i)) = w b)
  (hw1 : ∑' b, w b = 1) (prm : Params) (hh : 0 < prm.stepSize)
  {f : (ι → ℝ) → ℝ} (hf : Measurable f) {C : ℝ} (hC : ∀ q, |f q| ≤ C)

omit [Fintype ι] [Inhabited β] [Countable β] [MeasurableSpace β] [MeasurableSingletonClass β] in
theorem foldl_average (f : (ι → ℝ) → ℝ) (zs : List ((ι → ℝ) × (ι → ℝ))) :
    zs.foldl (fun (a : ℝ) (z : (ι → ℝ) × (ι → ℝ)) => a + f z.1) 0 / zs.length = Spec.average f zs := by
  have h : ∀ (l : List ((ι → ℝ) × (ι → ℝ))) (a : ℝ),
      l.foldl (fun (a : ℝ) (z : (ι → ℝ) × (ι → ℝ)) => a + f z.1) a = a + (l.map fun z => f z.1).sum := by
    intro l
    induction l with
    | nil => intro a; simp
    | cons z l ih => intro a; rw [List.foldl_cons, ih, List.map_cons, List.sum_cons, add_assoc]
  rw [h, zero_add, Spec.average]

omit [Fintype ι] [Inhabited β] [Countable β] [MeasurableSpace β] [MeasurableSingletonClass β] in
theorem average_bound {f : (ι → ℝ) → ℝ} {C : ℝ} (hC : ∀ q, |f q| ≤ C) (zs : List ((ι → ℝ) × (ι → ℝ))) :
    |Spec.average f zs| ≤ C := by
  have hC0 : 0 ≤ C := (abs_nonneg _).trans (hC 0)
  have h1 : |(zs.map fun z : (ι → ℝ) × (ι → ℝ) => f z.1).sum| ≤ zs.length * C := by
    induction zs with
    | nil => simp
    | cons z zs ih =>
      rw [List.map_cons, List.sum_cons, List.length_cons]
      push_cast
      calc _ ≤ |f z.1| + _ := abs_add_le _ _
        _ ≤ C + zs.length * C := add_le_add (hC _) ih
        _ = _ := by ring
  rw [Spec.average, abs_div, Nat.abs_cast]
  exact div_le_of_le_mul₀ (Nat.cast_nonneg _) hC0 (by rw [mul_comm]; exact h1)

include hl hγ hm hG hGm hU hD hfp hh hf in
theorem fixed_path (M : ℝ) (n : ℕ) (z : (ι → ℝ) × (ι → ℝ)) :
    drivePath (amagoldDrive lay γ cm L sg fullPot U f₀ ms) (fun (a : ℝ) (z : (ι → ℝ) × (ι → ℝ)) => a + f z.1)
        (innovLaw ι L w) (fun a => ENNReal.ofReal ((a / n - M) ^ 2)) (List.replicate n prm) (0, z) =
      Spec.amagoldPath lay γ none cm L sg fullPot U f₀ ms w
        (fun zs => ENNReal.ofReal ((Spec.average f zs - M) ^ 2)) (List.replicate n prm) [] z := by
  have hp : ∀ p ∈ List.replicate n prm, 0 ≤ p.stepSize := fun p hq => by
    rw [List.eq_of_mem_replicate hq]; exact hh.le
  have hacc : Measurable fun q : ℝ × ((ι → ℝ) × (ι → ℝ)) => q.1 + f q.2.1 := by fun_prop
  have hF : Measurable fun a : ℝ => ENNReal.ofReal ((a / n - M) ^ 2) := by fun_prop
  have hpath := drivePath_eq (L := L) (acc := fun (a : ℝ) (z : (ι → ℝ) × (ι → ℝ)) => a + f z.1) hl hγ.le
    cm hm sg hG hGm fullPot hU hD hfp f₀ ms w hacc hF 0 _ hp [] z
  rw [List.foldl_nil] at hpath
  rw [hpath]
  have e : ∀ zs : List ((ι → ℝ) × (ι → ℝ)), zs.length = ([] : List ((ι → ℝ) × (ι → ℝ))).length +
      (List.replicate n prm).length →
      zs.foldl (fun (a : ℝ) (z : (ι → ℝ) × (ι → ℝ)) => a + f z.1) 0 / n = Spec.average f zs := by
    intro zs hzs
    have hlen : zs.length = n := by simpa using hzs
    rw [← foldl_average, hlen]
  exact le_antisymm
    (amagoldPath_mono lay γ none cm L sg fullPot U f₀ ms w _ _ _ fun zs hzs => by rw [e zs hzs])
    (amagoldPath_mono lay γ none cm L sg fullPot U f₀ ms w _ _ _ fun zs hzs => by rw [e zs hzs])

include hl hγ hm hG hGm hU hD hfp hh hf hC hw1 in
theorem fixed_bound (M : ℝ) (n : ℕ) (z : (ι → ℝ) × (ι → ℝ)) :
    drivePath (amagoldDrive lay γ cm L sg fullPot U f₀ ms) (fun (a : ℝ) (z : (ι → ℝ) × (ι → ℝ)) => a + f z.1)
        (innovLaw ι L w) (fun a => ENNReal.ofReal ((a / n - M) ^ 2)) (List.replicate n prm) (0, z) ≤
      ENNReal.ofReal ((C + |M|) ^ 2) := by
  rw [fixed_path hl hγ cm hm sg hG hGm fullPot hU hD hfp f₀ ms prm hh hf]
  refine (amagoldPath_mono lay γ none cm L sg fullPot U f₀ ms w _ _ _
    (F' := fun _ => ENNReal.ofReal ((C + |M|) ^ 2)) fun zs _ => ENNReal.ofReal_le_ofReal ?_).trans
    (amagoldPath_const lay γ none cm L sg fullPot U f₀ ms w hw1 _ _ _ _).le
  rw [← sq_abs (Spec.average f zs - M)]
  exact pow_le_pow_left₀ (abs_nonneg _) ((abs_sub _ _).trans (add_le_add (average_bound hC zs) le_rfl)) 2

include hl hγ hm hL hG hGm hU hD hfp hh hf hC hw hw1 in
theorem fixed_tendsto (hZ0 : Spec.posterior U D Set.univ ≠ 0) (hZ : Spec.posterior U D Set.univ ≠ ⊤)
    (z : (ι → ℝ) × (ι → ℝ)) :
    Tendsto (fun n : ℕ => drivePath (amagoldDrive lay γ cm L sg fullPot U f₀ ms)
        (fun (a : ℝ) (z : (ι → ℝ) × (ι → ℝ)) => a + f z.1) (innovLaw ι L w)
        (fun a => ENNReal.ofReal ((a / n - Spec.posteriorMean U D f) ^ 2)) (List.replicate n prm) (0, z))
      atTop (𝓝 0) := by
  simp only [fixed_path hl hγ cm hm sg hG hGm fullPot hU hD hfp f₀ ms prm hh hf]
  exact c130_mean_square hl hγ none cm hm hL sg hG hGm fullPot hU hD hfp f₀ ms w hw hw1 prm hh hZ0 hZ hf hC _

end

section
variable [Inhabited β] [Countable β] [MeasurableSpace β] [MeasurableSingletonClass β] [MeasurableSpace Ω]
  {prob : Measure Ω} [IsProbabilityMeasure prob]
  {P : Ω → Prng κ} {data : Ω → δ → δ × β} {d₀ : δ} {L : ℕ} {w : (Fin L → β) → ENNReal} {sp : κ → ℕ → ℕ → κ}
  (hR : Spec.IdealRandom prob P data d₀ L w sp) {lay : Layout ι} (hlay : Spec.Layout.Valid lay) (key : κ)
  {γ : ℝ} (hγ : 0 < γ) (cm : Option (ι → ℝ)) (hm : Spec.MassOk (Spec.usedMass none cm))
  (sg : StochGrad ι β μ) {G : (ι → ℝ) → β → (ι → ℝ)} (hG : ∀ x b ms, (sg x b ms).2 = G x b)
  (hGm : ∀ b, Measurable fun x => G x b) (fullPot : FullPotFn ι φ μ) {U : (ι → ℝ) → ℝ}
  (hU : Measurable U) {D : Set (ι → ℝ)} (hD : MeasurableSet D)
  (hin : ∀ x f ms, x ∈ D → (fullPot x f ms).1 = .fin (U x)) (hout : ∀ x f ms, x ∉ D → (fullPot x f ms).1 = .pinf)
  (ms : μ) {first stab : ℝ} (hfirst : 0 < first) (hstab : 0 ≤ stab) (decay speed target : ℝ) (burnIn : ℕ) (bar : Bool)
  (zero : OutLeaf ι μ → OutLeaf ι μ) {chains : List ((ι → ℝ) × δ × φ)} (hstart : ∀ c ∈ chains, c.1 ∈ D)
  {j : ℕ} {x₀ : ι → ℝ} {f₀ : φ} (hj : chains[j]? = some (x₀, d₀, f₀))
  {rs : ℕ → Ω → List (SaveResult (OutLeaf ι μ))}
  (hrs : ∀ n ω, runAmagoldAdaptive (noSave zero) (P ω) key lay γ cm L (data ω) sg fullPot ms first stab decay speed
    target burnIn none bar (burnIn + n) () chains = .ok ((), rs n ω))

/-- The state at the end of the burn in. -/
noncomputable def burnedIn (lay : Layout ι) (γ : ℝ) (cm : Option (ι → ℝ)) (sg : StochGrad ι β μ)
    (G : (ι → ℝ) → β → (ι → ℝ)) (v : (ι → ℝ) →ₗ[ℝ] (ι → ℝ)) (fullPot : FullPotFn ι φ μ) (U : (ι → ℝ) → ℝ)
    (D : Set (ι → ℝ)) (f₀ : φ) (ms : μ) (a : DualArgs) (x₀ : ι → ℝ) (sp : κ → ℕ → ℕ → κ) (key : κ) (d₀ : δ) (L : ℕ)
    (P : Prng κ) (data : δ → δ × β) : ((ι → ℝ) × (ι → ℝ)) × (ℕ → ℝ) :=
  (drive (adaptiveDrive lay γ cm L sg G v fullPot U D f₀ ms a) (fun (_ : Unit) _ => ()) (List.range' 0 a.burnIn) 0
    (fun m => runInnov lay sp key d₀ L m P data)
    ((), ((x₀, (Spec.usedMass none cm).sqrt.mul (runNoise lay sp key 0 P)), fun _ => 0))).2

include hR hlay hγ hm hG hin hout hfirst hstab hstart hj hrs in
omit [Countable β] [MeasurableSingletonClass β] [IsProbabilityMeasure prob] in
/-- The mean over the samples of a run in terms of its random numbers. -/
theorem adaptive_mean {v : (ι → ℝ) →ₗ[ℝ] (ι → ℝ)} (hv : ∀ r, (Spec.usedMass none cm).sqrt.mul (v r) = r)
    (f : (ι → ℝ) → ℝ) {n : ℕ} (hn : 0 < n) :
    ∀ᵐ ω ∂prob, Spec.meanOver f (Spec.chainVariables (rs n ω) j) =
      (drive (adaptiveDrive lay γ cm L sg G v fullPot U D f₀ ms ⟨first, stab, decay, speed, target, burnIn⟩)
        (fun (c : ℝ) (q : ((ι → ℝ) × (ι → ℝ)) × (ℕ → ℝ)) => c + f q.1.1) (List.range' burnIn n) burnIn
        (fun m => runInnov lay sp key d₀ L m (P ω) (data ω))
        (0, burnedIn lay γ cm sg G v fullPot U D f₀ ms ⟨first, stab, decay, speed, target, burnIn⟩ x₀ sp key d₀ L
          (P ω) (data ω))).1 / n := by
  filter_upwards [runUnif_nonneg hR key] with ω hω
  have hsp := hR.split_eq ω
  obtain ⟨rs', h1, -, h3⟩ := c95_amagold zero (P ω) key lay γ cm L (data ω) sg fullPot
    (fun x f m => by
      by_cases hx : x ∈ D
      · exact Or.inr ⟨_, hin x f m hx⟩
      · exact Or.inl (hout x f m hx)) ms first stab decay speed target burnIn bar (burnIn + n) hfirst hstab
    (Nat.le_add_right _ _) chains (fun c hc => ⟨_, hin _ _ _ (hstart c hc)⟩)
  have e := h1.symm.trans (hrs n ω)
  simp only [Except.ok.injEq, Prod.mk.injEq, true_and] at e
  subst e
  obtain ⟨hlen, h4⟩ := List.forall₂_iff_get.1 h3
  obtain ⟨hj1, hj2⟩ := List.getElem?_eq_some_iff.1 hj
  have hj3 : j < (rs n ω).length := hlen ▸ hj1
  obtain ⟨step, ratio, a1, a2, a3, a4⟩ := h4 j hj1 hj3
  have hc : chains.get ⟨j, hj1⟩ = (x₀, d₀, f₀) := hj2
  rw [hc] at a2 a4
  dsimp only at a2 a4
  set s₀ : AmagoldState ι κ δ μ φ Unit :=
    amagoldInit (P ω) none (revInitForAmagold (P ω) lay cm d₀) fullPot f₀ x₀ key ms with hs₀
  set a : DualArgs := ⟨first, stab, decay, speed, target, burnIn⟩ with ha
  have hx₀ : x₀ ∈ D := hstart _ (List.mem_of_getElem? hj)
  have hat : AmagoldAt (P ω) L (data ω) d₀ U D key 0 s₀ :=
    ⟨hx₀, hin _ _ _ hx₀, by rw [Nat.zero_mul]; rfl, rfl, by rw [Nat.zero_mul]; rfl⟩
  have hstep : ∀ k, step k = a.step ratio k := by
    intro k
    show step k = Real.exp (Spec.dualAverage first stab decay speed target ratio (min k burnIn))
    rcases le_total k burnIn with hk | hk
    · rw [Nat.min_eq_left hk]; exact a3 k hk
    · rw [Nat.min_eq_right hk, a1.frozen k hk]; exact a3 burnIn le_rfl
  have hst := adaptive_states hsp hlay.injective hγ.le hm hG hin hout hv f₀ ms hω a hat a2 hstep
  dsimp only at hst
  set s := fun k => amagoldRun (P ω) (none : Option (MassAdaption ι Unit)) (revForAmagold (P ω) lay γ cm L (data ω) sg)
    fullPot s₀ (Spec.paramsUpTo step 1 k) with hs
  let st : ℕ → ((ι → ℝ) × (ι → ℝ)) × (ℕ → ℝ) := fun k =>
    (((s k).integratorState.positions, (s k).integratorState.momentum), fun j => if j < k then ratio j else 0)
  have hst' : ∀ k, adaptiveDrive lay γ cm L sg G v fullPot U D f₀ ms a k (runInnov lay sp key d₀ L k (P ω) (data ω)) (st k) =
      st (k + 1) := hst
  have hmom : s₀.integratorState.momentum = (Spec.usedMass none cm).sqrt.mul (runNoise lay sp key 0 (P ω)) := by
    show (resolveMass none cm).sqrt.mul _ = _
    rw [resolveMass_eq]
    congr 1
    rw [← hsp]
    rfl
  have h0 : st 0 = ((x₀, (Spec.usedMass none cm).sqrt.mul (runNoise lay sp key 0 (P ω))), fun _ => 0) := by
    rw [← hmom]
    refine Prod.ext rfl ?_
    funext i
    show (if i < 0 then ratio i else 0) = 0
    exact if_neg (Nat.not_lt_zero i)
  have hB : burnedIn lay γ cm sg G v fullPot U D f₀ ms a x₀ sp key d₀ L (P ω) (data ω) = st burnIn := by
    unfold burnedIn
    rw [← h0, drive_states _ _ _ st hst']
    show st (0 + burnIn) = _
    rw [Nat.zero_add]
  rw [hB, drive_states _ _ _ st hst']
  have hcv : Spec.chainVariables (rs n ω) j =
      (List.range n).map fun i => (s (burnIn + i + 1)).integratorState.positions := by
    unfold Spec.chainVariables
    rw [List.getElem?_eq_getElem hj3]
    rw [Nat.add_sub_cancel_left] at a4
    exact returnedVariables_eq (fun i => s (burnIn + i + 1)) hn a4
  rw [hcv]
  unfold Spec.meanOver
  rw [List.length_map, List.length_range, List.map_map, List.range'_eq_map_range, List.foldl_map]
  congr 1
  have hsum : ∀ (l : List ℕ) (c : ℝ), l.foldl (fun (c : ℝ) (i : ℕ) => c + f (st (burnIn + 1 + i)).1.1) c =
      c + (l.map fun i => f (st (burnIn + 1 + i)).1.1).sum := by
    intro l
    induction l with
    | nil => intro c; simp
    | cons z l ih => intro c; rw [List.foldl_cons, ih, List.map_cons, List.sum_cons, add_assoc]
  rw [hsum, zero_add]
  congr 1
  refine List.map_congr_left fun i _ => ?_
  show f (s (burnIn + i + 1)).integratorState.positions = f (s (burnIn + 1 + i)).integratorState.positions
  rw [show burnIn + i + 1 = burnIn + 1 + i by omega]

include hR hlay hγ hm hG hGm hU hD hin hout hfirst hstab hstart hj hrs in
/-- **C133.** With ideal random numbers, `alias.amagold` with `adaptive_step_size=True` samples the posterior: as the
number of samples after a fixed burn in grows, the mean of every bounded function over the returned samples of a chain
converges in mean square to its posterior mean.  The step size used after the burn in is random; the potential is
`U` on `D` and `+inf` outside. -/
theorem c133_mean_square (hL : 2 ≤ L) (hw : ∀ b, w (fun i => b (Fin.rev i)) = w b) (hw1 : ∑' b, w b = 1)
    (hZ0 : Spec.posterior U D Set.univ ≠ 0) (hZ : Spec.posterior U D Set.univ ≠ ⊤)
    {f : (ι → ℝ) → ℝ} (hf : Measurable f) {C : ℝ} (hC : ∀ q, |f q| ≤ C) :
    Tendsto (fun n => ∫⁻ ω, ENNReal.ofReal ((Spec.meanOver f (Spec.chainVariables (rs n ω) j) -
      Spec.posteriorMean U D f) ^ 2) ∂prob) atTop (𝓝 0) := by
  obtain ⟨v, hv⟩ := exists_sqrt_inverse hm
  set M := Spec.posteriorMean U D f with hM
  set a : DualArgs := ⟨first, stab, decay, speed, target, burnIn⟩ with ha
  have hfp : Spec.PotentialOn fullPot U D := ⟨hin, fun x f ms h => Or.inl (hout x f ms h)⟩
  have hpr := innovLaw_prob hR hlay key
  have hnext := adaptiveDrive_measurable (v := v) (L := L) f₀ ms a hlay.injective hγ.le hm hG hGm hU hD hfp hv
  have hsq := tensor_mul_measurable (Spec.usedMass none cm).sqrt
  have h0 : Measurable[known P data d₀ L (pastKeys lay sp key L 0)] fun ω => runNoise lay sp key 0 (P ω) :=
    runNoise_measurable hlay (T := Set.Iio (1 + 0 * L)) (by simp) Set.subset_union_left
  have hH0 : Measurable[known P data d₀ L (pastKeys lay sp key L 0)] fun ω =>
      (((), ((x₀, (Spec.usedMass none cm).sqrt.mul (runNoise lay sp key 0 (P ω))), fun _ => 0)) :
        Unit × (((ι → ℝ) × (ι → ℝ)) × (ℕ → ℝ))) :=
    (by fun_prop : Measurable fun p : ι → ℝ => (((), ((x₀, p), fun _ => 0)) :
      Unit × (((ι → ℝ) × (ι → ℝ)) × (ℕ → ℝ)))).comp (hsq.comp h0)
  let B : Ω → ((ι → ℝ) × (ι → ℝ)) × (ℕ → ℝ) := fun ω =>
    burnedIn lay γ cm sg G v fullPot U D f₀ ms a x₀ sp key d₀ L (P ω) (data ω)
  have hB : Measurable[known P data d₀ L (pastKeys lay sp key L burnIn)] B := by
    have := measurable_snd.comp (drive_known (next := adaptiveDrive lay γ cm L sg G v fullPot U D f₀ ms a)
      (acc := fun (_ : Unit) (_ : ((ι → ℝ) × (ι → ℝ)) × (ℕ → ℝ)) => ()) hlay key measurable_const
      (List.range' 0 a.burnIn) (fun i _ => hnext i) 0 _ hH0)
    rw [Nat.zero_add, List.length_range'] at this
    exact this
  have hH : Measurable[known P data d₀ L (pastKeys lay sp key L burnIn)] fun ω => ((0, B ω) :
      ℝ × (((ι → ℝ) × (ι → ℝ)) × (ℕ → ℝ))) :=
    (by fun_prop : Measurable fun q : ((ι → ℝ) × (ι → ℝ)) × (ℕ → ℝ) =>
      ((0, q) : ℝ × (((ι → ℝ) × (ι → ℝ)) × (ℕ → ℝ)))).comp hB
  have hacc : Measurable fun q : ℝ × (((ι → ℝ) × (ι → ℝ)) × (ℕ → ℝ)) => q.1 + f q.2.1.1 := by fun_prop
  have hF : ∀ n : ℕ, Measurable fun a : ℝ => ENNReal.ofReal ((a / n - M) ^ 2) := fun n => by fun_prop
  let A : ℕ → Ω → ENNReal := fun n ω => drivePath (amagoldDrive lay γ cm L sg fullPot U f₀ ms)
    (fun (c : ℝ) (z : (ι → ℝ) × (ι → ℝ)) => c + f z.1) (innovLaw ι L w) (fun c => ENNReal.ofReal ((c / n - M) ^ 2))
    (List.replicate n ⟨a.step (B ω).2 a.burnIn, 1⟩) (0, (B ω).1)
  have hA : ∀ n ω, A n ω = drivePath (adaptiveDrive lay γ cm L sg G v fullPot U D f₀ ms a)
      (fun (c : ℝ) (q : ((ι → ℝ) × (ι → ℝ)) × (ℕ → ℝ)) => c + f q.1.1) (innovLaw ι L w)
      (fun c => ENNReal.ofReal ((c / n - M) ^ 2)) (List.range' burnIn n) (0, B ω) := fun n ω =>
    (adaptivePath_eq f₀ ms a (fun (c : ℝ) (z : (ι → ℝ) × (ι → ℝ)) => c + f z.1) (innovLaw ι L w) _ n burnIn le_rfl 0
      (B ω).1 (B ω).2).symm
  have hlaw : ∀ n, 0 < n → ∫⁻ ω, ENNReal.ofReal ((Spec.meanOver f (Spec.chainVariables (rs n ω) j) - M) ^ 2) ∂prob =
      ∫⁻ ω, A n ω ∂prob := by
    intro n hn
    have hd := drive_law (next := adaptiveDrive lay γ cm L sg G v fullPot U D f₀ ms a)
      (acc := fun (c : ℝ) (q : ((ι → ℝ) × (ι → ℝ)) × (ℕ → ℝ)) => c + f q.1.1) hR hlay key hacc (hF n)
      (List.range' burnIn n) (fun i _ => hnext i) burnIn _ hH
    simp only [hA]
    rw [← hd]
    refine lintegral_congr_ae ?_
    filter_upwards [adaptive_mean hR hlay key hγ cm hm sg hG fullPot hin hout ms hfirst hstab decay speed target burnIn
      bar zero hstart hj hrs hv f hn] with ω hω
    rw [hω]
  have hmeas : ∀ n, Measurable (A n) := by
    intro n
    rw [show A n = _ from funext (hA n)]
    exact (drivePath_measurable (acc := fun (c : ℝ) (q : ((ι → ℝ) × (ι → ℝ)) × (ℕ → ℝ)) => c + f q.1.1) hacc (hF n) _
      (fun i _ => hnext i)).comp (hH.mono (known_le hR _) le_rfl)
  have key := tendsto_lintegral_of_dominated_convergence (μ := prob) (F := A) (f := fun _ => 0)
    (fun _ => ENNReal.ofReal ((C + |M|) ^ 2)) hmeas (fun n => Eventually.of_forall fun ω =>
      fixed_bound hlay.injective hγ cm hm sg hG hGm fullPot hU hD hfp f₀ ms hw1 _ (Real.exp_pos _) hf hC M n _)
    (by rw [lintegral_const, measure_univ, mul_one]; exact ENNReal.ofReal_ne_top)
    (Eventually.of_forall fun ω =>
      fixed_tendsto hlay.injective hγ cm hm hL sg hG hGm fullPot hU hD hfp f₀ ms hw hw1 _ (Real.exp_pos _) hf hC hZ0 hZ _)
  rw [lintegral_zero] at key
  refine key.congr' ?_
  filter_upwards [eventually_gt_atTop 0] with n hn
  exact (hlaw n hn).symm

include hR hlay hγ hm hG hGm hU hD hin hout hfirst hstab hstart hj hrs in
/-- The mean over the returned samples is a random variable. -/
theorem adaptive_mean_aemeasurable {f : (ι → ℝ) → ℝ} (hf : Measurable f) {n : ℕ} (hn : 0 < n) :
    AEMeasurable (fun ω => Spec.meanOver f (Spec.chainVariables (rs n ω) j)) prob := by
  obtain ⟨v, hv⟩ := exists_sqrt_inverse hm
  set a : DualArgs := ⟨first, stab, decay, speed, target, burnIn⟩ with ha
  have hfp : Spec.PotentialOn fullPot U D := ⟨hin, fun x f ms h => Or.inl (hout x f ms h)⟩
  have hnext := adaptiveDrive_measurable (v := v) (L := L) f₀ ms a hlay.injective hγ.le hm hG hGm hU hD hfp hv
  have h0 : Measurable fun ω => runNoise lay sp key 0 (P ω) :=
    (runNoise_measurable (data := data) (d₀ := d₀) (L := L) hlay (Set.mem_univ 0) subset_rfl).mono (known_le hR _) le_rfl
  have hH0 : Measurable fun ω =>
      (((), ((x₀, (Spec.usedMass none cm).sqrt.mul (runNoise lay sp key 0 (P ω))), fun _ => 0)) :
        Unit × (((ι → ℝ) × (ι → ℝ)) × (ℕ → ℝ))) :=
    (by fun_prop : Measurable fun p : ι → ℝ => (((), ((x₀, p), fun _ => 0)) :
      Unit × (((ι → ℝ) × (ι → ℝ)) × (ℕ → ℝ)))).comp ((tensor_mul_measurable (Spec.usedMass none cm).sqrt).comp h0)
  have hB : Measurable fun ω => burnedIn lay γ cm sg G v fullPot U D f₀ ms a x₀ sp key d₀ L (P ω) (data ω) :=
    measurable_snd.comp (drive_measurable (next := adaptiveDrive lay γ cm L sg G v fullPot U D f₀ ms a)
      (acc := fun (_ : Unit) (_ : ((ι → ℝ) × (ι → ℝ)) × (ℕ → ℝ)) => ()) hR hlay key measurable_const
      (List.range' 0 a.burnIn) (fun i _ => hnext i) 0 _ hH0)
  have hH : Measurable fun ω => ((0, burnedIn lay γ cm sg G v fullPot U D f₀ ms a x₀ sp key d₀ L (P ω) (data ω)) :
      ℝ × (((ι → ℝ) × (ι → ℝ)) × (ℕ → ℝ))) :=
    (by fun_prop : Measurable fun q : ((ι → ℝ) × (ι → ℝ)) × (ℕ → ℝ) =>
      ((0, q) : ℝ × (((ι → ℝ) × (ι → ℝ)) × (ℕ → ℝ)))).comp hB
  have hacc : Measurable fun q : ℝ × (((ι → ℝ) × (ι → ℝ)) × (ℕ → ℝ)) => q.1 + f q.2.1.1 := by fun_prop
  have hdm := measurable_fst.comp (drive_measurable (next := adaptiveDrive lay γ cm L sg G v fullPot U D f₀ ms a)
    (acc := fun (c : ℝ) (q : ((ι → ℝ) × (ι → ℝ)) × (ℕ → ℝ)) => c + f q.1.1) hR hlay key hacc
    (List.range' burnIn n) (fun i _ => hnext i) burnIn _ hH)
  exact ⟨_, hdm.div_const (n : ℝ), adaptive_mean hR hlay key hγ cm hm sg hG fullPot hin hout ms hfirst hstab decay speed
    target burnIn bar zero hstart hj hrs hv f hn⟩

include hR hlay hγ hm hG hGm hU hD hin hout hfirst hstab hstart hj hrs in
/-- **C133.** The probability that the mean over the returned samples of a chain differs from the posterior mean by
`ε` or more converges to zero as the number of samples grows. -/
theorem c133_probability (hL : 2 ≤ L) (hw : ∀ b, w (fun i => b (Fin.rev i)) = w b) (hw1 : ∑' b, w b = 1)
    (hZ0 : Spec.posterior U D Set.univ ≠ 0) (hZ : Spec.posterior U D Set.univ ≠ ⊤)
    {f : (ι → ℝ) → ℝ} (hf : Measurable f) {C : ℝ} (hC : ∀ q, |f q| ≤ C) {ε : ℝ} (hε : 0 < ε) :
    Tendsto (fun n => prob {ω | ε ≤ |Spec.meanOver f (Spec.chainVariables (rs n ω) j) - Spec.posteriorMean U D f|})
      atTop (𝓝 0) := by
  have h1 := c133_mean_square hR hlay key hγ cm hm sg hG hGm fullPot hU hD hin hout ms hfirst hstab decay speed target
    burnIn bar zero hstart hj hrs hL hw hw1 hZ0 hZ hf hC
  set M := Spec.posteriorMean U D f with hM
  have hε2 : ENNReal.ofReal (ε ^ 2) ≠ 0 := by
    rw [Ne, ENNReal.ofReal_eq_zero, not_le]; positivity
  have h2 := ENNReal.Tendsto.div_const h1 (Or.inr hε2)
  rw [ENNReal.zero_div] at h2
  refine tendsto_of_tendsto_of_tendsto_of_le_of_le' tendsto_const_nhds h2 (Eventually.of_forall fun n => bot_le) ?_
  filter_upwards [eventually_gt_atTop 0] with n hn
  have hX : AEMeasurable (fun ω => ENNReal.ofReal ((Spec.meanOver f (Spec.chainVariables (rs n ω) j) - M) ^ 2)) prob :=
    (((adaptive_mean_aemeasurable hR hlay key hγ cm hm sg hG hGm fullPot hU hD hin hout ms hfirst hstab decay speed target
      burnIn bar zero hstart hj hrs hf hn).sub_const M).pow_const 2).ennreal_ofReal
  refine le_trans (measure_mono fun ω hω => ?_) (meas_ge_le_lintegral_div hX hε2 ENNReal.ofReal_ne_top)
  refine ENNReal.ofReal_le_ofReal ?_
  rw [← sq_abs (_ - M)]
  exact pow_le_pow_left₀ hε.le hω 2

end

open Classical in
/-- The potential of the exponential distribution truncated to the unit interval; `+inf` outside. -/
noncomputable def boxPot : FullPotFn (Fin 1) Unit Unit := fun x _ _ =>
  (if x ∈ Set.Icc (0 : Fin 1 → ℝ) 1 then .fin (x 0) else .pinf, ((), ()))

/-- The hypotheses can be met: with ideal random numbers and mini-batches drawn from two possible ones, for the
exponential distribution truncated to the unit interval, `alias.amagold` with adaptive step size returns a result for
every number of iterations, and the means over the samples of its second chain converge in probability. -/
example (ε : ℝ) (hε : 0 < ε) :
    ∃ rs : ℕ → IdealSpace.Space 2 Bool → List (SaveResult (OutLeaf (Fin 1) Unit)),
      (∀ n ω, runAmagoldAdaptive (noSave id) (IdealSpace.gen ω) [] (Spec.vectorLayout 1) 1 (some fun _ => 4) 2
        (IdealSpace.batches ω) halfGrad boxPot () 1 10 0.75 0.05 0.8 100 none false (100 + n) ()
        [(fun _ => 1, 0, ()), (0, 0, ())] = .ok ((), rs n ω)) ∧
      Tendsto (fun n => IdealSpace.law (PMF.uniformOfFintype (Fin 2 → Bool)) {ω | ε ≤
        |Spec.meanOver (fun q : Fin 1 → ℝ => max 0 (min 1 (q 0))) (Spec.chainVariables (rs n ω) 1) -
          Spec.posteriorMean (fun x : Fin 1 → ℝ => x 0) (Set.Icc 0 1) (fun q : Fin 1 → ℝ => max 0 (min 1 (q 0)))|})
        atTop (𝓝 0) := by
  have hm : Spec.MassOk (Spec.usedMass none (some fun _ : Fin 1 => (4 : ℝ))) := massOk_const fun _ => by norm_num
  have hU : Measurable fun x : Fin 1 → ℝ => x 0 := measurable_pi_apply 0
  have hf : Measurable fun q : Fin 1 → ℝ => max 0 (min 1 (q 0)) := by fun_prop
  have hv : Spec.Layout.Valid (Spec.vectorLayout 1) :=
    ⟨Spec.vectorLayout_injective 1, fun _ => Nat.one_pos, fun i => i.2⟩
  have hpr : IsProbabilityMeasure (IdealSpace.law (PMF.uniformOfFintype (Fin 2 → Bool))) := by
    unfold IdealSpace.law; infer_instance
  have hin : ∀ (x : Fin 1 → ℝ) (f ms : Unit), x ∈ Set.Icc (0 : Fin 1 → ℝ) 1 → (boxPot x f ms).1 = .fin (x 0) :=
    fun x f ms h => if_pos h
  have hout : ∀ (x : Fin 1 → ℝ) (f ms : Unit), x ∉ Set.Icc (0 : Fin 1 → ℝ) 1 → (boxPot x f ms).1 = .pinf :=
    fun x f ms h => if_neg h
  have hstart : ∀ c ∈ [((fun _ => 1 : Fin 1 → ℝ), (0 : ℕ), ()), ((0 : Fin 1 → ℝ), (0 : ℕ), ())],
      c.1 ∈ Set.Icc (0 : Fin 1 → ℝ) 1 := by
    intro c hc
    simp only [List.mem_cons, List.not_mem_nil, or_false] at hc
    rcases hc with rfl | rfl
    · exact ⟨fun _ => zero_le_one, fun _ => le_refl _⟩
    · exact ⟨le_refl _, fun _ => zero_le_one⟩
  have hex : ∀ n (ω : IdealSpace.Space 2 Bool), ∃ rs, runAmagoldAdaptive (noSave id) (IdealSpace.gen ω) []
      (Spec.vectorLayout 1) 1 (some fun _ => 4) 2
      (IdealSpace.batches ω) halfGrad boxPot () 1 10 0.75 0.05 0.8 100 none false (100 + n) ()
      [(fun _ => 1, 0, ()), (0, 0, ())] = .ok ((), rs) := by
    intro n ω
    obtain ⟨rs, h, -⟩ := c95_amagold id (IdealSpace.gen ω) [] (Spec.vectorLayout 1) 1 (some fun _ => 4) 2
      (IdealSpace.batches ω) halfGrad boxPot (fun x f m => by
        by_cases hx : x ∈ Set.Icc (0 : Fin 1 → ℝ) 1
        · exact Or.inr ⟨_, hin x f m hx⟩
        · exact Or.inl (hout x f m hx)) () 1 10 0.75 0.05 0.8 100 false (100 + n) one_pos (by norm_num)
      (Nat.le_add_right _ _) _ (fun c hc => ⟨_, hin _ _ _ (hstart c hc)⟩)
    exact ⟨rs, h⟩
  choose rs hrs using hex
  refine ⟨rs, hrs, ?_⟩
  refine c133_probability (IdealSpace.ideal _) hv [] one_pos (some fun _ => 4) hm halfGrad
    (G := fun _ b _ => if b then 1 else 0)
    (fun _ _ _ => rfl) (fun _ => measurable_const) boxPot hU measurableSet_Icc hin hout () one_pos (by norm_num)
    0.75 0.05 0.8 100 false id hstart (j := 1) rfl hrs le_rfl (fun b => by simp) (PMF.tsum_coe _)
    trunc_proper.1 trunc_proper.2 hf (C := 1) (fun q => ?_) hε
  rw [abs_of_nonneg (le_max_left _ _)]
  exact max_le zero_le_one (min_le_left _ _)

end JaxSgmc
