import Verif.Props.Invariance
import Verif.Props.Adaption
import Verif.Props.Statistics
import Verif.Props.Momentum

/-!
# C127: AMAGOLD with mass adaption samples the posterior; C128: constrained posteriors
-/

namespace JaxSgmc

open MeasureTheory

variable {ι κ δ β μ φ Ms : Type} [Fintype ι]

/-- Positions distributed by the posterior and independent momenta have the target distribution. -/
theorem posterior_momentum_lintegral {m : MassMatrix ι} {U : (ι → ℝ) → ℝ} (hU : Measurable U)
    {D : Set (ι → ℝ)} (hD : MeasurableSet D) (c : ENNReal) (hc : c ≠ ⊤)
    (H : (ι → ℝ) × (ι → ℝ) → ENNReal) (hH : Measurable H) :
    ∫⁻ q, ∫⁻ p, H (q, p) ∂(c • (volume : Measure (ι → ℝ)).withDensity
        fun p => ENNReal.ofReal (Real.exp (-Spec.kinetic m p))) ∂Spec.posterior U D =
      c * ∫⁻ z, H z ∂Spec.targetOn m U D 1 := by
  have hK := kinetic_measurable m
  have hd : Measurable fun q : ι → ℝ => ENNReal.ofReal (Real.exp (-U q)) := by fun_prop
  have hk : Measurable fun p : ι → ℝ => ENNReal.ofReal (Real.exp (-Spec.kinetic m p)) := by fun_prop
  have hz : Measurable fun z : (ι → ℝ) × (ι → ℝ) =>
      ENNReal.ofReal (Real.exp (-(U z.1 + Spec.kinetic m z.2) / 1)) := by
    have h1 : Measurable fun z : (ι → ℝ) × (ι → ℝ) => U z.1 := hU.comp measurable_fst
    have h2 : Measurable fun z : (ι → ℝ) × (ι → ℝ) => Spec.kinetic m z.2 := hK.comp measurable_snd
    fun_prop
  have hs : MeasurableSet {z : (ι → ℝ) × (ι → ℝ) | z.1 ∈ D} := measurable_fst hD
  have hin : ∀ q, ∫⁻ p, H (q, p) ∂(c • (volume : Measure (ι → ℝ)).withDensity
        fun p => ENNReal.ofReal (Real.exp (-Spec.kinetic m p))) =
      c * ∫⁻ p, ENNReal.ofReal (Real.exp (-Spec.kinetic m p)) * H (q, p) := by
    intro q
    have hq : Measurable fun p => H (q, p) := hH.comp (by fun_prop)
    rw [lintegral_smul_measure, lintegral_withDensity_eq_lintegral_mul _ hk hq, smul_eq_mul]
    rfl
  have hin' : Measurable fun q => ∫⁻ p, ENNReal.ofReal (Real.exp (-Spec.kinetic m p)) * H (q, p) :=
    Measurable.lintegral_prod_right' (f := fun z : (ι → ℝ) × (ι → ℝ) =>
      ENNReal.ofReal (Real.exp (-Spec.kinetic m z.2)) * H z) ((hk.comp measurable_snd).mul hH)
  rw [lintegral_congr hin, lintegral_const_mul' _ _ hc]
  congr 1
  unfold Spec.posterior
  rw [lintegral_withDensity_eq_lintegral_mul _ hd hin', ← lintegral_indicator hD]
  unfold Spec.targetOn Spec.target
  rw [← lintegral_indicator hs, lintegral_withDensity_eq_lintegral_mul _ hz (hH.indicator hs),
    Measure.volume_eq_prod, lintegral_prod _ (hz.mul (hH.indicator hs)).aemeasurable]
  refine lintegral_congr fun q => ?_
  by_cases hq : q ∈ D
  · rw [Set.indicator_of_mem hq]
    simp only [Pi.mul_apply]
    rw [← lintegral_const_mul' _ _ ENNReal.ofReal_ne_top]
    refine lintegral_congr fun p => ?_
    rw [Set.indicator_of_mem (show (q, p) ∈ {z : (ι → ℝ) × (ι → ℝ) | z.1 ∈ D} from hq), ← mul_assoc,
      ← ENNReal.ofReal_mul (Real.exp_pos _).le, ← Real.exp_add]
    congr 3
    ring
  · rw [Set.indicator_of_notMem hq]
    symm
    rw [lintegral_eq_zero_iff' ?_]
    · refine Filter.Eventually.of_forall fun p => ?_
      simp only [Pi.mul_apply, Pi.zero_apply]
      rw [Set.indicator_of_notMem (show (q, p) ∉ {z : (ι → ℝ) × (ι → ℝ) | z.1 ∈ D} from hq), mul_zero]
    · exact ((hz.mul (hH.indicator hs)).comp (by fun_prop : Measurable fun p => (q, p))).aemeasurable

/-! ## C128 -/

section
variable [Inhabited β]

/-- **C128.** AMAGOLD never leaves the support: if the potential is `+inf` or undefined exactly outside of
`D` and the initial sample is in `D`, all states of a run (any generator, data source, gradients, friction,
mass adaption and schedules) have positions in `D` and store the finite potential of their positions. -/
theorem c128_stays (P : Prng κ) {lay : Layout ι} (hl : Spec.Layout.Injective lay) (γ : ℝ)
    (ma : Option (MassAdaption ι Ms)) (cm : Option (ι → ℝ)) (L : ℕ) (d₀ : δ) (getData : δ → δ × β)
    (sg : StochGrad ι β μ) {G : (ι → ℝ) → β → (ι → ℝ)} (hG : ∀ x b ms, (sg x b ms).2 = G x b)
    (fullPot : FullPotFn ι φ μ) {U : (ι → ℝ) → ℝ} {D : Set (ι → ℝ)} (hfp : Spec.PotentialOn fullPot U D)
    (f₀ : φ) (x₀ : ι → ℝ) (hx₀ : x₀ ∈ D) (k₀ : κ) (m₀ : μ) (ps : List Params) :
    let s := amagoldRun P ma (revForAmagold P lay γ cm L getData sg) fullPot
      (amagoldInit P ma (revInitForAmagold P lay cm d₀) fullPot f₀ x₀ k₀ m₀) ps
    (amagoldGet s).vars ∈ D ∧ s.integratorState.positions ∈ D ∧
      s.potential = .fin (U s.integratorState.positions) := by
  intro s
  suffices h : s.integratorState.positions ∈ D ∧ s.potential = .fin (U s.integratorState.positions) from
    ⟨h.1, h.1, h.2⟩
  simp only [s]
  clear s
  induction ps using List.reverseRecOn with
  | nil => exact ⟨hx₀, hfp.fin x₀ f₀ m₀ hx₀⟩
  | append_singleton ps p ih =>
    rw [amagoldRun_snoc]
    exact (amagold_code_step P hl γ ma cm L getData sg hG fullPot hfp _ ih.1 ih.2 p f₀ m₀).2

/-- **C128.** Every update of such a run is a step of the specification with the mass the adaption returns. -/
theorem c128_code_step (P : Prng κ) {lay : Layout ι} (hl : Spec.Layout.Injective lay) (γ : ℝ)
    (ma : Option (MassAdaption ι Ms)) (cm : Option (ι → ℝ)) (L : ℕ) (d₀ : δ) (getData : δ → δ × β)
    (sg : StochGrad ι β μ) {G : (ι → ℝ) → β → (ι → ℝ)} (hG : ∀ x b ms, (sg x b ms).2 = G x b)
    (fullPot : FullPotFn ι φ μ) {U : (ι → ℝ) → ℝ} {D : Set (ι → ℝ)} (hfp : Spec.PotentialOn fullPot U D)
    (f₀ : φ) (x₀ : ι → ℝ) (hx₀ : x₀ ∈ D) (k₀ : κ) (m₀ : μ) (ps : List Params) (p : Params) :
    let run := amagoldRun P ma (revForAmagold P lay γ cm L getData sg) fullPot
      (amagoldInit P ma (revInitForAmagold P lay cm d₀) fullPot f₀ x₀ k₀ m₀)
    ((run (ps ++ [p])).integratorState.positions, (run (ps ++ [p])).integratorState.momentum) =
      Spec.amagoldNext lay γ (currentMass ma (run ps).massState) cm L sg fullPot U f₀ m₀ p
        (fun i => Spec.nthBatch getData (run ps).integratorState.dataState i)
        ((run ps).integratorState.positions, (run ps).integratorState.momentum)
        (drawnNoise P lay (run ps).integratorState.key L) (P.uniform (P.split (run ps).key 2 1)) := by
  intro run
  obtain ⟨-, h1, h2⟩ := c128_stays P hl γ ma cm L d₀ getData sg hG fullPot hfp f₀ x₀ hx₀ k₀ m₀ ps
  have e : run (ps ++ [p]) = _ := amagoldRun_snoc ..
  rw [e]
  exact (amagold_code_step P hl γ ma cm L getData sg hG fullPot hfp _ h1 h2 p f₀ m₀).1

variable [Countable β]

/-- **C128.** Start with a position from the posterior (density `exp(-U)` on `D`, zero elsewhere) and a
momentum from N(0, M).  After any number of AMAGOLD steps with any step sizes, the position is again
distributed by the posterior: expectations of all non-negative functions `g` of the position are the same. -/
theorem c128_posterior {lay : Layout ι} (hl : Spec.Layout.Injective lay) {γ : ℝ} (hγ : 0 ≤ γ)
    (am : Option (MassMatrix ι)) (cm : Option (ι → ℝ)) (hm : Spec.MassOk (Spec.usedMass am cm)) {L : ℕ}
    (sg : StochGrad ι β μ) {G : (ι → ℝ) → β → (ι → ℝ)} (hG : ∀ x b ms, (sg x b ms).2 = G x b)
    (hGm : ∀ b, Measurable fun x => G x b) (fullPot : FullPotFn ι φ μ) {U : (ι → ℝ) → ℝ}
    (hU : Measurable U) {D : Set (ι → ℝ)} (hD : MeasurableSet D) (hfp : Spec.PotentialOn fullPot U D)
    (f₀ : φ) (ms : μ) (w : (Fin L → β) → ENNReal) (hw : ∀ b, w (fun i => b (Fin.rev i)) = w b)
    (hw1 : ∑' b, w b = 1) (ν : Measure (ι → ℝ)) [IsProbabilityMeasure ν]
    (hν : Spec.IsMomentumLaw (Spec.usedMass am cm) ν) (prms : List Params)
    (hh : ∀ prm ∈ prms, 0 ≤ prm.stepSize) (g : (ι → ℝ) → ENNReal) (hg : Measurable g) :
    ∫⁻ q, ∫⁻ p, Spec.amagoldExpect lay γ am cm L sg fullPot U f₀ ms w (fun z => g z.1) prms (q, p) ∂ν
        ∂Spec.posterior U D =
      ∫⁻ q, g q ∂Spec.posterior U D := by
  obtain ⟨c, -, hc, hνc⟩ := hν
  have hgz : Measurable fun z : (ι → ℝ) × (ι → ℝ) => g z.1 := hg.comp measurable_fst
  obtain ⟨hmeas, hinv⟩ := amagold_run_invariant_on hl hγ am cm hm sg hG hGm fullPot hU hD hfp f₀ ms w hw hw1
    _ hgz prms hh
  have h0 : ∫⁻ q, g q ∂Spec.posterior U D = ∫⁻ q, ∫⁻ _, g q ∂ν ∂Spec.posterior U D := by
    simp only [lintegral_const, measure_univ, mul_one]
  rw [h0, hνc, posterior_momentum_lintegral hU hD c hc _ hmeas, hinv,
    posterior_momentum_lintegral hU hD c hc _ hgz]

/-- C128: the momenta N(0, M) of `c128_posterior` exist: they are the initial momenta drawn by AMAGOLD
(property C86). -/
theorem momentumLaw_exists {m : MassMatrix ι} (hm : Spec.MassOk m) :
    ∃ ν : Measure (ι → ℝ), IsProbabilityMeasure ν ∧ Spec.IsMomentumLaw m ν := by
  have hA : Measurable m.sqrt.mul := m.sqrt.measurable_mul
  have : IsProbabilityMeasure (Spec.normals ι) := by unfold Spec.normals; infer_instance
  exact ⟨_, Measure.isProbabilityMeasure_map hA.aemeasurable, map_sqrt_normals hm⟩

/-! ## C127 -/

/-- The mass used by the update which follows the updates `ps`. -/
theorem amagold_currentMass (P : Prng κ) (m : MassAdaption ι Ms)
    (initInt : (ι → ℝ) → κ → μ → Option (MassMatrix ι) → LeapfrogState ι XF κ δ μ)
    (integ : LeapfrogState ι XF κ δ μ → Params → Option (MassMatrix ι) → LeapfrogState ι XF κ δ μ)
    (fullPot : FullPotFn ι φ μ) (f₀ : φ) (x₀ : ι → ℝ) (k₀ : κ) (m₀ : μ) (ps : List Params) :
    let run := amagoldRun P (some m) integ fullPot (amagoldInit P (some m) initInt fullPot f₀ x₀ k₀ m₀)
    currentMass (some m) (run ps).massState =
      some (m.get (((List.range ps.length).map (fun k => (amagoldGet (run (ps.take (k + 1)))).vars)).foldl
        m.update (m.init x₀))) := by
  intro run
  rw [amagold_massState]
  rfl

/-- **C127.** AMAGOLD with `mass_matrix(diagonal=True)` and `burn_in = burnIn` samples the posterior after
the burn-in.  Let `xs` be the samples of the first `burnIn` updates, whose variances are positive.  There is a
mass matrix `M` with these variances as inverse such that all later updates of the run (any schedules `qs`
have been used since) are steps of the specification with this mass, and such steps leave the posterior
invariant: from a position distributed by the posterior and a momentum distributed by N(0, M), the position is
again distributed by the posterior after any number of steps, for any mini-batch probabilities which do not
depend on the order of a step's mini-batches, any step sizes, frictions and stochastic gradients. -/
theorem c127_after_burn_in (P : Prng κ) {lay : Layout ι} (hl : Spec.Layout.Injective lay) {γ : ℝ} (hγ : 0 ≤ γ)
    (burnIn : ℕ) (hb : 0 < burnIn) (cov : ι → ℝ) (cm : Option (ι → ℝ)) {L : ℕ} (d₀ : δ)
    (getData : δ → δ × β) (sg : StochGrad ι β μ) {G : (ι → ℝ) → β → (ι → ℝ)}
    (hG : ∀ x b ms, (sg x b ms).2 = G x b) (hGm : ∀ b, Measurable fun x => G x b)
    (fullPot : FullPotFn ι φ μ) {U : (ι → ℝ) → ℝ} (hU : Measurable U) {D : Set (ι → ℝ)}
    (hD : MeasurableSet D) (hfp : Spec.PotentialOn fullPot U D)
    (f₀ : φ) (x₀ : ι → ℝ) (hx₀ : x₀ ∈ D) (k₀ : κ) (m₀ : μ) (ps : List Params) (hps : ps.length = burnIn)
    (hp : let ma := some (diagMassAdaption burnIn cov)
      let run := amagoldRun P ma (revForAmagold P lay γ cm L getData sg) fullPot
        (amagoldInit P ma (revInitForAmagold P lay cm d₀) fullPot f₀ x₀ k₀ m₀)
      ∀ i, 0 < Spec.popCov ((List.range burnIn).map fun k => (amagoldGet (run (ps.take (k + 1)))).vars) i i) :
    let ma := some (diagMassAdaption burnIn cov)
    let run := amagoldRun P ma (revForAmagold P lay γ cm L getData sg) fullPot
      (amagoldInit P ma (revInitForAmagold P lay cm d₀) fullPot f₀ x₀ k₀ m₀)
    let xs := (List.range burnIn).map fun k => (amagoldGet (run (ps.take (k + 1)))).vars
    ∃ M : MassMatrix ι, Spec.MassOk M ∧ (∀ v i, M.inv.mul v i = Spec.popCov xs i i * v i) ∧
      (∀ (qs : List Params) (p : Params),
        ((run (ps ++ qs ++ [p])).integratorState.positions, (run (ps ++ qs ++ [p])).integratorState.momentum) =
          Spec.amagoldNext lay γ (some M) cm L sg fullPot U f₀ m₀ p
            (fun i => Spec.nthBatch getData (run (ps ++ qs)).integratorState.dataState i)
            ((run (ps ++ qs)).integratorState.positions, (run (ps ++ qs)).integratorState.momentum)
            (drawnNoise P lay (run (ps ++ qs)).integratorState.key L)
            (P.uniform (P.split (run (ps ++ qs)).key 2 1))) ∧
      (∃ ν : Measure (ι → ℝ), IsProbabilityMeasure ν ∧ Spec.IsMomentumLaw M ν) ∧
      ∀ (ν : Measure (ι → ℝ)) [IsProbabilityMeasure ν], Spec.IsMomentumLaw M ν →
        ∀ (w : (Fin L → β) → ENNReal), (∀ b, w (fun i => b (Fin.rev i)) = w b) → ∑' b, w b = 1 →
        ∀ prms : List Params, (∀ prm ∈ prms, 0 ≤ prm.stepSize) →
        ∀ g : (ι → ℝ) → ENNReal, Measurable g →
        ∫⁻ q, ∫⁻ p, Spec.amagoldExpect lay γ (some M) cm L sg fullPot U f₀ m₀ w (fun z => g z.1) prms (q, p) ∂ν
            ∂Spec.posterior U D =
          ∫⁻ q, g q ∂Spec.posterior U D := by
  intro ma run xs
  have hp' : ∀ i, 0 < Spec.popCov xs i i := hp
  have hlen : xs.length = burnIn := by simp [xs]
  obtain ⟨inv, sqrt, he, hinv, -⟩ := c70_adapted burnIn hb cov xs [] hlen
  rw [List.append_nil] at he
  have hM : ∀ ys, diagMassGet ((xs ++ ys).foldl (diagMassUpdate burnIn) (diagMassInit cov)) =
      diagMassGet (xs.foldl (diagMassUpdate burnIn) (diagMassInit cov)) := by
    intro ys
    induction ys using List.reverseRecOn with
    | nil => rw [List.append_nil]
    | append_singleton ys y ih =>
      rw [← ih, ← List.append_assoc, List.foldl_append, List.foldl_cons, List.foldl_nil]
      obtain ⟨h3, h4⟩ := diagUpd_ne burnIn ((xs ++ ys).foldl (diagMassUpdate burnIn) (diagMassInit cov)) y
        (by rw [diagMass_iteration, List.length_append]; omega)
      simp only [diagMassGet, h3, h4]
  have hok := c70_massOk burnIn hb cov xs [] hlen hp'
  rw [List.append_nil] at hok
  set M := diagMassGet (xs.foldl (diagMassUpdate burnIn) (diagMassInit cov)) with hMdef
  have hok' : Spec.MassOk (Spec.usedMass (some M) cm) := hok
  refine ⟨M, hok, fun v i => ?_, fun qs p => ?_, momentumLaw_exists hok, ?_⟩
  · rw [he, ← hinv]
    rfl
  · have h := c128_code_step P hl γ ma cm L d₀ getData sg hG fullPot hfp f₀ x₀ hx₀ k₀ m₀ (ps ++ qs) p
    have hc := amagold_currentMass P (diagMassAdaption burnIn cov) (revInitForAmagold P lay cm d₀)
      (revForAmagold P lay γ cm L getData sg) fullPot f₀ x₀ k₀ m₀ (ps ++ qs)
    dsimp only at hc
    have hsplit : (List.range (ps ++ qs).length).map
        (fun k => (amagoldGet (run ((ps ++ qs).take (k + 1)))).vars) =
        xs ++ (List.range qs.length).map fun k => (amagoldGet (run ((ps ++ qs).take (burnIn + k + 1)))).vars := by
      rw [List.length_append, List.range_add, List.map_append, List.map_map, hps]
      congr 1
      refine List.map_congr_left fun k hk => ?_
      have : k + 1 ≤ ps.length := by have := List.mem_range.1 hk; omega
      rw [List.take_append_of_le_length this]
    have hc' : currentMass ma (run (ps ++ qs)).massState = some M := by
      refine hc.trans ?_
      have := hM ((List.range qs.length).map fun k =>
        (amagoldGet (run ((ps ++ qs).take (burnIn + k + 1)))).vars)
      rw [← hsplit] at this
      exact congrArg some this
    have h' := h
    dsimp only at h'
    rw [show currentMass ma (amagoldRun P ma (revForAmagold P lay γ cm L getData sg) fullPot
      (amagoldInit P ma (revInitForAmagold P lay cm d₀) fullPot f₀ x₀ k₀ m₀) (ps ++ qs)).massState = some M
      from hc'] at h'
    exact h'
  · intro ν _ hν w hw hw1 prms hh g hg
    exact c128_posterior hl hγ (some M) cm hok' sg hG hGm fullPot hU hD hfp f₀ m₀ w hw hw1 ν hν prms hh g hg

end

/-! ## A case: the exponential distribution -/

/-- The potential `q` of the exponential distribution, `+inf` for negative values. -/
noncomputable def expoPot : FullPotFn (Fin 1) Unit Unit := fun x _ _ =>
  (if 0 ≤ x 0 then .fin (x 0) else .pinf, ((), ()))

theorem expoPot_on : Spec.PotentialOn expoPot (fun x => x 0) {x | 0 ≤ x 0} := by
  refine ⟨fun x f ms h => ?_, fun x f ms h => Or.inl ?_⟩
  · show (if 0 ≤ x 0 then XF.fin (x 0) else .pinf) = _
    exact if_pos h
  · show (if 0 ≤ x 0 then XF.fin (x 0) else .pinf) = _
    exact if_neg h

/-- A generator which draws the number 4 and uniform numbers 0. -/
def fourPrng : Prng Unit := ⟨fun _ _ _ => (), fun _ _ _ => 4, fun _ => 0⟩

/-- The gradient of `expoPot`. -/
def expoGrad : StochGrad (Fin 1) Unit Unit := fun _ _ _ => ((0, ()), fun _ => 1)

/-- The first update from `x` with momentum `p`, where both are positive: one leapfrog step. -/
theorem expo_step (ma : MassAdaption (Fin 1) Ms) (s : AmagoldState (Fin 1) Unit Unit Unit Unit Ms) (x p : ℝ)
    (hx : s.integratorState.positions = fun _ => x) (hp : s.integratorState.momentum = fun _ => p)
    (hpot : s.potential = .fin x) (hm : currentMass (some ma) s.massState = some ⟨.diag fun _ => 1, .diag fun _ => 1⟩)
    (h0 : 0 ≤ x + p - 1 / 2) :
    let s' := (amagoldUpdate fourPrng (some ma) (revForAmagold fourPrng (Spec.vectorLayout 1) 0 none 1
      (fun _ => ((), ())) expoGrad) expoPot s ⟨1, 1⟩).1
    (s'.integratorState.positions = fun _ => x + p - 1 / 2) ∧
      (s'.integratorState.momentum = fun _ => p - 1) ∧ s'.potential = .fin (x + p - 1 / 2) := by
  have hint := revIntegrate_eq fourPrng (Spec.vectorLayout 1) 0 none 1 (fun _ : Unit => ((), ())) expoGrad
    (⟨0, s.integratorState.key, s.integratorState.positions, s.integratorState.momentum,
      s.integratorState.dataState, s.integratorState.modelState, s.integratorState.drawn⟩ :
        LeapfrogState (Fin 1) ℝ Unit Unit Unit) ⟨1, 1⟩ (some ⟨.diag fun _ => 1, .diag fun _ => 1⟩)
  dsimp only at hint
  have hpos : (revForAmagold fourPrng (Spec.vectorLayout 1) 0 none 1 (fun _ => ((), ())) expoGrad
      s.integratorState ⟨1, 1⟩ (some ⟨.diag fun _ => 1, .diag fun _ => 1⟩)) =
      ⟨.fin (p - 1 / 2), (), fun _ => x + p - 1 / 2, fun _ => p - 1, (), (), s.integratorState.drawn ++ [()]⟩ := by
    unfold revForAmagold
    dsimp only
    rw [hint]
    simp only [revState, List.range_one, List.foldl_cons, List.foldl_nil, revBody, Spec.usedMass,
      Option.getD_some, hx, hp, LeapfrogState.mk.injEq]
    refine ⟨?_, trivial, ?_, ?_, trivial, trivial, rfl⟩
    · congr 1
      simp [leapEnergy, vdot, VTensor.mul, vadd_eq, vscale_eq, expoGrad]
      norm_num
      ring
    · funext i
      simp [VTensor.mul, vadd_eq, vscale_eq, expoGrad]
      norm_num
      ring
    · funext i
      simp [VTensor.mul, vadd_eq, vscale_eq, expoGrad]
      norm_num
      ring
  intro s'
  have hs' : s' = (amagoldUpdate fourPrng (some ma) (revForAmagold fourPrng (Spec.vectorLayout 1) 0 none 1
    (fun _ => ((), ())) expoGrad) expoPot s ⟨1, 1⟩).1 := rfl
  have e1 : (expoPot (fun _ : Fin 1 => x + p - 1 / 2) s.fullDataState ()).1 = .fin (x + p - 1 / 2) := if_pos h0
  unfold amagoldUpdate at hs'
  dsimp only at hs'
  rw [hm, hpos, hpot] at hs'
  dsimp only at hs'
  rw [e1, amagoldLogAlpha_fin, if_pos ?_] at hs'
  · rw [hs']
    refine ⟨rfl, ?_, rfl⟩
    funext i
    simp [vscale_eq]
    norm_num
  · show XF.Lt (XF.logOf 0) _
    rw [XF.lt_logOf_fin le_rfl]
    exact Real.exp_pos _

/-- A case of C127 and C128: two burn-in updates for the exponential distribution; the samples are 7/2 and 6. -/
example : ∃ ps : List Params, ps.length = 2 ∧
    let ma := some (diagMassAdaption 2 (fun _ : Fin 1 => 1))
    let run := amagoldRun fourPrng ma (revForAmagold fourPrng (Spec.vectorLayout 1) 0 none 1
      (fun _ => ((), ())) expoGrad) expoPot
      (amagoldInit fourPrng ma (revInitForAmagold fourPrng (Spec.vectorLayout 1) none ()) expoPot () 0 () ())
    ∀ i, 0 < Spec.popCov ((List.range 2).map fun k => (amagoldGet (run (ps.take (k + 1)))).vars) i i := by
  refine ⟨[⟨1, 1⟩, ⟨1, 1⟩], rfl, ?_⟩
  intro ma run i
  have hcm : ∀ xs : List (Fin 1 → ℝ), xs.length < 2 → currentMass ma (some
      (xs.foldl (diagMassUpdate 2) (diagMassInit fun _ => 1))) = some ⟨.diag fun _ => 1, .diag fun _ => 1⟩ := by
    intro xs h
    show some (diagMassGet _) = _
    rw [c70_before 2 _ xs h]
    simp
  have hmom : (run []).integratorState.momentum = fun _ => 4 := by
    funext i
    show (resolveMass (some (diagMassGet (diagMassInit fun _ => 1))) none).sqrt.mul
      (randomTree fourPrng (Spec.vectorLayout 1) ()).1 i = 4
    rw [resolveMass_eq]
    simp [Spec.usedMass, diagMassGet, diagMassInit, VTensor.mul, randomTree, fourPrng]
  have h1 := expo_step (diagMassAdaption 2 (fun _ : Fin 1 => 1)) (run []) 0 4 rfl hmom (if_pos le_rfl)
    (hcm [] (by norm_num)) (by norm_num)
  have e1 : run [⟨1, 1⟩] = _ := amagoldRun_snoc fourPrng ma _ expoPot _ [] ⟨1, 1⟩
  dsimp only at h1
  rw [show (amagoldUpdate fourPrng (some (diagMassAdaption 2 (fun _ : Fin 1 => 1))) (revForAmagold fourPrng
    (Spec.vectorLayout 1) 0 none 1 (fun _ => ((), ())) expoGrad) expoPot (run []) ⟨1, 1⟩).1 = run [⟨1, 1⟩]
    from e1.symm] at h1
  have hms := amagold_massState fourPrng (diagMassAdaption 2 (fun _ : Fin 1 => 1))
    (revInitForAmagold fourPrng (Spec.vectorLayout 1) none ()) (revForAmagold fourPrng (Spec.vectorLayout 1) 0
      none 1 (fun _ => ((), ())) expoGrad) expoPot () 0 () () [⟨1, 1⟩]
  have h2 := expo_step (diagMassAdaption 2 (fun _ : Fin 1 => 1)) (run [⟨1, 1⟩]) _ _ h1.1 h1.2.1 h1.2.2
    (by
      rw [show (run [⟨1, 1⟩]).massState = _ from hms]
      exact hcm _ (by simp)) (by norm_num)
  have e2 : run [⟨1, 1⟩, ⟨1, 1⟩] = _ := amagoldRun_snoc fourPrng ma _ expoPot _ [⟨1, 1⟩] ⟨1, 1⟩
  dsimp only at h2
  rw [show (amagoldUpdate fourPrng (some (diagMassAdaption 2 (fun _ : Fin 1 => 1))) (revForAmagold fourPrng
    (Spec.vectorLayout 1) 0 none 1 (fun _ => ((), ())) expoGrad) expoPot (run [⟨1, 1⟩]) ⟨1, 1⟩).1 =
      run [⟨1, 1⟩, ⟨1, 1⟩] from e2.symm] at h2
  have hl : (List.range 2).map (fun k => (amagoldGet (run ([⟨1, 1⟩, ⟨1, 1⟩].take (k + 1)))).vars) =
      [fun _ => 7 / 2, fun _ => 6] := by
    show [(run [⟨1, 1⟩]).integratorState.positions, (run [⟨1, 1⟩, ⟨1, 1⟩]).integratorState.positions] = _
    rw [h1.1, h2.1]
    congr 1
    · funext _; norm_num
    · congr 1; funext _; norm_num
  rw [hl]
  norm_num [Spec.popCov, Spec.sampleMean]

/-- A case of `c128_posterior`: the probability of a set of the exponential distribution does not change in two
steps with step sizes 1 and 1/2 and friction 1. -/
example (A : Set (Fin 1 → ℝ)) (hA : MeasurableSet A) : ∃ ν : Measure (Fin 1 → ℝ), IsProbabilityMeasure ν ∧
    ∫⁻ q, ∫⁻ p, Spec.amagoldExpect (Spec.vectorLayout 1) 1 none (some fun _ => 4) 1 expoGrad expoPot (fun x => x 0) () ()
        (fun _ => 1) (fun z => A.indicator 1 z.1) [⟨1, 1⟩, ⟨1 / 2, 1⟩] (q, p) ∂ν
        ∂Spec.posterior (fun x => x 0) {x | 0 ≤ x 0} =
      Spec.posterior (fun x : Fin 1 → ℝ => x 0) {x | 0 ≤ x 0} A := by
  have hm : Spec.MassOk (Spec.usedMass none (some fun _ : Fin 1 => (4 : ℝ))) := massOk_const fun _ => by norm_num
  obtain ⟨ν, hν, hl⟩ := momentumLaw_exists hm
  have hD : MeasurableSet {x : Fin 1 → ℝ | 0 ≤ x 0} := measurableSet_le measurable_const (measurable_pi_apply 0)
  refine ⟨ν, hν, ?_⟩
  rw [c128_posterior (Spec.vectorLayout_injective 1) zero_le_one none (some fun _ => 4) hm expoGrad
    (G := fun _ _ _ => 1) (fun _ _ _ => rfl) (fun _ => measurable_const) expoPot (measurable_pi_apply 0) hD
    expoPot_on () () (fun _ => 1) (fun _ => rfl) (by rw [tsum_fintype]; simp) ν hl [⟨1, 1⟩, ⟨1 / 2, 1⟩]
    (by intro prm h; simp at h; rcases h with rfl | rfl <;> norm_num) _ (measurable_one.indicator hA),
    lintegral_indicator_one hA]

end JaxSgmc
