import Verif.Props.AdaptiveConverges
import Verif.Props.MassRun

/-!
# C157: the samples of AMAGOLD with adapted masses are distributed like the posterior
-/

namespace JaxSgmc

open MeasureTheory ProbabilityTheory Filter Topology

variable {ι κ δ β μ φ Ω : Type} [Fintype ι]

attribute [local irreducible] Spec.amagoldNext leapMap Spec.amagoldExpect massVector

/-- A chain which carries a flag along. -/
theorem drivePath_flag {E S Q : Type} [MeasurableSpace E] (next : Q → E → S → S) (lam : Measure E) (F : S → ENNReal)
    (ps : List Q) (b : Bool) : ∀ (c z : S),
    drivePath next (fun (c : S × Bool) z => (z, c.2)) lam (fun c => if c.2 then F c.1 else 0) ps ((c, b), z) =
      if b then drivePath next (fun _ z => z) lam F ps (c, z) else 0 := by
  induction ps with
  | nil => intro c z; rfl
  | cons p ps ih =>
    intro c z
    simp only [drivePath]
    simp only [ih]
    cases b with
    | true => rfl
    | false => simp

section
variable [Inhabited β] [Countable β] [MeasurableSpace β] [MeasurableSingletonClass β] [MeasurableSpace Ω]
  {prob : Measure Ω} [IsProbabilityMeasure prob]
  {P : Ω → Prng κ} {data : Ω → δ → δ × β} {d₀ : δ} {L : ℕ} {w : (Fin L → β) → ENNReal} {sp : κ → ℕ → ℕ → κ}
  (hR : Spec.IdealRandom prob P data d₀ L w sp) {lay : Layout ι} (hlay : Spec.Layout.Valid lay) (key : κ)
  {γ : ℝ} (hγ : 0 < γ) {burnIn : ℕ} (hb : 0 < burnIn) {cov : ι → ℝ} (hcov : ∀ i, 0 < cov i) (cm : Option (ι → ℝ))
  (sg : StochGrad ι β μ) {G : (ι → ℝ) → β → (ι → ℝ)} (hG : ∀ x b ms, (sg x b ms).2 = G x b)
  (hGm : ∀ b, Measurable fun x => G x b) (hGb : Spec.LocallyBounded G) (fullPot : FullPotFn ι φ μ) {U : (ι → ℝ) → ℝ}
  (hU : Measurable U) {D : Set (ι → ℝ)} (hD : MeasurableSet D) (hfp : Spec.PotentialOn fullPot U D)
  (f₀ : φ) (ms : μ) {x₀ : ι → ℝ} (hx₀ : x₀ ∈ D) {ps : List Params} (hps : ps.length = burnIn)
  (hps0 : ∀ q ∈ ps, 0 ≤ q.stepSize) {p : Params} (hp : 0 < p.stepSize)

include hR hlay hb hcov hG hfp hx₀ hps in
omit [Countable β] [MeasurableSingletonClass β] [IsProbabilityMeasure prob] in
/-- The samples of the burn in and the later samples in terms of the random numbers. -/
theorem mass_sample :
    ∀ᵐ ω ∂prob,
      let B := massBurned lay γ burnIn cov sg fullPot U f₀ ms (burnParams ps p) x₀ sp key d₀ L (P ω) (data ω)
      let xs := Spec.massAdaptedSamples (P ω) lay γ burnIn cov cm L (data ω) d₀ sg fullPot f₀ ms x₀ key ps
      (List.range burnIn).map B.2 = xs ∧ B.1.1 ∈ D ∧
      ((∀ i, 0 < Spec.popCov xs i i) → ∀ n : ℕ, 0 < n →
        (amagoldGet (Spec.massAdaptedState (P ω) lay γ burnIn cov cm L (data ω) d₀ sg fullPot f₀ ms x₀ key
          (ps ++ List.replicate n p))).vars =
        (drive (massDrive lay γ burnIn cov L sg fullPot U f₀ ms (burnParams ps p))
          (fun (c : ((ι → ℝ) × (ι → ℝ)) × Bool) (q : ((ι → ℝ) × (ι → ℝ)) × (ℕ → ι → ℝ)) => (q.1, c.2))
          (List.range' burnIn n) burnIn (fun m => runInnov lay sp key d₀ L m (P ω) (data ω)) (((0, 0), true), B)).1.1.1) := by
  filter_upwards [runUnif_nonneg hR key] with ω hω B xs
  have hsp := hR.split_eq ω
  have hst := mass_states hsp hlay.injective (γ := γ) hb hcov (cm := cm) (L := L) (data := data ω) (d₀ := d₀) (sg := sg) hG
    (fullPot := fullPot) (U := U) hfp f₀ ms hx₀ hω (burnParams ps p)
  dsimp only at hst
  set s := fun k => Spec.massAdaptedState (P ω) lay γ burnIn cov cm L (data ω) d₀ sg fullPot f₀ ms x₀ key
    ((List.range k).map (burnParams ps p)) with hs
  set r := fun j => (s (j + 1)).integratorState.positions with hr
  let st : ℕ → ((ι → ℝ) × (ι → ℝ)) × (ℕ → ι → ℝ) := fun k =>
    (((s k).integratorState.positions, (s k).integratorState.momentum), fun j => if j < k then r j else 0)
  have hxs : xs = (List.range burnIn).map r := by
    show Spec.massAdaptedSamples _ _ _ _ _ _ _ _ _ _ _ _ _ _ _ _ = _
    unfold Spec.massAdaptedSamples
    rw [hps]
    refine List.map_congr_left fun j hj => ?_
    have h5 := burnParams_take ps p (n := 0) (k := j + 1) (by have := List.mem_range.1 hj; omega)
    rw [List.replicate_zero, List.append_nil] at h5
    rw [h5]
    rfl
  have hst' : ∀ k, (k < burnIn ∨ ∀ i, 0 < Spec.popCov xs i i) →
      massDrive lay γ burnIn cov L sg fullPot U f₀ ms (burnParams ps p) k (runInnov lay sp key d₀ L k (P ω) (data ω)) (st k) =
      st (k + 1) := fun k hk => hst k (by rw [hxs] at hk; exact hk)
  have hmom : (s 0).integratorState.momentum = (diagonalMass fun i => (cov i)⁻¹).sqrt.mul (runNoise lay sp key 0 (P ω)) := by
    have e := diagonal_of_inverse (inv := cov) (sqrt := fun i => 1 / Real.sqrt (cov i)) (fun i hi => by
      have := Real.sqrt_pos.2 hi
      refine ⟨by positivity, ?_⟩
      have h3 := Real.mul_self_sqrt hi.le
      field_simp
      rw [sq]; exact h3.symm) hcov
    unfold diagonalMass
    rw [← e, ← hsp]
    rfl
  have h0 : st 0 = ((x₀, (diagonalMass fun i => (cov i)⁻¹).sqrt.mul (runNoise lay sp key 0 (P ω))), fun _ => 0) := by
    rw [← hmom]
    refine Prod.ext rfl ?_
    funext i
    show (if i < 0 then r i else 0) = 0
    exact if_neg (Nat.not_lt_zero i)
  have hB : B = st burnIn := by
    show massBurned _ _ _ _ _ _ _ _ _ _ _ _ _ _ _ _ _ = _
    unfold massBurned
    rw [← h0, drive_states_until _ _ _ st _ 0 fun k _ hk => hst' k (Or.inl (by omega))]
    show st (0 + burnIn) = _
    rw [Nat.zero_add]
  refine ⟨?_, ?_, fun hpos n hn => ?_⟩
  · rw [hB, hxs]
    refine List.map_congr_left fun j hj => ?_
    show (if j < burnIn then r j else 0) = r j
    exact if_pos (List.mem_range.1 hj)
  · rw [hB]
    exact (c128_stays (P ω) hlay.injective γ (some (diagMassAdaption burnIn cov)) cm L d₀ (data ω) sg hG fullPot hfp f₀ x₀ hx₀
      key ms ((List.range burnIn).map (burnParams ps p))).2.1
  · rw [hB, drive_states_until _ _ _ st _ burnIn fun k _ _ => hst' k (Or.inr hpos)]
    obtain ⟨m, rfl⟩ : ∃ m, n = m + 1 := ⟨n - 1, by omega⟩
    have e1 : ps ++ List.replicate (m + 1) p = (List.range (burnIn + 1 + 1 * m)).map (burnParams ps p) := by
      rw [← burnParams_take ps p (n := m + 1) (by omega), List.take_of_length_le]
      rw [List.length_append, List.length_replicate, hps]
      omega
    rw [e1]
    dsimp only
    rw [List.range'_concat, List.foldl_append, List.foldl_cons, List.foldl_nil]
    rfl

include hR hlay hγ hb hcov hG hGm hGb hU hD hfp hx₀ hps hps0 hp in
/-- **C157.** With ideal random numbers, the samples of AMAGOLD with `mass_matrix(diagonal=True)` are distributed like the
posterior after the burn in, if all variances of the samples of the burn in are positive: for every event, the probability
that the variances are positive and that the sample reported after the burn in and `n` further updates belongs to the event
converges to the product of the probabilities; hence the distribution of the sample under the condition of positive
variances converges to the posterior. -/
theorem c157_joint (hL : 2 ≤ L) (hw : ∀ b, w (fun i => b (Fin.rev i)) = w b) (hw1 : ∑' b, w b = 1)
    (hZ0 : Spec.posterior U D Set.univ ≠ 0) (hZ : Spec.posterior U D Set.univ ≠ ⊤) {A : Set (ι → ℝ)} (hA : MeasurableSet A) :
    Tendsto (fun n => prob.real {ω | (∀ i, 0 < Spec.popCov (Spec.massAdaptedSamples (P ω) lay γ burnIn cov cm L (data ω) d₀ sg
        fullPot f₀ ms x₀ key ps) i i) ∧
      (amagoldGet (Spec.massAdaptedState (P ω) lay γ burnIn cov cm L (data ω) d₀ sg fullPot f₀ ms x₀ key
        (ps ++ List.replicate n p))).vars ∈ A}) atTop
      (𝓝 (prob.real {ω | ∀ i, 0 < Spec.popCov (Spec.massAdaptedSamples (P ω) lay γ burnIn cov cm L (data ω) d₀ sg
        fullPot f₀ ms x₀ key ps) i i} * ((Spec.posterior U D).real A / (Spec.posterior U D).real Set.univ))) := by
  classical
  set M := (Spec.posterior U D).real A / (Spec.posterior U D).real Set.univ with hM
  have hM0 : 0 ≤ M := div_nonneg measureReal_nonneg measureReal_nonneg
  set prm := burnParams ps p with hprm
  have hprm0 := burnParams_nonneg hps0 hp
  have hprmp : ∀ k, burnIn ≤ k → prm k = p := by
    intro k hk
    rw [hprm]
    unfold burnParams
    rw [List.getD_eq_getElem?_getD, List.getElem?_eq_none (by omega), Option.getD_none]
  have hpr := innovLaw_prob hR hlay key
  have hnext := massDrive_measurable (L := L) burnIn f₀ ms hlay.injective hγ.le hcov hG hGm hU hD hfp hprm0
  have hsq := tensor_mul_measurable (diagonalMass fun i => (cov i)⁻¹).sqrt
  have h0 : Measurable[known P data d₀ L (pastKeys lay sp key L 0)] fun ω => runNoise lay sp key 0 (P ω) :=
    runNoise_measurable hlay (T := Set.Iio (1 + 0 * L)) (by simp) Set.subset_union_left
  have hH0 : Measurable[known P data d₀ L (pastKeys lay sp key L 0)] fun ω =>
      (((), ((x₀, (diagonalMass fun i => (cov i)⁻¹).sqrt.mul (runNoise lay sp key 0 (P ω))), fun _ => 0)) :
        Unit × (((ι → ℝ) × (ι → ℝ)) × (ℕ → ι → ℝ))) :=
    (by fun_prop : Measurable fun p : ι → ℝ => (((), ((x₀, p), fun _ => 0)) :
      Unit × (((ι → ℝ) × (ι → ℝ)) × (ℕ → ι → ℝ)))).comp (hsq.comp h0)
  let B : Ω → ((ι → ℝ) × (ι → ℝ)) × (ℕ → ι → ℝ) := fun ω =>
    massBurned lay γ burnIn cov sg fullPot U f₀ ms prm x₀ sp key d₀ L (P ω) (data ω)
  have hB : Measurable[known P data d₀ L (pastKeys lay sp key L burnIn)] B := by
    have := measurable_snd.comp (drive_known (next := massDrive lay γ burnIn cov L sg fullPot U f₀ ms prm)
      (acc := fun (_ : Unit) (_ : ((ι → ℝ) × (ι → ℝ)) × (ℕ → ι → ℝ)) => ()) hlay key measurable_const
      (List.range' 0 burnIn) (fun i _ => hnext i) 0 _ hH0)
    rw [Nat.zero_add, List.length_range'] at this
    exact this
  have hB' : Measurable B := hB.mono (known_le hR _) le_rfl
  -- the flag: the variances are positive
  let fl : (ℕ → ι → ℝ) → Bool := fun r => decide (∀ i, 0 < Spec.popCov ((List.range burnIn).map r) i i)
  have hfl : Measurable fl := by
    refine measurable_to_bool ?_
    have e : fl ⁻¹' {true} = {r | ∀ i, 0 < Spec.popCov ((List.range burnIn).map r) i i} := by ext r; simp [fl]
    rw [e]
    exact variances_measurable burnIn
  have hH : Measurable[known P data d₀ L (pastKeys lay sp key L burnIn)] fun ω => ((((0, 0), fl (B ω).2), B ω) :
      (((ι → ℝ) × (ι → ℝ)) × Bool) × (((ι → ℝ) × (ι → ℝ)) × (ℕ → ι → ℝ))) :=
    (((measurable_const.prodMk (hfl.comp measurable_snd)).prodMk measurable_id :
      Measurable fun q : ((ι → ℝ) × (ι → ℝ)) × (ℕ → ι → ℝ) => ((((0, 0), fl q.2), q) :
      (((ι → ℝ) × (ι → ℝ)) × Bool) × (((ι → ℝ) × (ι → ℝ)) × (ℕ → ι → ℝ))))).comp hB
  have hacc : Measurable fun q : (((ι → ℝ) × (ι → ℝ)) × Bool) × (((ι → ℝ) × (ι → ℝ)) × (ℕ → ι → ℝ)) => (q.2.1, q.1.2) := by
    fun_prop
  let F : (ι → ℝ) × (ι → ℝ) → ENNReal := fun z => A.indicator (1 : (ι → ℝ) → ENNReal) z.1
  have hF : Measurable F := (measurable_one.indicator hA).comp measurable_fst
  have hF1 : ∀ z, F z ≤ 1 := fun z => by
    by_cases hz : z.1 ∈ A
    · simp [F, hz]
    · simp [F, hz]
  have hF' : Measurable fun c : ((ι → ℝ) × (ι → ℝ)) × Bool => if c.2 then F c.1 else 0 :=
    Measurable.ite (measurable_snd (measurableSet_singleton true)) (hF.comp measurable_fst) measurable_const
  let c : Ω → ι → ℝ := fun ω => massVector burnIn cov (B ω).2 burnIn
  have hcpos : ∀ ω, Spec.MassOk (Spec.usedMass none (some (c ω))) := fun ω => massOk_const (massVector_pos burnIn hcov _ _)
  let K : ℕ → Ω → ENNReal := fun n ω => if fl (B ω).2 then drivePath (amagoldDrive lay γ (some (c ω)) L sg fullPot U f₀ ms)
    (fun (_ : (ι → ℝ) × (ι → ℝ)) z => z) (innovLaw ι L w) F (List.replicate n p) ((0, 0), (B ω).1) else 0
  have hK : ∀ n ω, K n ω = drivePath (massDrive lay γ burnIn cov L sg fullPot U f₀ ms prm)
      (fun (c : ((ι → ℝ) × (ι → ℝ)) × Bool) (q : ((ι → ℝ) × (ι → ℝ)) × (ℕ → ι → ℝ)) => (q.1, c.2)) (innovLaw ι L w)
      (fun c => if c.2 then F c.1 else 0) (List.range' burnIn n) (((0, 0), fl (B ω).2), B ω) := fun n ω => by
    have h1 := massPath_eq (prm := prm) burnIn f₀ ms (fun (c : ((ι → ℝ) × (ι → ℝ)) × Bool) (z : (ι → ℝ) × (ι → ℝ)) => (z, c.2))
      (innovLaw ι L w) (fun c => if c.2 then F c.1 else 0) hprmp n burnIn le_rfl ((0, 0), fl (B ω).2) (B ω).1 (B ω).2
      (lay := lay) (γ := γ) (cov := cov) (sg := sg) (fullPot := fullPot) (U := U)
    refine Eq.trans ?_ h1.symm
    exact (drivePath_flag (amagoldDrive lay γ (some (c ω)) L sg fullPot U f₀ ms) (innovLaw ι L w) F (List.replicate n p)
      (fl (B ω).2) (0, 0) (B ω).1).symm
  have hKm : ∀ n, Measurable (K n) := by
    intro n
    rw [show K n = _ from funext (hK n)]
    exact (drivePath_measurable
      (acc := fun (c : ((ι → ℝ) × (ι → ℝ)) × Bool) (q : ((ι → ℝ) × (ι → ℝ)) × (ℕ → ι → ℝ)) => (q.1, c.2)) hacc hF' _
      (fun i _ => hnext i)).comp (hH.mono (known_le hR _) le_rfl)
  have hK1 : ∀ n ω, K n ω ≤ 1 := fun n ω => by
    show (if fl (B ω).2 then _ else 0) ≤ (1 : ENNReal)
    split
    · exact drivePath_le_one _ _ _ hF1 _ _
    · exact zero_le_one
  have hsample := mass_sample hR hlay key (γ := γ) hb hcov cm sg hG fullPot hfp f₀ ms hx₀ hps (p := p)
  -- the limit for a given burn in
  have hlim : ∀ᵐ ω ∂prob, Tendsto (fun n => K n ω) atTop (𝓝 (if fl (B ω).2 then ENNReal.ofReal M else 0)) := by
    filter_upwards [hsample] with ω hω
    show Tendsto (fun n => if fl (B ω).2 then _ else 0) atTop _
    cases hflag : fl (B ω).2 with
    | false => exact tendsto_const_nhds
    | true =>
      simp only [if_true]
      have hfin : ∀ n, drivePath (amagoldDrive lay γ (some (c ω)) L sg fullPot U f₀ ms)
          (fun (_ : (ι → ℝ) × (ι → ℝ)) z => z) (innovLaw ι L w) F (List.replicate n p) ((0, 0), (B ω).1) ≠ ⊤ := fun n =>
        ((drivePath_le_one _ _ _ hF1 _ _).trans_lt ENNReal.one_lt_top).ne
      have hreal : Tendsto (fun n => (drivePath (amagoldDrive lay γ (some (c ω)) L sg fullPot U f₀ ms)
          (fun (_ : (ι → ℝ) × (ι → ℝ)) z => z) (innovLaw ι L w) F (List.replicate n p) ((0, 0), (B ω).1)).toReal) atTop (𝓝 M) := by
        refine Metric.tendsto_atTop.2 fun ε hε => ?_
        obtain ⟨N, hN⟩ := constant_converges (l := p.stepSize) (u := p.stepSize) hlay hγ (some (c ω)) (hcpos ω) hL sg hG hGm hGb
          fullPot hU hD hfp f₀ ms hw hw1 hp hZ0 hZ (max ‖(B ω).1‖ |U (B ω).1.1|) (half_pos hε)
        refine ⟨N + 1, fun n hn => ?_⟩
        rw [Real.dist_eq]
        exact lt_of_le_of_lt (hN (B ω).1 ⟨hω.2.1, le_max_left _ _, le_max_right _ _⟩ p le_rfl le_rfl n (by omega) (by omega) A hA)
          (half_lt_self hε)
      have := ENNReal.tendsto_ofReal hreal
      simp only [fun n => ENNReal.ofReal_toReal (hfin n)] at this
      exact this
  have hint := tendsto_lintegral_of_dominated_convergence (μ := prob) (F := K)
    (f := fun ω => if fl (B ω).2 then ENNReal.ofReal M else 0) (fun _ => 1) hKm (fun n => Eventually.of_forall (hK1 n))
    (by rw [lintegral_one, measure_univ]; exact ENNReal.one_ne_top) hlim
  -- the events
  set E := {ω | ∀ i, 0 < Spec.popCov (Spec.massAdaptedSamples (P ω) lay γ burnIn cov cm L (data ω) d₀ sg
        fullPot f₀ ms x₀ key ps) i i} with hE
  set E' := {ω | fl (B ω).2 = true} with hE'
  have hE'm : MeasurableSet E' := (hfl.comp (measurable_snd.comp hB')) (measurableSet_singleton true)
  have hiff : ∀ᵐ ω ∂prob, (ω ∈ E ↔ fl (B ω).2 = true) := by
    filter_upwards [hsample] with ω hω
    show (∀ i, 0 < Spec.popCov _ i i) ↔ decide (∀ i, 0 < Spec.popCov ((List.range burnIn).map (B ω).2) i i) = true
    rw [decide_eq_true_iff, show (List.range burnIn).map (B ω).2 = _ from hω.1]
  have hEE : prob E = prob E' := measure_congr (by
    filter_upwards [hiff] with ω hω
    exact propext hω)
  have hright : ∫⁻ ω, (if fl (B ω).2 then ENNReal.ofReal M else 0) ∂prob = prob E * ENNReal.ofReal M := by
    have e : (fun ω => if fl (B ω).2 then ENNReal.ofReal M else 0) = E'.indicator fun _ => ENNReal.ofReal M := by
      funext ω
      by_cases hω : fl (B ω).2 = true
      · rw [Set.indicator_of_mem (show ω ∈ E' from hω), if_pos hω]
      · rw [Set.indicator_of_notMem (show ω ∉ E' from hω), if_neg hω]
    rw [e, lintegral_indicator_const hE'm, hEE, mul_comm]
  rw [hright] at hint
  have hleft : ∀ n, 0 < n → prob {ω | (∀ i, 0 < Spec.popCov (Spec.massAdaptedSamples (P ω) lay γ burnIn cov cm L (data ω) d₀ sg
        fullPot f₀ ms x₀ key ps) i i) ∧
      (amagoldGet (Spec.massAdaptedState (P ω) lay γ burnIn cov cm L (data ω) d₀ sg fullPot f₀ ms x₀ key
        (ps ++ List.replicate n p))).vars ∈ A} = ∫⁻ ω, K n ω ∂prob := by
    intro n hn
    have hd := drive_law (next := massDrive lay γ burnIn cov L sg fullPot U f₀ ms prm)
      (acc := fun (c : ((ι → ℝ) × (ι → ℝ)) × Bool) (q : ((ι → ℝ) × (ι → ℝ)) × (ℕ → ι → ℝ)) => (q.1, c.2)) hR hlay key hacc hF'
      (List.range' burnIn n) (fun i _ => hnext i) burnIn _ hH
    simp only [hK]
    rw [← hd]
    have hY := measurable_fst.comp (drive_measurable (next := massDrive lay γ burnIn cov L sg fullPot U f₀ ms prm)
      (acc := fun (c : ((ι → ℝ) × (ι → ℝ)) × Bool) (q : ((ι → ℝ) × (ι → ℝ)) × (ℕ → ι → ℝ)) => (q.1, c.2)) hR hlay key hacc
      (List.range' burnIn n) (fun i _ => hnext i) burnIn _ (hH.mono (known_le hR _) le_rfl))
    set Y : Ω → ((ι → ℝ) × (ι → ℝ)) × Bool := fun ω => (drive (massDrive lay γ burnIn cov L sg fullPot U f₀ ms prm)
      (fun (c : ((ι → ℝ) × (ι → ℝ)) × Bool) (q : ((ι → ℝ) × (ι → ℝ)) × (ℕ → ι → ℝ)) => (q.1, c.2)) (List.range' burnIn n) burnIn
      (fun m => runInnov lay sp key d₀ L m (P ω) (data ω)) (((0, 0), fl (B ω).2), B ω)).1 with hYdef
    have hY' : Measurable Y := hY
    have hset : MeasurableSet {y : ((ι → ℝ) × (ι → ℝ)) × Bool | y.2 = true ∧ y.1.1 ∈ A} :=
      (measurable_snd (measurableSet_singleton true)).inter ((measurable_fst.comp measurable_fst) hA)
    have hkeep : ∀ ω, (Y ω).2 = fl (B ω).2 := by
      intro ω
      have gen : ∀ (l : List ℕ) (k : ℕ) (V : ℕ → (Fin L → β) × (Fin L × ι → ℝ) × ℝ) (c : ((ι → ℝ) × (ι → ℝ)) × Bool)
          (q : ((ι → ℝ) × (ι → ℝ)) × (ℕ → ι → ℝ)), (drive (massDrive lay γ burnIn cov L sg fullPot U f₀ ms prm)
          (fun (c : ((ι → ℝ) × (ι → ℝ)) × Bool) (q : ((ι → ℝ) × (ι → ℝ)) × (ℕ → ι → ℝ)) => (q.1, c.2)) l k V (c, q)).1.2 = c.2 := by
        intro l
        induction l with
        | nil => intros; rfl
        | cons a l ih => intro k V c q; rw [drive]; exact ih _ _ _ _
      exact gen _ _ _ _ _
    have e1 : prob {ω | (∀ i, 0 < Spec.popCov (Spec.massAdaptedSamples (P ω) lay γ burnIn cov cm L (data ω) d₀ sg
        fullPot f₀ ms x₀ key ps) i i) ∧
      (amagoldGet (Spec.massAdaptedState (P ω) lay γ burnIn cov cm L (data ω) d₀ sg fullPot f₀ ms x₀ key
        (ps ++ List.replicate n p))).vars ∈ A} = prob (Y ⁻¹' {y | y.2 = true ∧ y.1.1 ∈ A}) := by
      refine measure_congr ?_
      filter_upwards [hsample, hiff] with ω hω hi
      refine propext ?_
      show ((∀ i, 0 < Spec.popCov _ i i) ∧ _) ↔ (Y ω).2 = true ∧ (Y ω).1.1 ∈ A
      rw [hkeep]
      refine ⟨fun ⟨g1, g2⟩ => ⟨hi.1 g1, ?_⟩, fun ⟨g1, g2⟩ => ⟨hi.2 g1, ?_⟩⟩
      · rw [hω.2.2 g1 n hn] at g2
        rw [hYdef]
        dsimp only
        rw [hi.1 g1]
        exact g2
      · rw [hω.2.2 (hi.2 g1) n hn]
        rw [hYdef] at g2
        dsimp only at g2
        rw [g1] at g2
        exact g2
    rw [e1, ← lintegral_indicator_one (hY' hset)]
    refine lintegral_congr fun ω => ?_
    show (Y ⁻¹' {y | y.2 = true ∧ y.1.1 ∈ A}).indicator 1 ω = if (Y ω).2 then F (Y ω).1 else 0
    by_cases h1 : (Y ω).2 = true
    · rw [if_pos h1]
      by_cases h2 : (Y ω).1.1 ∈ A
      · rw [Set.indicator_of_mem (show ω ∈ Y ⁻¹' {y | y.2 = true ∧ y.1.1 ∈ A} from ⟨h1, h2⟩)]
        simp [F, h2]
      · rw [Set.indicator_of_notMem (show ω ∉ Y ⁻¹' {y | y.2 = true ∧ y.1.1 ∈ A} from fun h => h2 h.2)]
        simp [F, h2]
    · rw [if_neg h1, Set.indicator_of_notMem (show ω ∉ Y ⁻¹' {y | y.2 = true ∧ y.1.1 ∈ A} from fun h => h1 h.1)]
  have hfinal := (ENNReal.tendsto_toReal (ENNReal.mul_ne_top (measure_ne_top prob E) ENNReal.ofReal_ne_top)).comp hint
  rw [ENNReal.toReal_mul, ENNReal.toReal_ofReal hM0] at hfinal
  refine hfinal.congr' ?_
  filter_upwards [eventually_gt_atTop 0] with n hn
  show (∫⁻ ω, K n ω ∂prob).toReal = _
  rw [← hleft n hn]
  rfl

include hR hlay hγ hb hcov hG hGm hGb hU hD hfp hx₀ hps hp in
/-- **C157.** With at least two updates in the burn in and positive step sizes: under the condition that all variances of the
samples of the burn in are positive, the distribution of the sample reported after `n` further updates converges to the
posterior on every event. -/
theorem c157_conditional (hb2 : 2 ≤ burnIn) (hps1 : ∀ q ∈ ps, 0 < q.stepSize) (hL : 2 ≤ L)
    (hw : ∀ b, w (fun i => b (Fin.rev i)) = w b) (hw1 : ∑' b, w b = 1)
    (hZ0 : Spec.posterior U D Set.univ ≠ 0) (hZ : Spec.posterior U D Set.univ ≠ ⊤) {A : Set (ι → ℝ)} (hA : MeasurableSet A) :
    let E := {ω | ∀ i, 0 < Spec.popCov (Spec.massAdaptedSamples (P ω) lay γ burnIn cov cm L (data ω) d₀ sg
        fullPot f₀ ms x₀ key ps) i i}
    0 < prob.real E ∧
    Tendsto (fun n => prob.real (E ∩ {ω | (amagoldGet (Spec.massAdaptedState (P ω) lay γ burnIn cov cm L (data ω) d₀ sg fullPot
        f₀ ms x₀ key (ps ++ List.replicate n p))).vars ∈ A}) / prob.real E) atTop
      (𝓝 ((Spec.posterior U D).real A / (Spec.posterior U D).real Set.univ)) := by
  intro E
  have h1 : 0 < prob.real E := ENNReal.toReal_pos (c149_positive hR hlay key hγ hb hcov cm sg hG hGm fullPot hU hD hfp f₀ ms hx₀
    hps hb2 hps1 hL hw1 hZ0).ne' (measure_ne_top _ _)
  refine ⟨h1, ?_⟩
  have h2 := (c157_joint hR hlay key hγ hb hcov cm sg hG hGm hGb fullPot hU hD hfp f₀ ms hx₀ hps (fun q hq => (hps1 q hq).le) hp
    hL hw hw1 hZ0 hZ hA).div_const (prob.real E)
  rw [mul_div_assoc, mul_comm, div_mul_cancel₀ _ h1.ne'] at h2
  exact h2

end

/-- The hypotheses can be met: the run of the example of C149, with a burn in of three updates. -/
example {A : Set (Fin 1 → ℝ)} (hA : MeasurableSet A) :
    let state := fun (prms : List Params) (ω : IdealSpace.Space 2 Bool) => Spec.massAdaptedState (IdealSpace.gen ω)
      (Spec.vectorLayout 1) 1 3 (fun _ => 1 / 4) none 2 (IdealSpace.batches ω) 0 halfGrad boxPot () () 0 [] prms
    let xs := fun (prms : List Params) (ω : IdealSpace.Space 2 Bool) => Spec.massAdaptedSamples (IdealSpace.gen ω)
      (Spec.vectorLayout 1) 1 3 (fun _ => 1 / 4) none 2 (IdealSpace.batches ω) 0 halfGrad boxPot () () 0 [] prms
    let ps : List Params := [⟨1 / 2, 1⟩, ⟨1 / 2, 1⟩, ⟨1 / 4, 1⟩]
    let law := IdealSpace.law (PMF.uniformOfFintype (Fin 2 → Bool))
    let E := {ω | ∀ i, 0 < Spec.popCov (xs ps ω) i i}
    0 < law.real E ∧
    Tendsto (fun n => law.real (E ∩ {ω | (amagoldGet (state (ps ++ List.replicate n ⟨1 / 8, 1⟩) ω)).vars ∈ A}) / law.real E) atTop
      (𝓝 ((Spec.posterior (fun x : Fin 1 → ℝ => x 0) (Set.Icc 0 1)).real A /
        (Spec.posterior (fun x : Fin 1 → ℝ => x 0) (Set.Icc 0 1)).real Set.univ)) := by
  intro state xs ps law
  have hU : Measurable fun x : Fin 1 → ℝ => x 0 := measurable_pi_apply 0
  have hv : Spec.Layout.Valid (Spec.vectorLayout 1) :=
    ⟨Spec.vectorLayout_injective 1, fun _ => Nat.one_pos, fun i => i.2⟩
  have hpr : IsProbabilityMeasure law := by
    show IsProbabilityMeasure (IdealSpace.law _)
    unfold IdealSpace.law; infer_instance
  have hfp : Spec.PotentialOn boxPot (fun x : Fin 1 → ℝ => x 0) (Set.Icc 0 1) :=
    ⟨fun x f ms h => if_pos h, fun x f ms h => Or.inl (if_neg h)⟩
  have hx : (0 : Fin 1 → ℝ) ∈ Set.Icc (0 : Fin 1 → ℝ) 1 := ⟨le_refl _, fun _ => zero_le_one⟩
  have hp : ∀ q ∈ ps, 0 < q.stepSize := by
    intro q hq
    simp only [ps, List.mem_cons, List.not_mem_nil, or_false] at hq
    rcases hq with rfl | rfl | rfl <;> norm_num
  have hcov : ∀ _ : Fin 1, (0 : ℝ) < 1 / 4 := fun _ => by norm_num
  refine c157_conditional (burnIn := 3) (IdealSpace.ideal _) hv [] one_pos (by norm_num) hcov none halfGrad
    (G := fun _ b _ => if b then 1 else 0) (fun _ _ _ => rfl) (fun _ => measurable_const) (fun R => ⟨1, fun b q _ => ?_⟩) boxPot hU
    measurableSet_Icc hfp () () hx rfl (p := ⟨1 / 8, 1⟩) (by norm_num) (by norm_num) hp le_rfl (fun b => by simp) (PMF.tsum_coe _)
    trunc_proper.1 trunc_proper.2 hA
  refine (pi_norm_le_iff_of_nonneg zero_le_one).2 fun _ => ?_
  cases b <;> simp

end JaxSgmc
