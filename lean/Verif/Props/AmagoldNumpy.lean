import Verif.Props.SgldNumpy
import Verif.Props.HostFull
import Verif.Props.AmagoldRun

/-!
# C140: AMAGOLD with a `NumpyDataLoader` samples the exact posterior of the data set
-/

namespace JaxSgmc

open MeasureTheory ProbabilityTheory Filter Topology

variable {ι κ σ ρ Ω : Type}

/-! ## Replacing mini-batches by indices -/

section
variable [Fintype ι] {β β' μ : Type}

theorem revForAmagold_batches (P : Prng κ) (lay : Layout ι) (γ : ℝ) (cm : Option (ι → ℝ)) (L : ℕ) {b : ℕ → β} {b' : ℕ → β'}
    {sg : StochGrad ι β μ} {sg' : StochGrad ι β' μ} (h : ∀ k x ms, sg x (b k) ms = sg' x (b' k) ms) :
    revForAmagold P lay γ cm L (Spec.batchSource b) sg = revForAmagold P lay γ cm L (Spec.batchSource b') sg' := by
  have hb : ∀ (prm : Params) (m : MassMatrix ι), revBody P lay γ (Spec.batchSource b) sg prm m =
      revBody P lay γ (Spec.batchSource b') sg' prm m := by
    intro prm m
    funext s k
    unfold revBody Spec.batchSource
    simp only [h]
  funext s prm mass
  unfold revForAmagold revIntegrate
  simp only [hb]

end

section
variable {R : Rng σ} {devices : ℕ} {objs : ℕ → Loader σ ρ} {loader mb seed mbf : ℕ} [Fintype ι] [DecidableEq ι]
  {prior : (ι → ℝ) → ℝ} {lik : Likelihood ℝ (List (String × Option ρ)) Empty (ι → ℝ)} {strategy : Strategy}
  {ℓ : (ι → ℝ) → List (String × Option ρ) → ℝ} (hℓ : ∀ y, Spec.LogLik lik y (ℓ y)) (hsm : ∀ x, Spec.SmoothAt ℓ prior x)
  {N : ℕ} (hN : 0 < N) {obs : Fin N → List (String × Option ρ)}
  (hd : Spec.IsDataset ((objs loader).data.map fun c => (c.1, c.2.map some)) N obs) (hobs : (objs loader).obsCount = N)
  (hmb : Spec.BatchFits lik mb) {lay : Layout ι}

/-- The mini-batch potential with its gradient as a function of the drawn indices. -/
noncomputable def indexGrad {N mb : ℕ} (prior : (ι → ℝ) → ℝ) (lik : Likelihood ℝ (List (String × Option ρ)) Empty (ι → ℝ))
    (strategy : Strategy) (obs : Fin N → List (String × Option ρ)) : StochGrad ι (Fin mb → Fin N) (Option Empty) := fun x d ms =>
  potentialGrad prior lik strategy 1 x (List.ofFn fun k => obs (d k), ⟨N, mb, List.replicate mb true⟩) ms

include hℓ hsm hmb in
theorem indexGrad_eq (hms : ∀ y, Spec.StateFits lik y none) (x : ι → ℝ) (d : Fin mb → Fin N) (ms : Option Empty) :
    (indexGrad prior lik strategy obs x d ms).2 = dataGrad ℓ prior obs x d := by
  have hn : ms = none := by
    cases ms with
    | none => rfl
    | some e => exact e.elim
  subst hn
  have hrows : Spec.BatchFits lik (List.ofFn fun k => obs (d k)).length := by rw [List.length_ofFn]; exact hmb
  obtain ⟨-, -, -, -, -, -, h, -⟩ := c105_gradient prior lik strategy 1 (List.ofFn fun k => obs (d k))
    ⟨N, mb, List.replicate mb true⟩ none ℓ hℓ hms hrows x (hsm x)
  unfold indexGrad
  rw [h]
  exact (potentialGradLik_data hℓ hsm hmb hms x d _).1

include hd hobs in
theorem exactPotential_data (hN : 0 < N) (x : ι → ℝ) :
    Spec.exactPotential (ℓ x) (prior x) 1 ((List.range (objs loader).obsCount).map (batchRow (objs loader).data)) =
      Spec.dataPotential ℓ prior obs x := by
  have e : (List.range (objs loader).obsCount).map (batchRow (objs loader).data) = List.ofFn obs := by
    rw [hobs]
    refine List.ext_getElem (by simp) fun i h1 h2 => ?_
    have hi : i < N := by simpa using h1
    rw [List.getElem_map, List.getElem_range, List.getElem_ofFn]
    exact batchRow_eq hd ⟨i, hi⟩
  rw [e]
  unfold Spec.exactPotential Spec.dataPotential
  rw [div_one, List.map_ofFn, List.sum_ofFn]
  rfl

include hℓ hd hobs in
/-- The run with the host data loader is a run with drawn indices and the exact potential of the data set. -/
theorem numpy_amagold (P : Prng κ) (hR : R.Lawful) (hdev : 1 ≤ devices) (hobjs : ∀ i, ∃ data, mkLoader data = .ok (objs i))
    (junk : List (String × List ρ) × List Bool) {d f : HostData (Loader σ ρ) NumpyKw (List (String × List ρ) × List Bool)}
    (hst : Spec.RandomStreamOf R devices objs loader mb seed d) (hmbf : 0 < mbf) (hfs : Spec.FullStreamOf R devices objs loader mbf f)
    (hms : ∀ y, Spec.StateFits lik y none) (γ : ℝ) (cm : Option (ι → ℝ)) (L : ℕ) (x₀ : ι → ℝ) (key : κ) (prms : List Params) :
    Spec.amagoldSamples P lay γ cm L (hostDataSource (numpyHost R) devices junk) d (hostGrad prior lik strategy 1 N mb)
      (hostFullPot R prior lik strategy 1 devices N mbf) f none x₀ key prms =
    Spec.amagoldSamples P lay γ cm L (Spec.batchSource (numpyIndices hN mb seed R)) 0 (indexGrad prior lik strategy obs)
      (Spec.exactFull (Spec.dataPotential ℓ prior obs)) () none x₀ key prms := by
  obtain ⟨b, hb, hrows⟩ := random_stream hR hobjs hst
  have hlen : ∀ k, (Spec.nthDraw (fun g => R.choiceRepl g N mb) (R.seed seed) k).length = mb := fun k => hR.replLength _ _ _ hN
  have hlt : ∀ k, ∀ i ∈ Spec.nthDraw (fun g => R.choiceRepl g N mb) (R.seed seed) k, i < N := fun k i hi => hR.replLt _ _ _ _ hN hi
  have hbatch : ∀ k, hostBatch N mb (b k) = (List.ofFn fun i => obs (numpyIndices hN mb seed R k i), ⟨N, mb, List.replicate mb true⟩) :=
      fun k => by
    have h := (hrows k).2
    rw [hobs] at h
    rw [hostBatch_eq hN hd (hlen k) (hlt k) h, (hrows k).1]
    rfl
  have hrev := revForAmagold_batches P lay γ cm L (b := b) (b' := numpyIndices hN mb seed R)
    (sg := hostGrad prior lik strategy 1 N mb) (sg' := indexGrad prior lik strategy obs) (by
      intro k x ms
      unfold hostGrad indexGrad
      rw [hbatch])
  have hfull : SimFull (fun x (_ : Unit) => ∃ m : ℕ, x = (fun x => (hostFullSource (numpyHost R) devices x).2)^[m * ceilDiv N mbf] f)
      (hostFullPot R prior lik strategy 1 devices N mbf) (Spec.exactFull (Spec.dataPotential ℓ prior obs)) := by
    have h := hostFull_sim hdev hobjs hmbf hfs prior lik strategy 1 ℓ hℓ hms
    simp only [exactPotential_data (prior := prior) (ℓ := ℓ) hd hobs hN] at h
    rw [hobs] at h
    exact h
  unfold Spec.amagoldSamples
  refine List.map_congr_left fun k _ => ?_
  show (Spec.amagoldState _ _ _ _ _ _ _ _ _ _ _ _ _ _).integratorState.positions =
    (Spec.amagoldState _ _ _ _ _ _ _ _ _ _ _ _ _ _).integratorState.positions
  unfold Spec.amagoldState
  rw [← hrev]
  have h1 := amagoldRun_sim P (none : Option (MassAdaption ι Unit)) _ _ (fun s s' p m hs =>
      revForAmagold_sim (host_same hR hdev hobjs junk hb) P lay γ cm L (hostGrad prior lik strategy 1 N mb) s s' p m hs)
    (hostFullPot R prior lik strategy 1 devices N mbf) (prms.take (k + 1))
    (amagoldInit P none (revInitForAmagold P lay cm d) (hostFullPot R prior lik strategy 1 devices N mbf) f x₀ key none)
    (amagoldInit P none (revInitForAmagold P lay cm 0) (hostFullPot R prior lik strategy 1 devices N mbf) f x₀ key none)
    ⟨⟨rfl, rfl⟩, rfl, rfl, rfl, rfl, rfl, rfl⟩
  rw [← h1.1.fields.2.2.1]
  have hi := amagoldInit_full hfull P (none : Option (MassAdaption ι Unit)) (revInitForAmagold P lay cm 0)
    f () ⟨0, by rw [Nat.zero_mul]; rfl⟩ x₀ key none
  have h2 := amagoldRun_full hfull P none (revForAmagold P lay γ cm L (Spec.batchSource b) (hostGrad prior lik strategy 1 N mb))
    (prms.take (k + 1)) _ _ hi
  rw [h2.1]

end

/-! ## C140 -/

theorem posterior_ne_zero [Fintype ι] {U : (ι → ℝ) → ℝ} (hU : Measurable U) : Spec.posterior U Set.univ Set.univ ≠ 0 := by
  unfold Spec.posterior
  rw [Measure.restrict_univ, withDensity_apply _ MeasurableSet.univ, Measure.restrict_univ]
  intro h
  rw [lintegral_eq_zero_iff (by fun_prop)] at h
  have h2 : ∀ᵐ q ∂(volume : Measure (ι → ℝ)), False := by
    filter_upwards [h] with q hq
    rw [Pi.zero_apply, ENNReal.ofReal_eq_zero] at hq
    exact absurd (Real.exp_pos _) (not_lt.2 hq)
  rw [eventually_false_iff_eq_bot, ae_eq_bot] at h2
  exact NeZero.ne _ h2

section
variable [Fintype ι] [DecidableEq ι] {devices : ℕ} (hdev : 1 ≤ devices) {objs : ℕ → Loader σ ρ}
  (hobjs : ∀ i, ∃ data, mkLoader data = .ok (objs i)) {loader mb seed mbf : ℕ}
  {prior : (ι → ℝ) → ℝ} {lik : Likelihood ℝ (List (String × Option ρ)) Empty (ι → ℝ)} {strategy : Strategy}
  {ℓ : (ι → ℝ) → List (String × Option ρ) → ℝ} (hℓ : ∀ y, Spec.LogLik lik y (ℓ y)) (hsm : ∀ x, Spec.SmoothAt ℓ prior x)
  {N : ℕ} (hN : 0 < N) {obs : Fin N → List (String × Option ρ)}
  (hd : Spec.IsDataset ((objs loader).data.map fun c => (c.1, c.2.map some)) N obs) (hobs : (objs loader).obsCount = N)
  (hmb : Spec.BatchFits lik mb) {lay : Layout ι} (hlay : Spec.Layout.Valid lay)
  [MeasurableSpace Ω] {prob : Measure Ω} [IsProbabilityMeasure prob] {P : Ω → Prng κ} {R : Ω → Rng σ} {sp : κ → ℕ → ℕ → κ}
  (hK : Spec.IdealNumpy prob P R N mb seed sp)
  {d full : Ω → HostData (Loader σ ρ) NumpyKw (List (String × List ρ) × List Bool)}
  (hst : ∀ ω, Spec.RandomStreamOf (R ω) devices objs loader mb seed (d ω)) {junk : List (String × List ρ) × List Bool}
  (hmbf : 0 < mbf) (hfs : ∀ ω, Spec.FullStreamOf (R ω) devices objs loader mbf (full ω)) (hms : ∀ y, Spec.StateFits lik y none)
  (hnorm : Spec.posterior (Spec.dataPotential ℓ prior obs) Set.univ Set.univ ≠ ⊤)
  {γ : ℝ} (hγ : 0 < γ) (cm : Option (ι → ℝ)) (hm : Spec.MassOk (Spec.usedMass none cm)) {L : ℕ} (hL : 2 ≤ L) (x₀ : ι → ℝ) (key : κ)
  (prm : Params) (hh : 0 < prm.stepSize) {f : (ι → ℝ) → ℝ} (hf : Measurable f) {C : ℝ} (hC : ∀ q, |f q| ≤ C)

include hsm in
omit [DecidableEq ι] in
theorem dataPotential_measurable : Measurable (Spec.dataPotential ℓ prior obs) := by
  have h : Continuous (Spec.dataPotential ℓ prior obs) := by
    unfold Spec.dataPotential
    refine Continuous.neg (Continuous.add (continuous_finsetSum _ fun j _ => ?_) ?_)
    · exact continuous_iff_continuousAt.2 fun x => ((hsm x).1 _).continuousAt
    · exact continuous_iff_continuousAt.2 fun x => (hsm x).2.continuousAt
  exact h.measurable

theorem uniform_draws_one (hN : 0 < N) (mb L : ℕ) : ∑' _ : Fin L → Fin mb → Fin N, (((N : ENNReal) ^ mb) ^ L)⁻¹ = 1 := by
  rw [tsum_fintype, Finset.sum_const, Finset.card_univ, Fintype.card_fun, Fintype.card_fun, Fintype.card_fin, Fintype.card_fin,
    Fintype.card_fin, nsmul_eq_mul, Nat.cast_pow, Nat.cast_pow]
  exact ENNReal.mul_inv_cancel (pow_ne_zero _ (pow_ne_zero _ (Nat.cast_ne_zero.2 hN.ne')))
    (ENNReal.pow_ne_top (ENNReal.pow_ne_top (ENNReal.natCast_ne_top _)))

include hdev hobjs hℓ hsm hN hd hobs hmb hlay hK hst hmbf hfs hms hnorm hγ hm hL hh hf hC in
/-- **C140 (mean square).** AMAGOLD with proposals from mini-batches drawn with replacement by a `NumpyDataLoader` and with the
acceptance test from the full data map of the same loader: the mean of every bounded function over the samples reported by a
run with constant step size converges in mean square to its mean under the exact posterior of the data set, for every step
size, friction, mass, number of leapfrog steps, batch size and cache size. -/
theorem c140_mean_square :
    Tendsto (fun n => ∫⁻ ω, ENNReal.ofReal ((Spec.meanOver f (Spec.amagoldSamples (P ω) lay γ cm L
        (hostDataSource (numpyHost (R ω)) devices junk) (d ω) (hostGrad prior lik strategy 1 N mb)
        (hostFullPot (R ω) prior lik strategy 1 devices N mbf) (full ω) none x₀ key (List.replicate n prm)) -
      Spec.posteriorMean (Spec.dataPotential ℓ prior obs) Set.univ f) ^ 2) ∂prob) atTop (𝓝 0) := by
  have : Inhabited (Fin mb → Fin N) := ⟨fun _ => ⟨0, hN⟩⟩
  have hU := dataPotential_measurable (obs := obs) hsm
  have e := fun (ω : Ω) (prms : List Params) => numpy_amagold (prior := prior) (strategy := strategy) (lay := lay) hℓ hN hd hobs (P ω) (hK.lawful ω) hdev
    hobjs junk (hst ω) hmbf (hfs ω) hms γ cm L x₀ key prms
  simp only [e]
  exact c131_mean_square (numpy_ideal hK hN L) hlay key cm hm (indexGrad prior lik strategy obs)
    (fun x b ms => indexGrad_eq hℓ hsm hmb hms x b ms) (fun b => dataGrad_measurable hsm b)
    (Spec.exactFull (Spec.dataPotential ℓ prior obs)) hU MeasurableSet.univ ⟨fun _ _ _ _ => rfl, fun _ _ _ h => absurd trivial h⟩
    () none (Set.mem_univ x₀) hγ hL (fun _ => rfl) (uniform_draws_one hN mb L) prm hh (posterior_ne_zero hU) hnorm hf hC

include hdev hobjs hℓ hsm hN hd hobs hmb hlay hK hst hmbf hfs hms hnorm hγ hm hL hh hf hC in
/-- **C140 (probability).** The probability that the mean over the samples reported by such a run differs from the mean under the
posterior of the data set by `ε` or more converges to zero as the number of updates grows. -/
theorem c140_probability {ε : ℝ} (hε : 0 < ε) :
    Tendsto (fun n => prob {ω | ε ≤ |Spec.meanOver f (Spec.amagoldSamples (P ω) lay γ cm L
        (hostDataSource (numpyHost (R ω)) devices junk) (d ω) (hostGrad prior lik strategy 1 N mb)
        (hostFullPot (R ω) prior lik strategy 1 devices N mbf) (full ω) none x₀ key (List.replicate n prm)) -
      Spec.posteriorMean (Spec.dataPotential ℓ prior obs) Set.univ f|}) atTop (𝓝 0) := by
  have : Inhabited (Fin mb → Fin N) := ⟨fun _ => ⟨0, hN⟩⟩
  have hU := dataPotential_measurable (obs := obs) hsm
  have e := fun (ω : Ω) (prms : List Params) => numpy_amagold (prior := prior) (strategy := strategy) (lay := lay) hℓ hN hd hobs (P ω) (hK.lawful ω) hdev
    hobjs junk (hst ω) hmbf (hfs ω) hms γ cm L x₀ key prms
  simp only [e]
  exact c131_probability (numpy_ideal hK hN L) hlay key cm hm (indexGrad prior lik strategy obs)
    (fun x b ms => indexGrad_eq hℓ hsm hmb hms x b ms) (fun b => dataGrad_measurable hsm b)
    (Spec.exactFull (Spec.dataPotential ℓ prior obs)) hU MeasurableSet.univ ⟨fun _ _ _ _ => rfl, fun _ _ _ h => absurd trivial h⟩
    () none (Set.mem_univ x₀) hγ hL (fun _ => rfl) (uniform_draws_one hN mb L) prm hh (posterior_ne_zero hU) hnorm hf hC hε

end

/-- The hypotheses of C140 can be met: with ideal generators, AMAGOLD with step size 1/2, two leapfrog steps per update,
mini-batches of one observation drawn from two observations by a `NumpyDataLoader` through a cache of three mini-batches, and
the potential of the full data computed in batches of two observations. -/
example (junk : List (String × List ℝ) × List Bool) (ε : ℝ) (hε : 0 < ε) :
    Tendsto (fun n => IdealNumpySpace.law 2 1 {ω | ε ≤ |Spec.meanOver (fun q => max 0 (min 1 (q 0)))
        (Spec.amagoldSamples (IdealSpace.gen ω) (Spec.vectorLayout 1) 1 (some fun _ => 4) 2
          (hostDataSource (numpyHost (IdealNumpySpace.rng ω)) 1 junk)
          (firstChain (IdealNumpySpace.rng ω) 1 meanObjs 0 3 1 (.random false false (some 7)))
          (hostGrad meanPrior (.plain hostMeanLik) .vmap 1 2 1)
          (hostFullPot (IdealNumpySpace.rng ω) meanPrior (.plain hostMeanLik) .vmap 1 1 2 2)
          (firstChain (IdealNumpySpace.rng ω) 1 meanObjs 0 5 2 .ordered) (none : Option Empty) 0 [1] (List.replicate n ⟨1 / 2, 1⟩)) -
      Spec.posteriorMean (Spec.dataPotential hostMeanLik meanPrior hostMeanObs) Set.univ (fun q => max 0 (min 1 (q 0)))|})
    atTop (𝓝 0) := by
  have hv : Spec.Layout.Valid (Spec.vectorLayout 1) :=
    ⟨Spec.vectorLayout_injective 1, fun _ => Nat.one_pos, fun i => i.2⟩
  have hprob : IsProbabilityMeasure (IdealNumpySpace.law 2 1) := by
    unfold IdealNumpySpace.law IdealSpace.law
    infer_instance
  have hst : ∀ ω, Spec.RandomStreamOf (IdealNumpySpace.rng ω) 1 meanObjs 0 1 7
      (firstChain (IdealNumpySpace.rng (N := 2) (mb := 1) ω) 1 meanObjs 0 3 1 (.random false false (some 7))) :=
    fun ω => firstChain_random (given := some 7) (IdealNumpySpace.rng_lawful ω) (meanObjs_ok 0) (by norm_num) (by norm_num) (by decide)
  have hfs : ∀ ω, Spec.FullStreamOf (IdealNumpySpace.rng ω) 1 meanObjs 0 2
      (firstChain (IdealNumpySpace.rng (N := 2) (mb := 1) ω) 1 meanObjs 0 5 2 .ordered) :=
    fun ω => firstChain_ordered (meanObjs_ok 0) (by norm_num) (by norm_num) (by decide)
  refine c140_probability (le_refl 1) meanObjs_ok (lik := .plain hostMeanLik) (ℓ := hostMeanLik) (fun y r => rfl) hostMean_smooth
    (by norm_num : 0 < 2) hostMean_dataset rfl (mb := 1) (le_refl 1) hv (IdealNumpySpace.ideal 7) hst (by norm_num) hfs
    (fun y => rfl) (posterior_finite (hostMean_potential ▸ mean_convex)) one_pos (some fun _ => 4) (massOk_const fun _ => by norm_num)
    le_rfl 0 [1] ⟨1 / 2, 1⟩ (by norm_num) (by fun_prop) (C := 1) (fun q => ?_) hε
  rw [abs_of_nonneg (le_max_left _ _)]
  exact max_le zero_le_one (min_le_left _ _)

end JaxSgmc
