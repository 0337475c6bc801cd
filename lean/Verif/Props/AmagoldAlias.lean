import Verif.Props.AmagoldIntegrable
import Verif.Props.AmagoldNumpy
import Verif.Props.AmagoldDevice

/-!
# C144: `alias.amagold` samples the posterior
-/

namespace JaxSgmc

open MeasureTheory ProbabilityTheory Filter Topology

variable {ι κ δ β μ φ σ ρ Ω : Type}

/-! ## The returned samples -/

/-- The samples of the latent variables in a result of AMAGOLD. -/
theorem returnedAmagold_eq {A : Type} (st : ℕ → AmagoldState ι κ δ μ φ A) {kept : List ℕ} (hk : 0 < kept.length)
    {r : SaveResult (OutLeaf ι μ)} (h : Spec.ReturnedSamples (kept.map fun j => Spec.reportedAmagold (st j)) r) :
    Spec.returnedVariables r = kept.map fun j => (st j).integratorState.positions := by
  have hrow : ∀ (j k : ℕ), kept[j]? = some k → r.samples.map (fun l => l[j]?) = (Spec.reportedAmagold (st k)).map some :=
    fun j k hj => h.row j _ (by rw [List.getElem?_map, hj]; rfl)
  have hrows := h.rows
  rw [List.length_map] at hrows
  have h0 := hrow 0 _ (List.getElem?_eq_getElem hk)
  unfold Spec.returnedVariables
  generalize r.samples = t at hrow hrows h0 ⊢
  cases t with
  | leaf l => simp [Spec.reportedAmagold, Spec.sampleDict, Tree.map] at h0
  | none => simp [Spec.reportedAmagold, Spec.sampleDict, Tree.map] at h0
  | node k ts =>
    simp only [Spec.reportedAmagold, Spec.sampleDict, Tree.map, Tree.node.injEq, List.map_cons, List.map_nil] at h0
    obtain ⟨rfl, h1⟩ := h0
    rcases ts with _ | ⟨t1, _ | ⟨t2, _ | ⟨t3, _ | ⟨t4, _ | ⟨t5, _ | ⟨t6, ts⟩⟩⟩⟩⟩⟩ <;>
      simp only [Tree.mapL, List.cons.injEq, and_true, reduceCtorEq, and_false] at h1
    obtain ⟨-, -, -, -, h5⟩ := h1
    cases t5 with
    | none => simp [Tree.map] at h5
    | node => simp [Tree.map] at h5
    | leaf l =>
      have hz : (List.zip ["acceptance_ratio".toList, "energy".toList, "model_state".toList, "step_size".toList, "variables".toList]
          [t1, t2, t3, t4, Tree.leaf l]).lookup "variables".toList = some (Tree.leaf l) := by
        simp [List.lookup]
      show (match (List.zip ["acceptance_ratio".toList, "energy".toList, "model_state".toList, "step_size".toList,
          "variables".toList] [t1, t2, t3, t4, Tree.leaf l]).lookup "variables".toList with
        | some (.leaf l) => Spec.vectorLeaves l
        | _ => []) = _
      rw [hz]
      refine vectorLeaves_map _ _ ?_ fun j x hx => ?_
      · rw [List.length_map]
        refine hrows l ?_
        simp [Tree.leaves, Tree.leavesL]
      · rw [List.getElem?_map] at hx
        cases hkj : kept[j]? with
        | none => rw [hkj] at hx; simp at hx
        | some k =>
          rw [hkj, Option.map_some, Option.some.injEq] at hx
          have := hrow j k hkj
          simp only [Spec.reportedAmagold, Spec.sampleDict, Tree.map, Tree.node.injEq, List.map_cons, List.map_nil,
            Tree.mapL, List.cons.injEq, Tree.leaf.injEq] at this
          rw [this.2.2.2.2.2.1, hx]

theorem paramsUpTo_take (step : ℕ → ℝ) (τ : ℝ) {n its : ℕ} (h : n ≤ its) :
    (Spec.paramsUpTo step τ its).take n = Spec.paramsUpTo step τ n := by
  unfold Spec.paramsUpTo
  rw [← List.map_take, List.take_range, min_eq_left h]

section
variable [Fintype ι]

/-- The mean over the samples of a chain returned by `alias.amagold`. -/
theorem aliasAmagold_mean {P : Prng κ} {key : κ} {lay : Layout ι} {γ : ℝ} {cm : Option (ι → ℝ)} {L : ℕ} {data : δ → δ × β}
    {sg : StochGrad ι β μ} {fullPot : FullPotFn ι φ μ} {ms : μ} {x₀ : ι → ℝ} {d₀ : δ} {f₀ : φ} {step : ℕ → ℝ} {kept : List ℕ}
    {burnIn its accepted : ℕ} (hT : Spec.Thinned burnIn its accepted kept) (ha : 0 < accepted)
    {chains : List ((ι → ℝ) × δ × φ)} {j : ℕ} (hj : chains[j]? = some (x₀, d₀, f₀)) {rs : List (SaveResult (OutLeaf ι μ))}
    (h : List.Forall₂ (fun c r => Spec.ReturnedSamples (kept.map fun i => Spec.reportedAmagold
      (amagoldRun P (none : Option (MassAdaption ι Unit)) (revForAmagold P lay γ cm L data sg) fullPot
        (amagoldInit P none (revInitForAmagold P lay cm c.2.1) fullPot c.2.2 c.1 key ms)
        (Spec.paramsUpTo step 1 (i + 1)))) r) chains rs) (f : (ι → ℝ) → ℝ) :
    Spec.meanOver f (Spec.chainVariables rs j) = Spec.meanOn f kept.toFinset
      (Spec.amagoldSamples P lay γ cm L data d₀ sg fullPot f₀ ms x₀ key (Spec.paramsUpTo step 1 its)) := by
  obtain ⟨hlen, h4⟩ := List.forall₂_iff_get.1 h
  obtain ⟨hj1, hj2⟩ := List.getElem?_eq_some_iff.1 hj
  have hj3 : j < rs.length := hlen ▸ hj1
  have h5 := h4 j hj1 hj3
  have hc : chains.get ⟨j, hj1⟩ = (x₀, d₀, f₀) := hj2
  rw [hc] at h5
  have hnd : kept.Nodup := hT.increasing.imp fun h => ne_of_lt h
  have hv : Spec.chainVariables rs j = kept.map fun i =>
      (Spec.amagoldSamples P lay γ cm L data d₀ sg fullPot f₀ ms x₀ key (Spec.paramsUpTo step 1 its)).getD i 0 := by
    unfold Spec.chainVariables
    rw [List.getElem?_eq_getElem hj3]
    refine (returnedAmagold_eq (fun i => amagoldRun P (none : Option (MassAdaption ι Unit)) (revForAmagold P lay γ cm L data sg) fullPot
        (amagoldInit P none (revInitForAmagold P lay cm d₀) fullPot f₀ x₀ key ms)
        (Spec.paramsUpTo step 1 (i + 1))) (hT.count ▸ ha) h5).trans ?_
    refine List.map_congr_left fun i hi => ?_
    have hi2 := (hT.range i hi).2
    have hl : (Spec.paramsUpTo step 1 its).length = its := by simp [Spec.paramsUpTo]
    unfold Spec.amagoldSamples
    rw [List.getD_eq_getElem?_getD, List.getElem?_map, hl, List.getElem?_range hi2, Option.map_some, Option.getD_some,
      paramsUpTo_take _ _ (show i + 1 ≤ its from hi2)]
    rfl
  rw [hv]
  unfold Spec.meanOver Spec.meanOn
  rw [List.length_map, List.map_map, List.toFinset_card_of_nodup hnd, List.sum_toFinset _ hnd]
  rfl

omit [Fintype ι] in
theorem steps_between {first last : ℝ} {its : ℕ} {step : ℕ → ℝ} (h : Spec.DecreasingSteps first last its step) :
    Spec.StepsBetween last first (Spec.paramsUpTo step 1 its) := by
  intro p hp
  obtain ⟨i, hi, rfl⟩ := List.mem_map.1 hp
  have hi := List.mem_range.1 hi
  constructor
  · rcases Nat.lt_or_ge i (its - 1) with h1 | h1
    · exact h.finish ▸ (h.decreasing i (its - 1) h1).le
    · rw [show i = its - 1 by omega]; exact h.finish.ge
  · rcases Nat.eq_zero_or_pos i with h1 | h1
    · rw [h1]; exact h.start.le
    · exact h.start ▸ (h.decreasing 0 i h1).le

theorem dataGrad_bounded [DecidableEq ι] {ℓ : (ι → ℝ) → List (String × ρ) → ℝ} {prior : (ι → ℝ) → ℝ} {N mb : ℕ}
    {obs : Fin N → List (String × ρ)} (h : Spec.ContinuousGradients ℓ prior obs) :
    Spec.LocallyBounded fun (x : ι → ℝ) (d : Fin mb → Fin N) => dataGrad ℓ prior obs x d := by
  intro R
  have hc : ∀ d : Fin mb → Fin N, Continuous fun x : ι → ℝ => dataGrad ℓ prior obs x d := fun d => by
    refine continuous_pi fun i => ?_
    unfold dataGrad
    exact ((continuous_const.mul (continuous_finsetSum _ fun k _ => h.likelihood (d k) i)).add (h.prior i)).neg
  have hb : ∀ d : Fin mb → Fin N, ∃ B : ℝ, ∀ x : ι → ℝ, ‖x‖ ≤ R → ‖dataGrad ℓ prior obs x d‖ ≤ B := fun d => by
    obtain ⟨B, hB⟩ := (isCompact_closedBall (0 : ι → ℝ) R).exists_bound_of_continuousOn (hc d).continuousOn
    exact ⟨B, fun x hx => hB x (mem_closedBall_zero_iff.2 hx)⟩
  choose B hB using hb
  obtain ⟨M, hM⟩ := (Set.finite_range B).bddAbove
  exact ⟨M, fun d x hx => (hB d x hx).trans (hM ⟨d, rfl⟩)⟩

end

/-! ## C144 -/

section
variable [Fintype ι] [Inhabited β] [Countable β] [MeasurableSpace β] [MeasurableSingletonClass β] [MeasurableSpace Ω]
  {prob : Measure Ω} [IsProbabilityMeasure prob]
  {P : Ω → Prng κ} {data : Ω → δ → δ × β} {d₀ : δ} {L : ℕ} {w : (Fin L → β) → ENNReal} {sp : κ → ℕ → ℕ → κ}
  (hR : Spec.IdealRandom prob P data d₀ L w sp) {lay : Layout ι} (hlay : Spec.Layout.Valid lay)
  {γ : ℝ} (cm : Option (ι → ℝ)) (hm : Spec.MassOk (Spec.usedMass none cm))
  (sg : StochGrad ι β μ) {G : (ι → ℝ) → β → (ι → ℝ)} (hG : ∀ x b ms, (sg x b ms).2 = G x b)
  (hGm : ∀ b, Measurable fun x => G x b) (hGb : Spec.LocallyBounded G) (fullPot : FullPotFn ι φ μ) {U : (ι → ℝ) → ℝ}
  (hU : Measurable U) {D : Set (ι → ℝ)} (hD : MeasurableSet D) (hfp : Spec.PotentialOn fullPot U D)
  (f₀ : φ) (ms : μ) {x₀ : ι → ℝ} (hx₀ : x₀ ∈ D) (hγ : 0 < γ) (hL : 2 ≤ L)
  (hw : ∀ b, w (fun i => b (Fin.rev i)) = w b) (hw1 : ∑' b, w b = 1) {first last : ℝ} (hl : 0 < last) (hfl : last < first)
  (hZ0 : Spec.posterior U D Set.univ ≠ 0) (hZ : Spec.posterior U D Set.univ ≠ ⊤)
  {f : (ι → ℝ) → ℝ} (hf : Measurable f) (hi : Integrable f (Spec.posterior U D))

include hR hlay hm hG hGm hGb hU hD hfp hx₀ hγ hL hw hw1 hl hfl hZ0 hZ hf hi in
/-- **C144.** `alias.amagold` with `first_step_size > last_step_size > 0`: for every accuracy and confidence there is a number
`n₀` such that every run which returns at least `n₀` samples per chain (after any burn in, thinned or not, any number of chains
and any key) succeeds, and the mean over the returned samples of a chain is within the accuracy of the posterior mean with the
confidence. -/
theorem c144_alias {ε δ' : ℝ} (hε : 0 < ε) (hδ : 0 < δ') : ∃ n₀ : ℕ,
    ∀ (key : κ) (gumbel : κ → ℕ → ℝ) (bar : Bool) (zero : OutLeaf ι μ → OutLeaf ι μ) (burnIn : ℕ) (accepted : Option ℕ) (its : ℕ),
    2 ≤ its → burnIn ≤ its → burnIn + accepted.getD (its - burnIn) ≤ its → n₀ ≤ accepted.getD (its - burnIn) →
    ∀ (chains : List ((ι → ℝ) × δ × φ)) (j : ℕ), chains[j]? = some (x₀, d₀, f₀) →
    ∃ rs : Ω → List (SaveResult (OutLeaf ι μ)),
      (∀ ω, runAmagold (noSave zero) (P ω) key lay γ cm L (data ω) sg fullPot ms gumbel first last burnIn accepted bar its ()
        chains = .ok ((), rs ω)) ∧
      prob {ω | ε ≤ |Spec.meanOver f (Spec.chainVariables (rs ω) j) - Spec.posteriorMean U D f|} ≤ ENNReal.ofReal δ' := by
  obtain ⟨n₀, hn0, hn⟩ := c145_probability (u := first) hR hlay cm hm sg hG hGm hGb fullPot hU hD hfp f₀ ms hx₀ hγ hL hw hw1 hl
    hZ0 hZ hf hi hε hδ
  refine ⟨n₀, fun key gumbel bar zero burnIn accepted its hits hbi hfit hacc chains j hj => ?_⟩
  obtain ⟨step, kept, hDec, hT, hruns⟩ := c92_amagold_schedule key gumbel first last burnIn accepted bar its hl hfl hits hbi hfit
  choose rs r1 r2 r3 using fun ω => hruns zero (P ω) lay γ cm L (data ω) sg fullPot ms chains
  refine ⟨rs, r1, ?_⟩
  simp only [fun ω => aliasAmagold_mean hT (by omega) hj (r3 ω) f]
  refine hn key _ _ (steps_between hDec) (fun i hi => ?_) ?_
  · simpa [Spec.paramsUpTo] using (hT.range i (List.mem_toFinset.1 hi)).2
  · rw [List.toFinset_card_of_nodup (hT.increasing.imp fun h => ne_of_lt h), hT.count]
    exact hacc

end

section
variable [Fintype ι] [DecidableEq ι] {devices : ℕ} (hdev : 1 ≤ devices) {objs : ℕ → Loader σ ρ}
  (hobjs : ∀ i, ∃ data, mkLoader data = .ok (objs i)) {loader mb seed mbf : ℕ}
  {prior : (ι → ℝ) → ℝ} {lik : Likelihood ℝ (List (String × Option ρ)) Empty (ι → ℝ)} {strategy : Strategy}
  {ℓ : (ι → ℝ) → List (String × Option ρ) → ℝ} (hℓ : ∀ y, Spec.LogLik lik y (ℓ y)) (hsm : ∀ x, Spec.SmoothAt ℓ prior x)
  {N : ℕ} (hN : 0 < N) {obs : Fin N → List (String × Option ρ)} (hcg : Spec.ContinuousGradients ℓ prior obs)
  (hd : Spec.IsDataset ((objs loader).data.map fun c => (c.1, c.2.map some)) N obs) (hobs : (objs loader).obsCount = N)
  (hmb : Spec.BatchFits lik mb) {lay : Layout ι} (hlay : Spec.Layout.Valid lay)
  [MeasurableSpace Ω] {prob : Measure Ω} [IsProbabilityMeasure prob] {P : Ω → Prng κ} {R : Ω → Rng σ} {sp : κ → ℕ → ℕ → κ}
  (hK : Spec.IdealNumpy prob P R N mb seed sp)
  {d full : Ω → HostData (Loader σ ρ) NumpyKw (List (String × List ρ) × List Bool)}
  (hst : ∀ ω, Spec.RandomStreamOf (R ω) devices objs loader mb seed (d ω)) {junk : List (String × List ρ) × List Bool}
  (hmbf : 0 < mbf) (hfs : ∀ ω, Spec.FullStreamOf (R ω) devices objs loader mbf (full ω)) (hms : ∀ y, Spec.StateFits lik y none)
  (hnorm : Spec.posterior (Spec.dataPotential ℓ prior obs) Set.univ Set.univ ≠ ⊤)
  {γ : ℝ} (hγ : 0 < γ) (cm : Option (ι → ℝ)) (hm : Spec.MassOk (Spec.usedMass none cm)) {L : ℕ} (hL : 2 ≤ L) (x₀ : ι → ℝ)
  {first last : ℝ} (hl : 0 < last) (hfl : last < first) {f : (ι → ℝ) → ℝ} (hf : Measurable f)
  (hi : Integrable f (Spec.posterior (Spec.dataPotential ℓ prior obs) Set.univ))

include hdev hobjs hℓ hsm hN hcg hd hobs hmb hlay hK hst hmbf hfs hms hnorm hγ hm hL hl hfl hf hi in
/-- **C144 (`NumpyDataLoader`).** `alias.amagold` with mini-batches drawn with replacement by a `NumpyDataLoader` and the full data
map of the same loader: every accuracy and confidence is reached with sufficiently many returned samples; the target is the
exact posterior of the data set. -/
theorem c144_numpy {ε δ' : ℝ} (hε : 0 < ε) (hδ : 0 < δ') : ∃ n₀ : ℕ,
    ∀ (key : κ) (gumbel : κ → ℕ → ℝ) (bar : Bool) (zero : OutLeaf ι (Option Empty) → OutLeaf ι (Option Empty)) (burnIn : ℕ)
      (accepted : Option ℕ) (its : ℕ),
    2 ≤ its → burnIn ≤ its → burnIn + accepted.getD (its - burnIn) ≤ its → n₀ ≤ accepted.getD (its - burnIn) →
    ∀ (chains : Ω → List ((ι → ℝ) × HostData (Loader σ ρ) NumpyKw (List (String × List ρ) × List Bool) ×
      HostData (Loader σ ρ) NumpyKw (List (String × List ρ) × List Bool))) (j : ℕ),
    (∀ ω, (chains ω)[j]? = some (x₀, d ω, full ω)) →
    ∃ rs : Ω → List (SaveResult (OutLeaf ι (Option Empty))),
      (∀ ω, runAmagold (noSave zero) (P ω) key lay γ cm L (hostDataSource (numpyHost (R ω)) devices junk)
        (hostGrad prior lik strategy 1 N mb) (hostFullPot (R ω) prior lik strategy 1 devices N mbf) none gumbel first last burnIn
        accepted bar its () (chains ω) = .ok ((), rs ω)) ∧
      prob {ω | ε ≤ |Spec.meanOver f (Spec.chainVariables (rs ω) j) -
        Spec.posteriorMean (Spec.dataPotential ℓ prior obs) Set.univ f|} ≤ ENNReal.ofReal δ' := by
  have : Inhabited (Fin mb → Fin N) := ⟨fun _ => ⟨0, hN⟩⟩
  have hU := dataPotential_measurable (obs := obs) hsm
  obtain ⟨n₀, hn0, hn⟩ := c145_probability (u := first) (numpy_ideal hK hN L) hlay cm hm (indexGrad prior lik strategy obs)
    (fun x b ms => indexGrad_eq hℓ hsm hmb hms x b ms) (fun b => dataGrad_measurable hsm b) (dataGrad_bounded hcg)
    (Spec.exactFull (Spec.dataPotential ℓ prior obs)) hU MeasurableSet.univ ⟨fun _ _ _ _ => rfl, fun _ _ _ h => absurd trivial h⟩
    () none (Set.mem_univ x₀) hγ hL (fun _ => rfl) (uniform_draws_one hN mb L) hl (posterior_ne_zero hU) hnorm hf hi hε hδ
  refine ⟨n₀, fun key gumbel bar zero burnIn accepted its hits hbi hfit hacc chains j hj => ?_⟩
  obtain ⟨step, kept, hDec, hT, hruns⟩ := c92_amagold_schedule key gumbel first last burnIn accepted bar its hl hfl hits hbi hfit
  choose rs r1 r2 r3 using fun ω => hruns zero (P ω) lay γ cm L (hostDataSource (numpyHost (R ω)) devices junk)
    (hostGrad prior lik strategy 1 N mb) (hostFullPot (R ω) prior lik strategy 1 devices N mbf) none (chains ω)
  refine ⟨rs, r1, ?_⟩
  simp only [fun ω => aliasAmagold_mean hT (by omega) (hj ω) (r3 ω) f]
  have e := fun (ω : Ω) (prms : List Params) => numpy_amagold (prior := prior) (strategy := strategy) (lay := lay) hℓ hN hd hobs (P ω)
    (hK.lawful ω) hdev hobjs junk (hst ω) hmbf (hfs ω) hms γ cm L x₀ key prms
  simp only [e]
  refine hn key _ _ (steps_between hDec) (fun i hi => ?_) ?_
  · simpa [Spec.paramsUpTo] using (hT.range i (List.mem_toFinset.1 hi)).2
  · rw [List.toFinset_card_of_nodup (hT.increasing.imp fun h => ne_of_lt h), hT.count]
    exact hacc

end

section
variable [Fintype ι] [DecidableEq ι] {data : List (String × List ρ)} {mb : ℕ}
  {prior : (ι → ℝ) → ℝ} {lik : Likelihood ℝ (List (String × ρ)) Empty (ι → ℝ)} {strategy : Strategy}
  {ℓ : (ι → ℝ) → List (String × ρ) → ℝ} (hℓ : ∀ y, Spec.LogLik lik y (ℓ y)) (hsm : ∀ x, Spec.SmoothAt ℓ prior x)
  {N : ℕ} (hN : 0 < N) {obs : Fin N → List (String × ρ)} (hcg : Spec.ContinuousGradients ℓ prior obs)
  (hd : Spec.IsDataset data N obs) (hmb : Spec.BatchFits lik mb)
  {lay : Layout ι} (hlay : Spec.Layout.Valid lay)
  [MeasurableSpace Ω] {prob : Measure Ω} [IsProbabilityMeasure prob] {P : Ω → Prng κ} {I : Ω → Randint κ}
  {sp : κ → ℕ → ℕ → κ} (hK : Spec.IdealKeys prob P I sp) {key dk : κ} (hind : Spec.KeysApart sp dk key)
  {bs : ℕ} (hbs : 0 < bs) {offset : ℕ} (ho : deviceInit N offset = .ok offset) (hms : ∀ y, Spec.StateFits lik y none)
  (hnorm : Spec.posterior (Spec.dataPotential ℓ prior obs) Set.univ Set.univ ≠ ⊤)
  {γ : ℝ} (hγ : 0 < γ) (cm : Option (ι → ℝ)) (hm : Spec.MassOk (Spec.usedMass none cm)) {L : ℕ} (hL : 2 ≤ L) (x₀ : ι → ℝ)
  {first last : ℝ} (hl : 0 < last) (hfl : last < first) {f : (ι → ℝ) → ℝ} (hf : Measurable f)
  (hi : Integrable f (Spec.posterior (Spec.dataPotential ℓ prior obs) Set.univ))

include hℓ hsm hN hcg hd hmb hlay hK hind hbs ho hms hnorm hγ hm hL hl hfl hf hi in
/-- **C144 (`DeviceNumpyDataLoader`).** The same with mini-batches drawn on the device with a key independent of the key of the
chain, and the full data map on the device. -/
theorem c144_device {ε δ' : ℝ} (hε : 0 < ε) (hδ : 0 < δ') : ∃ n₀ : ℕ,
    ∀ (gumbel : κ → ℕ → ℝ) (bar : Bool) (zero : OutLeaf ι (Option Empty) → OutLeaf ι (Option Empty)) (burnIn : ℕ)
      (accepted : Option ℕ) (its : ℕ),
    2 ≤ its → burnIn ≤ its → burnIn + accepted.getD (its - burnIn) ≤ its → n₀ ≤ accepted.getD (its - burnIn) →
    ∀ (chains : List ((ι → ℝ) × κ × ℕ)) (j : ℕ), chains[j]? = some (x₀, dk, offset) →
    ∃ rs : Ω → List (SaveResult (OutLeaf ι (Option Empty))),
      (∀ ω, runAmagold (noSave zero) (P ω) key lay γ cm L (deviceGetData (P ω) (I ω) data N mb) (potentialGrad prior lik strategy 1)
        (deviceFullPot prior lik strategy 1 data N bs) none gumbel first last burnIn accepted bar its () chains = .ok ((), rs ω)) ∧
      prob {ω | ε ≤ |Spec.meanOver f (Spec.chainVariables (rs ω) j) -
        Spec.posteriorMean (Spec.dataPotential ℓ prior obs) Set.univ f|} ≤ ENNReal.ofReal δ' := by
  have : Inhabited (Fin mb → Fin N) := ⟨fun _ => ⟨0, hN⟩⟩
  have hU := rows_measurable (obs := obs) hsm
  have ho' : offset < N := by
    by_contra h
    rw [(c19_offset N offset).2 (not_lt.1 h)] at ho
    cases ho
  obtain ⟨n₀, hn0, hn⟩ := c145_probability (u := first) (chain_ideal_updates hK hind hN mb L) hlay cm hm
    (drawGrad prior lik strategy obs)
    (fun x b ms => drawGrad_eq hℓ hsm hmb hms x b ms) (fun b => dataGrad_measurable hsm b) (dataGrad_bounded hcg)
    (Spec.exactFull (Spec.dataPotential ℓ prior obs)) hU MeasurableSet.univ ⟨fun _ _ _ _ => rfl, fun _ _ _ h => absurd trivial h⟩
    () none (Set.mem_univ x₀) hγ hL (fun _ => rfl) (uniform_draws_one hN mb L) hl (posterior_ne_zero hU) hnorm hf hi hε hδ
  refine ⟨n₀, fun gumbel bar zero burnIn accepted its hits hbi hfit hacc chains j hj => ?_⟩
  obtain ⟨step, kept, hDec, hT, hruns⟩ := c92_amagold_schedule key gumbel first last burnIn accepted bar its hl hfl hits hbi hfit
  choose rs r1 r2 r3 using fun ω => hruns zero (P ω) lay γ cm L (deviceGetData (P ω) (I ω) data N mb)
    (potentialGrad prior lik strategy 1) (deviceFullPot prior lik strategy 1 data N bs) none chains
  refine ⟨rs, r1, ?_⟩
  simp only [fun ω => aliasAmagold_mean hT (by omega) hj (r3 ω) f]
  have e := fun (ω : Ω) (prms : List Params) => device_amagold (prior := prior) (strategy := strategy) (mb := mb) hℓ hN hd hlay (P ω)
    (hK.lawful ω) (hK.split_eq ω) hbs hms γ cm L x₀ key dk ho' prms
  simp only [e]
  refine hn (chainRoot sp key) _ _ (steps_between hDec) (fun i hi => ?_) ?_
  · simpa [Spec.paramsUpTo] using (hT.range i (List.mem_toFinset.1 hi)).2
  · rw [List.toFinset_card_of_nodup (hT.increasing.imp fun h => ne_of_lt h), hT.count]
    exact hacc

end

/-! ## The hypotheses can be met -/

theorem mean_gradients : Spec.ContinuousGradients meanLik meanPrior meanObs := by
  constructor
  · intro j i
    obtain rfl := Subsingleton.elim i 0
    have h : ∀ (a : ℝ) (x : Fin 1 → ℝ), HasDerivAt (fun t : ℝ => -(a - t) ^ 2 / 2) (a - x 0) (x 0) := by
      intro a x
      have := (((hasDerivAt_id (x 0)).const_sub a).pow 2).neg.div_const 2
      refine this.congr_deriv ?_
      simp only [id]
      ring
    have e : ∀ x, Spec.partialDeriv (fun y => meanLik y (meanObs j)) x 0 = (if j = 0 then (1 : ℝ) else 3) - x 0 := fun x =>
      partial_one (f := fun y => meanLik y (meanObs j)) (g := fun t => -((if j = 0 then (1 : ℝ) else 3) - t) ^ 2 / 2)
        (fun y => by simp [meanLik, meanObs]) (x := x) (h _ x)
    simp only [e]
    fun_prop
  · intro i
    obtain rfl := Subsingleton.elim i 0
    have h : ∀ x : Fin 1 → ℝ, HasDerivAt (fun t : ℝ => -t ^ 2 / 2) (-x 0) (x 0) := by
      intro x
      have := ((hasDerivAt_id (x 0)).pow 2).neg.div_const 2
      refine this.congr_deriv ?_
      simp only [id]
      ring
    have e : ∀ x, Spec.partialDeriv meanPrior x 0 = -x 0 := fun x =>
      partial_one (f := meanPrior) (g := fun t => -t ^ 2 / 2) (fun y => by simp [meanPrior]) (x := x) (h x)
    simp only [e]
    fun_prop

/-- The hypotheses of `c144_alias` can be met: the exponential distribution truncated to the unit interval, mini-batches with
different gradients, one chain, a burn in of 10 iterations. -/
example (ε δ' : ℝ) (hε : 0 < ε) (hδ : 0 < δ') (gumbel : List ℕ → ℕ → ℝ) : ∃ n₀ : ℕ, ∀ its, 12 + n₀ ≤ its →
    ∃ rs : _ → List (SaveResult (OutLeaf (Fin 1) Unit)),
      (∀ ω, runAmagold (noSave id) (IdealSpace.gen ω) [] (Spec.vectorLayout 1) 1 (some fun _ => 4) 2 (IdealSpace.batches ω)
        halfGrad truncPot () gumbel 1 (1 / 4) 10 none false its () [(0, 0, ())] = .ok ((), rs ω)) ∧
      IdealSpace.law (PMF.uniformOfFintype (Fin 2 → Bool)) {ω | ε ≤ |Spec.meanOver (fun q => q 0)
          (Spec.chainVariables (rs ω) 0) -
        Spec.posteriorMean (fun x : Fin 1 → ℝ => x 0) (Set.Icc 0 1) (fun q : Fin 1 → ℝ => q 0)|} ≤
        ENNReal.ofReal δ' := by
  have hm : Spec.MassOk (Spec.usedMass none (some fun _ : Fin 1 => (4 : ℝ))) := massOk_const fun _ => by norm_num
  have hU : Measurable fun x : Fin 1 → ℝ => x 0 := measurable_pi_apply 0
  have hv : Spec.Layout.Valid (Spec.vectorLayout 1) :=
    ⟨Spec.vectorLayout_injective 1, fun _ => Nat.one_pos, fun i => i.2⟩
  have hpr : IsProbabilityMeasure (IdealSpace.law (PMF.uniformOfFintype (Fin 2 → Bool))) := by
    unfold IdealSpace.law; infer_instance
  have hb : Spec.LocallyBounded (fun (_ : Fin 1 → ℝ) (b : Bool) (_ : Fin 1) => if b then (1 : ℝ) else 0) := by
    refine fun R => ⟨1, fun b q _ => (pi_norm_le_iff_of_nonneg zero_le_one).2 fun i => ?_⟩
    cases b <;> simp
  obtain ⟨n₀, h⟩ := c144_alias (first := 1) (last := 1 / 4) (IdealSpace.ideal (PMF.uniformOfFintype (Fin 2 → Bool))) hv
    (some fun _ => 4) hm halfGrad (G := fun _ b _ => if b then 1 else 0)
    (fun _ _ _ => rfl) (fun _ => measurable_const) hb truncPot hU measurableSet_Icc truncPot_on () ()
    ⟨le_refl _, fun _ => zero_le_one⟩ one_pos le_rfl (fun b => by simp) (PMF.tsum_coe _) (by norm_num) (by norm_num)
    trunc_proper.1 trunc_proper.2 hU trunc_integrable hε hδ
  refine ⟨n₀, fun its hi => h [] gumbel false id 10 none its (by omega) (by omega) ?_ ?_ _ 0 rfl⟩
  · rw [Option.getD_none]; omega
  · rw [Option.getD_none]; omega

/-- The hypotheses of the theorem for the device can be met: an ideal generator, `alias.amagold` with step sizes from 1/2 to 1/10
and three leapfrog steps, a burn in of 100 iterations, mini-batches of one of two observations, and the full potential in batches
of two observations started at the second observation. -/
example (ε δ' : ℝ) (hε : 0 < ε) (hδ : 0 < δ') (gumbel : List ℕ → ℕ → ℝ) : ∃ n₀ : ℕ, ∀ its, 102 + n₀ ≤ its →
    ∃ rs : _ → List (SaveResult (OutLeaf (Fin 1) (Option Empty))),
      (∀ ω, runAmagold (noSave id) (IdealGenerator.gen ω) [1] (Spec.vectorLayout 1) 1 (some fun _ => 4) 3
        (deviceGetData (IdealGenerator.gen ω) (IdealGenerator.randints ω) meanData 2 1)
        (potentialGrad meanPrior (.plain meanLik) .vmap 1) (deviceFullPot meanPrior (.plain meanLik) .vmap 1 meanData 2 2)
        (none : Option Empty) gumbel (1 / 2) (1 / 10) 100 none false its () [(0, [0], 1)] = .ok ((), rs ω)) ∧
      IdealGenerator.law {ω | ε ≤ |Spec.meanOver (fun q => q 0) (Spec.chainVariables (rs ω) 0) -
        Spec.posteriorMean (Spec.dataPotential meanLik meanPrior meanObs) Set.univ (fun q => q 0)|} ≤
        ENNReal.ofReal δ' := by
  have hv : Spec.Layout.Valid (Spec.vectorLayout 1) :=
    ⟨Spec.vectorLayout_injective 1, fun _ => Nat.one_pos, fun i => i.2⟩
  obtain ⟨n₀, h⟩ := c144_device (lik := .plain meanLik) (ℓ := meanLik) (strategy := .vmap) (fun y r => rfl) mean_smooth
    (by norm_num : 0 < 2) mean_gradients
    meanData_dataset (mb := 1) (le_refl 1) hv IdealGenerator.ideal (key := [1]) (dk := [0])
    (Spec.pathPrng_ideal (fun _ _ _ => 0) (fun _ => 0) [] 2 0 1 (by norm_num) (by norm_num) (by norm_num)) (bs := 2) (by norm_num)
    (offset := 1) (by decide) (fun y => rfl)
    (posterior_finite mean_convex) one_pos (some fun _ => 4) (massOk_const fun _ => by norm_num)
    (L := 3) (by norm_num) 0 (first := 1 / 2) (last := 1 / 10) (by norm_num) (by norm_num)
    (f := fun q => q 0) (measurable_pi_apply 0) (position_integrable mean_convex 0) hε hδ
  refine ⟨n₀, fun its hi => h gumbel false id 100 none its (by omega) (by omega) ?_ ?_ _ 0 rfl⟩
  · rw [Option.getD_none]; omega
  · rw [Option.getD_none]; omega

/-- The hypotheses of the theorem for the `NumpyDataLoader` can be met: two chains, thinned to `n` samples each. -/
example (junk : List (String × List ℝ) × List Bool) (ε δ' : ℝ) (hε : 0 < ε) (hδ : 0 < δ') (gumbel : List ℕ → ℕ → ℝ) :
    ∃ n₀ : ℕ, ∀ n, n₀ ≤ n → ∃ rs : _ → List (SaveResult (OutLeaf (Fin 1) (Option Empty))),
      (∀ ω, runAmagold (noSave id) (IdealSpace.gen ω) [1] (Spec.vectorLayout 1) 1 (some fun _ => 4) 2
        (hostDataSource (numpyHost (IdealNumpySpace.rng ω)) 1 junk) (hostGrad meanPrior (.plain hostMeanLik) .vmap 1 2 1)
        (hostFullPot (IdealNumpySpace.rng ω) meanPrior (.plain hostMeanLik) .vmap 1 1 2 2) (none : Option Empty)
        gumbel (1 / 2) (1 / 10) 100 (some n) false (102 + 2 * n) ()
        [(1, firstChain (IdealNumpySpace.rng ω) 1 meanObjs 0 3 1 (.random false false (some 9)),
            firstChain (IdealNumpySpace.rng ω) 1 meanObjs 0 5 2 .ordered),
          (0, firstChain (IdealNumpySpace.rng ω) 1 meanObjs 0 3 1 (.random false false (some 7)),
            firstChain (IdealNumpySpace.rng ω) 1 meanObjs 0 5 2 .ordered)] = .ok ((), rs ω)) ∧
      IdealNumpySpace.law 2 1 {ω | ε ≤ |Spec.meanOver (fun q => q 0) (Spec.chainVariables (rs ω) 1) -
        Spec.posteriorMean (Spec.dataPotential hostMeanLik meanPrior hostMeanObs) Set.univ (fun q => q 0)|} ≤
        ENNReal.ofReal δ' := by
  have hv : Spec.Layout.Valid (Spec.vectorLayout 1) :=
    ⟨Spec.vectorLayout_injective 1, fun _ => Nat.one_pos, fun i => i.2⟩
  have hprob : IsProbabilityMeasure (IdealNumpySpace.law 2 1) := by
    unfold IdealNumpySpace.law IdealSpace.law
    infer_instance
  have hst : ∀ ω, Spec.RandomStreamOf (IdealNumpySpace.rng ω) 1 meanObjs 0 1 7
      (firstChain (IdealNumpySpace.rng (N := 2) (mb := 1) ω) 1 meanObjs 0 3 1 (.random false false (some 7))) :=
    fun ω => firstChain_random (given := some 7) (IdealNumpySpace.rng_lawful ω) (meanObjs_ok 0) (by norm_num) (by norm_num) (by decide)
  have hfs : ∀ ω, Spec.FullStreamOf (IdealNumpySpace.rng ω) 1 meanObjs 0 2
      (firstChain (IdealNumpySpace.rng (N := 2) (mb := 1) ω) 1 meanObjs 0 5 2 .ordered) :=
    fun ω => firstChain_ordered (meanObjs_ok 0) (by norm_num) (by norm_num) (by decide)
  obtain ⟨n₀, h⟩ := c144_numpy (le_refl 1) meanObjs_ok (lik := .plain hostMeanLik) (ℓ := hostMeanLik) (strategy := .vmap)
    (fun y r => rfl) hostMean_smooth
    (by norm_num : 0 < 2) (obs := hostMeanObs) ⟨mean_gradients.1, mean_gradients.2⟩ hostMean_dataset rfl (mb := 1) (le_refl 1) hv (IdealNumpySpace.ideal 7)
    hst (junk := junk) (by norm_num) hfs
    (fun y => rfl) (posterior_finite (hostMean_potential ▸ mean_convex)) one_pos (some fun _ => 4) (massOk_const fun _ => by norm_num)
    le_rfl 0 (first := 1 / 2) (last := 1 / 10) (by norm_num) (by norm_num)
    (f := fun q => q 0) (measurable_pi_apply 0) (position_integrable (hostMean_potential ▸ mean_convex) 0) hε hδ
  refine ⟨n₀, fun n hn => h [1] gumbel false id 100 (some n) (102 + 2 * n) (by omega) (by omega) ?_ ?_ (fun ω => _) 1 (fun ω => rfl)⟩
  · rw [Option.getD_some]; omega
  · rw [Option.getD_some]; exact hn

end JaxSgmc
