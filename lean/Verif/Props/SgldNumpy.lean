import Verif.Model.HostGrad
import Verif.Lemmas.IdealNumpy
import Verif.Lemmas.NumpyDraws
import Verif.Lemmas.IdealNumpyExists
import Verif.Props.SgldDevice
import Verif.Props.HostRun

/-!
# C139: SGLD with the mini-batches of a `NumpyDataLoader` samples the posterior of the data set
-/

namespace JaxSgmc

open MeasureTheory ProbabilityTheory Filter Topology

variable {ι κ σ ρ S Ω : Type}

/-! ## The mini-batches -/

theorem batchRow_eq {data : List (String × List ρ)} {N : ℕ} {obs : Fin N → List (String × Option ρ)}
    (hd : Spec.IsDataset (data.map fun c => (c.1, c.2.map some)) N obs) (j : Fin N) : batchRow data j = obs j := by
  have h := hd.rows j
  rw [List.forall₂_map_left_iff] at h
  clear hd
  generalize obs j = o at h
  unfold batchRow
  induction h with
  | nil => rfl
  | @cons c r _ _ h1 _ ih =>
    rw [List.map_cons, ih]
    congr 1
    obtain ⟨e1, e2⟩ := h1
    rw [List.getElem?_map] at e2
    obtain ⟨n, v⟩ := r
    refine Prod.ext e1.symm ?_
    cases hc : c.2[(j : ℕ)]? with
    | none => rw [hc] at e2; simp at e2
    | some x => rw [hc] at e2; simpa using e2

/-- The observations of a mini-batch of the loader. -/
theorem hostBatch_eq {data : List (String × List ρ)} {N : ℕ} (hN : 0 < N) {obs : Fin N → List (String × Option ρ)}
    (hd : Spec.IsDataset (data.map fun c => (c.1, c.2.map some)) N obs) {mb : ℕ} {idx : List ℕ} (hlen : idx.length = mb)
    (hlt : ∀ i ∈ idx, i < N) {b : List (String × List ρ) × List Bool}
    (hb : List.Forall₂ (fun c c' => c'.1 = c.1 ∧ Spec.RowsOf c.2 idx c'.2) data b.1) :
    hostBatch N mb b = (List.ofFn fun k => obs (toIndices hN mb idx k), ⟨N, mb, b.2⟩) := by
  unfold hostBatch
  congr 1
  refine List.ext_getElem (by simp) fun i h1 h2 => ?_
  have hi : i < mb := by simpa using h1
  have hi' : i < idx.length := by omega
  rw [List.getElem_map, List.getElem_range, List.getElem_ofFn, ← batchRow_eq hd]
  have e : ((toIndices hN mb idx ⟨i, hi⟩ : Fin N) : ℕ) = idx[i] := by
    show idx.getD i 0 % N = _
    rw [List.getD_eq_getElem?_getD, List.getElem?_eq_getElem hi', Option.getD_some, Nat.mod_eq_of_lt (hlt _ (List.getElem_mem hi'))]
  rw [e]
  unfold batchRow
  clear hd h1 h2
  generalize b.1 = bs at hb
  induction hb with
  | nil => rfl
  | @cons c c' _ _ h3 _ ih =>
    rw [List.map_cons, List.map_cons, ih, h3.1]
    congr 2
    have h4 := congrArg (fun l : List (Option ρ) => l[i]?) h3.2
    simp only [List.getElem?_map, List.getElem?_eq_getElem hi', Option.map_some] at h4
    cases hc : c'.2[i]? with
    | none => rw [hc] at h4; simp at h4
    | some x => rw [hc] at h4; simpa using h4

section
variable {R : Rng σ} {devices : ℕ} {objs : ℕ → Loader σ ρ} {loader mb seed : ℕ}

/-- The mini-batches of a chain which draws with replacement. -/
theorem random_stream (hR : R.Lawful) (hobjs : ∀ i, ∃ data, mkLoader data = .ok (objs i))
    {d : HostData (Loader σ ρ) NumpyKw (List (String × List ρ) × List Bool)}
    (hd : Spec.RandomStreamOf R devices objs loader mb seed d) :
    ∃ b, Spec.StreamOf R devices objs d b ∧ ∀ k, (b k).2 = List.replicate mb true ∧
      List.Forall₂ (fun c c' => c'.1 = c.1 ∧ Spec.RowsOf c.2 (Spec.nthDraw (fun g => R.choiceRepl g (objs loader).obsCount mb)
        (R.seed seed) k) c'.2) (objs loader).data (b k).1 := by
  obtain ⟨s, cb, cfg, given, hs, hcfg, rfl, rfl, rfl, hinit, hsys, hcalls, henv⟩ := hd
  have hpos := (hs.ginv (numpyContract R)).cfgPos _ _ hcfg
  have hdat := numpy_data_const R hs cfg.loader
  have hwf : DataWF (s.host.objs cfg.loader).data (s.host.objs cfg.loader).obsCount := by
    obtain ⟨data, hd⟩ := hobjs cfg.loader
    obtain ⟨h1, h3, -⟩ := mkLoader_spec data _ hd
    rw [hdat.1, hdat.2, h1]
    exact h3
  obtain ⟨cfg', chain, L, resp, hc', hl, hreg, -, -⟩ :=
    init_spec (numpyContract R) (hs.ginv (numpyContract R)) devices cb (.random false false given) d.var hinit
  rw [hcfg] at hc'
  cases hc'
  have hans := fun k => random_answers R hR _ L hwf _ _ hpos given chain hreg (k / cfg.cacheCount) (k % cfg.cacheCount)
    (Nat.mod_lt _ hpos)
  choose ans a1 a2 a3 using hans
  refine ⟨fun k => (ans k).line (k % cfg.cacheCount), ⟨s, cb, _, cfg, chain, L, hs, hcfg, hinit, hreg, hsys, hcalls, henv,
    fun k => ⟨ans k, a1 k, rfl⟩⟩, fun k => ⟨a2 k, ?_⟩⟩
  have := a3 k
  rw [Nat.div_add_mod', hdat.1, hdat.2] at this
  exact this

/-! ## The run -/

variable [Fintype ι] [DecidableEq ι]

variable {prior : (ι → ℝ) → ℝ} {lik : Likelihood ℝ (List (String × Option ρ)) S (ι → ℝ)} {strategy : Strategy}
  {ℓ : (ι → ℝ) → List (String × Option ρ) → ℝ} (hℓ : ∀ y, Spec.LogLik lik y (ℓ y)) (hsm : ∀ x, Spec.SmoothAt ℓ prior x)
  {N : ℕ} (hN : 0 < N) {obs : Fin N → List (String × Option ρ)}
  (hd : Spec.IsDataset ((objs loader).data.map fun c => (c.1, c.2.map some)) N obs) (hobs : (objs loader).obsCount = N)
  (hmb : Spec.BatchFits lik mb) {lay : Layout ι}

include hℓ hsm hN hd hobs hmb in
/-- The run with the host data loader is a run with drawn indices. -/
theorem numpy_run (P : Prng κ) (hR : R.Lawful) (hdev : 1 ≤ devices) (hobjs : ∀ i, ∃ data, mkLoader data = .ok (objs i))
    (junk : List (String × List ρ) × List Bool) {d : HostData (Loader σ ρ) NumpyKw (List (String × List ρ) × List Bool)}
    (hst : Spec.RandomStreamOf R devices objs loader mb seed d) {ms : Option S} (hms : ∀ y, Spec.StateFits lik y ms) (x₀ : ι → ℝ)
    (key : κ) (prms : List Params) :
    Spec.sgldSample P lay (hostDataSource (numpyHost R) devices junk) d (hostGradLik prior lik strategy 1 N mb) ms x₀ key prms =
    Spec.sgldSample P lay (Spec.batchSource (numpyIndices hN mb seed R)) 0 (dataSg ℓ prior obs) () x₀ key prms := by
  obtain ⟨b, hb, hrows⟩ := random_stream hR hobjs hst
  have hlen : ∀ k, (Spec.nthDraw (fun g => R.choiceRepl g N mb) (R.seed seed) k).length = mb := fun k => hR.replLength _ _ _ hN
  have hlt : ∀ k, ∀ i ∈ Spec.nthDraw (fun g => R.choiceRepl g N mb) (R.seed seed) k, i < N := fun k i hi => hR.replLt _ _ _ _ hN hi
  have hbatch : ∀ k, hostBatch N mb (b k) = (List.ofFn fun i => obs (numpyIndices hN mb seed R k i), ⟨N, mb, (b k).2⟩) := fun k => by
    refine hostBatch_eq hN hd (hlen k) (hlt k) ?_
    have := (hrows k).2
    rw [hobs] at this
    exact this
  -- the run with the mini-batches of the loader
  have h1 : Spec.sgldSample P lay (hostDataSource (numpyHost R) devices junk) d (hostGradLik prior lik strategy 1 N mb) ms x₀ key prms =
      Spec.sgldSample P lay (Spec.batchSource b) 0 (hostGradLik prior lik strategy 1 N mb) ms x₀ key prms := by
    have := langevinRun_sim (host_same hR hdev hobjs junk hb) P lay (none : Option (AdaptStrategy ι _ Unit))
      (hostGradLik prior lik strategy 1 N mb) prms (langevinInit d x₀ key none ms) (langevinInit 0 x₀ key none ms) ⟨rfl, rfl⟩
    exact this.fields.1.symm
  rw [h1]
  clear h1
  -- the run with drawn indices
  suffices h : let s := Spec.sgldState P lay (Spec.batchSource b) 0 (hostGradLik prior lik strategy 1 N mb) ms x₀ key prms
      let s' := Spec.sgldState P lay (Spec.batchSource (numpyIndices hN mb seed R)) 0 (dataSg ℓ prior obs) () x₀ key prms
      s.latent = s'.latent ∧ s.key = s'.key ∧ s.dataState = s'.dataState ∧ ∀ y, Spec.StateFits lik y s.modelState from h.1
  induction prms using List.reverseRecOn with
  | nil => exact ⟨rfl, rfl, rfl, hms⟩
  | append_singleton prms p ih =>
    intro s s'
    set t := Spec.sgldState P lay (Spec.batchSource b) 0 (hostGradLik prior lik strategy 1 N mb) ms x₀ key prms with ht
    set t' := Spec.sgldState P lay (Spec.batchSource (numpyIndices hN mb seed R)) 0 (dataSg ℓ prior obs) () x₀ key prms with ht'
    obtain ⟨i1, i2, i3, i4⟩ := ih
    have es : s = langevinUpdate P lay none (Spec.batchSource b) (hostGradLik prior lik strategy 1 N mb) t p := by
      simp only [s, ht, Spec.sgldState, List.foldl_append, List.foldl_cons, List.foldl_nil]
    have es' : s' = langevinUpdate P lay none (Spec.batchSource (numpyIndices hN mb seed R)) (dataSg ℓ prior obs) t' p := by
      simp only [s', ht', Spec.sgldState, List.foldl_append, List.foldl_cons, List.foldl_nil]
    obtain ⟨g1, g2⟩ := potentialGradLik_data (strategy := strategy) (obs := obs) hℓ hsm hmb i4 t.latent
      (numpyIndices hN mb seed R t.dataState) (b t.dataState).2
    rw [← hbatch] at g1 g2
    rw [es, es']
    refine ⟨?_, ?_, ?_, ?_⟩
    · show vadd t.latent (vadd (vscale (-p.stepSize) (potentialGradLik prior lik strategy 1 t.latent
        (hostBatch N mb (b t.dataState)) t.modelState).2) (vscale _ (randomTree P lay (P.split t.key 2 1)).1)) =
        vadd t'.latent (vadd (vscale (-p.stepSize) (dataGrad ℓ prior obs t'.latent
          (numpyIndices hN mb seed R t'.dataState))) (vscale _ (randomTree P lay (P.split t'.key 2 1)).1))
      rw [g1, i1, i2, i3]
    · show P.split t.key 2 0 = P.split t'.key 2 0
      rw [i2]
    · show t.dataState + 1 = t'.dataState + 1
      rw [i3]
    · exact g2

end

/-! ## C139 -/

/-- The random numbers of a run with one mini-batch per update are ideal. -/
theorem numpy_ideal_one [MeasurableSpace Ω] {prob : Measure Ω} [IsProbabilityMeasure prob] {P : Ω → Prng κ} {R : Ω → Rng σ}
    {N mb seed : ℕ} {sp : κ → ℕ → ℕ → κ} (hK : Spec.IdealNumpy prob P R N mb seed sp) (hN : 0 < N) :
    Spec.IdealRandom prob P (fun ω => Spec.batchSource (numpyIndices hN mb seed (R ω))) 0 1
      (fun b : Fin 1 → Fin mb → Fin N => (fun _ => ((N : ENNReal) ^ mb)⁻¹ : (Fin mb → Fin N) → ENNReal) (b 0)) sp := by
  have h := numpy_ideal hK hN 1
  rw [pow_one] at h
  exact h

section
variable [Fintype ι] [DecidableEq ι] {devices : ℕ} (hdev : 1 ≤ devices) {objs : ℕ → Loader σ ρ}
  (hobjs : ∀ i, ∃ data, mkLoader data = .ok (objs i)) {loader mb seed : ℕ}
  {prior : (ι → ℝ) → ℝ} {lik : Likelihood ℝ (List (String × Option ρ)) S (ι → ℝ)} {strategy : Strategy}
  {ℓ : (ι → ℝ) → List (String × Option ρ) → ℝ} (hℓ : ∀ y, Spec.LogLik lik y (ℓ y)) (hsm : ∀ x, Spec.SmoothAt ℓ prior x)
  {N : ℕ} (hN : 0 < N) {obs : Fin N → List (String × Option ρ)}
  (hd : Spec.IsDataset ((objs loader).data.map fun c => (c.1, c.2.map some)) N obs) (hobs : (objs loader).obsCount = N)
  (hmb : Spec.BatchFits lik mb) {lay : Layout ι} (hlay : Spec.Layout.Valid lay)
  [MeasurableSpace Ω] {prob : Measure Ω} [IsProbabilityMeasure prob] {P : Ω → Prng κ} {R : Ω → Rng σ} {sp : κ → ℕ → ℕ → κ}
  (hK : Spec.IdealNumpy prob P R N mb seed sp)
  {d : Ω → HostData (Loader σ ρ) NumpyKw (List (String × List ρ) × List Bool)}
  (hst : ∀ ω, Spec.RandomStreamOf (R ω) devices objs loader mb seed (d ω)) {junk : List (String × List ρ) × List Bool}
  {ms : Option S} (hms : ∀ y, Spec.StateFits lik y ms) {G : (ι → ℝ) → ι → ℝ} {m L : ℝ}
  (hU : Spec.Convex (Spec.dataPotential ℓ prior obs) G m L) {c : ℝ} (hc : 0 ≤ c)
  (hgrow : ∀ j x, ∑ i, Spec.partialDeriv (fun y => ℓ y (obs j)) x i ^ 2 ≤ c * (1 + Spec.sqLen x)) {T : ℝ} (hT : 0 < T) (key : κ)

include hdev hobjs hℓ hsm hd hobs hmb hK hst hms in
omit [IsProbabilityMeasure prob] in
theorem numpy_sample (x₀ : ι → ℝ) (prms : List Params) (ω : Ω) :
    Spec.sgldSample (P ω) lay (hostDataSource (numpyHost (R ω)) devices junk) (d ω) (hostGradLik prior lik strategy 1 N mb) ms x₀ key prms =
    Spec.sgldSample (P ω) lay (Spec.batchSource (numpyIndices hN mb seed (R ω))) 0 (dataSg ℓ prior obs) () x₀ key prms :=
  numpy_run (strategy := strategy) hℓ hsm hN hd hobs hmb (P ω) (hK.lawful ω) hdev hobjs junk (hst ω) hms x₀ key prms

include hdev hobjs hℓ hsm hN hd hobs hmb hlay hK hst hms hU hc hgrow hT in
/-- **C139 (error bound).** SGLD with mini-batches drawn with replacement by a `NumpyDataLoader`, fetched by host callbacks
through a cache: there are a largest step size `h₀` and a constant `C`, and for every initial sample a constant `D`, such that
after `n` updates with step sizes between `l` and `u ≤ h₀` at temperature `T` the expectation of every function with Lipschitz
constant `Λ` differs from its mean under the posterior of the data set (at temperature `T`) by at most
`Λ √((1 - m l / 2)ⁿ D + C u)`, whatever the rest of the program does with the host in the meantime. -/
theorem c139_bound : ∃ h₀ C : ℝ, 0 < h₀ ∧ m * h₀ ≤ 1 ∧ 0 ≤ C ∧ ∀ x₀ : ι → ℝ, ∃ D : ℝ, 0 ≤ D ∧
    ∀ l u : ℝ, 0 < l → l ≤ u → u ≤ h₀ → ∀ (prms : List Params),
      (∀ p ∈ prms, p.temperature = T ∧ l ≤ p.stepSize ∧ p.stepSize ≤ u) →
      ∀ (f : (ι → ℝ) → ℝ) (Λ : ℝ), Spec.Lipschitz f Λ →
      (∫ ω, f (Spec.sgldSample (P ω) lay (hostDataSource (numpyHost (R ω)) devices junk) (d ω)
          (hostGradLik prior lik strategy 1 N mb) ms x₀ key prms) ∂prob
        - Spec.posteriorMean (fun x => Spec.dataPotential ℓ prior obs x / T) Set.univ f) ^ 2 ≤
        Λ ^ 2 * ((1 - m * l / 2) ^ prms.length * D + C * u) := by
  obtain ⟨h₀, C, h1, h2, h3, h4⟩ := c135_bound hU (numpy_ideal_one hK hN) hlay (sg := dataSg ℓ prior obs) (fun _ _ _ => rfl)
    (dataGrad_measurable hsm) (dataGrad_unbiased hsm hN hmb.pos hc hgrow hU.gradient) hT
  refine ⟨h₀, C, h1, h2, h3, fun x₀ => ?_⟩
  obtain ⟨D, hD, h5⟩ := h4 x₀
  refine ⟨D, hD, fun l u hl hlu hu prms hp f Λ hf => ?_⟩
  simp only [numpy_sample hdev hobjs hℓ hsm hN hd hobs hmb hK hst hms]
  exact (h5 () key l u hl hlu hu prms hp f Λ hf).2.2

include hdev hobjs hℓ hsm hN hd hobs hmb hlay hK hst hms hU hc hgrow hT in
/-- **C139 (accuracy).** Every accuracy is reached with a small enough step size and enough updates. -/
theorem c139_accuracy {f : (ι → ℝ) → ℝ} {Λ : ℝ} (hf : Spec.Lipschitz f Λ) {ε : ℝ} (hε : 0 < ε) :
    ∃ h₁ : ℝ, 0 < h₁ ∧ ∀ l, 0 < l → l ≤ h₁ → ∀ x₀ : ι → ℝ, ∃ n₀ : ℕ, ∀ prms : List Params, n₀ ≤ prms.length →
      (∀ p ∈ prms, p.temperature = T ∧ l ≤ p.stepSize ∧ p.stepSize ≤ h₁) →
      |∫ ω, f (Spec.sgldSample (P ω) lay (hostDataSource (numpyHost (R ω)) devices junk) (d ω)
          (hostGradLik prior lik strategy 1 N mb) ms x₀ key prms) ∂prob
        - Spec.posteriorMean (fun x => Spec.dataPotential ℓ prior obs x / T) Set.univ f| ≤ ε := by
  obtain ⟨h₁, h1, h2⟩ := c135_accuracy hU (numpy_ideal_one hK hN) hlay (sg := dataSg ℓ prior obs) (fun _ _ _ => rfl)
    (dataGrad_measurable hsm) (dataGrad_unbiased hsm hN hmb.pos hc hgrow hU.gradient) hT hf hε
  refine ⟨h₁, h1, fun l hl hle x₀ => ?_⟩
  obtain ⟨n₀, h3⟩ := h2 l hl hle x₀
  refine ⟨n₀, fun prms hn hp => ?_⟩
  simp only [numpy_sample hdev hobjs hℓ hsm hN hd hobs hmb hK hst hms]
  exact h3 prms hn hp () key

include hdev hobjs hℓ hsm hN hd hobs hmb hlay hK hst hms hU hc hgrow hT in
/-- **C139 (decreasing step sizes).** If the step sizes are positive, tend to zero and are not summable, the expectations of
Lipschitz functions converge to the posterior means. -/
theorem c139_decreasing {h : ℕ → ℝ} (hh : ∀ n, 0 < h n) (hlim : Tendsto h atTop (𝓝 0)) (hsum : ¬ Summable h) (x₀ : ι → ℝ)
    {f : (ι → ℝ) → ℝ} {Λ : ℝ} (hf : Spec.Lipschitz f Λ) :
    Tendsto (fun n => ∫ ω, f (Spec.sgldSample (P ω) lay (hostDataSource (numpyHost (R ω)) devices junk) (d ω)
        (hostGradLik prior lik strategy 1 N mb) ms x₀ key ((List.range n).map fun k => ⟨h k, T⟩)) ∂prob)
      atTop (𝓝 (Spec.posteriorMean (fun x => Spec.dataPotential ℓ prior obs x / T) Set.univ f)) := by
  simp only [numpy_sample hdev hobjs hℓ hsm hN hd hobs hmb hK hst hms]
  exact c135_decreasing hU (numpy_ideal_one hK hN) hlay (sg := dataSg ℓ prior obs) (fun _ _ _ => rfl)
    (dataGrad_measurable hsm) (dataGrad_unbiased hsm hN hmb.pos hc hgrow hU.gradient) hT hh hlim hsum () x₀ key hf

include hdev hobjs hℓ hsm hN hd hobs hmb hlay hK hst hms hU hc hgrow in
/-- **C139 (`alias.sgld`).** For every Lipschitz function `f` and `ε > 0` there is a step size `h₁` such that for all
`h₁ ≥ first_step_size > last_step_size > 0` and every initial sample there is an `n₀` such that with a burn in of at least `n₀`
iterations and at least `n₀` accepted samples `alias.sgld`, run with a `NumpyDataLoader` on any number of chains, returns without
error, and the mean of `f` over the returned samples of a chain with this initial sample differs from the mean of `f` under
the posterior of the data set by at most `ε` in mean square. -/
theorem c139_alias {f : (ι → ℝ) → ℝ} {Λ : ℝ} (hf : Spec.Lipschitz f Λ) {ε : ℝ} (hε : 0 < ε) :
    ∃ h₁ : ℝ, 0 < h₁ ∧ ∀ first last : ℝ, 0 < last → last < first → first ≤ h₁ → ∀ x₀ : ι → ℝ, ∃ n₀ : ℕ,
      ∀ (gumbel : κ → ℕ → ℝ) (bar : Bool) (zero : OutLeaf ι (Option S) → OutLeaf ι (Option S)) (burnIn accepted its : ℕ),
      n₀ ≤ burnIn → n₀ ≤ accepted → burnIn + accepted ≤ its →
      ∀ (chains : Ω → List ((ι → ℝ) × HostData (Loader σ ρ) NumpyKw (List (String × List ρ) × List Bool))) (j : ℕ),
      (∀ ω, (chains ω)[j]? = some (x₀, d ω)) →
      ∃ rs : Ω → List (SaveResult (OutLeaf ι (Option S))),
      (∀ ω, runSgld (noSave zero) (P ω) key lay (none : Option (AdaptStrategy ι _ Unit)) (hostDataSource (numpyHost (R ω)) devices junk)
        (hostGradLik prior lik strategy 1 N mb) (fun _ => none) ms gumbel first last burnIn accepted bar its () (chains ω)
          = .ok ((), rs ω)) ∧
      Integrable (fun ω => (Spec.meanOver f (Spec.chainVariables (rs ω) j) -
        Spec.posteriorMean (Spec.dataPotential ℓ prior obs) Set.univ f) ^ 2) prob ∧
      ∫ ω, (Spec.meanOver f (Spec.chainVariables (rs ω) j) -
        Spec.posteriorMean (Spec.dataPotential ℓ prior obs) Set.univ f) ^ 2 ∂prob ≤ ε := by
  obtain ⟨h₁, h1, h2⟩ := alias_mean hU (numpy_ideal_one hK hN) hlay (sg := dataSg ℓ prior obs) (fun _ _ _ => rfl)
    (dataGrad_measurable hsm) (dataGrad_unbiased hsm hN hmb.pos hc hgrow hU.gradient) hf hε
  refine ⟨h₁, h1, fun first last hl hfl hle x₀ => ?_⟩
  obtain ⟨n₀, h3, h4⟩ := h2 first last hl hfl hle x₀
  refine ⟨n₀, fun gumbel bar zero burnIn accepted its hb ha hits chains j hj => ?_⟩
  obtain ⟨step, kept, hD, hT, hruns⟩ := c92_sgld_schedule key gumbel first last burnIn accepted bar its hl hfl (by omega) hits
  choose rs r1 r2 r3 using fun ω => hruns zero (P ω) lay (none : Option (AdaptStrategy ι (List (String × List ρ) × List Bool) Unit))
    (hostDataSource (numpyHost (R ω)) devices junk) (hostGradLik prior lik strategy 1 N mb) (fun _ => none) ms (chains ω)
  refine ⟨rs, r1, ?_⟩
  have hval : ∀ ω, Spec.chainVariables (rs ω) j = kept.map fun i =>
      Spec.sgldSample (P ω) lay (Spec.batchSource (numpyIndices hN mb seed (R ω))) 0 (dataSg ℓ prior obs) () x₀ key
        (Spec.paramsUpTo step 1 (i + 1)) := by
    intro ω
    rw [alias_values (by rw [hT.count]; omega) (hj ω) (r3 ω)]
    exact List.map_congr_left fun i _ => numpy_sample hdev hobjs hℓ hsm hN hd hobs hmb hK hst hms key x₀ _ ω
  simp only [hval]
  exact h4 () key burnIn accepted its hb ha hits step kept hD hT

end

/-! ## The hypotheses can be met -/

/-- Log-likelihood of a row of a batch of a host data loader. -/
noncomputable def hostMeanLik (y : Fin 1 → ℝ) (o : List (String × Option ℝ)) : ℝ := meanLik y (o.map fun c => (c.1, c.2.getD 0))

/-- The rows of the two observations. -/
def hostMeanObs (j : Fin 2) : List (String × Option ℝ) := [("x", some (if j = 0 then 1 else 3))]

theorem hostMean_lik (y : Fin 1 → ℝ) (j : Fin 2) : hostMeanLik y (hostMeanObs j) = meanLik y (meanObs j) := rfl

theorem hostMean_potential : Spec.dataPotential hostMeanLik meanPrior hostMeanObs = Spec.dataPotential meanLik meanPrior meanObs := rfl

theorem hostMean_smooth (x : Fin 1 → ℝ) : Spec.SmoothAt hostMeanLik meanPrior x :=
  ⟨fun _ => (mean_smooth x).1 _, (mean_smooth x).2⟩

/-- The loader objects of a program with one `NumpyDataLoader` (all numbers refer to it). -/
def meanObjs : ℕ → Loader ℕ ℝ := fun _ => ⟨meanData, 2, []⟩

theorem meanObjs_ok (i : ℕ) : ∃ data, mkLoader data = .ok (meanObjs i) := ⟨meanData, rfl⟩

theorem hostMean_dataset : Spec.IsDataset ((meanObjs 0).data.map fun c => (c.1, c.2.map some)) 2 hostMeanObs where
  length c hc := by
    rw [List.mem_singleton.1 hc]
    rfl
  rows j := by
    refine List.Forall₂.cons ⟨rfl, ?_⟩ List.Forall₂.nil
    fin_cases j <;> rfl

theorem mean_growth (j : Fin 2) (x : Fin 1 → ℝ) :
    ∑ i, Spec.partialDeriv (fun y => hostMeanLik y (hostMeanObs j)) x i ^ 2 ≤ 18 * (1 + Spec.sqLen x) := by
  rw [Fintype.sum_unique, show (default : Fin 1) = 0 from rfl]
  have h : ∀ a : ℝ, HasDerivAt (fun t : ℝ => -(a - t) ^ 2 / 2) (a - x 0) (x 0) := by
    intro a
    have := (((hasDerivAt_id (x 0)).const_sub a).pow 2).neg.div_const 2
    refine this.congr_deriv ?_
    simp only [id]
    ring
  have e := partial_one (f := fun y => hostMeanLik y (hostMeanObs j)) (g := fun t => -((if j = 0 then (1 : ℝ) else 3) - t) ^ 2 / 2)
    (fun y => by simp [hostMeanLik, meanLik, hostMeanObs]) (x := x) (h _)
  rw [e]
  have e2 : Spec.sqLen x = x 0 ^ 2 := by simp [Spec.sqLen]
  rw [e2]
  split <;> nlinarith [sq_nonneg (x 0 + 1), sq_nonneg (x 0 + 3)]

/-- The hypotheses of C139 can be met: with ideal generators, SGLD with step sizes `1 / (1 + k)` and mini-batches of one
observation drawn from two observations by a `NumpyDataLoader` through a cache of three mini-batches samples the posterior of
the mean of the observations. -/
example (junk : List (String × List ℝ) × List Bool) :
    Tendsto (fun n => ∫ ω, (Spec.sgldSample (IdealSpace.gen ω) (Spec.vectorLayout 1)
      (hostDataSource (numpyHost (IdealNumpySpace.rng ω)) 1 junk)
      (firstChain (IdealNumpySpace.rng ω) 1 meanObjs 0 3 1 (.random false false (some 7)))
      (hostGradLik meanPrior (.plain hostMeanLik) .vmap 1 2 1) (none : Option Unit) 0 [1]
      ((List.range n).map fun k : ℕ => ⟨1 / (1 + k : ℝ), 1⟩) 0) ∂IdealNumpySpace.law 2 1)
    atTop (𝓝 (Spec.posteriorMean (fun x => Spec.dataPotential hostMeanLik meanPrior hostMeanObs x / 1) Set.univ fun x => x 0)) := by
  have hv : Spec.Layout.Valid (Spec.vectorLayout 1) :=
    ⟨Spec.vectorLayout_injective 1, fun _ => Nat.one_pos, fun i => i.2⟩
  have hprob : IsProbabilityMeasure (IdealNumpySpace.law 2 1) := by
    unfold IdealNumpySpace.law IdealSpace.law
    infer_instance
  have hst : ∀ ω, Spec.RandomStreamOf (IdealNumpySpace.rng ω) 1 meanObjs 0 1 7
      (firstChain (IdealNumpySpace.rng (N := 2) (mb := 1) ω) 1 meanObjs 0 3 1 (.random false false (some 7))) :=
    fun ω => firstChain_random (given := some 7) (IdealNumpySpace.rng_lawful ω) (meanObjs_ok 0) (by norm_num) (by norm_num) (by decide)
  refine c139_decreasing (le_refl 1) meanObjs_ok (lik := .plain hostMeanLik) (ℓ := hostMeanLik) (fun y r => rfl) hostMean_smooth
    (by norm_num : 0 < 2) hostMean_dataset rfl (mb := 1) (le_refl 1) hv (IdealNumpySpace.ideal 7) hst
    (fun y => rfl) (hostMean_potential ▸ mean_convex) (c := 18) (by norm_num) mean_growth
    one_pos [1] (fun n => by positivity) ?_ ?_ 0 (f := fun x => x 0) (Λ := 1) ?_
  · exact tendsto_one_div_add_atTop_nhds_zero_nat.congr fun n => by rw [add_comm]
  · intro h
    refine Real.not_summable_one_div_natCast ((summable_nat_add_iff 1).1 (h.congr fun n => ?_))
    push_cast
    rw [add_comm]
  · intro x y
    simp [Spec.sqLen]

end JaxSgmc
