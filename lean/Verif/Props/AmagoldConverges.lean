import Verif.Lemmas.Convergence
import Verif.Props.AmagoldAlias

/-!
# C148: the samples of AMAGOLD are distributed like the posterior after a sufficient burn in
-/

namespace JaxSgmc

open MeasureTheory ProbabilityTheory Filter Topology

variable {ι β μ φ κ δ Ω σ ρ : Type} [Fintype ι]

attribute [local irreducible] Spec.amagoldNext leapMap Spec.amagoldExpect

section
variable [Inhabited β] {lay : Layout ι} {γ : ℝ} {am : Option (MassMatrix ι)} {cm : Option (ι → ℝ)} {L : ℕ}
  {sg : StochGrad ι β μ} {fullPot : FullPotFn ι φ μ} {U : (ι → ℝ) → ℝ} {f₀ : φ} {ms : μ} {w : (Fin L → β) → ENNReal}

/-- The expectation of a function of the last state of a path. -/
theorem amagoldPath_last {Θ : Type} {prm : Θ → Params} {P : Θ → Kernel ((ι → ℝ) × (ι → ℝ)) ((ι → ℝ) × (ι → ℝ))}
    [∀ θ, IsMarkovKernel (P θ)]
    (hP : ∀ θ z (f : (ι → ℝ) × (ι → ℝ) → ENNReal), Measurable f → ∫⁻ y, f y ∂P θ z =
      Spec.amagoldExpect lay γ am cm L sg fullPot U f₀ ms w f [prm θ] z)
    {g : (ι → ℝ) × (ι → ℝ) → ℝ} (hg : Measurable g) {C : ℝ} (hC : ∀ z, |g z| ≤ C) (h0 : ∀ z, 0 ≤ g z)
    {F : List ((ι → ℝ) × (ι → ℝ)) → ENNReal} (l : List Θ) :
    ∀ (past : List ((ι → ℝ) × (ι → ℝ))) (z : (ι → ℝ) × (ι → ℝ)),
      (∀ ys : List ((ι → ℝ) × (ι → ℝ)), ys.length = l.length → F (past ++ ys) = ENNReal.ofReal (g (ys.foldl (fun _ y => y) z))) →
      Spec.amagoldPath lay γ am cm L sg fullPot U f₀ ms w F (l.map prm) past z = ENNReal.ofReal (chainMean P g l z) := by
  induction l with
  | nil =>
    intro past z hF
    have := hF [] rfl
    rw [List.append_nil] at this
    exact this
  | cons θ l ih =>
    intro past z hF
    rw [List.map_cons, amagoldPath_cons]
    have hih := fun z' => ih (past ++ [z']) z' (fun ys hys => by
      rw [List.append_assoc, List.singleton_append, hF (z' :: ys) (by simp [hys])]
      rfl)
    simp only [hih]
    have hm := chainMean_measurable (P := P) hg l
    rw [← hP θ z _ hm.ennreal_ofReal]
    show _ = ENNReal.ofReal (∫ y, chainMean P g l y ∂P θ z)
    rw [ofReal_integral_eq_lintegral_ofReal (bounded_integrable hm (chainMean_le hC l) _)
      (Eventually.of_forall fun y => chainMean_nonneg h0 l y)]

end

section
variable [Inhabited β] [Countable β] [MeasurableSpace β] [MeasurableSingletonClass β] [MeasurableSpace Ω]
  {prob : Measure Ω} [IsProbabilityMeasure prob]
  {P : Ω → Prng κ} {data : Ω → δ → δ × β} {d₀ : δ} {L : ℕ} {w : (Fin L → β) → ENNReal} {sp : κ → ℕ → ℕ → κ}
  (hR : Spec.IdealRandom prob P data d₀ L w sp) {lay : Layout ι} (hlay : Spec.Layout.Valid lay)
  {γ : ℝ} (cm : Option (ι → ℝ)) (hm : Spec.MassOk (Spec.usedMass none cm))
  (sg : StochGrad ι β μ) {G : (ι → ℝ) → β → (ι → ℝ)} (hG : ∀ x b ms, (sg x b ms).2 = G x b)
  (hGm : ∀ b, Measurable fun x => G x b) (hGb : Spec.LocallyBounded G) (fullPot : FullPotFn ι φ μ) {U : (ι → ℝ) → ℝ}
  (hU : Measurable U) {D : Set (ι → ℝ)} (hD : MeasurableSet D) (hfp : Spec.PotentialOn fullPot U D)
  (f₀ : φ) (ms : μ) {x₀ : ι → ℝ} (hx₀ : x₀ ∈ D) (hγ : 0 < γ) (hL : 2 ≤ L)
  (hw : ∀ b, w (fun i => b (Fin.rev i)) = w b) (hw1 : ∑' b, w b = 1) {l u : ℝ} (hl : 0 < l)
  (hZ0 : Spec.posterior U D Set.univ ≠ 0) (hZ : Spec.posterior U D Set.univ ≠ ⊤)

omit [Inhabited β] [Countable β] [MeasurableSpace β] [MeasurableSingletonClass β] [MeasurableSpace Ω] in
/-- The last visited state is the state after all updates. -/
theorem visited_last (P : Prng κ) (data : δ → δ × β) (key : κ) {prms : List Params} (h : prms ≠ []) (a₀ : (ι → ℝ) × (ι → ℝ)) :
    ((Spec.amagoldVisited P lay γ cm L data d₀ sg fullPot f₀ ms x₀ key prms).foldl (fun _ z => z) a₀).1 =
      (amagoldGet (Spec.amagoldState P lay γ cm L data d₀ sg fullPot f₀ ms x₀ key prms)).vars := by
  obtain ⟨k, hk⟩ : ∃ k, prms.length = k + 1 := ⟨prms.length - 1, by
    have := List.length_pos_iff.2 h
    omega⟩
  unfold Spec.amagoldVisited
  rw [hk, List.range_succ, List.map_append, List.foldl_append, List.map_singleton, List.foldl_cons, List.foldl_nil,
    List.take_of_length_le (by omega)]
  rfl

include hR hlay hm hG hGm hU hD hfp hx₀ hγ hl in
/-- The sample reported after the updates is a random variable. -/
theorem sample_aemeasurable (key : κ) {prms : List Params} (h : prms ≠ []) (hp : Spec.StepsBetween l u prms) :
    AEMeasurable (fun ω => (amagoldGet (Spec.amagoldState (P ω) lay γ cm L (data ω) d₀ sg fullPot f₀ ms x₀ key prms)).vars) prob := by
  have hn := amagoldDrive_measurable (L := L) hlay.injective hγ.le cm hm sg hG hGm fullPot hU hD hfp f₀ ms
  have h0 : Measurable fun ω => runNoise lay sp key 0 (P ω) :=
    (runNoise_measurable (data := data) (d₀ := d₀) (L := L) hlay (Set.mem_univ 0) subset_rfl).mono (known_le hR _) le_rfl
  have hH : Measurable fun ω =>
      (((0, 0), (x₀, (Spec.usedMass none cm).sqrt.mul (runNoise lay sp key 0 (P ω)))) :
        ((ι → ℝ) × (ι → ℝ)) × ((ι → ℝ) × (ι → ℝ))) :=
    (by fun_prop : Measurable fun p : ι → ℝ => (((0, 0), (x₀, p)) : ((ι → ℝ) × (ι → ℝ)) × ((ι → ℝ) × (ι → ℝ)))).comp
      ((tensor_mul_measurable (Spec.usedMass none cm).sqrt).comp h0)
  have hdm := measurable_fst.comp (drive_measurable (next := amagoldDrive lay γ cm L sg fullPot U f₀ ms)
    (acc := fun _ z => z) hR hlay key (by fun_prop) _ (fun p hq => hn p (hl.le.trans (hp p hq).1)) 0 _ hH)
  refine ⟨_, measurable_fst.comp hdm, ?_⟩
  filter_upwards [visited_drive (γ := γ) hR hlay key cm sg hG fullPot hfp f₀ ms hx₀ (fun _ z => z) (0, 0) prms] with ω hω
  rw [← visited_last cm sg fullPot f₀ ms (P ω) (data ω) key h (0, 0), hω]
  rfl

include hR hlay hm hG hGm hGb hU hD hfp hx₀ hγ hL hw hw1 hl hZ0 hZ in
/-- **C148.** For every accuracy there is a number `N` of updates such that the sample reported after `N` or more updates of
AMAGOLD with step sizes between `l` and `u` is distributed like the posterior up to the accuracy, in total variation: for every
event, whatever the schedule and the key. -/
theorem c148_distribution {ε : ℝ} (hε : 0 < ε) : ∃ N : ℕ, 0 < N ∧ ∀ (key : κ) (prms : List Params),
    Spec.StepsBetween l u prms → N ≤ prms.length → ∀ A : Set (ι → ℝ), MeasurableSet A →
    |prob.real {ω | (amagoldGet (Spec.amagoldState (P ω) lay γ cm L (data ω) d₀ sg fullPot f₀ ms x₀ key prms)).vars ∈ A} -
      (Spec.posterior U D).real A / (Spec.posterior U D).real Set.univ| ≤ ε := by
  -- the initial momentum
  obtain ⟨r, hr⟩ := normals_tail ι (half_pos hε)
  obtain ⟨R₁, hR₁⟩ := (BoundedMaps.id (I := Unit) (X := ι → ℝ)).tensor (Spec.usedMass none cm).sqrt r
  obtain ⟨n, rfl⟩ : ∃ n, L = n + 2 := ⟨L - 2, by omega⟩
  obtain ⟨v, ν, k₀, Q, hv, hν, hk0, hkt, hprob, htarget, hmarkov, hQdef, hQ, hinv⟩ := amagold_kernels (l := l) (u := u)
    hlay.injective hγ none cm hm sg hG hGm fullPot hU hD hfp f₀ ms w hw hw1 hl hZ0 hZ rfl
  set π := jointLaw U D ν with hπ
  have hπp : IsProbabilityMeasure π := by rw [hπ, jointLaw]; infer_instance
  let Θ := {p : Params // l ≤ p.stepSize ∧ p.stepSize ≤ u}
  obtain ⟨N, hN⟩ := moves_converge (h := fun θ : Θ => θ.1.stepSize) hγ hl (fun θ => θ.2) hm hv hGm hGb hU hD w hw1 hk0 hkt htarget
    hQdef hinv zero_le_one (max (max ‖x₀‖ R₁) |U x₀|) (half_pos hε)
  refine ⟨N + 1, Nat.succ_pos _, fun key prms hp hlen A hA => ?_⟩
  have hne : prms ≠ [] := by
    rintro rfl
    simp at hlen
  -- the function
  set g : (ι → ℝ) × (ι → ℝ) → ℝ := fun z => A.indicator 1 z.1 with hg
  have hgm : Measurable g := (measurable_one.indicator hA).comp measurable_fst
  have hg01 : ∀ z, 0 ≤ g z ∧ g z ≤ 1 := fun z => by
    by_cases hz : z.1 ∈ A
    · simp [hg, hz]
    · simp [hg, hz]
  have hgC : ∀ z, |g z| ≤ 1 := fun z => by rw [abs_of_nonneg (hg01 z).1]; exact (hg01 z).2
  have hgπ : ∫ z, g z ∂π = (Spec.posterior U D).real A / (Spec.posterior U D).real Set.univ := by
    rw [hg, hπ, jointLaw, integral_fun_fst (fun q => A.indicator (1 : (ι → ℝ) → ℝ) q), integral_indicator_one hA, probReal_univ,
      one_smul, measureReal_ennreal_smul_apply, ENNReal.toReal_inv, div_eq_inv_mul]
    rfl
  rw [← hgπ]
  -- the probability
  obtain ⟨ths, hths⟩ : ∃ ths : List Θ, ths.map Subtype.val = prms :=
    ⟨prms.attach.map fun p => ⟨p.1, hp p.1 p.2⟩, by rw [List.map_map]; exact List.attach_map_subtype_val prms⟩
  have hlen' : N ≤ ths.length := by
    have : ths.length = prms.length := by rw [← hths, List.length_map]
    omega
  have hX := sample_aemeasurable hR hlay cm hm sg hG hGm fullPot hU hD hfp f₀ ms hx₀ hγ hl key hne hp
  have hlaw := c131_run_law hR hlay key cm hm sg hG hGm fullPot hU hD hfp f₀ ms hx₀ hγ.le
    (acc := fun (_ : (ι → ℝ) × (ι → ℝ)) z => z) (by fun_prop) hgm.ennreal_ofReal (0, 0) prms (fun p hq => hl.le.trans (hp p hq).1)
  set h : (ι → ℝ) → ℝ := fun ξ => chainMean Q g ths (x₀, (Spec.usedMass none cm).sqrt.mul ξ) with hh
  have hhm : Measurable h := (chainMean_measurable (P := Q) hgm ths).comp
    (measurable_const.prodMk (tensor_mul_measurable (Spec.usedMass none cm).sqrt))
  have hh01 : ∀ ξ, 0 ≤ h ξ ∧ |h ξ| ≤ 1 := fun ξ => ⟨chainMean_nonneg (fun z => (hg01 z).1) ths _, chainMean_le hgC ths _⟩
  have ih : Integrable h (Spec.normals ι) := bounded_integrable hhm (fun ξ => (hh01 ξ).2) _
  have e1 : ∀ ξ, Spec.amagoldPath lay γ none cm (n + 2) sg fullPot U f₀ ms w
      (fun zs => ENNReal.ofReal (g (zs.foldl (fun _ z => z) (0, 0)))) prms [] (x₀, (Spec.usedMass none cm).sqrt.mul ξ) =
      ENNReal.ofReal (h ξ) := fun ξ => by
    rw [← hths, hh]
    refine amagoldPath_last hQ hgm hgC (fun z => (hg01 z).1) ths [] _ fun ys hys => ?_
    rw [List.nil_append]
    cases ys with
    | nil =>
      refine absurd ?_ hne
      rw [← hths, List.length_eq_zero_iff.1 hys.symm, List.map_nil]
    | cons y ys => rfl
  simp only [e1] at hlaw
  rw [← ofReal_integral_eq_lintegral_ofReal ih (Eventually.of_forall fun ξ => (hh01 ξ).1)] at hlaw
  have e2 : prob {ω | (amagoldGet (Spec.amagoldState (P ω) lay γ cm (n + 2) (data ω) d₀ sg fullPot f₀ ms x₀ key prms)).vars ∈ A} =
      ENNReal.ofReal (∫ ξ, h ξ ∂Spec.normals ι) := by
    rw [← hlaw]
    have e3 : ∀ ω, ENNReal.ofReal (g ((Spec.amagoldVisited (P ω) lay γ cm (n + 2) (data ω) d₀ sg fullPot f₀ ms x₀ key prms).foldl
        (fun _ z => z) (0, 0))) = A.indicator (1 : (ι → ℝ) → ENNReal)
          (amagoldGet (Spec.amagoldState (P ω) lay γ cm (n + 2) (data ω) d₀ sg fullPot f₀ ms x₀ key prms)).vars := fun ω => by
      simp only [hg]
      rw [visited_last cm sg fullPot f₀ ms (P ω) (data ω) key hne (0, 0)]
      by_cases hz : (amagoldGet (Spec.amagoldState (P ω) lay γ cm (n + 2) (data ω) d₀ sg fullPot f₀ ms x₀ key prms)).vars ∈ A
      · simp [hz]
      · simp [hz]
    simp only [e3]
    rw [← lintegral_map' (measurable_one.indicator hA).aemeasurable hX, lintegral_indicator_one hA,
      Measure.map_apply_of_aemeasurable hX hA]
    rfl
  rw [Measure.real, e2, ENNReal.toReal_ofReal (integral_nonneg fun ξ => (hh01 ξ).1)]
  -- the distance
  set M := ∫ z, g z ∂π with hM
  have hM01 : 0 ≤ M ∧ M ≤ 1 := by
    refine ⟨integral_nonneg fun z => (hg01 z).1, ?_⟩
    have := integral_mono (μ := π) (bounded_integrable hgm hgC π) (integrable_const 1) fun z => (hg01 z).2
    simpa using this
  have hset : MeasurableSet {ξ : ι → ℝ | r < ‖ξ‖} := measurable_norm measurableSet_Ioi
  have hpt : ∀ ξ, |h ξ - M| ≤ ε / 2 + {ξ : ι → ℝ | r < ‖ξ‖}.indicator (1 : (ι → ℝ) → ℝ) ξ := by
    intro ξ
    by_cases hξ : r < ‖ξ‖
    · rw [Set.indicator_of_mem (show ξ ∈ {ξ : ι → ℝ | r < ‖ξ‖} from hξ), Pi.one_apply]
      have h1 := (hh01 ξ).1
      have h2 := (le_abs_self _).trans (hh01 ξ).2
      have : |h ξ - M| ≤ 1 := abs_le.2 ⟨by linarith, by linarith⟩
      linarith
    · rw [Set.indicator_of_notMem (show ξ ∉ {ξ : ι → ℝ | r < ‖ξ‖} from hξ), add_zero]
      refine hN _ ⟨hx₀, ?_, le_max_right _ _⟩ ths hlen' g hgm hgC
      refine max_le ((le_max_left _ _).trans (le_max_left _ _)) ?_
      exact (hR₁ () ξ (not_lt.1 hξ)).trans ((le_max_right _ _).trans (le_max_left _ _))
  have iI : Integrable ({ξ : ι → ℝ | r < ‖ξ‖}.indicator (1 : (ι → ℝ) → ℝ)) (Spec.normals ι) :=
    (integrable_const (1 : ℝ)).indicator hset
  have e4 : ∫ ξ, h ξ ∂Spec.normals ι - M = ∫ ξ, (h ξ - M) ∂Spec.normals ι := by
    rw [integral_sub ih (integrable_const _)]
    simp
  rw [e4]
  calc _ ≤ ∫ ξ, |h ξ - M| ∂Spec.normals ι := abs_integral_le_integral_abs
    _ ≤ ∫ ξ, (ε / 2 + {ξ : ι → ℝ | r < ‖ξ‖}.indicator (1 : (ι → ℝ) → ℝ) ξ) ∂Spec.normals ι :=
        integral_mono (ih.sub (integrable_const _)).abs ((integrable_const _).add iI) hpt
    _ = ε / 2 + (Spec.normals ι).real {ξ : ι → ℝ | r < ‖ξ‖} := by
        rw [integral_add (integrable_const _) iI, integral_indicator_one hset]
        simp
    _ ≤ ε / 2 + ε / 2 := by
        gcongr
        exact ENNReal.toReal_le_of_le_ofReal (half_pos hε).le hr
    _ = ε := add_halves ε

omit [Inhabited β] [Countable β] [MeasurableSpace β] [MeasurableSingletonClass β] [MeasurableSpace Ω] in
theorem samples_state (P : Prng κ) (data : δ → δ × β) (key : κ) (prms : List Params) {i : ℕ} (hi : i < prms.length) :
    (Spec.amagoldSamples P lay γ cm L data d₀ sg fullPot f₀ ms x₀ key prms).getD i 0 =
      (amagoldGet (Spec.amagoldState P lay γ cm L data d₀ sg fullPot f₀ ms x₀ key (prms.take (i + 1)))).vars := by
  unfold Spec.amagoldSamples
  rw [List.getD_eq_getElem?_getD, List.getElem?_map, List.getElem?_range hi, Option.map_some, Option.getD_some]

include hR hlay hm hG hGm hGb hU hD hfp hx₀ hγ hL hw hw1 hl hZ0 hZ in
/-- The same for all samples of a run but the first ones. -/
theorem sample_distribution {ε : ℝ} (hε : 0 < ε) : ∃ N : ℕ, ∀ (key : κ) (prms : List Params) (i : ℕ),
    Spec.StepsBetween l u prms → N ≤ i → i < prms.length → ∀ A : Set (ι → ℝ), MeasurableSet A →
    |prob.real {ω | (Spec.amagoldSamples (P ω) lay γ cm L (data ω) d₀ sg fullPot f₀ ms x₀ key prms).getD i 0 ∈ A} -
      (Spec.posterior U D).real A / (Spec.posterior U D).real Set.univ| ≤ ε := by
  obtain ⟨N, hN0, hN⟩ := c148_distribution (u := u) hR hlay cm hm sg hG hGm hGb fullPot hU hD hfp f₀ ms hx₀ hγ hL hw hw1 hl hZ0 hZ hε
  refine ⟨N, fun key prms i hp hi hlt A hA => ?_⟩
  simp only [fun ω => samples_state (x₀ := x₀) (L := L) (lay := lay) (γ := γ) (d₀ := d₀) cm sg fullPot f₀ ms (P ω) (data ω) key prms hlt]
  refine hN key _ (fun p hq => hp p (List.mem_of_mem_take hq)) ?_ A hA
  rw [List.length_take]
  omega

end

/-! ## `alias.amagold` -/

/-- The samples of a chain returned by `alias.amagold`. -/
theorem aliasAmagold_sample {P : Prng κ} {key : κ} {lay : Layout ι} {γ : ℝ} {cm : Option (ι → ℝ)} {L : ℕ} {data : δ → δ × β}
    {sg : StochGrad ι β μ} {fullPot : FullPotFn ι φ μ} {ms : μ} {x₀ : ι → ℝ} {d₀ : δ} {f₀ : φ} {step : ℕ → ℝ} {kept : List ℕ}
    {burnIn its accepted : ℕ} (hT : Spec.Thinned burnIn its accepted kept)
    {chains : List ((ι → ℝ) × δ × φ)} {j : ℕ} (hj : chains[j]? = some (x₀, d₀, f₀)) {rs : List (SaveResult (OutLeaf ι μ))}
    (h : List.Forall₂ (fun c r => Spec.ReturnedSamples (kept.map fun i => Spec.reportedAmagold
      (amagoldRun P (none : Option (MassAdaption ι Unit)) (revForAmagold P lay γ cm L data sg) fullPot
        (amagoldInit P none (revInitForAmagold P lay cm c.2.1) fullPot c.2.2 c.1 key ms)
        (Spec.paramsUpTo step 1 (i + 1)))) r) chains rs) {i : ℕ} (hi : i < kept.length) :
    (Spec.chainVariables rs j).getD i 0 =
      (Spec.amagoldSamples P lay γ cm L data d₀ sg fullPot f₀ ms x₀ key (Spec.paramsUpTo step 1 its)).getD kept[i] 0 := by
  obtain ⟨hlen, h4⟩ := List.forall₂_iff_get.1 h
  obtain ⟨hj1, hj2⟩ := List.getElem?_eq_some_iff.1 hj
  have hj3 : j < rs.length := hlen ▸ hj1
  have h5 := h4 j hj1 hj3
  have hc : chains.get ⟨j, hj1⟩ = (x₀, d₀, f₀) := hj2
  rw [hc] at h5
  have hi2 := (hT.range kept[i] (List.getElem_mem hi)).2
  have hl : (Spec.paramsUpTo step 1 its).length = its := by simp [Spec.paramsUpTo]
  have hv : Spec.chainVariables rs j = kept.map fun k => (amagoldRun P (none : Option (MassAdaption ι Unit))
      (revForAmagold P lay γ cm L data sg) fullPot (amagoldInit P none (revInitForAmagold P lay cm d₀) fullPot f₀ x₀ key ms)
        (Spec.paramsUpTo step 1 (k + 1))).integratorState.positions := by
    unfold Spec.chainVariables
    rw [List.getElem?_eq_getElem hj3]
    exact returnedAmagold_eq (fun i => amagoldRun P (none : Option (MassAdaption ι Unit)) (revForAmagold P lay γ cm L data sg) fullPot
        (amagoldInit P none (revInitForAmagold P lay cm d₀) fullPot f₀ x₀ key ms)
        (Spec.paramsUpTo step 1 (i + 1))) (by omega) h5
  rw [hv, samples_state cm sg fullPot f₀ ms P data key _ (by rw [hl]; exact hi2), paramsUpTo_take _ _ (show kept[i] + 1 ≤ its from hi2),
    List.getD_eq_getElem?_getD, List.getElem?_map, List.getElem?_eq_getElem hi, Option.map_some, Option.getD_some]
  rfl

section
variable [Inhabited β] [Countable β] [MeasurableSpace β] [MeasurableSingletonClass β] [MeasurableSpace Ω]
  {prob : Measure Ω} [IsProbabilityMeasure prob]
  {P : Ω → Prng κ} {data : Ω → δ → δ × β} {d₀ : δ} {L : ℕ} {w : (Fin L → β) → ENNReal} {sp : κ → ℕ → ℕ → κ}
  (hR : Spec.IdealRandom prob P data d₀ L w sp) {lay : Layout ι} (hlay : Spec.Layout.Valid lay)
  {γ : ℝ} (cm : Option (ι → ℝ)) (hm : Spec.MassOk (Spec.usedMass none cm))
  (sg : StochGrad ι β μ) {G : (ι → ℝ) → β → (ι → ℝ)} (hG : ∀ x b ms, (sg x b ms).2 = G x b)
  (hGm : ∀ b, Measurable fun x => G x b) (hGb : Spec.LocallyBounded G) (fullPot : FullPotFn ι φ μ) {U : (ι → ℝ) → ℝ}
  (hU : Measurable U) {D : Set (ι → ℝ)} (hD : MeasurableSet D) (hfp : Spec.PotentialOn fullPot U D)
  (f₀ : φ) (ms : μ) {x₀ : ι → ℝ} (hx₀ : x₀ ∈ D) (hγ : 0 < γ) (hL : 2 ≤ L)
  (hw : ∀ b, w (fun i => b (Fin.rev i)) = w b) (hw1 : ∑' b, w b = 1) {first last : ℝ} (hl : 0 < last) (hfl : last < first)
  (hZ0 : Spec.posterior U D Set.univ ≠ 0) (hZ : Spec.posterior U D Set.univ ≠ ⊤)

include hR hlay hm hG hGm hGb hU hD hfp hx₀ hγ hL hw hw1 hl hfl hZ0 hZ in
/-- **C148 (`alias.amagold`).** For every accuracy there is a burn in such that *every* sample returned by a run of
`alias.amagold` with at least this burn in is distributed like the posterior up to the accuracy, in total variation, whatever the
number of iterations, the thinning, the number of chains and the key. -/
theorem c148_alias {ε : ℝ} (hε : 0 < ε) : ∃ b₀ : ℕ,
    ∀ (key : κ) (gumbel : κ → ℕ → ℝ) (bar : Bool) (zero : OutLeaf ι μ → OutLeaf ι μ) (burnIn : ℕ) (accepted : Option ℕ) (its : ℕ),
    2 ≤ its → b₀ ≤ burnIn → burnIn ≤ its → burnIn + accepted.getD (its - burnIn) ≤ its →
    ∀ (chains : List ((ι → ℝ) × δ × φ)) (j : ℕ), chains[j]? = some (x₀, d₀, f₀) →
    ∃ rs : Ω → List (SaveResult (OutLeaf ι μ)),
      (∀ ω, runAmagold (noSave zero) (P ω) key lay γ cm L (data ω) sg fullPot ms gumbel first last burnIn accepted bar its ()
        chains = .ok ((), rs ω)) ∧
      ∀ i < accepted.getD (its - burnIn), ∀ A : Set (ι → ℝ), MeasurableSet A →
        |prob.real {ω | (Spec.chainVariables (rs ω) j).getD i 0 ∈ A} -
          (Spec.posterior U D).real A / (Spec.posterior U D).real Set.univ| ≤ ε := by
  obtain ⟨n₀, hn⟩ := sample_distribution (u := first) hR hlay cm hm sg hG hGm hGb fullPot hU hD hfp f₀ ms hx₀ hγ hL hw hw1 hl
    hZ0 hZ hε
  refine ⟨n₀, fun key gumbel bar zero burnIn accepted its hits hb hbi hfit chains j hj => ?_⟩
  obtain ⟨step, kept, hDec, hT, hruns⟩ := c92_amagold_schedule key gumbel first last burnIn accepted bar its hl hfl hits hbi hfit
  choose rs r1 r2 r3 using fun ω => hruns zero (P ω) lay γ cm L (data ω) sg fullPot ms chains
  refine ⟨rs, r1, fun i hi A hA => ?_⟩
  have hik : i < kept.length := hT.count ▸ hi
  have hki := hT.range kept[i] (List.getElem_mem hik)
  simp only [fun ω => aliasAmagold_sample hT hj (r3 ω) hik]
  refine hn key _ _ (steps_between hDec) (hb.trans hki.1) ?_ A hA
  simpa [Spec.paramsUpTo] using hki.2

end

section
variable [DecidableEq ι] {devices : ℕ} (hdev : 1 ≤ devices) {objs : ℕ → Loader σ ρ}
  (hobjs : ∀ i, ∃ data, mkLoader data = .ok (objs i)) {loader mb seed mbf : ℕ}
  {prior : (ι → ℝ) → ℝ} {lik : Likelihood ℝ (List (String × Option ρ)) Empty (ι → ℝ)} {strategy : Strategy}
  {ℓ : (ι → ℝ) → List (String × Option ρ) → ℝ} (hℓ : ∀ y, Spec.LogLik lik y (ℓ y)) (hsm : ∀ x, Spec.SmoothAt ℓ prior x)
  {N : ℕ} (hN : 0 < N) {obs : Fin N → List (String × Option ρ)} (hcg : Spec.ContinuousGradients ℓ prior obs)
  (hd : Spec.IsDataset ((objs loader).data.map fun c => (c.1, c.2.map some)) N obs) (hobs : (objs loader).obsCount = N)
  (hmb : Spec.BatchFits lik mb) {lay : Layout ι} (hlay : Spec.Layout.Valid lay)
  [MeasurableSpace Ω] {prob : Measure Ω} [IsProbabilityMeasure prob] {P : Ω → Prng κ} {R : Ω → Rng σ} {sp : κ → ℕ → ℕ → κ}
  (hK : Spec.IdealNumpy prob P R N mb seed sp)
  {d full : Ω → HostData (Loader σ ρ) NumpyKw (List (String × List ρ) × List Bool)}
  (hst : ∀ ω, Spec.RandomStreamOf (R ω) devices objs loader mb seed (d ω)) {junk : List (String × List ρ) × List Bool}
  (hmbf : 0 < mbf) (hfs : ∀ ω, Spec.FullStreamOf (R ω) devices objs loader mbf (full ω)) (hms : ∀ y, Spec.StateFits lik y none)
  (hnorm : Spec.posterior (Spec.dataPotential ℓ prior obs) Set.univ Set.univ ≠ ⊤)
  {γ : ℝ} (hγ : 0 < γ) (cm : Option (ι → ℝ)) (hm : Spec.MassOk (Spec.usedMass none cm)) {L : ℕ} (hL : 2 ≤ L) (x₀ : ι → ℝ)
  {first last : ℝ} (hl : 0 < last) (hfl : last < first)

include hdev hobjs hℓ hsm hN hcg hd hobs hmb hlay hK hst hmbf hfs hms hnorm hγ hm hL hl hfl in
/-- **C148 (`NumpyDataLoader`).** `alias.amagold` with mini-batches drawn with replacement by a `NumpyDataLoader` and the full data
map of the same loader: after a sufficient burn in, every returned sample is distributed like the exact posterior of the data
set up to the accuracy. -/
theorem c148_numpy {ε : ℝ} (hε : 0 < ε) : ∃ b₀ : ℕ,
    ∀ (key : κ) (gumbel : κ → ℕ → ℝ) (bar : Bool) (zero : OutLeaf ι (Option Empty) → OutLeaf ι (Option Empty)) (burnIn : ℕ)
      (accepted : Option ℕ) (its : ℕ),
    2 ≤ its → b₀ ≤ burnIn → burnIn ≤ its → burnIn + accepted.getD (its - burnIn) ≤ its →
    ∀ (chains : Ω → List ((ι → ℝ) × HostData (Loader σ ρ) NumpyKw (List (String × List ρ) × List Bool) ×
      HostData (Loader σ ρ) NumpyKw (List (String × List ρ) × List Bool))) (j : ℕ),
    (∀ ω, (chains ω)[j]? = some (x₀, d ω, full ω)) →
    ∃ rs : Ω → List (SaveResult (OutLeaf ι (Option Empty))),
      (∀ ω, runAmagold (noSave zero) (P ω) key lay γ cm L (hostDataSource (numpyHost (R ω)) devices junk)
        (hostGrad prior lik strategy 1 N mb) (hostFullPot (R ω) prior lik strategy 1 devices N mbf) none gumbel first last burnIn
        accepted bar its () (chains ω) = .ok ((), rs ω)) ∧
      ∀ i < accepted.getD (its - burnIn), ∀ A : Set (ι → ℝ), MeasurableSet A →
        |prob.real {ω | (Spec.chainVariables (rs ω) j).getD i 0 ∈ A} -
          (Spec.posterior (Spec.dataPotential ℓ prior obs) Set.univ).real A /
            (Spec.posterior (Spec.dataPotential ℓ prior obs) Set.univ).real Set.univ| ≤ ε := by
  have : Inhabited (Fin mb → Fin N) := ⟨fun _ => ⟨0, hN⟩⟩
  have hU := dataPotential_measurable (obs := obs) hsm
  obtain ⟨n₀, hn⟩ := sample_distribution (u := first) (numpy_ideal hK hN L) hlay cm hm (indexGrad prior lik strategy obs)
    (fun x b ms => indexGrad_eq hℓ hsm hmb hms x b ms) (fun b => dataGrad_measurable hsm b) (dataGrad_bounded hcg)
    (Spec.exactFull (Spec.dataPotential ℓ prior obs)) hU MeasurableSet.univ ⟨fun _ _ _ _ => rfl, fun _ _ _ h => absurd trivial h⟩
    () none (Set.mem_univ x₀) hγ hL (fun _ => rfl) (uniform_draws_one hN mb L) hl (posterior_ne_zero hU) hnorm hε
  refine ⟨n₀, fun key gumbel bar zero burnIn accepted its hits hb hbi hfit chains j hj => ?_⟩
  obtain ⟨step, kept, hDec, hT, hruns⟩ := c92_amagold_schedule key gumbel first last burnIn accepted bar its hl hfl hits hbi hfit
  choose rs r1 r2 r3 using fun ω => hruns zero (P ω) lay γ cm L (hostDataSource (numpyHost (R ω)) devices junk)
    (hostGrad prior lik strategy 1 N mb) (hostFullPot (R ω) prior lik strategy 1 devices N mbf) none (chains ω)
  refine ⟨rs, r1, fun i hi A hA => ?_⟩
  have hik : i < kept.length := hT.count ▸ hi
  have hki := hT.range kept[i] (List.getElem_mem hik)
  simp only [fun ω => aliasAmagold_sample hT (hj ω) (r3 ω) hik]
  have e := fun (ω : Ω) (prms : List Params) => numpy_amagold (prior := prior) (strategy := strategy) (lay := lay) hℓ hN hd hobs (P ω)
    (hK.lawful ω) hdev hobjs junk (hst ω) hmbf (hfs ω) hms γ cm L x₀ key prms
  simp only [e]
  refine hn key _ _ (steps_between hDec) (hb.trans hki.1) ?_ A hA
  simpa [Spec.paramsUpTo] using hki.2

end

section
variable [DecidableEq ι] {data : List (String × List ρ)} {mb : ℕ}
  {prior : (ι → ℝ) → ℝ} {lik : Likelihood ℝ (List (String × ρ)) Empty (ι → ℝ)} {strategy : Strategy}
  {ℓ : (ι → ℝ) → List (String × ρ) → ℝ} (hℓ : ∀ y, Spec.LogLik lik y (ℓ y)) (hsm : ∀ x, Spec.SmoothAt ℓ prior x)
  {N : ℕ} (hN : 0 < N) {obs : Fin N → List (String × ρ)} (hcg : Spec.ContinuousGradients ℓ prior obs)
  (hd : Spec.IsDataset data N obs) (hmb : Spec.BatchFits lik mb)
  {lay : Layout ι} (hlay : Spec.Layout.Valid lay)
  [MeasurableSpace Ω] {prob : Measure Ω} [IsProbabilityMeasure prob] {P : Ω → Prng κ} {I : Ω → Randint κ}
  {sp : κ → ℕ → ℕ → κ} (hK : Spec.IdealKeys prob P I sp) {key dk : κ} (hind : Spec.KeysApart sp dk key)
  {bs : ℕ} (hbs : 0 < bs) {offset : ℕ} (ho : deviceInit N offset = .ok offset) (hms : ∀ y, Spec.StateFits lik y none)
  (hnorm : Spec.posterior (Spec.dataPotential ℓ prior obs) Set.univ Set.univ ≠ ⊤)
  {γ : ℝ} (hγ : 0 < γ) (cm : Option (ι → ℝ)) (hm : Spec.MassOk (Spec.usedMass none cm)) {L : ℕ} (hL : 2 ≤ L) (x₀ : ι → ℝ)
  {first last : ℝ} (hl : 0 < last) (hfl : last < first)

include hℓ hsm hN hcg hd hmb hlay hK hind hbs ho hms hnorm hγ hm hL hl hfl in
/-- **C148 (`DeviceNumpyDataLoader`).** The same with mini-batches drawn on the device with a key independent of the key of the
chain, and the full data map on the device. -/
theorem c148_device {ε : ℝ} (hε : 0 < ε) : ∃ b₀ : ℕ,
    ∀ (gumbel : κ → ℕ → ℝ) (bar : Bool) (zero : OutLeaf ι (Option Empty) → OutLeaf ι (Option Empty)) (burnIn : ℕ)
      (accepted : Option ℕ) (its : ℕ),
    2 ≤ its → b₀ ≤ burnIn → burnIn ≤ its → burnIn + accepted.getD (its - burnIn) ≤ its →
    ∀ (chains : List ((ι → ℝ) × κ × ℕ)) (j : ℕ), chains[j]? = some (x₀, dk, offset) →
    ∃ rs : Ω → List (SaveResult (OutLeaf ι (Option Empty))),
      (∀ ω, runAmagold (noSave zero) (P ω) key lay γ cm L (deviceGetData (P ω) (I ω) data N mb) (potentialGrad prior lik strategy 1)
        (deviceFullPot prior lik strategy 1 data N bs) none gumbel first last burnIn accepted bar its () chains = .ok ((), rs ω)) ∧
      ∀ i < accepted.getD (its - burnIn), ∀ A : Set (ι → ℝ), MeasurableSet A →
        |prob.real {ω | (Spec.chainVariables (rs ω) j).getD i 0 ∈ A} -
          (Spec.posterior (Spec.dataPotential ℓ prior obs) Set.univ).real A /
            (Spec.posterior (Spec.dataPotential ℓ prior obs) Set.univ).real Set.univ| ≤ ε := by
  have : Inhabited (Fin mb → Fin N) := ⟨fun _ => ⟨0, hN⟩⟩
  have hU := rows_measurable (obs := obs) hsm
  have ho' : offset < N := by
    by_contra h
    rw [(c19_offset N offset).2 (not_lt.1 h)] at ho
    cases ho
  obtain ⟨n₀, hn⟩ := sample_distribution (u := first) (chain_ideal_updates hK hind hN mb L) hlay cm hm
    (drawGrad prior lik strategy obs)
    (fun x b ms => drawGrad_eq hℓ hsm hmb hms x b ms) (fun b => dataGrad_measurable hsm b) (dataGrad_bounded hcg)
    (Spec.exactFull (Spec.dataPotential ℓ prior obs)) hU MeasurableSet.univ ⟨fun _ _ _ _ => rfl, fun _ _ _ h => absurd trivial h⟩
    () none (Set.mem_univ x₀) hγ hL (fun _ => rfl) (uniform_draws_one hN mb L) hl (posterior_ne_zero hU) hnorm hε
  refine ⟨n₀, fun gumbel bar zero burnIn accepted its hits hb hbi hfit chains j hj => ?_⟩
  obtain ⟨step, kept, hDec, hT, hruns⟩ := c92_amagold_schedule key gumbel first last burnIn accepted bar its hl hfl hits hbi hfit
  choose rs r1 r2 r3 using fun ω => hruns zero (P ω) lay γ cm L (deviceGetData (P ω) (I ω) data N mb)
    (potentialGrad prior lik strategy 1) (deviceFullPot prior lik strategy 1 data N bs) none chains
  refine ⟨rs, r1, fun i hi A hA => ?_⟩
  have hik : i < kept.length := hT.count ▸ hi
  have hki := hT.range kept[i] (List.getElem_mem hik)
  simp only [fun ω => aliasAmagold_sample hT hj (r3 ω) hik]
  have e := fun (ω : Ω) (prms : List Params) => device_amagold (prior := prior) (strategy := strategy) (mb := mb) hℓ hN hd hlay (P ω)
    (hK.lawful ω) (hK.split_eq ω) hbs hms γ cm L x₀ key dk ho' prms
  simp only [e]
  refine hn (chainRoot sp key) _ _ (steps_between hDec) (hb.trans hki.1) ?_ A hA
  simpa [Spec.paramsUpTo] using hki.2

end

/-! ## The hypotheses can be met -/

/-- `alias.amagold` for the exponential distribution truncated to the unit interval: the probability that a returned sample is less
than one half is close to its posterior probability. -/
example (ε : ℝ) (hε : 0 < ε) (gumbel : List ℕ → ℕ → ℝ) : ∃ b₀ : ℕ, ∀ burnIn, b₀ ≤ burnIn →
    ∃ rs : _ → List (SaveResult (OutLeaf (Fin 1) Unit)),
      (∀ ω, runAmagold (noSave id) (IdealSpace.gen ω) [] (Spec.vectorLayout 1) 1 (some fun _ => 4) 2 (IdealSpace.batches ω)
        halfGrad truncPot () gumbel 1 (1 / 4) burnIn none false (burnIn + 3) () [(0, 0, ())] = .ok ((), rs ω)) ∧
      |(IdealSpace.law (PMF.uniformOfFintype (Fin 2 → Bool))).real {ω | (Spec.chainVariables (rs ω) 0).getD 2 0 0 < 1 / 2} -
        (Spec.posterior (fun x : Fin 1 → ℝ => x 0) (Set.Icc 0 1)).real {x | x 0 < 1 / 2} /
          (Spec.posterior (fun x : Fin 1 → ℝ => x 0) (Set.Icc 0 1)).real Set.univ| ≤ ε := by
  have hm : Spec.MassOk (Spec.usedMass none (some fun _ : Fin 1 => (4 : ℝ))) := massOk_const fun _ => by norm_num
  have hU : Measurable fun x : Fin 1 → ℝ => x 0 := measurable_pi_apply 0
  have hv : Spec.Layout.Valid (Spec.vectorLayout 1) :=
    ⟨Spec.vectorLayout_injective 1, fun _ => Nat.one_pos, fun i => i.2⟩
  have hpr : IsProbabilityMeasure (IdealSpace.law (PMF.uniformOfFintype (Fin 2 → Bool))) := by
    unfold IdealSpace.law; infer_instance
  have hb : Spec.LocallyBounded (fun (_ : Fin 1 → ℝ) (b : Bool) (_ : Fin 1) => if b then (1 : ℝ) else 0) := by
    refine fun R => ⟨1, fun b q _ => (pi_norm_le_iff_of_nonneg zero_le_one).2 fun i => ?_⟩
    cases b <;> simp
  obtain ⟨b₀, h⟩ := c148_alias (first := 1) (last := 1 / 4) (IdealSpace.ideal (PMF.uniformOfFintype (Fin 2 → Bool))) hv
    (some fun _ => 4) hm halfGrad (G := fun _ b _ => if b then 1 else 0)
    (fun _ _ _ => rfl) (fun _ => measurable_const) hb truncPot hU measurableSet_Icc truncPot_on () ()
    ⟨le_refl _, fun _ => zero_le_one⟩ one_pos le_rfl (fun b => by simp) (PMF.tsum_coe _) (by norm_num) (by norm_num)
    trunc_proper.1 trunc_proper.2 hε
  refine ⟨b₀, fun burnIn hbi => ?_⟩
  obtain ⟨rs, h1, h2⟩ := h [] gumbel false id burnIn none (burnIn + 3) (by omega) hbi (by omega)
    (by rw [Option.getD_none]; omega) [(0, 0, ())] 0 rfl
  exact ⟨rs, h1, h2 2 (by rw [Option.getD_none]; omega) {x | x 0 < 1 / 2} (measurableSet_lt hU measurable_const)⟩

/-- An ideal generator on the device: mini-batches of one of two observations, three leapfrog steps. -/
example (ε : ℝ) (hε : 0 < ε) (gumbel : List ℕ → ℕ → ℝ) : ∃ b₀ : ℕ, ∀ burnIn, b₀ ≤ burnIn →
    ∃ rs : _ → List (SaveResult (OutLeaf (Fin 1) (Option Empty))),
      (∀ ω, runAmagold (noSave id) (IdealGenerator.gen ω) [1] (Spec.vectorLayout 1) 1 (some fun _ => 4) 3
        (deviceGetData (IdealGenerator.gen ω) (IdealGenerator.randints ω) meanData 2 1)
        (potentialGrad meanPrior (.plain meanLik) .vmap 1) (deviceFullPot meanPrior (.plain meanLik) .vmap 1 meanData 2 2)
        (none : Option Empty) gumbel (1 / 2) (1 / 10) burnIn (some 5) false (burnIn + 10) () [(0, [0], 1)] = .ok ((), rs ω)) ∧
      ∀ i < 5, ∀ A : Set (Fin 1 → ℝ), MeasurableSet A →
        |IdealGenerator.law.real {ω | (Spec.chainVariables (rs ω) 0).getD i 0 ∈ A} -
          (Spec.posterior (Spec.dataPotential meanLik meanPrior meanObs) Set.univ).real A /
            (Spec.posterior (Spec.dataPotential meanLik meanPrior meanObs) Set.univ).real Set.univ| ≤ ε := by
  have hv : Spec.Layout.Valid (Spec.vectorLayout 1) :=
    ⟨Spec.vectorLayout_injective 1, fun _ => Nat.one_pos, fun i => i.2⟩
  obtain ⟨b₀, h⟩ := c148_device (lik := .plain meanLik) (ℓ := meanLik) (strategy := .vmap) (fun y r => rfl) mean_smooth
    (by norm_num : 0 < 2) mean_gradients
    meanData_dataset (mb := 1) (le_refl 1) hv IdealGenerator.ideal (key := [1]) (dk := [0])
    (Spec.pathPrng_ideal (fun _ _ _ => 0) (fun _ => 0) [] 2 0 1 (by norm_num) (by norm_num) (by norm_num)) (bs := 2) (by norm_num)
    (offset := 1) (by decide) (fun y => rfl)
    (posterior_finite mean_convex) one_pos (some fun _ => 4) (massOk_const fun _ => by norm_num)
    (L := 3) (by norm_num) 0 (first := 1 / 2) (last := 1 / 10) (by norm_num) (by norm_num) hε
  refine ⟨b₀, fun burnIn hbi => ?_⟩
  obtain ⟨rs, h1, h2⟩ := h gumbel false id burnIn (some 5) (burnIn + 10) (by omega) hbi (by omega)
    (by rw [Option.getD_some]; omega) [(0, [0], 1)] 0 rfl
  exact ⟨rs, h1, h2⟩

/-- A `NumpyDataLoader` and two chains. -/
example (junk : List (String × List ℝ) × List Bool) (ε : ℝ) (hε : 0 < ε) (gumbel : List ℕ → ℕ → ℝ) :
    ∃ b₀ : ℕ, ∀ burnIn, b₀ ≤ burnIn → ∃ rs : _ → List (SaveResult (OutLeaf (Fin 1) (Option Empty))),
      (∀ ω, runAmagold (noSave id) (IdealSpace.gen ω) [1] (Spec.vectorLayout 1) 1 (some fun _ => 4) 2
        (hostDataSource (numpyHost (IdealNumpySpace.rng ω)) 1 junk) (hostGrad meanPrior (.plain hostMeanLik) .vmap 1 2 1)
        (hostFullPot (IdealNumpySpace.rng ω) meanPrior (.plain hostMeanLik) .vmap 1 1 2 2) (none : Option Empty)
        gumbel (1 / 2) (1 / 10) burnIn none false (burnIn + 10) ()
        [(1, firstChain (IdealNumpySpace.rng ω) 1 meanObjs 0 3 1 (.random false false (some 9)),
            firstChain (IdealNumpySpace.rng ω) 1 meanObjs 0 5 2 .ordered),
          (0, firstChain (IdealNumpySpace.rng ω) 1 meanObjs 0 3 1 (.random false false (some 7)),
            firstChain (IdealNumpySpace.rng ω) 1 meanObjs 0 5 2 .ordered)] = .ok ((), rs ω)) ∧
      ∀ i < 10, ∀ A : Set (Fin 1 → ℝ), MeasurableSet A →
        |(IdealNumpySpace.law 2 1).real {ω | (Spec.chainVariables (rs ω) 1).getD i 0 ∈ A} -
          (Spec.posterior (Spec.dataPotential hostMeanLik meanPrior hostMeanObs) Set.univ).real A /
            (Spec.posterior (Spec.dataPotential hostMeanLik meanPrior hostMeanObs) Set.univ).real Set.univ| ≤ ε := by
  have hv : Spec.Layout.Valid (Spec.vectorLayout 1) :=
    ⟨Spec.vectorLayout_injective 1, fun _ => Nat.one_pos, fun i => i.2⟩
  have hprob : IsProbabilityMeasure (IdealNumpySpace.law 2 1) := by
    unfold IdealNumpySpace.law IdealSpace.law
    infer_instance
  have hst : ∀ ω, Spec.RandomStreamOf (IdealNumpySpace.rng ω) 1 meanObjs 0 1 7
      (firstChain (IdealNumpySpace.rng (N := 2) (mb := 1) ω) 1 meanObjs 0 3 1 (.random false false (some 7))) :=
    fun ω => firstChain_random (given := some 7) (IdealNumpySpace.rng_lawful ω) (meanObjs_ok 0) (by norm_num) (by norm_num) (by decide)
  have hfs : ∀ ω, Spec.FullStreamOf (IdealNumpySpace.rng ω) 1 meanObjs 0 2
      (firstChain (IdealNumpySpace.rng (N := 2) (mb := 1) ω) 1 meanObjs 0 5 2 .ordered) :=
    fun ω => firstChain_ordered (meanObjs_ok 0) (by norm_num) (by norm_num) (by decide)
  obtain ⟨b₀, h⟩ := c148_numpy (le_refl 1) meanObjs_ok (lik := .plain hostMeanLik) (ℓ := hostMeanLik) (strategy := .vmap)
    (fun y r => rfl) hostMean_smooth
    (by norm_num : 0 < 2) (obs := hostMeanObs) ⟨mean_gradients.1, mean_gradients.2⟩ hostMean_dataset rfl (mb := 1) (le_refl 1) hv (IdealNumpySpace.ideal 7)
    hst (junk := junk) (by norm_num) hfs
    (fun y => rfl) (posterior_finite (hostMean_potential ▸ mean_convex)) one_pos (some fun _ => 4) (massOk_const fun _ => by norm_num)
    le_rfl 0 (first := 1 / 2) (last := 1 / 10) (by norm_num) (by norm_num) hε
  refine ⟨b₀, fun burnIn hbi => ?_⟩
  obtain ⟨rs, h1, h2⟩ := h [1] gumbel false id burnIn none (burnIn + 10) (by omega) hbi (by omega)
    (by rw [Option.getD_none]; omega) (fun ω => [(1, firstChain (IdealNumpySpace.rng ω) 1 meanObjs 0 3 1 (.random false false (some 9)),
            firstChain (IdealNumpySpace.rng ω) 1 meanObjs 0 5 2 .ordered),
          (0, firstChain (IdealNumpySpace.rng ω) 1 meanObjs 0 3 1 (.random false false (some 7)),
            firstChain (IdealNumpySpace.rng ω) 1 meanObjs 0 5 2 .ordered)]) 1 (fun ω => rfl)
  exact ⟨rs, h1, fun i hi => h2 i (by rw [Option.getD_none]; omega)⟩

end JaxSgmc
