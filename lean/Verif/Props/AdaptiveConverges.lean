import Verif.Props.AmagoldConverges
import Verif.Props.AdaptiveRun

/-!
# C156: the samples of `alias.amagold` with adaptive step size are distributed like the posterior
-/

namespace JaxSgmc

open MeasureTheory ProbabilityTheory Filter Topology

variable {ι κ δ β μ φ Ω : Type} [Fintype ι]

attribute [local irreducible] Spec.amagoldNext leapMap Spec.amagoldExpect

/-- A random variable is bounded up to a small probability. -/
theorem real_tail {X : Type} [MeasurableSpace X] (m : Measure X) [IsFiniteMeasure m] {f : X → ℝ} (hf : Measurable f)
    {δ : ℝ} (hδ : 0 < δ) : ∃ r : ℝ, 1 ≤ r ∧ m {x | r < f x} ≤ ENNReal.ofReal δ := by
  have hs : ∀ n : ℕ, MeasurableSet {x : X | (n : ℝ) < f x} := fun n => hf measurableSet_Ioi
  have ht := tendsto_measure_iInter_atTop (μ := m) (s := fun n : ℕ => {x : X | (n : ℝ) < f x})
    (fun n => (hs n).nullMeasurableSet) (fun a b hab x (hx : (b : ℝ) < f x) => show (a : ℝ) < f x from
      lt_of_le_of_lt (by exact_mod_cast hab) hx) ⟨0, measure_ne_top _ _⟩
  have he : ⋂ n : ℕ, {x : X | (n : ℝ) < f x} = ∅ := by
    refine Set.eq_empty_of_forall_notMem fun x hx => ?_
    obtain ⟨n, hn⟩ := exists_nat_ge (f x)
    exact absurd (Set.mem_iInter.1 hx n) (not_lt.2 hn)
  rw [he, measure_empty] at ht
  obtain ⟨n, hn, h1⟩ := ((ht.eventually (ge_mem_nhds (ENNReal.ofReal_pos.2 hδ))).and (eventually_ge_atTop 1)).exists
  exact ⟨n, by exact_mod_cast h1, hn⟩


section
variable [Inhabited β] [Countable β] [MeasurableSpace β] [MeasurableSingletonClass β] {lay : Layout ι}
  (hlay : Spec.Layout.Valid lay) {γ : ℝ} (hγ : 0 < γ)
  (cm : Option (ι → ℝ)) (hm : Spec.MassOk (Spec.usedMass none cm)) {L : ℕ} (hL : 2 ≤ L)
  (sg : StochGrad ι β μ) {G : (ι → ℝ) → β → (ι → ℝ)} (hG : ∀ x b ms, (sg x b ms).2 = G x b)
  (hGm : ∀ b, Measurable fun x => G x b) (hGb : Spec.LocallyBounded G) (fullPot : FullPotFn ι φ μ) {U : (ι → ℝ) → ℝ}
  (hU : Measurable U) {D : Set (ι → ℝ)} (hD : MeasurableSet D) (hfp : Spec.PotentialOn fullPot U D)
  (f₀ : φ) (ms : μ) {w : (Fin L → β) → ENNReal} [IsProbabilityMeasure (innovLaw ι L w)]
  (hw : ∀ b, w (fun i => b (Fin.rev i)) = w b) (hw1 : ∑' b, w b = 1) {l u : ℝ} (hl : 0 < l)
  (hZ0 : Spec.posterior U D Set.univ ≠ 0) (hZ : Spec.posterior U D Set.univ ≠ ⊤)

omit [Fintype ι] in
/-- An average of numbers up to one. -/
theorem drivePath_le_one {E S Acc Q : Type} [MeasurableSpace E] (next : Q → E → S → S) (acc : Acc → S → Acc)
    (lam : Measure E) [IsProbabilityMeasure lam] {F : Acc → ENNReal} (hF : ∀ a, F a ≤ 1) (ps : List Q) :
    ∀ q, drivePath next acc lam F ps q ≤ 1 := by
  induction ps with
  | nil => intro q; exact hF _
  | cons p ps ih =>
    intro q
    refine (lintegral_mono fun v => ih _).trans ?_
    rw [lintegral_one, measure_univ]

include hlay hγ hm hL hG hGm hGb hU hD hfp hw hw1 hl hZ0 hZ in
/-- AMAGOLD with a constant step size converges, uniformly in the step size and in the initial state. -/
theorem constant_converges (R₀ : ℝ) {ε : ℝ} (hε : 0 < ε) : ∃ N : ℕ, ∀ z ∈ levelSet U D R₀, ∀ p : Params,
    l ≤ p.stepSize → p.stepSize ≤ u → ∀ k, N ≤ k → 0 < k → ∀ A : Set (ι → ℝ), MeasurableSet A →
    |(drivePath (amagoldDrive lay γ cm L sg fullPot U f₀ ms) (fun (_ : (ι → ℝ) × (ι → ℝ)) z => z) (innovLaw ι L w)
        (fun z => A.indicator (1 : (ι → ℝ) → ENNReal) z.1) (List.replicate k p) ((0, 0), z)).toReal -
      (Spec.posterior U D).real A / (Spec.posterior U D).real Set.univ| ≤ ε := by
  obtain ⟨n, rfl⟩ : ∃ n, L = n + 2 := ⟨L - 2, by omega⟩
  obtain ⟨v, ν, k₀, Q, hv, hν, hk0, hkt, hprob, htarget, hmarkov, hQdef, hQ, hinv⟩ := amagold_kernels (l := l) (u := u)
    hlay.injective hγ none cm hm sg hG hGm fullPot hU hD hfp f₀ ms w hw hw1 hl hZ0 hZ rfl
  set π := jointLaw U D ν with hπ
  have hπp : IsProbabilityMeasure π := by rw [hπ, jointLaw]; infer_instance
  let Θ := {p : Params // l ≤ p.stepSize ∧ p.stepSize ≤ u}
  obtain ⟨N, hN⟩ := moves_converge (h := fun θ : Θ => θ.1.stepSize) hγ hl (fun θ => θ.2) hm hv hGm hGb hU hD w hw1 hk0 hkt htarget
    hQdef hinv zero_le_one R₀ hε
  refine ⟨N, fun z hz p hp1 hp2 k hk hk0 A hA => ?_⟩
  set g : (ι → ℝ) × (ι → ℝ) → ℝ := fun z => A.indicator 1 z.1 with hg
  have hgm : Measurable g := (measurable_one.indicator hA).comp measurable_fst
  have hg01 : ∀ z, 0 ≤ g z ∧ g z ≤ 1 := fun z => by
    by_cases hz : z.1 ∈ A
    · simp [hg, hz]
    · simp [hg, hz]
  have hgC : ∀ z, |g z| ≤ 1 := fun z => by rw [abs_of_nonneg (hg01 z).1]; exact (hg01 z).2
  have hgπ : ∫ z, g z ∂π = (Spec.posterior U D).real A / (Spec.posterior U D).real Set.univ := by
    rw [hg, hπ, jointLaw, integral_fun_fst (fun q => A.indicator (1 : (ι → ℝ) → ℝ) q), integral_indicator_one hA, probReal_univ,
      one_smul, measureReal_ennreal_smul_apply, ENNReal.toReal_inv, div_eq_inv_mul]
    rfl
  rw [← hgπ]
  let θ : Θ := ⟨p, hp1, hp2⟩
  have hmap : List.replicate k p = (List.replicate k θ).map Subtype.val := by rw [List.map_replicate]
  have hF : (fun z : (ι → ℝ) × (ι → ℝ) => A.indicator (1 : (ι → ℝ) → ENNReal) z.1) = fun z => ENNReal.ofReal (g z) := by
    funext z
    by_cases hz : z.1 ∈ A
    · simp [hg, hz]
    · simp [hg, hz]
  have hpos : ∀ q ∈ List.replicate k p, 0 ≤ q.stepSize := fun q hq => by
    rw [List.eq_of_mem_replicate hq]; exact hl.le.trans hp1
  have hpath := drivePath_eq (L := n + 2) (acc := fun (_ : (ι → ℝ) × (ι → ℝ)) (z : (ι → ℝ) × (ι → ℝ)) => z) hlay.injective hγ.le
    cm hm sg hG hGm fullPot hU hD hfp f₀ ms w (by fun_prop) (F := fun z => ENNReal.ofReal (g z)) hgm.ennreal_ofReal (0, 0) _ hpos [] z
  rw [List.foldl_nil] at hpath
  rw [hF, hpath, hmap, amagoldPath_last hQ hgm hgC (fun z => (hg01 z).1) (List.replicate k θ) [] z fun ys hys => by
    rw [List.nil_append]
    cases ys with
    | nil =>
      rw [List.length_replicate] at hys
      exact absurd hys.symm hk0.ne'
    | cons y ys => rfl]
  rw [ENNReal.toReal_ofReal (chainMean_nonneg (fun z => (hg01 z).1) _ _)]
  exact hN z hz _ (by rw [List.length_replicate]; exact hk) g hgm hgC

end

/-- The distance of a mixture of probabilities from a number, if most of them are close to it. -/
theorem mixture_close [MeasurableSpace Ω] {prob : Measure Ω} [IsProbabilityMeasure prob] {H X : Ω → ℝ} (hH : Measurable H)
    (hH01 : ∀ ω, 0 ≤ H ω ∧ H ω ≤ 1) (hX : Measurable X) {M r ε : ℝ} (hM : 0 ≤ M ∧ M ≤ 1) (hε : 0 < ε)
    (hr : prob {ω | r < X ω} ≤ ENNReal.ofReal (ε / 2)) (h : ∀ᵐ ω ∂prob, X ω ≤ r → |H ω - M| ≤ ε / 2) :
    |∫ ω, H ω ∂prob - M| ≤ ε := by
  have hset : MeasurableSet {ω | r < X ω} := hX measurableSet_Ioi
  have iH : Integrable H prob := bounded_integrable hH (C := 1) (fun ω => by
    rw [abs_of_nonneg (hH01 ω).1]; exact (hH01 ω).2) _
  have hpt : ∀ᵐ ω ∂prob, |H ω - M| ≤ ε / 2 + {ω | r < X ω}.indicator (1 : Ω → ℝ) ω := by
    filter_upwards [h] with ω hω
    by_cases hx : r < X ω
    · rw [Set.indicator_of_mem (show ω ∈ {ω | r < X ω} from hx), Pi.one_apply]
      have h1 := hH01 ω
      have : |H ω - M| ≤ 1 := abs_le.2 ⟨by linarith, by linarith⟩
      linarith
    · rw [Set.indicator_of_notMem (show ω ∉ {ω | r < X ω} from hx), add_zero]
      exact hω (not_lt.1 hx)
  have iI : Integrable ({ω | r < X ω}.indicator (1 : Ω → ℝ)) prob := (integrable_const (1 : ℝ)).indicator hset
  have e4 : ∫ ω, H ω ∂prob - M = ∫ ω, (H ω - M) ∂prob := by
    rw [integral_sub iH (integrable_const _)]
    simp
  rw [e4]
  calc _ ≤ ∫ ω, |H ω - M| ∂prob := abs_integral_le_integral_abs
    _ ≤ ∫ ω, (ε / 2 + {ω | r < X ω}.indicator (1 : Ω → ℝ) ω) ∂prob :=
        integral_mono_ae (iH.sub (integrable_const _)).abs ((integrable_const _).add iI) hpt
    _ = ε / 2 + prob.real {ω | r < X ω} := by
        rw [integral_add (integrable_const _) iI, integral_indicator_one hset]
        simp
    _ ≤ ε / 2 + ε / 2 := by
        gcongr
        exact ENNReal.toReal_le_of_le_ofReal (half_pos hε).le hr
    _ = ε := add_halves ε

section
variable [Inhabited β] [Countable β] [MeasurableSpace β] [MeasurableSingletonClass β] [MeasurableSpace Ω]
  {prob : Measure Ω} [IsProbabilityMeasure prob]
  {P : Ω → Prng κ} {data : Ω → δ → δ × β} {d₀ : δ} {L : ℕ} {w : (Fin L → β) → ENNReal} {sp : κ → ℕ → ℕ → κ}
  (hR : Spec.IdealRandom prob P data d₀ L w sp) {lay : Layout ι} (hlay : Spec.Layout.Valid lay) (key : κ)
  {γ : ℝ} (hγ : 0 < γ) (cm : Option (ι → ℝ)) (hm : Spec.MassOk (Spec.usedMass none cm))
  (sg : StochGrad ι β μ) {G : (ι → ℝ) → β → (ι → ℝ)} (hG : ∀ x b ms, (sg x b ms).2 = G x b)
  (hGm : ∀ b, Measurable fun x => G x b) (hGb : Spec.LocallyBounded G) (fullPot : FullPotFn ι φ μ) {U : (ι → ℝ) → ℝ}
  (hU : Measurable U) {D : Set (ι → ℝ)} (hD : MeasurableSet D)
  (hin : ∀ x f ms, x ∈ D → (fullPot x f ms).1 = .fin (U x)) (hout : ∀ x f ms, x ∉ D → (fullPot x f ms).1 = .pinf)
  (ms : μ) {first stab : ℝ} (hfirst : 0 < first) (hstab : 0 ≤ stab) (decay speed target : ℝ) (burnIn : ℕ) (bar : Bool)
  (zero : OutLeaf ι μ → OutLeaf ι μ) {chains : List ((ι → ℝ) × δ × φ)} (hstart : ∀ c ∈ chains, c.1 ∈ D)
  {j : ℕ} {x₀ : ι → ℝ} {f₀ : φ} (hj : chains[j]? = some (x₀, d₀, f₀))
  {rs : ℕ → Ω → List (SaveResult (OutLeaf ι μ))}
  (hrs : ∀ n ω, runAmagoldAdaptive (noSave zero) (P ω) key lay γ cm L (data ω) sg fullPot ms first stab decay speed
    target burnIn none bar (burnIn + n) () chains = .ok ((), rs n ω))

include hR hlay hγ hm hG hin hout hfirst hstab hstart hj hrs in
omit [Countable β] [MeasurableSingletonClass β] [IsProbabilityMeasure prob] in
/-- The samples of a run in terms of its random numbers. -/
theorem adaptive_sample {v : (ι → ℝ) →ₗ[ℝ] (ι → ℝ)} (hv : ∀ r, (Spec.usedMass none cm).sqrt.mul (v r) = r) :
    ∀ᵐ ω ∂prob, ∀ n i, i < n →
      (burnedIn lay γ cm sg G v fullPot U D f₀ ms ⟨first, stab, decay, speed, target, burnIn⟩ x₀ sp key d₀ L
        (P ω) (data ω)).1.1 ∈ D ∧
      (Spec.chainVariables (rs n ω) j).getD i 0 =
      (drive (adaptiveDrive lay γ cm L sg G v fullPot U D f₀ ms ⟨first, stab, decay, speed, target, burnIn⟩)
        (fun (_ : (ι → ℝ) × (ι → ℝ)) (q : ((ι → ℝ) × (ι → ℝ)) × (ℕ → ℝ)) => q.1) (List.range' burnIn (i + 1)) burnIn
        (fun m => runInnov lay sp key d₀ L m (P ω) (data ω))
        ((0, 0), burnedIn lay γ cm sg G v fullPot U D f₀ ms ⟨first, stab, decay, speed, target, burnIn⟩ x₀ sp key d₀ L
          (P ω) (data ω))).1.1 := by
  filter_upwards [runUnif_nonneg hR key] with ω hω n i hi
  have hn : 0 < n := by omega
  have hsp := hR.split_eq ω
  obtain ⟨rs', h1, -, h3⟩ := c95_amagold zero (P ω) key lay γ cm L (data ω) sg fullPot
    (fun x f m => by
      by_cases hx : x ∈ D
      · exact Or.inr ⟨_, hin x f m hx⟩
      · exact Or.inl (hout x f m hx)) ms first stab decay speed target burnIn bar (burnIn + n) hfirst hstab
    (Nat.le_add_right _ _) chains (fun c hc => ⟨_, hin _ _ _ (hstart c hc)⟩)
  have e := h1.symm.trans (hrs n ω)
  simp only [Except.ok.injEq, Prod.mk.injEq, true_and] at e
  subst e
  obtain ⟨hlen, h4⟩ := List.forall₂_iff_get.1 h3
  obtain ⟨hj1, hj2⟩ := List.getElem?_eq_some_iff.1 hj
  have hj3 : j < (rs n ω).length := hlen ▸ hj1
  obtain ⟨step, ratio, a1, a2, a3, a4⟩ := h4 j hj1 hj3
  have hc : chains.get ⟨j, hj1⟩ = (x₀, d₀, f₀) := hj2
  rw [hc] at a2 a4
  dsimp only at a2 a4
  set s₀ : AmagoldState ι κ δ μ φ Unit :=
    amagoldInit (P ω) none (revInitForAmagold (P ω) lay cm d₀) fullPot f₀ x₀ key ms with hs₀
  set a : DualArgs := ⟨first, stab, decay, speed, target, burnIn⟩ with ha
  have hx₀ : x₀ ∈ D := hstart _ (List.mem_of_getElem? hj)
  have hat : AmagoldAt (P ω) L (data ω) d₀ U D key 0 s₀ :=
    ⟨hx₀, hin _ _ _ hx₀, by rw [Nat.zero_mul]; rfl, rfl, by rw [Nat.zero_mul]; rfl⟩
  have hstep : ∀ k, step k = a.step ratio k := by
    intro k
    show step k = Real.exp (Spec.dualAverage first stab decay speed target ratio (min k burnIn))
    rcases le_total k burnIn with hk | hk
    · rw [Nat.min_eq_left hk]; exact a3 k hk
    · rw [Nat.min_eq_right hk, a1.frozen k hk]; exact a3 burnIn le_rfl
  have hst := adaptive_states hsp hlay.injective hγ.le hm hG hin hout hv f₀ ms hω a hat a2 hstep
  dsimp only at hst
  set s := fun k => amagoldRun (P ω) (none : Option (MassAdaption ι Unit)) (revForAmagold (P ω) lay γ cm L (data ω) sg)
    fullPot s₀ (Spec.paramsUpTo step 1 k) with hs
  let st : ℕ → ((ι → ℝ) × (ι → ℝ)) × (ℕ → ℝ) := fun k =>
    (((s k).integratorState.positions, (s k).integratorState.momentum), fun j => if j < k then ratio j else 0)
  have hst' : ∀ k, adaptiveDrive lay γ cm L sg G v fullPot U D f₀ ms a k (runInnov lay sp key d₀ L k (P ω) (data ω)) (st k) =
      st (k + 1) := hst
  have hpos : ∀ k, 0 ≤ step k := fun k => by rw [hstep]; exact (Real.exp_pos _).le
  have hatk : ∀ k, AmagoldAt (P ω) L (data ω) d₀ U D key k (s k) := by
    intro k
    induction k with
    | zero => exact hat
    | succ k ih =>
      have hrun : s (k + 1) = (amagoldUpdate (P ω) (none : Option (MassAdaption ι Unit)) (revForAmagold (P ω) lay γ cm L (data ω) sg)
          fullPot (s k) ⟨step k, 1⟩).1 := by
        show amagoldRun _ _ _ _ _ (Spec.paramsUpTo step 1 (k + 1)) = _
        rw [paramsUpTo_succ]
        exact List.foldl_append
      rw [hrun]
      exact (amagoldAt_step hsp hlay.injective hγ.le hm hG hin hout hv f₀ ms hω ih ⟨step k, 1⟩ (hpos k)).1
  have hmom : s₀.integratorState.momentum = (Spec.usedMass none cm).sqrt.mul (runNoise lay sp key 0 (P ω)) := by
    show (resolveMass none cm).sqrt.mul _ = _
    rw [resolveMass_eq]
    congr 1
    rw [← hsp]
    rfl
  have h0 : st 0 = ((x₀, (Spec.usedMass none cm).sqrt.mul (runNoise lay sp key 0 (P ω))), fun _ => 0) := by
    rw [← hmom]
    refine Prod.ext rfl ?_
    funext i
    show (if i < 0 then ratio i else 0) = 0
    exact if_neg (Nat.not_lt_zero i)
  have hB : burnedIn lay γ cm sg G v fullPot U D f₀ ms a x₀ sp key d₀ L (P ω) (data ω) = st burnIn := by
    unfold burnedIn
    rw [← h0, drive_states _ _ _ st hst']
    show st (0 + burnIn) = _
    rw [Nat.zero_add]
  rw [hB, drive_states _ _ _ st hst']
  refine ⟨(hatk burnIn).inside, ?_⟩
  have hcv : Spec.chainVariables (rs n ω) j =
      (List.range n).map fun i => (s (burnIn + i + 1)).integratorState.positions := by
    unfold Spec.chainVariables
    rw [List.getElem?_eq_getElem hj3]
    rw [Nat.add_sub_cancel_left] at a4
    exact returnedVariables_eq (fun i => s (burnIn + i + 1)) hn a4
  rw [hcv, List.getD_eq_getElem?_getD, List.getElem?_map, List.getElem?_range hi, Option.map_some, Option.getD_some]
  dsimp only
  rw [List.range'_concat, List.foldl_append, List.foldl_cons, List.foldl_nil]
  show _ = (s (burnIn + 1 + 1 * i)).integratorState.positions
  rw [show burnIn + i + 1 = burnIn + 1 + 1 * i by omega]

include hR hlay hγ hm hG hGm hGb hU hD hin hout hfirst hstab hstart hj hrs in
/-- **C156.** With ideal random numbers, the samples returned by `alias.amagold` with `adaptive_step_size=True` are
distributed like the posterior: for every accuracy there is a number `N` such that all samples after the first `N` of a chain,
in runs with any number of iterations, have the posterior distribution up to the accuracy, in total variation; although the step
size in use is itself random. -/
theorem c156_adaptive (hL : 2 ≤ L) (hw : ∀ b, w (fun i => b (Fin.rev i)) = w b) (hw1 : ∑' b, w b = 1)
    (hZ0 : Spec.posterior U D Set.univ ≠ 0) (hZ : Spec.posterior U D Set.univ ≠ ⊤) {ε : ℝ} (hε : 0 < ε) :
    ∃ N : ℕ, ∀ n i : ℕ, N ≤ i → i < n → ∀ A : Set (ι → ℝ), MeasurableSet A →
      |prob.real {ω | (Spec.chainVariables (rs n ω) j).getD i 0 ∈ A} -
        (Spec.posterior U D).real A / (Spec.posterior U D).real Set.univ| ≤ ε := by
  obtain ⟨v, hv⟩ := exists_sqrt_inverse hm
  set a : DualArgs := ⟨first, stab, decay, speed, target, burnIn⟩ with ha
  have hfp : Spec.PotentialOn fullPot U D := ⟨hin, fun x f ms h => Or.inl (hout x f ms h)⟩
  have hpr := innovLaw_prob hR hlay key
  have hnext := adaptiveDrive_measurable (v := v) (L := L) f₀ ms a hlay.injective hγ.le hm hG hGm hU hD hfp hv
  have hsq := tensor_mul_measurable (Spec.usedMass none cm).sqrt
  have h0 : Measurable[known P data d₀ L (pastKeys lay sp key L 0)] fun ω => runNoise lay sp key 0 (P ω) :=
    runNoise_measurable hlay (T := Set.Iio (1 + 0 * L)) (by simp) Set.subset_union_left
  have hH0 : Measurable[known P data d₀ L (pastKeys lay sp key L 0)] fun ω =>
      (((), ((x₀, (Spec.usedMass none cm).sqrt.mul (runNoise lay sp key 0 (P ω))), fun _ => 0)) :
        Unit × (((ι → ℝ) × (ι → ℝ)) × (ℕ → ℝ))) :=
    (by fun_prop : Measurable fun p : ι → ℝ => (((), ((x₀, p), fun _ => 0)) :
      Unit × (((ι → ℝ) × (ι → ℝ)) × (ℕ → ℝ)))).comp (hsq.comp h0)
  let B : Ω → ((ι → ℝ) × (ι → ℝ)) × (ℕ → ℝ) := fun ω =>
    burnedIn lay γ cm sg G v fullPot U D f₀ ms a x₀ sp key d₀ L (P ω) (data ω)
  have hB : Measurable[known P data d₀ L (pastKeys lay sp key L burnIn)] B := by
    have := measurable_snd.comp (drive_known (next := adaptiveDrive lay γ cm L sg G v fullPot U D f₀ ms a)
      (acc := fun (_ : Unit) (_ : ((ι → ℝ) × (ι → ℝ)) × (ℕ → ℝ)) => ()) hlay key measurable_const
      (List.range' 0 a.burnIn) (fun i _ => hnext i) 0 _ hH0)
    rw [Nat.zero_add, List.length_range'] at this
    exact this
  have hB' : Measurable B := hB.mono (known_le hR _) le_rfl
  have hH : Measurable[known P data d₀ L (pastKeys lay sp key L burnIn)] fun ω => (((0, 0), B ω) :
      ((ι → ℝ) × (ι → ℝ)) × (((ι → ℝ) × (ι → ℝ)) × (ℕ → ℝ))) :=
    (by fun_prop : Measurable fun q : ((ι → ℝ) × (ι → ℝ)) × (ℕ → ℝ) =>
      (((0, 0), q) : ((ι → ℝ) × (ι → ℝ)) × (((ι → ℝ) × (ι → ℝ)) × (ℕ → ℝ)))).comp hB
  have hacc : Measurable fun q : ((ι → ℝ) × (ι → ℝ)) × (((ι → ℝ) × (ι → ℝ)) × (ℕ → ℝ)) => q.2.1 := by fun_prop
  -- the bounds on the state at the end of the burn in
  let h : Ω → ℝ := fun ω => a.step (B ω).2 a.burnIn
  have hhm : Measurable h := (a.step_measurable a.burnIn).comp (measurable_snd.comp hB')
  have hhpos : ∀ ω, 0 < h ω := fun ω => Real.exp_pos _
  let X : Ω → ℝ := fun ω => max (max (h ω) (h ω)⁻¹) (max ‖(B ω).1‖ |U (B ω).1.1|)
  have hX : Measurable X := by
    have h1 : Measurable fun ω => (B ω).1 := measurable_fst.comp hB'
    have h2 : Measurable fun ω => U (B ω).1.1 := hU.comp (measurable_fst.comp h1)
    exact (hhm.max hhm.inv).max (h1.norm.max (abs_measurable h2))
  obtain ⟨r, hr1, hr⟩ := real_tail prob hX (half_pos hε)
  have hr0 : 0 < r := one_pos.trans_le hr1
  obtain ⟨N, hN⟩ := constant_converges (l := r⁻¹) (u := r) hlay hγ cm hm hL sg hG hGm hGb fullPot hU hD hfp f₀ ms hw hw1
    (inv_pos.2 hr0) hZ0 hZ r (half_pos hε)
  have hsample := adaptive_sample hR hlay key hγ cm hm sg hG fullPot hin hout ms hfirst hstab decay speed target burnIn bar zero
    hstart hj hrs hv
  refine ⟨N, fun n i hNi hin' A hA => ?_⟩
  have hF : Measurable fun z : (ι → ℝ) × (ι → ℝ) => A.indicator (1 : (ι → ℝ) → ENNReal) z.1 :=
    (measurable_one.indicator hA).comp measurable_fst
  let K : Ω → ENNReal := fun ω => drivePath (amagoldDrive lay γ cm L sg fullPot U f₀ ms)
    (fun (_ : (ι → ℝ) × (ι → ℝ)) z => z) (innovLaw ι L w) (fun z => A.indicator (1 : (ι → ℝ) → ENNReal) z.1)
    (List.replicate (i + 1) ⟨h ω, 1⟩) ((0, 0), (B ω).1)
  have hK : ∀ ω, K ω = drivePath (adaptiveDrive lay γ cm L sg G v fullPot U D f₀ ms a)
      (fun (_ : (ι → ℝ) × (ι → ℝ)) (q : ((ι → ℝ) × (ι → ℝ)) × (ℕ → ℝ)) => q.1) (innovLaw ι L w)
      (fun z => A.indicator (1 : (ι → ℝ) → ENNReal) z.1) (List.range' burnIn (i + 1)) ((0, 0), B ω) := fun ω =>
    (adaptivePath_eq f₀ ms a (fun (_ : (ι → ℝ) × (ι → ℝ)) (z : (ι → ℝ) × (ι → ℝ)) => z) (innovLaw ι L w) _ (i + 1) burnIn le_rfl
      (0, 0) (B ω).1 (B ω).2).symm
  have hKm : Measurable K := by
    rw [show K = _ from funext hK]
    exact (drivePath_measurable (acc := fun (_ : (ι → ℝ) × (ι → ℝ)) (q : ((ι → ℝ) × (ι → ℝ)) × (ℕ → ℝ)) => q.1) hacc hF _
      (fun i _ => hnext i)).comp (hH.mono (known_le hR _) le_rfl)
  have hind : ∀ z : (ι → ℝ) × (ι → ℝ), A.indicator (1 : (ι → ℝ) → ENNReal) z.1 ≤ 1 := fun z => by
    by_cases hz : z.1 ∈ A
    · simp [hz]
    · simp [hz]
  have hK1 : ∀ ω, K ω ≤ 1 := fun ω => drivePath_le_one _ _ _ hind _ _
  have hKt : ∀ ω, K ω ≠ ⊤ := fun ω => ((hK1 ω).trans_lt ENNReal.one_lt_top).ne
  -- the probability
  have hlaw : prob {ω | (Spec.chainVariables (rs n ω) j).getD i 0 ∈ A} = ∫⁻ ω, K ω ∂prob := by
    have hd := drive_law (next := adaptiveDrive lay γ cm L sg G v fullPot U D f₀ ms a)
      (acc := fun (_ : (ι → ℝ) × (ι → ℝ)) (q : ((ι → ℝ) × (ι → ℝ)) × (ℕ → ℝ)) => q.1) hR hlay key hacc hF
      (List.range' burnIn (i + 1)) (fun i _ => hnext i) burnIn _ hH
    simp only [hK]
    rw [← hd]
    have hdm := measurable_fst.comp (drive_measurable (next := adaptiveDrive lay γ cm L sg G v fullPot U D f₀ ms a)
      (acc := fun (_ : (ι → ℝ) × (ι → ℝ)) (q : ((ι → ℝ) × (ι → ℝ)) × (ℕ → ℝ)) => q.1) hR hlay key hacc
      (List.range' burnIn (i + 1)) (fun i _ => hnext i) burnIn _ (hH.mono (known_le hR _) le_rfl))
    have hY := measurable_fst.comp hdm
    set Y : Ω → (ι → ℝ) := fun ω => (drive (adaptiveDrive lay γ cm L sg G v fullPot U D f₀ ms a)
      (fun (_ : (ι → ℝ) × (ι → ℝ)) (q : ((ι → ℝ) × (ι → ℝ)) × (ℕ → ℝ)) => q.1) (List.range' burnIn (i + 1)) burnIn
      (fun m => runInnov lay sp key d₀ L m (P ω) (data ω)) ((0, 0), B ω)).1.1 with hYdef
    have hY' : Measurable Y := hY
    have e1 : prob {ω | (Spec.chainVariables (rs n ω) j).getD i 0 ∈ A} = prob (Y ⁻¹' A) := by
      refine measure_congr ?_
      filter_upwards [hsample] with ω hω
      have := (hω n i hin').2
      refine propext ?_
      show (Spec.chainVariables (rs n ω) j).getD i 0 ∈ A ↔ Y ω ∈ A
      rw [this]
    rw [e1, ← lintegral_indicator_one (hY' hA)]
    rfl
  have hreal : prob.real {ω | (Spec.chainVariables (rs n ω) j).getD i 0 ∈ A} = ∫ ω, (K ω).toReal ∂prob := by
    rw [Measure.real, hlaw, integral_toReal hKm.aemeasurable (Eventually.of_forall fun ω => (hKt ω).lt_top)]
  rw [hreal]
  have hpost : IsFiniteMeasure (Spec.posterior U D) := ⟨lt_top_iff_ne_top.2 hZ⟩
  refine mixture_close (H := fun ω => (K ω).toReal) (X := X) hKm.ennreal_toReal (fun ω => ⟨ENNReal.toReal_nonneg, ?_⟩) hX
    ⟨div_nonneg measureReal_nonneg measureReal_nonneg, div_le_one_of_le₀ (measureReal_mono (Set.subset_univ A)) measureReal_nonneg⟩
    hε hr ?_
  · have := ENNReal.toReal_mono ENNReal.one_ne_top (hK1 ω)
    simpa using this
  · filter_upwards [hsample] with ω hω hXr
    have h1 : max (h ω) (h ω)⁻¹ ≤ r := (le_max_left _ _).trans hXr
    have h2 : max ‖(B ω).1‖ |U (B ω).1.1| ≤ r := (le_max_right _ _).trans hXr
    refine hN _ ⟨(hω n i hin').1, (le_max_left _ _).trans h2, (le_max_right _ _).trans h2⟩ ⟨h ω, 1⟩ ?_
      ((le_max_left _ _).trans h1) _ (by omega) (Nat.succ_pos i) A hA
    exact inv_le_of_inv_le₀ (hhpos ω) ((le_max_right _ _).trans h1)

end

/-- The hypotheses can be met: the run of the example of C133 (the exponential distribution truncated to the unit interval,
mini-batches drawn from two possible ones, 100 iterations of adaption). -/
example (ε : ℝ) (hε : 0 < ε) :
    ∃ rs : ℕ → IdealSpace.Space 2 Bool → List (SaveResult (OutLeaf (Fin 1) Unit)),
      (∀ n ω, runAmagoldAdaptive (noSave id) (IdealSpace.gen ω) [] (Spec.vectorLayout 1) 1 (some fun _ => 4) 2
        (IdealSpace.batches ω) halfGrad boxPot () 1 10 0.75 0.05 0.8 100 none false (100 + n) ()
        [(fun _ => 1, 0, ()), (0, 0, ())] = .ok ((), rs n ω)) ∧
      ∃ N : ℕ, ∀ n i : ℕ, N ≤ i → i < n → ∀ A : Set (Fin 1 → ℝ), MeasurableSet A →
        |(IdealSpace.law (PMF.uniformOfFintype (Fin 2 → Bool))).real {ω | (Spec.chainVariables (rs n ω) 1).getD i 0 ∈ A} -
          (Spec.posterior (fun x : Fin 1 → ℝ => x 0) (Set.Icc 0 1)).real A /
            (Spec.posterior (fun x : Fin 1 → ℝ => x 0) (Set.Icc 0 1)).real Set.univ| ≤ ε := by
  have hm : Spec.MassOk (Spec.usedMass none (some fun _ : Fin 1 => (4 : ℝ))) := massOk_const fun _ => by norm_num
  have hU : Measurable fun x : Fin 1 → ℝ => x 0 := measurable_pi_apply 0
  have hv : Spec.Layout.Valid (Spec.vectorLayout 1) :=
    ⟨Spec.vectorLayout_injective 1, fun _ => Nat.one_pos, fun i => i.2⟩
  have hpr : IsProbabilityMeasure (IdealSpace.law (PMF.uniformOfFintype (Fin 2 → Bool))) := by
    unfold IdealSpace.law; infer_instance
  have hin : ∀ (x : Fin 1 → ℝ) (f ms : Unit), x ∈ Set.Icc (0 : Fin 1 → ℝ) 1 → (boxPot x f ms).1 = .fin (x 0) :=
    fun x f ms h => if_pos h
  have hout : ∀ (x : Fin 1 → ℝ) (f ms : Unit), x ∉ Set.Icc (0 : Fin 1 → ℝ) 1 → (boxPot x f ms).1 = .pinf :=
    fun x f ms h => if_neg h
  have hstart : ∀ c ∈ [((fun _ => 1 : Fin 1 → ℝ), (0 : ℕ), ()), ((0 : Fin 1 → ℝ), (0 : ℕ), ())],
      c.1 ∈ Set.Icc (0 : Fin 1 → ℝ) 1 := by
    intro c hc
    simp only [List.mem_cons, List.not_mem_nil, or_false] at hc
    rcases hc with rfl | rfl
    · exact ⟨fun _ => zero_le_one, fun _ => le_refl _⟩
    · exact ⟨le_refl _, fun _ => zero_le_one⟩
  have hex : ∀ n (ω : IdealSpace.Space 2 Bool), ∃ rs, runAmagoldAdaptive (noSave id) (IdealSpace.gen ω) []
      (Spec.vectorLayout 1) 1 (some fun _ => 4) 2
      (IdealSpace.batches ω) halfGrad boxPot () 1 10 0.75 0.05 0.8 100 none false (100 + n) ()
      [(fun _ => 1, 0, ()), (0, 0, ())] = .ok ((), rs) := by
    intro n ω
    obtain ⟨rs, h, -⟩ := c95_amagold id (IdealSpace.gen ω) [] (Spec.vectorLayout 1) 1 (some fun _ => 4) 2
      (IdealSpace.batches ω) halfGrad boxPot (fun x f m => by
        by_cases hx : x ∈ Set.Icc (0 : Fin 1 → ℝ) 1
        · exact Or.inr ⟨_, hin x f m hx⟩
        · exact Or.inl (hout x f m hx)) () 1 10 0.75 0.05 0.8 100 false (100 + n) one_pos (by norm_num)
      (Nat.le_add_right _ _) _ (fun c hc => ⟨_, hin _ _ _ (hstart c hc)⟩)
    exact ⟨rs, h⟩
  choose rs hrs using hex
  refine ⟨rs, hrs, ?_⟩
  refine c156_adaptive (IdealSpace.ideal _) hv [] one_pos (some fun _ => 4) hm halfGrad
    (G := fun _ b _ => if b then 1 else 0)
    (fun _ _ _ => rfl) (fun _ => measurable_const) (fun R => ⟨1, fun b q _ => ?_⟩) boxPot hU measurableSet_Icc hin hout ()
    one_pos (by norm_num) 0.75 0.05 0.8 100 false id hstart (j := 1) rfl hrs le_rfl (fun b => by simp) (PMF.tsum_coe _)
    trunc_proper.1 trunc_proper.2 hε
  refine (pi_norm_le_iff_of_nonneg zero_le_one).2 fun _ => ?_
  cases b <;> simp

end JaxSgmc
