import Verif.Lemmas.Truncation
import Verif.Lemmas.LangevinMoments
import Verif.Spec.HostRun
import Verif.Props.SgldDevice
import Verif.Props.AmagoldSchedule

/-!
# C145: averages of unbounded functions over AMAGOLD runs
-/

namespace JaxSgmc

open MeasureTheory ProbabilityTheory Filter Topology

variable {ι β μ φ : Type} [Fintype ι]

/-! ## Sums of rare values over lists -/

section
variable {Θ α : Type*}

/-- The weighted sum of `g` over visited states. -/
noncomputable def rareSum (g : α → ENNReal) : List (Θ × ENNReal) → List α → ENNReal
  | x :: l, y :: ys => x.2 * g y + rareSum g l ys
  | _, _ => 0

theorem tagged_total (t : List Θ) : ∀ a : ℕ → ENNReal, weightTotal (taggedSteps a t) = ∑ k ∈ Finset.range t.length, a k := by
  induction t with
  | nil => intro a; rfl
  | cons θ t ih =>
    intro a
    rw [List.length_cons, Finset.sum_range_succ', ← ih fun k => a (k + 1), add_comm]
    rfl

theorem tagged_sum (g : α → ENNReal) (d : α) (t : List Θ) : ∀ (a : ℕ → ENNReal) (ys : List α), ys.length = t.length →
    rareSum g (taggedSteps a t) ys = ∑ k ∈ Finset.range t.length, a k * g (ys.getD k d) := by
  induction t with
  | nil => intro a ys h; rfl
  | cons θ t ih =>
    intro a ys h
    cases ys with
    | nil => simp at h
    | cons y ys =>
      rw [List.length_cons, Finset.sum_range_succ', add_comm]
      show a 0 * g y + rareSum g (taggedSteps (fun k => a (k + 1)) t) ys = _
      rw [ih _ ys (by simpa using h)]
      rfl

end

attribute [local irreducible] Spec.amagoldNext leapMap Spec.amagoldExpect

section
variable [Inhabited β] {lay : Layout ι} {γ : ℝ} {am : Option (MassMatrix ι)} {cm : Option (ι → ℝ)} {L : ℕ}
  {sg : StochGrad ι β μ} {fullPot : FullPotFn ι φ μ} {U : (ι → ℝ) → ℝ} {f₀ : φ} {ms : μ} {w : (Fin L → β) → ENNReal}

/-- The expectation of a capped sum over a path. -/
theorem amagoldPath_capped {Θ : Type} {prm : Θ → Params} {P : Θ → Kernel ((ι → ℝ) × (ι → ℝ)) ((ι → ℝ) × (ι → ℝ))}
    [∀ θ, IsMarkovKernel (P θ)]
    (hP : ∀ θ z (f : (ι → ℝ) × (ι → ℝ) → ENNReal), Measurable f → ∫⁻ y, f y ∂P θ z =
      Spec.amagoldExpect lay γ am cm L sg fullPot U f₀ ms w f [prm θ] z)
    {g : (ι → ℝ) × (ι → ℝ) → ENNReal} (hg : Measurable g) {K : ENNReal}
    {F : List ((ι → ℝ) × (ι → ℝ)) → ENNReal} (l : List (Θ × ENNReal)) :
    ∀ (past : List ((ι → ℝ) × (ι → ℝ))) (c : ENNReal) (z : (ι → ℝ) × (ι → ℝ)),
      (∀ ys : List ((ι → ℝ) × (ι → ℝ)), ys.length = l.length →
        F (past ++ ys) = min 1 ((c + rareSum g l ys) / K)) →
      Spec.amagoldPath lay γ am cm L sg fullPot U f₀ ms w F (l.map fun x => prm x.1) past z = cappedSum P g K l c z := by
  induction l with
  | nil =>
    intro past c z hF
    have := hF [] rfl
    rw [List.append_nil] at this
    show F past = _
    rw [this]
    simp [cappedSum, rareSum]
  | cons x l ih =>
    obtain ⟨θ, a⟩ := x
    intro past c z hF
    rw [List.map_cons, amagoldPath_cons]
    have hih := fun z' => ih (past ++ [z']) (c + a * g z') z' (fun ys hys => by
      rw [List.append_assoc, List.singleton_append, hF (z' :: ys) (by simp [hys])]
      show min 1 ((c + (a * g z' + rareSum g l ys)) / K) = _
      rw [add_assoc])
    simp only [hih]
    rw [← hP θ z _ (cappedSum_step_measurable hg l a c)]
    rfl

end

section
variable [Inhabited β] [Countable β] {lay : Layout ι} (hlay : Spec.Layout.Injective lay) {γ : ℝ} (hγ : 0 < γ)
  (am : Option (MassMatrix ι)) (cm : Option (ι → ℝ)) (hm : Spec.MassOk (Spec.usedMass am cm)) {L : ℕ}
  (hL : 2 ≤ L) (sg : StochGrad ι β μ) {G : (ι → ℝ) → β → (ι → ℝ)} (hG : ∀ x b ms, (sg x b ms).2 = G x b)
  (hGm : ∀ b, Measurable fun x => G x b) (hGb : Spec.LocallyBounded G) (fullPot : FullPotFn ι φ μ) {U : (ι → ℝ) → ℝ}
  (hU : Measurable U) {D : Set (ι → ℝ)} (hD : MeasurableSet D) (hfp : Spec.PotentialOn fullPot U D)
  (f₀ : φ) (ms : μ) (w : (Fin L → β) → ENNReal) (hw : ∀ b, w (fun i => b (Fin.rev i)) = w b)
  (hw1 : ∑' b, w b = 1) {l u : ℝ} (hl : 0 < l)
  (hZ0 : Spec.posterior U D Set.univ ≠ 0) (hZ : Spec.posterior U D Set.univ ≠ ⊤)

include hlay hγ hm hL hG hGm hGb hU hD hfp hw hw1 hl hZ0 hZ in
/-- Functions with a small posterior expectation, which vanish at the initial state, are unlikely to have a large mean over
chosen states of an AMAGOLD chain, whatever the number of states. -/
theorem rare_path (R₀ : ℝ) {ε b : ℝ} (hε : 0 < ε) (hb : 0 < b) : ∃ η : ℝ, 0 < η ∧ ∀ r : (ι → ℝ) → ENNReal, Measurable r →
    ∫⁻ q, r q ∂Spec.posterior U D ≤ ENNReal.ofReal η →
    ∀ (prms : List Params) (I : Finset ℕ) (z : (ι → ℝ) × (ι → ℝ)), Spec.StepsBetween l u prms → (∀ i ∈ I, i < prms.length) →
    I.Nonempty → z.1 ∈ D → ‖z‖ ≤ R₀ → |U z.1| ≤ R₀ → r z.1 = 0 →
    Spec.amagoldPath lay γ am cm L sg fullPot U f₀ ms w
      (fun zs => min 1 ((∑ i ∈ I, r (zs.getD i 0).1) / (I.card * ENNReal.ofReal ε))) prms [] z ≤ ENNReal.ofReal b := by
  obtain ⟨n, rfl⟩ : ∃ n, L = n + 2 := ⟨L - 2, by omega⟩
  obtain ⟨v, ν, k₀, P, hv, hν, hk0, hkt, hprob, htarget, hmarkov, hPdef, hP, hinv⟩ := amagold_kernels (l := l) (u := u) hlay hγ am cm hm
    sg hG hGm fullPot hU hD hfp f₀ ms w hw hw1 hl hZ0 hZ rfl
  set π := jointLaw U D ν with hπ
  have hπp : IsProbabilityMeasure π := by rw [hπ, jointLaw]; infer_instance
  let Θ := {p : Params // l ≤ p.stepSize ∧ p.stepSize ≤ u}
  obtain ⟨R, hR, hRt⟩ := target_levels hU hD htarget (show (0 : ℝ) < 1 / 2 by norm_num) R₀
  obtain ⟨κ, hκ, hstay⟩ := moves_stay (h := fun θ : Θ => θ.1.stepSize) hγ hl (fun θ => θ.2) hm hv hGm hGb hU hD w hw1 hkt htarget
    hPdef hRt
  set κ' : ℝ := min κ 1 with hκ'
  have hκ'0 : 0 < κ' := lt_min hκ one_pos
  have hκ'1 : κ' ≤ 1 := min_le_right _ _
  set t : ℝ := κ' / 4 * b with ht
  have ht0 : 0 < t := by positivity
  obtain ⟨c, hc, hden⟩ := moveLaw_density (h := fun θ : Θ => θ.1.stepSize) hγ hl (fun θ => θ.2) hm hv hGm hGb hU hD w hw1 hk0 hkt htarget
    R ht0
  set Z' : ℝ := ((Spec.posterior U D Set.univ)⁻¹).toReal with hZ'
  have hZ'0 : 0 ≤ Z' := ENNReal.toReal_nonneg
  have hZe : (Spec.posterior U D Set.univ)⁻¹ = ENNReal.ofReal Z' := (ENNReal.ofReal_toReal (ENNReal.inv_ne_top.2 hZ0)).symm
  refine ⟨ε * t / ((c + 1) * (Z' + 1)), by positivity, fun r hr hrη prms I z hp hI hne hzD hz hzU hr0 => ?_⟩
  set g : (ι → ℝ) × (ι → ℝ) → ENNReal := fun z => r z.1 with hg
  have hgm : Measurable g := hr.comp measurable_fst
  have hgπ : ∫⁻ z, g z ∂π ≤ ENNReal.ofReal Z' * ENNReal.ofReal (ε * t / ((c + 1) * (Z' + 1))) := by
    rw [hπ, jointLaw, lintegral_prod _ hgm.aemeasurable]
    simp only [hg, lintegral_const, measure_univ, mul_one]
    rw [lintegral_smul_measure, smul_eq_mul, hZe]
    gcongr
  obtain ⟨ths, hths⟩ : ∃ ths : List Θ, ths.map Subtype.val = prms :=
    ⟨prms.attach.map fun p => ⟨p.1, hp p.1 p.2⟩, by rw [List.map_map]; exact List.attach_map_subtype_val prms⟩
  have hlen : ths.length = prms.length := by rw [← hths, List.length_map]
  set a : ℕ → ENNReal := fun k => if k ∈ I then 1 else 0 with ha
  set steps := taggedSteps a ths with hsteps
  have hsub : I ⊆ Finset.range ths.length := fun i hi => Finset.mem_range.2 (by rw [hlen]; exact hI i hi)
  have hsum : ∀ b : ℕ → ENNReal, ∑ k ∈ Finset.range ths.length, a k * b k = ∑ i ∈ I, b i := by
    intro b
    simp only [ha, ite_mul, one_mul, zero_mul]
    rw [Finset.sum_ite_mem, Finset.inter_eq_right.2 hsub]
  have htotal : weightTotal steps = I.card := by
    rw [hsteps, tagged_total]
    have := hsum fun _ => 1
    simpa using this
  have hprms : steps.map (fun x => x.1.1) = prms := by
    rw [← hths, ← taggedSteps_fst ths a, List.map_map]
    rfl
  have e1 := amagoldPath_capped (F := fun zs => min 1 ((∑ i ∈ I, r (zs.getD i 0).1) / (I.card * ENNReal.ofReal ε))) hP hgm
    (K := I.card * ENNReal.ofReal ε) steps [] 0 z (fun ys hys => by
      have hys' : ys.length = ths.length := by rw [hys, hsteps, taggedSteps_length]
      rw [List.nil_append, zero_add, hsteps, tagged_sum g 0 ths a ys hys', hsum fun k => g (ys.getD k 0)])
  rw [hprms] at e1
  rw [e1]
  refine cappedSum_small hinv hgm (fun θ z => moveLaw (Spec.usedMass am cm) U D w (leapPaths γ (Spec.usedMass am cm) v G n θ.1.stepSize) z)
    (fun θ z => stayProb (Spec.usedMass am cm) U D w (leapPaths γ (Spec.usedMass am cm) v G n θ.1.stepSize) z) (fun z => (z.1, -z.2))
    hPdef (Z := {z | z ∈ levelSet U D R ∧ g z = 0}) (fun z hz => ⟨levelSet_flip hz.1, hz.2⟩) (fun z hz => hz.2)
    (s := ENNReal.ofReal (1 - κ' / 2)) (c := ENNReal.ofReal c) (δ := ENNReal.ofReal t) (d := ENNReal.ofReal t)
    (fun θ z hz => (hstay θ z hz.1).trans (ENNReal.ofReal_le_ofReal (by linarith [min_le_left κ 1])))
    (fun θ z hz => hden θ z hz.1) ?_ steps ?_ z ⟨levelSet_mono hR ⟨hzD, hz, hzU⟩, hr0⟩
  · rw [← ENNReal.ofReal_mul (by linarith), ← ENNReal.ofReal_add ht0.le ht0.le, ← ENNReal.ofReal_add (by positivity)
      (mul_nonneg (by linarith) hb.le)]
    refine ENNReal.ofReal_le_ofReal ?_
    rw [ht]
    linarith
  · have hcard : (I.card : ENNReal) ≠ 0 := by simpa using hne.ne_empty
    rw [htotal, ENNReal.mul_div_mul_left _ _ hcard (ENNReal.natCast_ne_top _)]
    calc ENNReal.ofReal c * ((∫⁻ z, g z ∂π) / ENNReal.ofReal ε)
        ≤ ENNReal.ofReal c * (ENNReal.ofReal Z' * ENNReal.ofReal (ε * t / ((c + 1) * (Z' + 1))) / ENNReal.ofReal ε) := by gcongr
      _ = ENNReal.ofReal (c * (Z' * (ε * t / ((c + 1) * (Z' + 1))) / ε)) := by
          rw [← ENNReal.ofReal_mul hZ'0, ← ENNReal.ofReal_div_of_pos hε, ← ENNReal.ofReal_mul hc]
      _ ≤ ENNReal.ofReal t := by
          refine ENNReal.ofReal_le_ofReal ?_
          have : c * (Z' * (ε * t / ((c + 1) * (Z' + 1))) / ε) = t * (c / (c + 1)) * (Z' / (Z' + 1)) := by
            field_simp
          rw [this]
          have h1 : c / (c + 1) ≤ 1 := (div_le_one (by positivity)).2 (by linarith)
          have h2 : Z' / (Z' + 1) ≤ 1 := (div_le_one (by positivity)).2 (by linarith)
          calc t * (c / (c + 1)) * (Z' / (Z' + 1)) ≤ t * 1 * 1 := by gcongr
            _ = t := by ring

end

/-! ## Truncation -/

/-- `f` truncated to values between `-k` and `k`. -/
noncomputable def truncTo (f : (ι → ℝ) → ℝ) (k : ℕ) (q : ι → ℝ) : ℝ := max (-k) (min k (f q))

/-- The part of `f` beyond `k`. -/
noncomputable def beyond (f : (ι → ℝ) → ℝ) (k : ℕ) (q : ι → ℝ) : ℝ := |f q - truncTo f k q|

omit [Fintype ι] in
theorem truncTo_le (f : (ι → ℝ) → ℝ) (k : ℕ) (q : ι → ℝ) : |truncTo f k q| ≤ k := by
  have hk : (0 : ℝ) ≤ k := Nat.cast_nonneg k
  rw [abs_le]
  exact ⟨le_max_left _ _, max_le (by linarith) (min_le_left _ _)⟩

omit [Fintype ι] in
theorem truncTo_eq {f : (ι → ℝ) → ℝ} {k : ℕ} {q : ι → ℝ} (h : |f q| ≤ k) : truncTo f k q = f q := by
  rw [truncTo, min_eq_right (abs_le.1 h).2, max_eq_right (abs_le.1 h).1]

omit [Fintype ι] in
theorem beyond_le (f : (ι → ℝ) → ℝ) (k : ℕ) (q : ι → ℝ) : beyond f k q ≤ |f q| := by
  have hk : (0 : ℝ) ≤ k := Nat.cast_nonneg k
  unfold beyond truncTo
  rcases le_total (f q) k with h1 | h1
  · rw [min_eq_right h1]
    rcases le_total (-(k : ℝ)) (f q) with h2 | h2
    · rw [max_eq_right h2, sub_self, abs_zero]; exact abs_nonneg _
    · rw [max_eq_left h2, abs_of_nonpos (by linarith), abs_of_nonpos (by linarith)]; linarith
  · rw [min_eq_left h1, max_eq_right (by linarith), abs_of_nonneg (by linarith), abs_of_nonneg (by linarith)]; linarith

theorem truncTo_measurable {f : (ι → ℝ) → ℝ} (hf : Measurable f) (k : ℕ) : Measurable (truncTo f k) := by
  unfold truncTo
  fun_prop

theorem beyond_measurable {f : (ι → ℝ) → ℝ} (hf : Measurable f) (k : ℕ) : Measurable (beyond f k) :=
  abs_measurable (hf.sub (truncTo_measurable hf k))

theorem beyond_tendsto {f : (ι → ℝ) → ℝ} (hf : Measurable f) {ρ : Measure (ι → ℝ)} (hi : Integrable f ρ) :
    Tendsto (fun k => ∫⁻ q, ENNReal.ofReal (beyond f k q) ∂ρ) atTop (𝓝 0) := by
  have := tendsto_lintegral_of_dominated_convergence (μ := ρ) (F := fun k q => ENNReal.ofReal (beyond f k q)) (f := fun _ => 0)
    (fun q => ENNReal.ofReal |f q|) (fun k => (beyond_measurable hf k).ennreal_ofReal)
    (fun k => Eventually.of_forall fun q => ENNReal.ofReal_le_ofReal (beyond_le f k q)) ?_ (Eventually.of_forall fun q => ?_)
  · simpa using this
  · rw [← lt_top_iff_ne_top]
    have h := hi.2
    rw [hasFiniteIntegral_iff_norm] at h
    exact h
  · obtain ⟨k₀, hk₀⟩ := exists_nat_ge |f q|
    refine tendsto_const_nhds.congr' ?_
    filter_upwards [eventually_ge_atTop k₀] with k hk
    have : |f q| ≤ k := hk₀.trans (by exact_mod_cast hk)
    rw [beyond, truncTo_eq this, sub_self, abs_zero, ENNReal.ofReal_zero]

/-! ## Runs -/

section
variable {κ δ Ω : Type} [Inhabited β] [Countable β] [MeasurableSpace β] [MeasurableSingletonClass β] [MeasurableSpace Ω]
  {prob : Measure Ω} [IsProbabilityMeasure prob]
  {P : Ω → Prng κ} {data : Ω → δ → δ × β} {d₀ : δ} {L : ℕ} {w : (Fin L → β) → ENNReal} {sp : κ → ℕ → ℕ → κ}
  (hR : Spec.IdealRandom prob P data d₀ L w sp) {lay : Layout ι} (hlay : Spec.Layout.Valid lay)
  {γ : ℝ} (cm : Option (ι → ℝ)) (hm : Spec.MassOk (Spec.usedMass none cm))
  (sg : StochGrad ι β μ) {G : (ι → ℝ) → β → (ι → ℝ)} (hG : ∀ x b ms, (sg x b ms).2 = G x b)
  (hGm : ∀ b, Measurable fun x => G x b) (hGb : Spec.LocallyBounded G) (fullPot : FullPotFn ι φ μ) {U : (ι → ℝ) → ℝ}
  (hU : Measurable U) {D : Set (ι → ℝ)} (hD : MeasurableSet D) (hfp : Spec.PotentialOn fullPot U D)
  (f₀ : φ) (ms : μ) {x₀ : ι → ℝ} (hx₀ : x₀ ∈ D) (hγ : 0 < γ) (hL : 2 ≤ L)
  (hw : ∀ b, w (fun i => b (Fin.rev i)) = w b) (hw1 : ∑' b, w b = 1) {l u : ℝ} (hl : 0 < l)
  (hZ0 : Spec.posterior U D Set.univ ≠ 0) (hZ : Spec.posterior U D Set.univ ≠ ⊤)

include hR hlay hm hG hGm hGb hU hD hfp hx₀ hγ hL hw hw1 hl hZ0 hZ in
/-- Functions with a small posterior expectation, which vanish at the initial sample, are unlikely to have a large mean over
chosen samples of a run. -/
theorem rare_run {ε b : ℝ} (hε : 0 < ε) (hb : 0 < b) : ∃ η : ℝ, 0 < η ∧ ∀ r : (ι → ℝ) → ℝ, Measurable r → (∀ q, 0 ≤ r q) →
    ∫⁻ q, ENNReal.ofReal (r q) ∂Spec.posterior U D ≤ ENNReal.ofReal η → r x₀ = 0 →
    ∀ (key : κ) (prms : List Params) (I : Finset ℕ), Spec.StepsBetween l u prms → (∀ i ∈ I, i < prms.length) → I.Nonempty →
    prob {ω | ε ≤ Spec.meanOn r I (Spec.amagoldSamples (P ω) lay γ cm L (data ω) d₀ sg fullPot f₀ ms x₀ key prms)} ≤
      ENNReal.ofReal b := by
  obtain ⟨s, hs⟩ := normals_tail ι (half_pos hb)
  obtain ⟨R₁, hR₁⟩ := (BoundedMaps.id (I := Unit) (X := ι → ℝ)).tensor (Spec.usedMass none cm).sqrt s
  obtain ⟨η, hη, hrare⟩ := rare_path (u := u) hlay.injective hγ none cm hm hL sg hG hGm hGb fullPot hU hD hfp f₀ ms w hw hw1 hl hZ0 hZ
    (max (max ‖x₀‖ R₁) |U x₀|) hε (half_pos hb)
  refine ⟨η, hη, fun r hr hr0 hrη hrx key prms I hp hI hne => ?_⟩
  have hcard : (0 : ℝ) < I.card := by exact_mod_cast hne.card_pos
  have hlen : ∀ ω, (Spec.amagoldVisited (P ω) lay γ cm L (data ω) d₀ sg fullPot f₀ ms x₀ key prms).length = prms.length := fun ω => by
    unfold Spec.amagoldVisited
    rw [List.length_map, List.length_range]
  have hF : Measurable fun a : ℝ × ℕ => min 1 (ENNReal.ofReal (a.1 / I.card) / ENNReal.ofReal ε) :=
    measurable_const.min (((measurable_fst.div_const _).ennreal_ofReal).div_const _)
  have hlaw := c131_run_law hR hlay key cm hm sg hG hGm fullPot hU hD hfp f₀ ms hx₀ hγ.le (chosenSum_measurable hr I) hF (0, 0) prms
    (fun p hq => hl.le.trans (hp p hq).1)
  have e1 : ∀ ω, min 1 (ENNReal.ofReal (Spec.meanOn r I (Spec.amagoldSamples (P ω) lay γ cm L (data ω) d₀ sg
      fullPot f₀ ms x₀ key prms)) / ENNReal.ofReal ε) = min 1 (ENNReal.ofReal (((Spec.amagoldVisited (P ω) lay γ cm L (data ω) d₀ sg
        fullPot f₀ ms x₀ key prms).foldl (chosenSum r I) (0, 0)).1 / I.card) / ENNReal.ofReal ε) := fun ω => by
    rw [chosenSum_mean r I _ (fun i hi => by rw [hlen]; exact hI i hi), samples_visited]
  have hmean := chosenMean_aemeasurable hR hlay cm hm sg hG hGm fullPot hU hD hfp f₀ ms hx₀ hγ hl hr key prms I hp hI
  have hX : AEMeasurable (fun ω => min 1 (ENNReal.ofReal (Spec.meanOn r I (Spec.amagoldSamples (P ω) lay γ cm L (data ω) d₀ sg
      fullPot f₀ ms x₀ key prms)) / ENNReal.ofReal ε)) prob :=
    AEMeasurable.inf aemeasurable_const (hmean.ennreal_ofReal.div_const _)
  have hmarkov := meas_ge_le_lintegral_div hX one_ne_zero ENNReal.one_ne_top
  rw [div_one] at hmarkov
  have hsub : {ω | ε ≤ Spec.meanOn r I (Spec.amagoldSamples (P ω) lay γ cm L (data ω) d₀ sg fullPot f₀ ms x₀ key prms)} ⊆
      {ω | 1 ≤ min 1 (ENNReal.ofReal (Spec.meanOn r I (Spec.amagoldSamples (P ω) lay γ cm L (data ω) d₀ sg
      fullPot f₀ ms x₀ key prms)) / ENNReal.ofReal ε)} := by
    intro ω hω
    refine le_min (le_refl (1 : ENNReal)) ?_
    rw [ENNReal.le_div_iff_mul_le (Or.inl (ENNReal.ofReal_pos.2 hε).ne') (Or.inl ENNReal.ofReal_ne_top), one_mul]
    exact ENNReal.ofReal_le_ofReal hω
  refine (measure_mono hsub).trans (hmarkov.trans ?_)
  simp only [e1]
  rw [hlaw]
  have e2 : ∀ ξ, Spec.amagoldPath lay γ none cm L sg fullPot U f₀ ms w
      (fun zs => min 1 (ENNReal.ofReal ((zs.foldl (chosenSum r I) (0, 0)).1 / I.card) / ENNReal.ofReal ε)) prms []
        (x₀, (Spec.usedMass none cm).sqrt.mul ξ) ≤
      Spec.amagoldPath lay γ none cm L sg fullPot U f₀ ms w
      (fun zs => min 1 ((∑ i ∈ I, ENNReal.ofReal (r (zs.getD i 0).1)) / (I.card * ENNReal.ofReal ε))) prms []
        (x₀, (Spec.usedMass none cm).sqrt.mul ξ) := fun ξ => by
    refine amagoldPath_mono lay γ none cm L sg fullPot U f₀ ms w prms _ _ fun zs hzs => ?_
    have e4 : ∀ i, (zs.map Prod.fst).getD i 0 = (zs.getD i 0).1 := fun i => by
      rw [List.getD_eq_getElem?_getD, List.getD_eq_getElem?_getD, List.getElem?_map]
      cases zs[i]? <;> rfl
    rw [chosenSum_mean r I zs (fun i hi => by rw [hzs, List.length_nil, zero_add]; exact hI i hi), Spec.meanOn,
      ENNReal.ofReal_div_of_pos hcard, ENNReal.ofReal_sum_of_nonneg fun i _ => hr0 _, ENNReal.ofReal_natCast]
    simp only [e4]
    refine min_le_min le_rfl (le_of_eq ?_)
    rw [div_eq_mul_inv, div_eq_mul_inv, div_eq_mul_inv, ENNReal.mul_inv (Or.inr ENNReal.ofReal_ne_top)
      (Or.inl (ENNReal.natCast_ne_top _)), mul_assoc]
  have hset : MeasurableSet {ξ : ι → ℝ | s < ‖ξ‖} := measurable_norm measurableSet_Ioi
  calc _ ≤ ∫⁻ ξ, (ENNReal.ofReal (b / 2) + {ξ : ι → ℝ | s < ‖ξ‖}.indicator (fun _ => 1) ξ) ∂Spec.normals ι := by
        refine lintegral_mono fun ξ => (e2 ξ).trans ?_
        by_cases hξ : s < ‖ξ‖
        · rw [Set.indicator_of_mem (show ξ ∈ {ξ : ι → ℝ | s < ‖ξ‖} from hξ)]
          refine le_trans ?_ le_add_self
          refine (amagoldPath_mono lay γ none cm L sg fullPot U f₀ ms w prms _ _ fun zs _ =>
            (min_le_left (1 : ENNReal) _)).trans ?_
          exact (amagoldPath_const lay γ none cm L sg fullPot U f₀ ms w hw1 _ prms _ _).le
        · rw [Set.indicator_of_notMem (show ξ ∉ {ξ : ι → ℝ | s < ‖ξ‖} from hξ), add_zero]
          refine hrare (fun q => ENNReal.ofReal (r q)) hr.ennreal_ofReal hrη prms I _ hp hI hne hx₀ ?_ (le_max_right _ _)
            (by simp only [hrx, ENNReal.ofReal_zero])
          refine max_le ((le_max_left _ _).trans (le_max_left _ _)) ?_
          exact (hR₁ () ξ (not_lt.1 hξ)).trans ((le_max_right _ _).trans (le_max_left _ _))
    _ = ENNReal.ofReal (b / 2) + Spec.normals ι {ξ : ι → ℝ | s < ‖ξ‖} := by
        rw [lintegral_add_left measurable_const, lintegral_const, measure_univ, mul_one, lintegral_indicator_const hset, one_mul]
    _ ≤ ENNReal.ofReal (b / 2) + ENNReal.ofReal (b / 2) := by gcongr
    _ = ENNReal.ofReal b := by
        rw [← ENNReal.ofReal_add (by positivity) (by positivity), add_halves]

variable {f : (ι → ℝ) → ℝ} (hf : Measurable f) (hi : Integrable f (Spec.posterior U D))

include hR hlay hm hG hGm hGb hU hD hfp hx₀ hγ hL hw hw1 hl hZ0 hZ hf hi in
/-- **C145.** Every function with a posterior mean: for every accuracy and confidence there is a number `N` of samples such that
the mean over any `N` or more samples reported by a run of AMAGOLD with step sizes between `l` and `u` is within the accuracy of
the posterior mean with the confidence, whatever the schedule, the choice of the samples and the key. -/
theorem c145_probability {ε δ' : ℝ} (hε : 0 < ε) (hδ : 0 < δ') : ∃ N : ℕ, 0 < N ∧
    ∀ (key : κ) (prms : List Params) (I : Finset ℕ),
    Spec.StepsBetween l u prms → (∀ i ∈ I, i < prms.length) → N ≤ I.card →
    prob {ω | ε ≤ |Spec.meanOn f I (Spec.amagoldSamples (P ω) lay γ cm L (data ω) d₀ sg
      fullPot f₀ ms x₀ key prms) - Spec.posteriorMean U D f|} ≤ ENNReal.ofReal δ' := by
  obtain ⟨η, hη, hrare⟩ := rare_run (u := u) hR hlay cm hm sg hG hGm hGb fullPot hU hD hfp f₀ ms hx₀ hγ hL hw hw1 hl hZ0 hZ
    (show 0 < ε / 3 by positivity) (half_pos hδ)
  set Zr : ℝ := (Spec.posterior U D Set.univ).toReal with hZr
  have hZr0 : 0 < Zr := ENNReal.toReal_pos hZ0 hZ
  -- the truncation
  obtain ⟨k₁, hk₁⟩ := exists_nat_ge |f x₀|
  obtain ⟨k, hk, hkx⟩ := (((beyond_tendsto hf hi).eventually (ge_mem_nhds (ENNReal.ofReal_pos.2
    (show 0 < min η (Zr * (ε / 4)) by positivity)))).and (eventually_ge_atTop k₁)).exists
  have hfx : |f x₀| ≤ k := hk₁.trans (by exact_mod_cast hkx)
  obtain ⟨N, hN0, hN⟩ := c143_probability (u := u) hR hlay cm hm sg hG hGm hGb fullPot hU hD hfp f₀ ms hx₀ hγ hL hw hw1 hl hZ0 hZ
    (truncTo_measurable hf k) (truncTo_le f k) (show 0 < ε / 3 by positivity) (half_pos hδ)
  refine ⟨N, hN0, fun key prms I hp hI hcard => ?_⟩
  have hne : I.Nonempty := Finset.card_pos.1 (by omega)
  have hIpos : (0 : ℝ) < I.card := by exact_mod_cast hne.card_pos
  -- the posterior means
  have hfin : IsFiniteMeasure (Spec.posterior U D) := ⟨lt_top_iff_ne_top.2 hZ⟩
  have hM : |Spec.posteriorMean U D (truncTo f k) - Spec.posteriorMean U D f| ≤ ε / 4 := by
    have i1 := bounded_integrable (truncTo_measurable hf k) (truncTo_le f k) (Spec.posterior U D)
    rw [Spec.posteriorMean, Spec.posteriorMean, ← sub_div, ← integral_sub i1 hi, abs_div, abs_of_pos hZr0, div_le_iff₀ hZr0]
    refine (abs_integral_le_integral_abs).trans ?_
    have e : ∀ q, |truncTo f k q - f q| = beyond f k q := fun q => abs_sub_comm _ _
    simp only [e]
    rw [integral_eq_lintegral_of_nonneg_ae (f := beyond f k) (Eventually.of_forall fun q => abs_nonneg _) (beyond_measurable hf k).aestronglyMeasurable]
    refine ENNReal.toReal_le_of_le_ofReal (by positivity) (hk.trans (ENNReal.ofReal_le_ofReal ?_))
    exact (min_le_right _ _).trans (le_of_eq (mul_comm _ _))
  have h1 := hN key prms I hp hI hcard
  have h2 := hrare (beyond f k) (beyond_measurable hf k) (fun q => abs_nonneg _)
    (hk.trans (ENNReal.ofReal_le_ofReal (min_le_left _ _))) (by rw [beyond, truncTo_eq hfx, sub_self, abs_zero]) key prms I hp hI hne
  refine le_trans (measure_mono fun ω hω => ?_) ((measure_union_le _ _).trans ((add_le_add h1 h2).trans (le_of_eq ?_)))
  · by_contra hnot
    simp only [Set.mem_union, Set.mem_setOf_eq, not_or, not_le] at hnot hω
    obtain ⟨n1, n2⟩ := hnot
    set xs := Spec.amagoldSamples (P ω) lay γ cm L (data ω) d₀ sg fullPot f₀ ms x₀ key prms with hxs
    have h3 : |Spec.meanOn f I xs - Spec.meanOn (truncTo f k) I xs| ≤ Spec.meanOn (beyond f k) I xs := by
      unfold Spec.meanOn
      rw [← sub_div, ← Finset.sum_sub_distrib, abs_div, abs_of_pos hIpos]
      exact div_le_div_of_nonneg_right (Finset.abs_sum_le_sum_abs _ _) hIpos.le
    have h4 : |Spec.meanOn f I xs - Spec.posteriorMean U D f| ≤ |Spec.meanOn f I xs - Spec.meanOn (truncTo f k) I xs| +
        |Spec.meanOn (truncTo f k) I xs - Spec.posteriorMean U D (truncTo f k)| +
        |Spec.posteriorMean U D (truncTo f k) - Spec.posteriorMean U D f| :=
      (abs_sub_le _ (Spec.posteriorMean U D (truncTo f k)) _).trans (add_le_add (abs_sub_le _ _ _) le_rfl)
    linarith
  · rw [← ENNReal.ofReal_add (by positivity) (by positivity), add_halves]

end

/-- The positions are integrable for the truncated exponential distribution. -/
theorem trunc_integrable : Integrable (fun x : Fin 1 → ℝ => x 0) (Spec.posterior (fun x : Fin 1 → ℝ => x 0) (Set.Icc 0 1)) := by
  have hfin : IsFiniteMeasure (Spec.posterior (fun x : Fin 1 → ℝ => x 0) (Set.Icc 0 1)) := ⟨lt_top_iff_ne_top.2 trunc_proper.2⟩
  refine Integrable.of_bound (measurable_pi_apply 0).aestronglyMeasurable 1 ?_
  refine (withDensity_absolutelyContinuous _ _).ae_le ?_
  filter_upwards [ae_restrict_mem measurableSet_Icc] with q hq
  have h0 := hq.1 0
  have h1 := hq.2 0
  simp only [Pi.zero_apply, Pi.one_apply] at h0 h1
  rw [Real.norm_eq_abs, abs_of_nonneg h0]
  exact h1

/-- The coordinates are integrable for strongly convex potentials. -/
theorem position_integrable [DecidableEq ι] {U : (ι → ℝ) → ℝ} {G : (ι → ℝ) → ι → ℝ} {m L : ℝ} (hU : Spec.Convex U G m L) (i : ι) :
    Integrable (fun q : ι → ℝ => q i) (Spec.posterior U Set.univ) := by
  refine ⟨(measurable_pi_apply i).aestronglyMeasurable, ?_⟩
  rw [hasFiniteIntegral_iff_norm]
  have hm : Measurable fun y : ι → ℝ => ENNReal.ofReal (Spec.sqLen y) := by
    have : Measurable fun y : ι → ℝ => Spec.sqLen y := by
      simp only [sqLen_dot]
      exact dot_measurable
    exact this.ennreal_ofReal
  calc ∫⁻ q, ENNReal.ofReal ‖q i‖ ∂Spec.posterior U Set.univ
      ≤ ∫⁻ q, (1 + ENNReal.ofReal (Spec.sqLen q)) ∂Spec.posterior U Set.univ := by
        refine lintegral_mono fun q => ?_
        rw [← ENNReal.ofReal_one, ← ENNReal.ofReal_add zero_le_one (sqLen_nonneg q)]
        refine ENNReal.ofReal_le_ofReal ?_
        have h1 : q i * q i ≤ Spec.sqLen q := by
          rw [sqLen_dot]
          exact Finset.single_le_sum (f := fun j => q j * q j) (fun j _ => mul_self_nonneg _) (Finset.mem_univ i)
        rw [Real.norm_eq_abs]
        nlinarith [abs_mul_abs_self (q i), sq_nonneg (|q i| - 1)]
    _ < ⊤ := by
        rw [lintegral_add_left measurable_const, lintegral_const, one_mul]
        exact ENNReal.add_lt_top.2 ⟨lt_top_iff_ne_top.2 (posterior_finite hU), lt_top_iff_ne_top.2 (posterior_second_moment hU)⟩

/-- The hypotheses can be met by an unbounded function: the mean of the parameter over the second half of the samples of runs
whose step sizes decrease from 1 to 1/4, for a normal posterior, with ideal random numbers. -/
example (ε δ' : ℝ) (hε : 0 < ε) (hδ : 0 < δ') : ∃ N : ℕ, ∀ n, N ≤ n →
    IdealSpace.law (PMF.uniformOfFintype (Fin 2 → Bool)) {ω | ε ≤
      |Spec.meanOn (fun q : Fin 1 → ℝ => q 0) (Finset.Ico n (2 * n))
          (Spec.amagoldSamples (IdealSpace.gen ω) (Spec.vectorLayout 1) 1 (some fun _ => 4) 2 (IdealSpace.batches ω) 0
            halfGrad (Spec.exactFull (Spec.dataPotential meanLik meanPrior meanObs)) () () 0 []
            ((List.range (2 * n)).map fun i : ℕ => ⟨1 / 4 + 3 / 4 / ((i : ℝ) + 1), 1⟩)) -
        Spec.posteriorMean (Spec.dataPotential meanLik meanPrior meanObs) Set.univ (fun q : Fin 1 → ℝ => q 0)|} ≤
      ENNReal.ofReal δ' := by
  have hm : Spec.MassOk (Spec.usedMass none (some fun _ : Fin 1 => (4 : ℝ))) := massOk_const fun _ => by norm_num
  have hU : Measurable (Spec.dataPotential meanLik meanPrior meanObs) := by
    rw [show Spec.dataPotential meanLik meanPrior meanObs = _ from funext meanPotential]
    fun_prop
  have hv : Spec.Layout.Valid (Spec.vectorLayout 1) :=
    ⟨Spec.vectorLayout_injective 1, fun _ => Nat.one_pos, fun i => i.2⟩
  have hpr : IsProbabilityMeasure (IdealSpace.law (PMF.uniformOfFintype (Fin 2 → Bool))) := by
    unfold IdealSpace.law; infer_instance
  have hb : Spec.LocallyBounded (fun (_ : Fin 1 → ℝ) (b : Bool) (_ : Fin 1) => if b then (1 : ℝ) else 0) := by
    refine fun R => ⟨1, fun b q _ => (pi_norm_le_iff_of_nonneg zero_le_one).2 fun i => ?_⟩
    cases b <;> simp
  obtain ⟨N, hN0, hN⟩ := c145_probability (l := 1 / 4) (u := 1) (IdealSpace.ideal (PMF.uniformOfFintype (Fin 2 → Bool))) hv
    (some fun _ => 4) hm halfGrad (G := fun _ b _ => if b then 1 else 0)
    (fun _ _ _ => rfl) (fun _ => measurable_const) hb (Spec.exactFull (Spec.dataPotential meanLik meanPrior meanObs)) hU
    MeasurableSet.univ ⟨fun _ _ _ _ => rfl, fun _ _ _ h => absurd trivial h⟩ () ()
    (Set.mem_univ 0) one_pos le_rfl (fun b => by simp) (PMF.tsum_coe _) (by norm_num)
    (posterior_pos mean_convex) (posterior_finite mean_convex) (measurable_pi_apply 0) (position_integrable mean_convex 0) hε hδ
  refine ⟨N, fun n hn => hN [] _ _ (fun p hp => ?_) (fun i hi => ?_) ?_⟩
  · obtain ⟨i, -, rfl⟩ := List.mem_map.1 hp
    have h0 : (0 : ℝ) < i + 1 := by positivity
    constructor
    · have : (0 : ℝ) < 3 / 4 / (i + 1) := by positivity
      show (1 / 4 : ℝ) ≤ 1 / 4 + 3 / 4 / (i + 1)
      linarith
    · have : (3 / 4 : ℝ) / (i + 1) ≤ 3 / 4 := div_le_self (by norm_num) (by linarith [Nat.cast_nonneg (α := ℝ) i])
      show (1 / 4 : ℝ) + 3 / 4 / (i + 1) ≤ 1
      linarith
  · rw [List.length_map, List.length_range]
    exact (Finset.mem_Ico.1 hi).2
  · rw [Nat.card_Ico]
    omega

end JaxSgmc
