import Verif.Lemmas.UniformKernel
import Verif.Props.AmagoldRun
import Verif.Spec.AmagoldSchedule

/-!
# C143: averages over AMAGOLD chains with changing step sizes, burn in and thinning
-/

namespace JaxSgmc

open MeasureTheory ProbabilityTheory Filter Topology

variable {ι β μ φ : Type} [Fintype ι]

/-! ## Weighted sums over lists -/

section
variable {Θ α : Type*}

/-- Steps with weights given by their numbers. -/
def taggedSteps {W : Type*} (a : ℕ → W) : List Θ → List (Θ × W)
  | [] => []
  | θ :: t => (θ, a 0) :: taggedSteps (fun k => a (k + 1)) t

/-- The weighted sum of `g` over visited states. -/
def weightedSum (g : α → ℝ) : List (Θ × ℝ) → List α → ℝ
  | x :: l, y :: ys => x.2 * g y + weightedSum g l ys
  | _, _ => 0

theorem taggedSteps_length {W : Type*} (t : List Θ) : ∀ a : ℕ → W, (taggedSteps a t).length = t.length := by
  induction t with
  | nil => intro a; rfl
  | cons θ t ih => intro a; simp [taggedSteps, ih]

theorem taggedSteps_fst {W : Type*} (t : List Θ) : ∀ a : ℕ → W, (taggedSteps a t).map Prod.fst = t := by
  induction t with
  | nil => intro a; rfl
  | cons θ t ih => intro a; simp [taggedSteps, ih]

theorem taggedSteps_weight (t : List Θ) : ∀ a : ℕ → ℝ, (∀ k, 0 ≤ a k ∧ a k ≤ 1) →
    ∀ x ∈ taggedSteps a t, 0 ≤ x.2 ∧ x.2 ≤ 1 := by
  induction t with
  | nil => intro a _ x hx; exact absurd hx List.not_mem_nil
  | cons θ t ih =>
    intro a ha x hx
    rcases List.mem_cons.1 hx with rfl | hx
    · exact ha 0
    · exact ih _ (fun k => ha (k + 1)) x hx

theorem taggedSteps_total (t : List Θ) : ∀ a : ℕ → ℝ, totalWeight (taggedSteps a t) = ∑ k ∈ Finset.range t.length, a k := by
  induction t with
  | nil => intro a; rfl
  | cons θ t ih =>
    intro a
    rw [List.length_cons, Finset.sum_range_succ', ← ih fun k => a (k + 1), add_comm]
    rfl

theorem taggedSteps_sum (g : α → ℝ) (d : α) (t : List Θ) : ∀ (a : ℕ → ℝ) (ys : List α), ys.length = t.length →
    weightedSum g (taggedSteps a t) ys = ∑ k ∈ Finset.range t.length, a k * g (ys.getD k d) := by
  induction t with
  | nil => intro a ys h; rfl
  | cons θ t ih =>
    intro a ys h
    cases ys with
    | nil => simp at h
    | cons y ys =>
      rw [List.length_cons, Finset.sum_range_succ', add_comm]
      show a 0 * g y + weightedSum g (taggedSteps (fun k => a (k + 1)) t) ys = _
      rw [ih _ ys (by simpa using h)]
      rfl

end

attribute [local irreducible] Spec.amagoldNext leapMap Spec.amagoldExpect

section
variable [Inhabited β] {lay : Layout ι} {γ : ℝ} {am : Option (MassMatrix ι)} {cm : Option (ι → ℝ)} {L : ℕ}
  {sg : StochGrad ι β μ} {fullPot : FullPotFn ι φ μ} {U : (ι → ℝ) → ℝ} {f₀ : φ} {ms : μ} {w : (Fin L → β) → ENNReal}

/-- The expected square of a weighted sum over a path. -/
theorem amagoldPath_weighted {Θ : Type} {prm : Θ → Params} {P : Θ → Kernel ((ι → ℝ) × (ι → ℝ)) ((ι → ℝ) × (ι → ℝ))}
    [∀ θ, IsMarkovKernel (P θ)]
    (hP : ∀ θ z (f : (ι → ℝ) × (ι → ℝ) → ENNReal), Measurable f → ∫⁻ y, f y ∂P θ z =
      Spec.amagoldExpect lay γ am cm L sg fullPot U f₀ ms w f [prm θ] z)
    {g : (ι → ℝ) × (ι → ℝ) → ℝ} (hg : Measurable g) {C : ℝ} (hC : ∀ z, |g z| ≤ C)
    {F : List ((ι → ℝ) × (ι → ℝ)) → ENNReal} (l : List (Θ × ℝ)) (hl : ∀ x ∈ l, 0 ≤ x.2) :
    ∀ (past : List ((ι → ℝ) × (ι → ℝ))) (c : ℝ) (z : (ι → ℝ) × (ι → ℝ)),
      (∀ ys : List ((ι → ℝ) × (ι → ℝ)), ys.length = l.length →
        F (past ++ ys) = ENNReal.ofReal ((c + weightedSum g l ys) ^ 2)) →
      Spec.amagoldPath lay γ am cm L sg fullPot U f₀ ms w F (l.map fun x => prm x.1) past z =
        ENNReal.ofReal (shiftedSq P g l c z) := by
  induction l with
  | nil =>
    intro past c z hF
    have := hF [] rfl
    rw [List.append_nil] at this
    show F past = _
    rw [this]
    simp [shiftedSq, weightedMean, weightedSq, weightedSum]
  | cons x l ih =>
    obtain ⟨θ, a⟩ := x
    intro past c z hF
    have hl' : ∀ x ∈ l, 0 ≤ x.2 := fun x hx => hl x (List.mem_cons_of_mem _ hx)
    have ha : 0 ≤ a := hl (θ, a) List.mem_cons_self
    rw [List.map_cons, amagoldPath_cons]
    have hih := fun z' => ih hl' (past ++ [z']) (c + a * g z') z' (fun ys hys => by
      rw [List.append_assoc, List.singleton_append, hF (z' :: ys) (by simp [hys])]
      show ENNReal.ofReal ((c + (a * g z' + weightedSum g l ys)) ^ 2) = _
      rw [add_assoc])
    simp only [hih]
    obtain ⟨m1, m2⟩ := weightedMean_all (P := P) hg hC l hl'
    obtain ⟨h1, h2, h3⟩ := weightedSq_all (P := P) hg hC l hl'
    have hmeas : Measurable fun y => shiftedSq P g l (c + a * g y) y := by
      unfold shiftedSq
      fun_prop
    rw [← hP θ z _ hmeas.ennreal_ofReal, shiftedSq_cons hg hC hl' ha, ofReal_integral_eq_lintegral_ofReal _
      (Eventually.of_forall fun y => h3 _ _)]
    set N := totalWeight l with hN
    refine bounded_integrable (C := (|c| + a * C) ^ 2 + 2 * (|c| + a * C) * (N * C) + (N * C) ^ 2) hmeas (fun y => ?_) _
    unfold shiftedSq
    have h1 : |c + a * g y| ≤ |c| + a * C := by
      refine (abs_add_le _ _).trans (add_le_add le_rfl ?_)
      rw [abs_mul, abs_of_nonneg ha]
      exact mul_le_mul_of_nonneg_left (hC y) ha
    have h0 : 0 ≤ |c + a * g y| := abs_nonneg _
    refine (abs_add_le _ _).trans (add_le_add ((abs_add_le _ _).trans (add_le_add ?_ ?_)) (h2 y))
    · rw [abs_pow]; exact pow_le_pow_left₀ h0 h1 2
    · rw [abs_mul, abs_mul, abs_two]
      have := m2 y
      have h2 := abs_nonneg (weightedMean P g l y)
      have h3 : 0 ≤ |c| + a * C := h0.trans h1
      gcongr

end

section
variable [Inhabited β] [Countable β] {lay : Layout ι} (hlay : Spec.Layout.Injective lay) {γ : ℝ} (hγ : 0 < γ)
  (am : Option (MassMatrix ι)) (cm : Option (ι → ℝ)) (hm : Spec.MassOk (Spec.usedMass am cm)) {L : ℕ}
  (hL : 2 ≤ L) (sg : StochGrad ι β μ) {G : (ι → ℝ) → β → (ι → ℝ)} (hG : ∀ x b ms, (sg x b ms).2 = G x b)
  (hGm : ∀ b, Measurable fun x => G x b) (hGb : Spec.LocallyBounded G) (fullPot : FullPotFn ι φ μ) {U : (ι → ℝ) → ℝ}
  (hU : Measurable U) {D : Set (ι → ℝ)} (hD : MeasurableSet D) (hfp : Spec.PotentialOn fullPot U D)
  (f₀ : φ) (ms : μ) (w : (Fin L → β) → ENNReal) (hw : ∀ b, w (fun i => b (Fin.rev i)) = w b)
  (hw1 : ∑' b, w b = 1) {l u : ℝ} (hl : 0 < l)
  (hZ0 : Spec.posterior U D Set.univ ≠ 0) (hZ : Spec.posterior U D Set.univ ≠ ⊤)
  {f : (ι → ℝ) → ℝ} (hf : Measurable f) {C : ℝ} (hC : ∀ q, |f q| ≤ C)

/-- The distribution of positions from the normalised posterior and momenta from `ν`. -/
noncomputable def jointLaw (U : (ι → ℝ) → ℝ) (D : Set (ι → ℝ)) (ν : Measure (ι → ℝ)) : Measure ((ι → ℝ) × (ι → ℝ)) :=
  ((Spec.posterior U D Set.univ)⁻¹ • Spec.posterior U D).prod ν

include hlay hγ hm hG hGm hU hD hfp hw hw1 hl hZ0 hZ in
/-- The updates with step sizes between `l` and `u` are Markov kernels which preserve the target. -/
theorem amagold_kernels {n : ℕ} (hn : L = n + 2) : ∃ (v : (ι → ℝ) →ₗ[ℝ] (ι → ℝ)) (ν : Measure (ι → ℝ)) (k₀ : ENNReal)
    (P : {p : Params // l ≤ p.stepSize ∧ p.stepSize ≤ u} → Kernel ((ι → ℝ) × (ι → ℝ)) ((ι → ℝ) × (ι → ℝ))),
    (∀ r, (Spec.usedMass am cm).sqrt.mul (v r) = r) ∧ IsProbabilityMeasure ν ∧ k₀ ≠ 0 ∧ k₀ ≠ ⊤ ∧
    IsProbabilityMeasure ((Spec.posterior U D Set.univ)⁻¹ • Spec.posterior U D) ∧
    (∀ A, MeasurableSet A → jointLaw U D ν A = k₀ *
      ∫⁻ z in A ∩ {z | z.1 ∈ D}, ENNReal.ofReal (Real.exp (-(U z.1 + Spec.kinetic (Spec.usedMass am cm) z.2)))) ∧
    (∀ θ, IsMarkovKernel (P θ)) ∧
    (∀ θ z, P θ z = moveLaw (Spec.usedMass am cm) U D (hn ▸ w) (leapPaths γ (Spec.usedMass am cm) v G n θ.1.stepSize) z +
      stayProb (Spec.usedMass am cm) U D (hn ▸ w) (leapPaths γ (Spec.usedMass am cm) v G n θ.1.stepSize) z •
        Measure.dirac (z.1, -z.2)) ∧
    (∀ θ z (g : (ι → ℝ) × (ι → ℝ) → ENNReal), Measurable g → ∫⁻ y, g y ∂P θ z =
      Spec.amagoldExpect lay γ am cm L sg fullPot U f₀ ms w g [θ.1] z) ∧
    ∀ θ, P θ ∘ₘ jointLaw U D ν = jointLaw U D ν := by
  subst hn
  obtain ⟨v, hv⟩ := exists_sqrt_inverse hm
  obtain ⟨ν, hν, hlaw⟩ := momentumLaw_exists hm
  have hfin : IsFiniteMeasure (Spec.posterior U D) := ⟨lt_top_iff_ne_top.2 hZ⟩
  have hprob : IsProbabilityMeasure ((Spec.posterior U D Set.univ)⁻¹ • Spec.posterior U D) :=
    ⟨by rw [Measure.smul_apply, smul_eq_mul]; exact ENNReal.inv_mul_cancel hZ0 hZ⟩
  set π := jointLaw U D ν with hπ
  set m := Spec.usedMass am cm with hmdef
  -- the target
  obtain ⟨c, hc0, hct, hνc⟩ := hlaw
  have hlaw : Spec.IsMomentumLaw m ν := ⟨c, hc0, hct, hνc⟩
  have hs : MeasurableSet {z : (ι → ℝ) × (ι → ℝ) | z.1 ∈ D} := measurable_fst hD
  have htarget : ∀ A, MeasurableSet A → π A = (Spec.posterior U D Set.univ)⁻¹ * c *
      ∫⁻ z in A ∩ {z | z.1 ∈ D}, ENNReal.ofReal (Real.exp (-(U z.1 + Spec.kinetic m z.2))) := by
    intro A hA
    rw [← lintegral_indicator_one hA, hπ, jointLaw, lintegral_prod _ (measurable_one.indicator hA).aemeasurable, lintegral_smul_measure,
      smul_eq_mul, mul_assoc]
    congr 1
    rw [hνc, posterior_momentum_lintegral hU hD c hct _ (measurable_one.indicator hA), lintegral_indicator_one hA]
    congr 1
    rw [Spec.targetOn, Measure.restrict_apply hA, Spec.target, withDensity_apply _ (hA.inter hs)]
    simp only [div_one]
  have hk0 : (Spec.posterior U D Set.univ)⁻¹ * c ≠ 0 := mul_ne_zero (ENNReal.inv_ne_zero.2 hZ) hc0
  have hkt : (Spec.posterior U D Set.univ)⁻¹ * c ≠ ⊤ := ENNReal.mul_ne_top (ENNReal.inv_ne_top.2 hZ0) hct
  -- the kernels
  let Θ := {p : Params // l ≤ p.stepSize ∧ p.stepSize ≤ u}
  have hpos : ∀ θ : Θ, 0 < θ.1.stepSize := fun θ => hl.trans_le θ.2.1
  have hexp : ∀ (θ : Θ) z (g : (ι → ℝ) × (ι → ℝ) → ENNReal), Measurable g →
      ∫⁻ y, g y ∂(moveLaw m U D w (leapPaths γ m v G n θ.1.stepSize) z +
        stayProb m U D w (leapPaths γ m v G n θ.1.stepSize) z • Measure.dirac (z.1, -z.2)) =
        Spec.amagoldExpect lay γ am cm (n + 2) sg fullPot U f₀ ms w g [θ.1] z := fun θ z g hg =>
    amagold_law hlay hγ am cm hm sg hG hGm fullPot hU hD hfp f₀ ms w θ.1 (hpos θ) hv z g hg
  have hmeas := fun (θ : Θ) (g : (ι → ℝ) × (ι → ℝ) → ENNReal) (hg : Measurable g) =>
    (amagold_run_invariant_on hlay hγ.le am cm hm sg hG hGm fullPot hU hD hfp f₀ ms w hw hw1 g hg [θ.1]
      (by intro q hq; rw [List.mem_singleton] at hq; rw [hq]; exact (hpos θ).le)).1
  have htot : ∀ (θ : Θ) z, Spec.amagoldExpect lay γ am cm (n + 2) sg fullPot U f₀ ms w (fun _ => 1) [θ.1] z = 1 := by
    intro θ z
    rw [amagoldExpect_single]
    have hu : Spec.unif Set.univ = 1 := by
      unfold Spec.unif
      rw [Measure.restrict_apply_univ, Real.volume_Ico]
      simp
    simp only [lintegral_one, hu, measure_univ, mul_one, hw1]
  let P : Θ → Kernel ((ι → ℝ) × (ι → ℝ)) ((ι → ℝ) × (ι → ℝ)) := fun θ =>
    ⟨fun z => moveLaw m U D w (leapPaths γ m v G n θ.1.stepSize) z +
        stayProb m U D w (leapPaths γ m v G n θ.1.stepSize) z • Measure.dirac (z.1, -z.2), by
      refine Measure.measurable_of_measurable_coe _ fun A hA => ?_
      have e : ∀ z, (moveLaw m U D w (leapPaths γ m v G n θ.1.stepSize) z +
          stayProb m U D w (leapPaths γ m v G n θ.1.stepSize) z • Measure.dirac (z.1, -z.2)) A =
          Spec.amagoldExpect lay γ am cm (n + 2) sg fullPot U f₀ ms w (A.indicator 1) [θ.1] z := fun z => by
        rw [← hexp θ z _ (measurable_one.indicator hA), lintegral_indicator_one hA]
      simp only [e]
      exact hmeas θ _ (measurable_one.indicator hA)⟩
  have hPdef : ∀ θ z, P θ z = moveLaw m U D w (leapPaths γ m v G n θ.1.stepSize) z +
      stayProb m U D w (leapPaths γ m v G n θ.1.stepSize) z • Measure.dirac (z.1, -z.2) := fun θ z => rfl
  have hP : ∀ θ z (g : (ι → ℝ) × (ι → ℝ) → ENNReal), Measurable g → ∫⁻ y, g y ∂P θ z =
      Spec.amagoldExpect lay γ am cm (n + 2) sg fullPot U f₀ ms w g [θ.1] z := hexp
  have hmarkov : ∀ θ, IsMarkovKernel (P θ) := fun θ =>
    ⟨fun z => ⟨by rw [← lintegral_one, hP θ z _ measurable_const]; exact htot θ z⟩⟩
  have hinv : ∀ θ, P θ ∘ₘ π = π := by
    intro θ
    refine Measure.ext fun A hA => ?_
    rw [Measure.bind_apply hA (P θ).measurable.aemeasurable]
    have e : ∀ z, P θ z A = Spec.amagoldExpect lay γ am cm (n + 2) sg fullPot U f₀ ms w (A.indicator 1) [θ.1] z := fun z => by
      rw [← hP θ z _ (measurable_one.indicator hA), lintegral_indicator_one hA]
    simp only [e]
    rw [hπ, jointLaw, amagold_normalised_invariant hlay hγ am cm hm sg hG hGm fullPot hU hD hfp f₀ ms w hw hw1 θ.1 (hpos θ) ν hlaw _
      (measurable_one.indicator hA), lintegral_indicator_one hA]
  exact ⟨v, ν, _, P, hv, hν, hk0, hkt, hprob, htarget, hmarkov, hPdef, hP, hinv⟩

include hlay hγ hm hL hG hGm hGb hU hD hfp hw hw1 hl hZ0 hZ hf hC in
/-- **C143 (paths).** Averages over chosen states of an AMAGOLD chain with changing step sizes: for every accuracy there
is a number of states which is sufficient for all schedules with step sizes between `l` and `u`, all choices of the states
and all initial states of a bounded region of the support. -/
theorem c143_path (R₀ : ℝ) {ε : ℝ} (hε : 0 < ε) : ∃ N : ℕ, 0 < N ∧ ∀ (prms : List Params) (I : Finset ℕ) (z : (ι → ℝ) × (ι → ℝ)),
    Spec.StepsBetween l u prms → (∀ i ∈ I, i < prms.length) → N ≤ I.card → z.1 ∈ D → ‖z‖ ≤ R₀ → |U z.1| ≤ R₀ →
    Spec.amagoldPath lay γ am cm L sg fullPot U f₀ ms w
      (fun zs => ENNReal.ofReal ((Spec.meanOn f I (zs.map Prod.fst) - Spec.posteriorMean U D f) ^ 2)) prms [] z ≤
        ENNReal.ofReal ε := by
  obtain ⟨n, rfl⟩ : ∃ n, L = n + 2 := ⟨L - 2, by omega⟩
  obtain ⟨v, ν, k₀, P, hv, hν, hk0, hkt, hprob, htarget, hmarkov, hPdef, hP, hinv⟩ := amagold_kernels (l := l) (u := u) hlay hγ am cm hm
    sg hG hGm fullPot hU hD hfp f₀ ms w hw hw1 hl hZ0 hZ rfl
  set π := jointLaw U D ν with hπ
  have hπp : IsProbabilityMeasure π := by rw [hπ, jointLaw]; infer_instance
  let Θ := {p : Params // l ≤ p.stepSize ∧ p.stepSize ≤ u}
  -- the function
  set M := Spec.posteriorMean U D f with hM
  set g : (ι → ℝ) × (ι → ℝ) → ℝ := fun z => f z.1 - M with hg
  have hgm : Measurable g := (hf.comp measurable_fst).sub measurable_const
  have hgC : ∀ z, |g z| ≤ C + |M| := fun z => (abs_sub _ _).trans (add_le_add (hC _) le_rfl)
  have hg0 : ∫ z, g z ∂π = 0 := by
    have i1 : Integrable (fun z : (ι → ℝ) × (ι → ℝ) => f z.1) π :=
      bounded_integrable (hf.comp measurable_fst) (fun z => hC z.1) π
    rw [hg, integral_sub i1 (integrable_const _), hπ, jointLaw, integral_fun_fst, integral_smul_measure]
    simp only [integral_const, probReal_univ, one_smul, smul_eq_mul]
    rw [hM, Spec.posteriorMean, ENNReal.toReal_inv]
    ring
  obtain ⟨N₀, hN⟩ := moves_average (h := fun θ : Θ => θ.1.stepSize) hγ hl (fun θ => θ.2) hm hv hGm hGb hU hD w hw1 hk0 hkt htarget
    hPdef hinv hgm hgC hg0 R₀ hε
  refine ⟨⌈N₀⌉₊ + 1, Nat.succ_pos _, fun prms I z hp hI hcard hzD hz hzU => ?_⟩
  have hIpos : (0 : ℝ) < I.card := by
    have : 0 < I.card := by omega
    exact_mod_cast this
  have hIN : N₀ ≤ I.card := (Nat.le_ceil N₀).trans (by exact_mod_cast (by omega : ⌈N₀⌉₊ ≤ I.card))
  -- the steps with their weights
  obtain ⟨ths, hths⟩ : ∃ ths : List Θ, ths.map Subtype.val = prms :=
    ⟨prms.attach.map fun p => ⟨p.1, hp p.1 p.2⟩, by rw [List.map_map]; exact List.attach_map_subtype_val prms⟩
  have hlen : ths.length = prms.length := by rw [← hths, List.length_map]
  set a : ℕ → ℝ := fun k => if k ∈ I then 1 else 0 with ha
  have ha01 : ∀ k, 0 ≤ a k ∧ a k ≤ 1 := fun k => by
    simp only [ha]; split_ifs <;> norm_num
  set steps := taggedSteps a ths with hsteps
  have hsub : I ⊆ Finset.range ths.length := fun i hi => Finset.mem_range.2 (by rw [hlen]; exact hI i hi)
  have hsum : ∀ b : ℕ → ℝ, ∑ k ∈ Finset.range ths.length, a k * b k = ∑ i ∈ I, b i := by
    intro b
    simp only [ha, ite_mul, one_mul, zero_mul]
    rw [Finset.sum_ite_mem, Finset.inter_eq_right.2 hsub]
  have htotal : totalWeight steps = I.card := by
    rw [hsteps, taggedSteps_total]
    have := hsum fun _ => 1
    simpa using this
  have key := hN z ⟨hzD, hz, hzU⟩ steps (taggedSteps_weight ths a ha01) (by rw [htotal]; exact hIN)
  rw [htotal] at key
  have hprms : steps.map (fun x => x.1.1) = prms := by
    rw [← hths, ← taggedSteps_fst ths a, List.map_map]
    rfl
  have e1 := amagoldPath_weighted (F := fun zs => ENNReal.ofReal ((∑ i ∈ I, g (zs.getD i 0)) ^ 2)) hP hgm hgC steps
    (fun x hx => (taggedSteps_weight ths a ha01 x hx).1) [] 0 z (fun ys hys => by
      have hys' : ys.length = ths.length := by rw [hys, hsteps, taggedSteps_length]
      rw [List.nil_append, zero_add, hsteps, taggedSteps_sum g 0 ths a ys hys', hsum fun k => g (ys.getD k 0)])
  rw [hprms] at e1
  have e2 := amagoldPath_mul lay γ am cm (n + 2) sg fullPot U f₀ ms w (r := ENNReal.ofReal (1 / (I.card : ℝ) ^ 2)) ENNReal.ofReal_ne_top
    (fun zs => ENNReal.ofReal ((∑ i ∈ I, g (zs.getD i 0)) ^ 2)) prms [] z
  rw [e1] at e2
  have e3 : ∀ zs : List ((ι → ℝ) × (ι → ℝ)), ENNReal.ofReal ((Spec.meanOn f I (zs.map Prod.fst) - M) ^ 2) =
      ENNReal.ofReal (1 / (I.card : ℝ) ^ 2) * ENNReal.ofReal ((∑ i ∈ I, g (zs.getD i 0)) ^ 2) := by
    intro zs
    rw [← ENNReal.ofReal_mul (by positivity)]
    congr 1
    have e4 : ∀ i, (zs.map Prod.fst).getD i 0 = (zs.getD i 0).1 := fun i => by
      rw [List.getD_eq_getElem?_getD, List.getD_eq_getElem?_getD, List.getElem?_map]
      cases zs[i]? <;> rfl
    have e5 : ∑ i ∈ I, g (zs.getD i 0) = (∑ i ∈ I, f ((zs.map Prod.fst).getD i 0)) - I.card * M := by
      simp only [hg, e4]
      rw [Finset.sum_sub_distrib, Finset.sum_const, nsmul_eq_mul]
    rw [e5, Spec.meanOn]
    field_simp
  simp only [e3]
  rw [e2, ← ENNReal.ofReal_mul (by positivity)]
  refine ENNReal.ofReal_le_ofReal ?_
  have e6 : shiftedSq P g steps 0 z = weightedSq P g steps z := by simp [shiftedSq]
  rw [e6, one_div, inv_mul_le_iff₀ (by positivity), mul_comm]
  exact key

end

/-! ## Runs -/

section
variable {κ δ Ω : Type}

/-- Accumulation of the values of `f` at the states with numbers in `I`; the second component counts the states. -/
noncomputable def chosenSum (f : (ι → ℝ) → ℝ) (I : Finset ℕ) (a : ℝ × ℕ) (z : (ι → ℝ) × (ι → ℝ)) : ℝ × ℕ :=
  (a.1 + if a.2 ∈ I then f z.1 else 0, a.2 + 1)

omit [Fintype ι] in
theorem chosenSum_foldl (f : (ι → ℝ) → ℝ) (I : Finset ℕ) (zs : List ((ι → ℝ) × (ι → ℝ))) : ∀ a : ℝ × ℕ,
    (zs.foldl (chosenSum f I) a).1 = a.1 + ∑ i ∈ Finset.range zs.length, if a.2 + i ∈ I then f ((zs.map Prod.fst).getD i 0) else 0 := by
  induction zs with
  | nil => intro a; simp
  | cons z zs ih =>
    intro a
    rw [List.foldl_cons, ih, List.length_cons, Finset.sum_range_succ']
    simp only [chosenSum, List.map_cons, List.getD_cons_zero, List.getD_cons_succ, add_zero]
    rw [add_assoc, add_comm (if a.2 ∈ I then f z.1 else 0)]
    congr 2
    refine Finset.sum_congr rfl fun i _ => ?_
    simp only [show a.2 + 1 + i = a.2 + (i + 1) by omega]

omit [Fintype ι] in
theorem chosenSum_mean (f : (ι → ℝ) → ℝ) (I : Finset ℕ) (zs : List ((ι → ℝ) × (ι → ℝ))) (hI : ∀ i ∈ I, i < zs.length) :
    (zs.foldl (chosenSum f I) (0, 0)).1 / I.card = Spec.meanOn f I (zs.map Prod.fst) := by
  rw [chosenSum_foldl, Spec.meanOn]
  simp only [zero_add]
  rw [Finset.sum_ite_mem, Finset.inter_eq_right.2 fun i hi => Finset.mem_range.2 (hI i hi)]

theorem chosenSum_measurable {f : (ι → ℝ) → ℝ} (hf : Measurable f) (I : Finset ℕ) :
    Measurable fun q : (ℝ × ℕ) × ((ι → ℝ) × (ι → ℝ)) => chosenSum f I q.1 q.2 := by
  unfold chosenSum
  have hk : Measurable fun q : (ℝ × ℕ) × ((ι → ℝ) × (ι → ℝ)) => q.1.2 := measurable_snd.comp measurable_fst
  have hs : MeasurableSet {q : (ℝ × ℕ) × ((ι → ℝ) × (ι → ℝ)) | q.1.2 ∈ I} := hk (MeasurableSet.of_discrete (s := {k : ℕ | k ∈ I}))
  have hfm : Measurable fun q : (ℝ × ℕ) × ((ι → ℝ) × (ι → ℝ)) => f q.2.1 := hf.comp (by fun_prop)
  have h1 : Measurable fun q : (ℝ × ℕ) × ((ι → ℝ) × (ι → ℝ)) => if q.1.2 ∈ I then f q.2.1 else 0 :=
    Measurable.ite hs hfm measurable_const
  exact ((measurable_fst.comp measurable_fst).add h1).prodMk ((measurable_of_countable fun k : ℕ => k + 1).comp hk)

variable [Inhabited β] [Countable β] [MeasurableSpace β] [MeasurableSingletonClass β] [MeasurableSpace Ω]
  {prob : Measure Ω} [IsProbabilityMeasure prob]
  {P : Ω → Prng κ} {data : Ω → δ → δ × β} {d₀ : δ} {L : ℕ} {w : (Fin L → β) → ENNReal} {sp : κ → ℕ → ℕ → κ}
  (hR : Spec.IdealRandom prob P data d₀ L w sp) {lay : Layout ι} (hlay : Spec.Layout.Valid lay)
  {γ : ℝ} (cm : Option (ι → ℝ)) (hm : Spec.MassOk (Spec.usedMass none cm))
  (sg : StochGrad ι β μ) {G : (ι → ℝ) → β → (ι → ℝ)} (hG : ∀ x b ms, (sg x b ms).2 = G x b)
  (hGm : ∀ b, Measurable fun x => G x b) (hGb : Spec.LocallyBounded G) (fullPot : FullPotFn ι φ μ) {U : (ι → ℝ) → ℝ}
  (hU : Measurable U) {D : Set (ι → ℝ)} (hD : MeasurableSet D) (hfp : Spec.PotentialOn fullPot U D)
  (f₀ : φ) (ms : μ) {x₀ : ι → ℝ} (hx₀ : x₀ ∈ D) (hγ : 0 < γ) (hL : 2 ≤ L)
  (hw : ∀ b, w (fun i => b (Fin.rev i)) = w b) (hw1 : ∑' b, w b = 1) {l u : ℝ} (hl : 0 < l)
  (hZ0 : Spec.posterior U D Set.univ ≠ 0) (hZ : Spec.posterior U D Set.univ ≠ ⊤)
  {f : (ι → ℝ) → ℝ} (hf : Measurable f) {C : ℝ} (hC : ∀ q, |f q| ≤ C)

omit [Inhabited β] [Countable β] [MeasurableSpace β] [MeasurableSingletonClass β] [MeasurableSpace Ω] in
theorem samples_visited (P : Prng κ) (data : δ → δ × β) (key : κ) (prms : List Params) :
    Spec.amagoldSamples P lay γ cm L data d₀ sg fullPot f₀ ms x₀ key prms =
      (Spec.amagoldVisited P lay γ cm L data d₀ sg fullPot f₀ ms x₀ key prms).map Prod.fst := by
  unfold Spec.amagoldSamples Spec.amagoldVisited
  rw [List.map_map]
  rfl

include hR hlay hm hG hGm hGb hU hD hfp hx₀ hγ hL hw hw1 hl hZ0 hZ hf hC in
/-- **C143 (mean square).** Changing step sizes, burn in and thinning: for every accuracy there is a number `N` of samples such
that the mean of a bounded function over any `N` or more samples reported by a run of AMAGOLD with step sizes between `l` and
`u` has the accuracy in mean square, whatever the schedule, the choice of the samples and the key. -/
theorem c143_mean_square {ε : ℝ} (hε : 0 < ε) : ∃ N : ℕ, 0 < N ∧ ∀ (key : κ) (prms : List Params) (I : Finset ℕ),
    Spec.StepsBetween l u prms → (∀ i ∈ I, i < prms.length) → N ≤ I.card →
    ∫⁻ ω, ENNReal.ofReal ((Spec.meanOn f I (Spec.amagoldSamples (P ω) lay γ cm L (data ω) d₀ sg
      fullPot f₀ ms x₀ key prms) - Spec.posteriorMean U D f) ^ 2) ∂prob ≤ ENNReal.ofReal ε := by
  set M := Spec.posteriorMean U D f with hM
  have hC0 : 0 ≤ C := (abs_nonneg _).trans (hC x₀)
  set B : ℝ := (C + |M|) ^ 2 + 1 with hB
  have hB0 : 0 < B := by positivity
  -- the initial momentum
  obtain ⟨r, hr⟩ := normals_tail ι (show 0 < ε / 2 / B by positivity)
  obtain ⟨R₁, hR₁⟩ := (BoundedMaps.id (I := Unit) (X := ι → ℝ)).tensor (Spec.usedMass none cm).sqrt r
  obtain ⟨N, hN0, hN⟩ := c143_path (u := u) hlay.injective hγ none cm hm hL sg hG hGm hGb fullPot hU hD hfp f₀ ms w hw hw1 hl hZ0 hZ
    hf hC (max (max ‖x₀‖ R₁) |U x₀|) (half_pos hε)
  refine ⟨N, hN0, fun key prms I hp hI hcard => ?_⟩
  have hIpos : (0 : ℝ) < I.card := by
    have : 0 < I.card := by omega
    exact_mod_cast this
  have hlen : ∀ ω, (Spec.amagoldVisited (P ω) lay γ cm L (data ω) d₀ sg fullPot f₀ ms x₀ key prms).length = prms.length := fun ω => by
    unfold Spec.amagoldVisited
    rw [List.length_map, List.length_range]
  have hF : Measurable fun a : ℝ × ℕ => ENNReal.ofReal ((a.1 / I.card - M) ^ 2) := by fun_prop
  have hlaw := c131_run_law hR hlay key cm hm sg hG hGm fullPot hU hD hfp f₀ ms hx₀ hγ.le (chosenSum_measurable hf I) hF (0, 0) prms
    (fun p hq => hl.le.trans (hp p hq).1)
  have e1 : ∀ ω, ENNReal.ofReal ((Spec.meanOn f I (Spec.amagoldSamples (P ω) lay γ cm L (data ω) d₀ sg
      fullPot f₀ ms x₀ key prms) - M) ^ 2) = ENNReal.ofReal ((((Spec.amagoldVisited (P ω) lay γ cm L (data ω) d₀ sg fullPot f₀ ms
        x₀ key prms).foldl (chosenSum f I) (0, 0)).1 / I.card - M) ^ 2) := fun ω => by
    rw [chosenSum_mean f I _ (fun i hi => by rw [hlen]; exact hI i hi), samples_visited]
  simp only [e1]
  rw [hlaw]
  have e2 : ∀ ξ, Spec.amagoldPath lay γ none cm L sg fullPot U f₀ ms w
      (fun zs => ENNReal.ofReal (((zs.foldl (chosenSum f I) (0, 0)).1 / I.card - M) ^ 2)) prms []
        (x₀, (Spec.usedMass none cm).sqrt.mul ξ) ≤
      Spec.amagoldPath lay γ none cm L sg fullPot U f₀ ms w
      (fun zs => ENNReal.ofReal ((Spec.meanOn f I (zs.map Prod.fst) - M) ^ 2)) prms []
        (x₀, (Spec.usedMass none cm).sqrt.mul ξ) := fun ξ => by
    refine amagoldPath_mono lay γ none cm L sg fullPot U f₀ ms w prms _ _ fun zs hzs => ?_
    rw [chosenSum_mean f I zs (fun i hi => by rw [hzs, List.length_nil, zero_add]; exact hI i hi)]
  have hbound : ∀ xs, (Spec.meanOn f I xs - M) ^ 2 ≤ B := by
    intro xs
    have h1 : |Spec.meanOn f I xs| ≤ C := by
      unfold Spec.meanOn
      rw [abs_div, abs_of_pos hIpos, div_le_iff₀ hIpos]
      refine (Finset.abs_sum_le_sum_abs _ _).trans ?_
      calc _ ≤ ∑ _i ∈ I, C := Finset.sum_le_sum fun i _ => hC _
        _ = C * I.card := by rw [Finset.sum_const, nsmul_eq_mul, mul_comm]
    have h2 : |Spec.meanOn f I xs - M| ≤ C + |M| := (abs_sub _ _).trans (add_le_add h1 le_rfl)
    rw [← sq_abs]
    have := pow_le_pow_left₀ (abs_nonneg _) h2 2
    linarith
  have hset : MeasurableSet {ξ : ι → ℝ | r < ‖ξ‖} := measurable_norm measurableSet_Ioi
  calc _ ≤ ∫⁻ ξ, (ENNReal.ofReal (ε / 2) + {ξ : ι → ℝ | r < ‖ξ‖}.indicator (fun _ => ENNReal.ofReal B) ξ) ∂Spec.normals ι := by
        refine lintegral_mono fun ξ => (e2 ξ).trans ?_
        by_cases hξ : r < ‖ξ‖
        · rw [Set.indicator_of_mem (show ξ ∈ {ξ : ι → ℝ | r < ‖ξ‖} from hξ)]
          refine le_trans ?_ le_add_self
          refine (amagoldPath_mono lay γ none cm L sg fullPot U f₀ ms w prms _ _ fun zs _ =>
            ENNReal.ofReal_le_ofReal (hbound (zs.map Prod.fst))).trans ?_
          exact (amagoldPath_const lay γ none cm L sg fullPot U f₀ ms w hw1 _ prms _ _).le
        · rw [Set.indicator_of_notMem (show ξ ∉ {ξ : ι → ℝ | r < ‖ξ‖} from hξ), add_zero]
          refine hN prms I _ hp hI hcard hx₀ ?_ (le_max_right _ _)
          refine max_le ((le_max_left _ _).trans (le_max_left _ _)) ?_
          exact (hR₁ () ξ (not_lt.1 hξ)).trans ((le_max_right _ _).trans (le_max_left _ _))
    _ = ENNReal.ofReal (ε / 2) + ENNReal.ofReal B * Spec.normals ι {ξ : ι → ℝ | r < ‖ξ‖} := by
        rw [lintegral_add_left measurable_const, lintegral_const, measure_univ, mul_one, lintegral_indicator_const hset]
    _ ≤ ENNReal.ofReal (ε / 2) + ENNReal.ofReal B * ENNReal.ofReal (ε / 2 / B) := by gcongr
    _ = ENNReal.ofReal ε := by
        rw [← ENNReal.ofReal_mul hB0.le, mul_div_cancel₀ _ hB0.ne', ← ENNReal.ofReal_add (by positivity) (by positivity), add_halves]

include hR hlay hm hG hGm hU hD hfp hx₀ hγ hl hf in
/-- The mean over chosen samples is a random variable. -/
theorem chosenMean_aemeasurable (key : κ) (prms : List Params) (I : Finset ℕ) (hp : Spec.StepsBetween l u prms)
    (hI : ∀ i ∈ I, i < prms.length) :
    AEMeasurable (fun ω => Spec.meanOn f I (Spec.amagoldSamples (P ω) lay γ cm L (data ω) d₀ sg
      fullPot f₀ ms x₀ key prms)) prob := by
  have hn := amagoldDrive_measurable (L := L) hlay.injective hγ.le cm hm sg hG hGm fullPot hU hD hfp f₀ ms
  have h0 : Measurable fun ω => runNoise lay sp key 0 (P ω) :=
    (runNoise_measurable (data := data) (d₀ := d₀) (L := L) hlay (Set.mem_univ 0) subset_rfl).mono (known_le hR _) le_rfl
  have hH : Measurable fun ω =>
      ((((0 : ℝ), 0), (x₀, (Spec.usedMass none cm).sqrt.mul (runNoise lay sp key 0 (P ω)))) : (ℝ × ℕ) × ((ι → ℝ) × (ι → ℝ))) :=
    (by fun_prop : Measurable fun p : ι → ℝ => ((((0 : ℝ), 0), (x₀, p)) : (ℝ × ℕ) × ((ι → ℝ) × (ι → ℝ)))).comp
      ((tensor_mul_measurable (Spec.usedMass none cm).sqrt).comp h0)
  have hdm := measurable_fst.comp (drive_measurable (next := amagoldDrive lay γ cm L sg fullPot U f₀ ms)
    (acc := chosenSum f I) hR hlay key (chosenSum_measurable hf I) _ (fun p hq => hn p (hl.le.trans (hp p hq).1)) 0 _ hH)
  refine ⟨_, (measurable_fst.comp hdm).div_const (I.card : ℝ), ?_⟩
  filter_upwards [visited_drive (γ := γ) hR hlay key cm sg hG fullPot hfp f₀ ms hx₀ (chosenSum f I) (0, 0) prms] with ω hω
  have hlen : (Spec.amagoldVisited (P ω) lay γ cm L (data ω) d₀ sg fullPot f₀ ms x₀ key prms).length = prms.length := by
    unfold Spec.amagoldVisited
    rw [List.length_map, List.length_range]
  rw [samples_visited, ← chosenSum_mean f I _ (fun i hi => by rw [hlen]; exact hI i hi), hω]
  rfl

include hR hlay hm hG hGm hGb hU hD hfp hx₀ hγ hL hw hw1 hl hZ0 hZ hf hC in
/-- **C143 (probability).** For every accuracy and confidence there is a sufficient number of samples, for all schedules with step
sizes between `l` and `u` and all choices of the samples. -/
theorem c143_probability {ε δ' : ℝ} (hε : 0 < ε) (hδ : 0 < δ') : ∃ N : ℕ, 0 < N ∧ ∀ (key : κ) (prms : List Params) (I : Finset ℕ),
    Spec.StepsBetween l u prms → (∀ i ∈ I, i < prms.length) → N ≤ I.card →
    prob {ω | ε ≤ |Spec.meanOn f I (Spec.amagoldSamples (P ω) lay γ cm L (data ω) d₀ sg
      fullPot f₀ ms x₀ key prms) - Spec.posteriorMean U D f|} ≤ ENNReal.ofReal δ' := by
  obtain ⟨N, hN0, hN⟩ := c143_mean_square (u := u) hR hlay cm hm sg hG hGm hGb fullPot hU hD hfp f₀ ms hx₀ hγ hL hw hw1 hl hZ0 hZ hf hC
    (show 0 < ε ^ 2 * δ' by positivity)
  refine ⟨N, hN0, fun key prms I hp hI hcard => ?_⟩
  have h1 := hN key prms I hp hI hcard
  set M := Spec.posteriorMean U D f with hM
  have hε2 : ENNReal.ofReal (ε ^ 2) ≠ 0 := by
    rw [Ne, ENNReal.ofReal_eq_zero, not_le]; positivity
  have hX := (((chosenMean_aemeasurable hR hlay cm hm sg hG hGm fullPot hU hD hfp f₀ ms hx₀ hγ hl hf key prms I hp hI).sub_const
    M).pow_const 2).ennreal_ofReal
  refine le_trans (measure_mono fun ω hω => ?_) ((meas_ge_le_lintegral_div hX hε2 ENNReal.ofReal_ne_top).trans ?_)
  · refine ENNReal.ofReal_le_ofReal ?_
    rw [← sq_abs (_ - M)]
    exact pow_le_pow_left₀ hε.le hω 2
  · refine ENNReal.div_le_of_le_mul ?_
    rw [← ENNReal.ofReal_mul hδ.le, mul_comm δ']
    exact h1

end

/-- The hypotheses can be met: with ideal random numbers and two mini-batches per update, the mean over the second half of the
samples (the first half is the burn in) of runs whose step sizes decrease from 1 to 1/4 is close to the mean of the exponential
distribution truncated to the unit interval, for sufficiently many samples. -/
example (ε δ' : ℝ) (hε : 0 < ε) (hδ : 0 < δ') : ∃ N : ℕ, ∀ n, N ≤ n →
    IdealSpace.law (PMF.uniformOfFintype (Fin 2 → Bool)) {ω | ε ≤
      |Spec.meanOn (fun q : Fin 1 → ℝ => max 0 (min 1 (q 0))) (Finset.Ico n (2 * n))
          (Spec.amagoldSamples (IdealSpace.gen ω) (Spec.vectorLayout 1) 1 (some fun _ => 4) 2 (IdealSpace.batches ω) 0
            halfGrad truncPot () () 0 [] ((List.range (2 * n)).map fun i : ℕ => ⟨1 / 4 + 3 / 4 / ((i : ℝ) + 1), 1⟩)) -
        Spec.posteriorMean (fun x : Fin 1 → ℝ => x 0) (Set.Icc 0 1) (fun q : Fin 1 → ℝ => max 0 (min 1 (q 0)))|} ≤
      ENNReal.ofReal δ' := by
  have hm : Spec.MassOk (Spec.usedMass none (some fun _ : Fin 1 => (4 : ℝ))) := massOk_const fun _ => by norm_num
  have hU : Measurable fun x : Fin 1 → ℝ => x 0 := measurable_pi_apply 0
  have hf : Measurable fun q : Fin 1 → ℝ => max 0 (min 1 (q 0)) := by fun_prop
  have hv : Spec.Layout.Valid (Spec.vectorLayout 1) :=
    ⟨Spec.vectorLayout_injective 1, fun _ => Nat.one_pos, fun i => i.2⟩
  have hpr : IsProbabilityMeasure (IdealSpace.law (PMF.uniformOfFintype (Fin 2 → Bool))) := by
    unfold IdealSpace.law; infer_instance
  have hb : Spec.LocallyBounded (fun (_ : Fin 1 → ℝ) (b : Bool) (_ : Fin 1) => if b then (1 : ℝ) else 0) := by
    refine fun R => ⟨1, fun b q _ => (pi_norm_le_iff_of_nonneg zero_le_one).2 fun i => ?_⟩
    cases b <;> simp
  obtain ⟨N, hN0, hN⟩ := c143_probability (l := 1 / 4) (u := 1) (IdealSpace.ideal (PMF.uniformOfFintype (Fin 2 → Bool))) hv
    (some fun _ => 4) hm halfGrad (G := fun _ b _ => if b then 1 else 0)
    (fun _ _ _ => rfl) (fun _ => measurable_const) hb truncPot hU measurableSet_Icc truncPot_on () ()
    ⟨le_refl _, fun _ => zero_le_one⟩ one_pos le_rfl (fun b => by simp) (PMF.tsum_coe _) (by norm_num)
    trunc_proper.1 trunc_proper.2 hf (C := 1) (fun q => by
      rw [abs_of_nonneg (le_max_left _ _)]
      exact max_le zero_le_one (min_le_left _ _)) hε hδ
  refine ⟨N, fun n hn => hN [] _ _ ?_ ?_ ?_⟩
  · intro p hp
    obtain ⟨i, -, rfl⟩ := List.mem_map.1 hp
    refine ⟨by simp only; have : (0 : ℝ) ≤ 3 / 4 / (i + 1) := by positivity
               linarith, ?_⟩
    have : (3 : ℝ) / 4 / (i + 1) ≤ 3 / 4 := div_le_self (by norm_num) (by linarith [(Nat.cast_nonneg i : (0 : ℝ) ≤ i)])
    simp only
    linarith
  · intro i hi
    rw [List.length_map, List.length_range]
    exact (Finset.mem_Ico.1 hi).2
  · rw [Nat.card_Ico]
    omega

end JaxSgmc
