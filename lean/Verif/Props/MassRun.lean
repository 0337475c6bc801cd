import Verif.Lemmas.MassParam
import Verif.Props.AdaptiveRun

/-!
# C149: AMAGOLD with mass adaption samples the posterior after the burn in
-/

namespace JaxSgmc

open MeasureTheory ProbabilityTheory Filter Topology

variable {ι κ δ β μ φ Ω Acc : Type} [Fintype ι]

attribute [local irreducible] Spec.amagoldNext leapMap Spec.amagoldExpect

/-! ## The masses of a run -/

open Classical in
/-- The masses used by update `k` if `r` are the earlier samples: the initial ones in the burn in, then the inverse
variances of the samples of the burn in (or ones if they are not all positive). -/
noncomputable def massVector (burnIn : ℕ) (cov : ι → ℝ) (r : ℕ → ι → ℝ) (k : ℕ) : ι → ℝ :=
  if k < burnIn then fun i => (cov i)⁻¹
  else if ∀ i, 0 < Spec.popCov ((List.range burnIn).map r) i i then
    fun i => (Spec.popCov ((List.range burnIn).map r) i i)⁻¹
  else fun _ => 1

theorem massVector_pos (burnIn : ℕ) {cov : ι → ℝ} (hcov : ∀ i, 0 < cov i) (r : ℕ → ι → ℝ) (k : ℕ) (i : ι) :
    0 < massVector burnIn cov r k i := by
  unfold massVector
  split_ifs with h1 h2
  · exact inv_pos.2 (hcov i)
  · exact inv_pos.2 (h2 i)
  · exact one_pos

theorem massVector_congr (burnIn : ℕ) (cov : ι → ℝ) {r r' : ℕ → ι → ℝ} (h : ∀ j < burnIn, r j = r' j) (k : ℕ) :
    massVector burnIn cov r k = massVector burnIn cov r' k := by
  have e : (List.range burnIn).map r = (List.range burnIn).map r' :=
    List.map_congr_left fun j hj => h j (List.mem_range.1 hj)
  unfold massVector
  rw [e]

omit [Fintype ι] in
theorem popCov_measurable (burnIn : ℕ) (i j : ι) :
    Measurable fun r : ℕ → ι → ℝ => Spec.popCov ((List.range burnIn).map r) i j := by
  have hs : ∀ (F : (ℕ → ι → ℝ) → ℕ → ℝ), (∀ k, Measurable fun r => F r k) → ∀ l : List ℕ,
      Measurable fun r => (l.map (F r)).sum := by
    intro F hF l
    induction l with
    | nil => exact measurable_const
    | cons k l ih => simp only [List.map_cons, List.sum_cons]; exact (hF k).add ih
  have hc : ∀ (k : ℕ) (i : ι), Measurable fun r : ℕ → ι → ℝ => r k i := fun k i =>
    (measurable_pi_apply i).comp (measurable_pi_apply k)
  have hm : ∀ i : ι, Measurable fun r : ℕ → ι → ℝ => Spec.sampleMean ((List.range burnIn).map r) i := by
    intro i
    unfold Spec.sampleMean
    simp only [List.map_map, List.length_map]
    exact (hs (fun r k => r k i) (fun k => hc k i) _).div_const _
  unfold Spec.popCov
  simp only [List.map_map, List.length_map]
  exact (hs (fun r k => (r k i - Spec.sampleMean ((List.range burnIn).map r) i) *
    (r k j - Spec.sampleMean ((List.range burnIn).map r) j))
    (fun k => ((hc k i).sub (hm i)).mul ((hc k j).sub (hm j))) _).div_const _

theorem variances_measurable (burnIn : ℕ) :
    MeasurableSet {r : ℕ → ι → ℝ | ∀ i, 0 < Spec.popCov ((List.range burnIn).map r) i i} := by
  have e : {r : ℕ → ι → ℝ | ∀ i, 0 < Spec.popCov ((List.range burnIn).map r) i i} =
      ⋂ i, {r : ℕ → ι → ℝ | 0 < Spec.popCov ((List.range burnIn).map r) i i} := by ext r; simp
  rw [e]
  exact MeasurableSet.iInter fun i => measurableSet_lt measurable_const (popCov_measurable burnIn i i)

theorem massVector_measurable (burnIn : ℕ) (cov : ι → ℝ) (k : ℕ) :
    Measurable fun r : ℕ → ι → ℝ => massVector burnIn cov r k := by
  unfold massVector
  by_cases hk : k < burnIn
  · simp only [if_pos hk]
    exact measurable_const
  · simp only [if_neg hk]
    exact Measurable.ite (variances_measurable burnIn)
      (measurable_pi_lambda _ fun i => (popCov_measurable burnIn i i).inv) measurable_const

theorem massVector_burn (burnIn : ℕ) (cov : ι → ℝ) (r : ℕ → ι → ℝ) {k : ℕ} (hk : k < burnIn) :
    massVector burnIn cov r k = fun i => (cov i)⁻¹ := if_pos hk

theorem massVector_after (burnIn : ℕ) (cov : ι → ℝ) (r : ℕ → ι → ℝ) {k : ℕ} (hk : burnIn ≤ k) :
    massVector burnIn cov r k = massVector burnIn cov r burnIn := by
  unfold massVector
  rw [if_neg (Nat.not_lt.2 hk), if_neg (Nat.lt_irrefl _)]

theorem massVector_adapted (burnIn : ℕ) (cov : ι → ℝ) {r : ℕ → ι → ℝ} {k : ℕ} (hk : burnIn ≤ k)
    (h : ∀ i, 0 < Spec.popCov ((List.range burnIn).map r) i i) :
    massVector burnIn cov r k = fun i => (Spec.popCov ((List.range burnIn).map r) i i)⁻¹ := by
  unfold massVector
  rw [if_neg (Nat.not_lt.2 hk), if_pos h]

attribute [local irreducible] massVector

/-! ## The chain of samples -/

section
variable [Inhabited β] (lay : Layout ι) (γ : ℝ) (burnIn : ℕ) (cov : ι → ℝ) (L : ℕ) (sg : StochGrad ι β μ)
  (fullPot : FullPotFn ι φ μ) (U : (ι → ℝ) → ℝ) (f₀ : φ) (ms : μ) (prm : ℕ → Params)

/-- Update `k` of AMAGOLD with mass adaption as a function of its random numbers: positions and momenta, and
the samples so far. -/
noncomputable def massDrive (k : ℕ) (e : (Fin L → β) × (Fin L × ι → ℝ) × ℝ)
    (q : ((ι → ℝ) × (ι → ℝ)) × (ℕ → ι → ℝ)) : ((ι → ℝ) × (ι → ℝ)) × (ℕ → ι → ℝ) :=
  (amagoldDrive lay γ (some (massVector burnIn cov q.2 k)) L sg fullPot U f₀ ms (prm k) e q.1,
    Function.update q.2 k
      (amagoldDrive lay γ (some (massVector burnIn cov q.2 k)) L sg fullPot U f₀ ms (prm k) e q.1).1)

variable {lay γ L sg fullPot U cov prm}

theorem massDrive_measurable [Countable β] [MeasurableSpace β] [MeasurableSingletonClass β]
    (hl : Spec.Layout.Injective lay) (hγ : 0 ≤ γ) (hcov : ∀ i, 0 < cov i) {G : (ι → ℝ) → β → (ι → ℝ)}
    (hG : ∀ x b ms, (sg x b ms).2 = G x b) (hGm : ∀ b, Measurable fun x => G x b) (hU : Measurable U)
    {D : Set (ι → ℝ)} (hD : MeasurableSet D) (hfp : Spec.PotentialOn fullPot U D) (hp : ∀ k, 0 ≤ (prm k).stepSize) (k : ℕ) :
    Measurable fun q : ((Fin L → β) × (Fin L × ι → ℝ) × ℝ) × (((ι → ℝ) × (ι → ℝ)) × (ℕ → ι → ℝ)) =>
      massDrive lay γ burnIn cov L sg fullPot U f₀ ms prm k q.1 q.2 := by
  suffices h : Measurable fun q : ((Fin L → β) × (Fin L × ι → ℝ) × ℝ) × (((ι → ℝ) × (ι → ℝ)) × (ℕ → ι → ℝ)) =>
      amagoldDrive lay γ (some (massVector burnIn cov q.2.2 k)) L sg fullPot U f₀ ms (prm k) q.1 q.2.1 by
    have e : (fun q : ((Fin L → β) × (Fin L × ι → ℝ) × ℝ) × (((ι → ℝ) × (ι → ℝ)) × (ℕ → ι → ℝ)) =>
        massDrive lay γ burnIn cov L sg fullPot U f₀ ms prm k q.1 q.2) = fun q =>
        (amagoldDrive lay γ (some (massVector burnIn cov q.2.2 k)) L sg fullPot U f₀ ms (prm k) q.1 q.2.1,
          Function.update q.2.2 k
            (amagoldDrive lay γ (some (massVector burnIn cov q.2.2 k)) L sg fullPot U f₀ ms (prm k) q.1 q.2.1).1) := rfl
    rw [e]
    refine h.prodMk (measurable_pi_lambda _ fun j => ?_)
    by_cases hj : j = k
    · subst hj
      simp only [Function.update_self]
      exact measurable_fst.comp h
    · simp only [Function.update_of_ne hj]
      fun_prop
  have key : Measurable fun q : (((Fin L × ι → ℝ) × ℝ) × (((ι → ℝ) × (ι → ℝ)) × (ℕ → ι → ℝ))) × (Fin L → β) =>
      amagoldDrive lay γ (some (massVector burnIn cov q.1.2.2 k)) L sg fullPot U f₀ ms (prm k) (q.2, q.1.1) q.1.2.1 := by
    refine measurable_from_prod_countable_left fun b => ?_
    let X := ((Fin L × ι → ℝ) × ℝ) × (((ι → ℝ) × (ι → ℝ)) × (ℕ → ι → ℝ))
    have hc : Measurable fun q : X => massVector burnIn cov q.2.2 k :=
      (massVector_measurable burnIn cov k).comp (by fun_prop)
    have h0 : Measurable fun q : X => ((q.2.1, q.1.1) : PathSpace ι L) := by fun_prop
    have h1 := leapMass_param hc γ (prm k).stepSize (g := fun n q => G q (Spec.batchSeq b n)) (fun n => hGm _) h0
    let T : X → PathSpace ι L → PathSpace ι L := fun q =>
      leapMap γ (prm k).stepSize (diagonalMass (massVector burnIn cov q.2.2 k))
        (diagonalRoot (massVector burnIn cov q.2.2 k)) (fun n q => G q (Spec.batchSeq b n))
    have h1' : Measurable fun q : X => T q (q.2.1, q.1.1) := h1
    have e : ∀ q : X, amagoldDrive lay γ (some (massVector burnIn cov q.2.2 k)) L sg fullPot U f₀ ms (prm k) (b, q.1) q.2.1 =
        if max q.1.2 0 < pathAccept (diagonalMass (massVector burnIn cov q.2.2 k)) U D (T q) q.2.1 q.1.1 then
            pathEnd (T q) q.2.1 q.1.1 else (q.2.1.1, -q.2.1.2) := fun q =>
      amagoldNext_eq hl hγ none (some (massVector burnIn cov q.2.2 k)) (massOk_const (massVector_pos burnIn hcov _ _))
        sg hG fullPot hfp f₀ ms (prm k) (hp k) (diagonalRoot_inverse (massVector_pos burnIn hcov _ _)) b
        q.2.1 q.1.1 (max q.1.2 0) (le_max_right _ _)
    have hs : MeasurableSet {q : X | (T q (q.2.1, q.1.1)).1.1 ∈ D} :=
      (measurable_fst.comp (measurable_fst.comp h1')) hD
    have hacc : Measurable fun q : X => pathAccept (diagonalMass (massVector burnIn cov q.2.2 k)) U D (T q) q.2.1 q.1.1 :=
      Measurable.indicator (s := {q : X | (T q (q.2.1, q.1.1)).1.1 ∈ D})
        (Spec.acceptProb_measurable.comp ((energyMass_param hc hU h1').sub (energyMass_param hc hU h0))) hs
    have hend : Measurable fun q : X => pathEnd (T q) q.2.1 q.1.1 :=
      (measurable_fst.comp (measurable_fst.comp h1')).prodMk (measurable_snd.comp (measurable_fst.comp h1')).neg
    have hu : Measurable fun q : X => max q.1.2 0 := by fun_prop
    have hst : Measurable fun q : X => (q.2.1.1, -q.2.1.2) := by fun_prop
    show Measurable fun q : X =>
      amagoldDrive lay γ (some (massVector burnIn cov q.2.2 k)) L sg fullPot U f₀ ms (prm k) (b, q.1) q.2.1
    rw [funext e]
    exact Measurable.ite (measurableSet_lt hu hacc) hend hst
  exact key.comp (by fun_prop : Measurable fun q : ((Fin L → β) × (Fin L × ι → ℝ) × ℝ) ×
    (((ι → ℝ) × (ι → ℝ)) × (ℕ → ι → ℝ)) => ((q.1.2, q.2), q.1.1))

/-- After the burn in, the chain is AMAGOLD with constant masses. -/
theorem massPath_eq [MeasurableSpace β] (acc : Acc → (ι → ℝ) × (ι → ℝ) → Acc)
    (lam : Measure ((Fin L → β) × (Fin L × ι → ℝ) × ℝ)) (F : Acc → ENNReal) {p : Params}
    (hp : ∀ k, burnIn ≤ k → prm k = p) (n : ℕ) :
    ∀ (k : ℕ) (_ : burnIn ≤ k) (c : Acc) (z : (ι → ℝ) × (ι → ℝ)) (r : ℕ → ι → ℝ),
      drivePath (massDrive lay γ burnIn cov L sg fullPot U f₀ ms prm) (fun c q => acc c q.1) lam F (List.range' k n)
        (c, (z, r)) =
      drivePath (amagoldDrive lay γ (some (massVector burnIn cov r burnIn)) L sg fullPot U f₀ ms) acc lam F
        (List.replicate n p) (c, z) := by
  induction n with
  | zero => intros; rfl
  | succ n ih =>
    intro k hk c z r
    rw [List.range'_succ, List.replicate_succ, drivePath, drivePath]
    refine lintegral_congr fun e => ?_
    have hv := massVector_after burnIn cov r hk
    have e0 : massDrive lay γ burnIn cov L sg fullPot U f₀ ms prm k e (z, r) =
      (amagoldDrive lay γ (some (massVector burnIn cov r k)) L sg fullPot U f₀ ms (prm k) e z,
        Function.update r k
          (amagoldDrive lay γ (some (massVector burnIn cov r k)) L sg fullPot U f₀ ms (prm k) e z).1) := rfl
    dsimp only
    rw [e0]
    dsimp only
    rw [ih (k + 1) (by omega), hv, hp k hk]
    congr 3
    exact massVector_congr burnIn cov (fun j hj => Function.update_of_ne (by omega) _ _) _

end

/-! ## The code -/

/-- Only the mass in use matters. -/
theorem amagoldNext_mass [Inhabited β] (lay : Layout ι) (γ : ℝ) (L : ℕ) (sg : StochGrad ι β μ) (fullPot : FullPotFn ι φ μ)
    (U : (ι → ℝ) → ℝ) (f₀ : φ) (ms : μ) (p : Params) {am am' : Option (MassMatrix ι)} {cm cm' : Option (ι → ℝ)}
    (h : Spec.usedMass am cm = Spec.usedMass am' cm') (b : Fin L → β) (z : (ι → ℝ) × (ι → ℝ)) (x : Fin L × ι → ℝ) (u : ℝ) :
    Spec.amagoldNext lay γ am cm L sg fullPot U f₀ ms p b z x u = Spec.amagoldNext lay γ am' cm' L sg fullPot U f₀ ms p b z x u := by
  rw [← resolveMass_eq, ← resolveMass_eq] at h
  have hr : ∀ (P : Prng Spec.SKey) (s : LeapfrogState ι XF Spec.SKey ℕ μ),
      revForAmagold P lay γ cm L (Spec.batchSource (Spec.batchSeq b)) sg s p am =
        revForAmagold P lay γ cm' L (Spec.batchSource (Spec.batchSeq b)) sg s p am' := by
    intro P s
    unfold revForAmagold revIntegrate
    dsimp only
    rw [h]
  unfold Spec.amagoldNext amagoldUpdate
  dsimp only
  rw [currentMass_const, currentMass_const, hr]

theorem amagold_mass_keys [Inhabited β] {Ms : Type} (P : Prng κ) (ma : Option (MassAdaption ι Ms)) (lay : Layout ι) (γ : ℝ)
    (cm : Option (ι → ℝ)) (L : ℕ) (data : δ → δ × β) (sg : StochGrad ι β μ) (fullPot : FullPotFn ι φ μ)
    (s : AmagoldState ι κ δ μ φ Ms) (p : Params) :
    let s' := (amagoldUpdate P ma (revForAmagold P lay γ cm L data sg) fullPot s p).1
    s'.key = P.split s.key 2 0 ∧ s'.integratorState.key = (fun k => P.split k 2 0)^[L] s.integratorState.key ∧
      s'.integratorState.dataState = (fun d => (data d).1)^[L] s.integratorState.dataState := by
  refine ⟨rfl, ?_, ?_⟩
  · exact revState_key P lay γ data sg p _ _ L
  · exact revState_data P lay γ data sg p _ _ L

section
variable [Inhabited β] {P : Prng κ} {sp : κ → ℕ → ℕ → κ} (hsp : P.split = sp) {lay : Layout ι}
    (hl : Spec.Layout.Injective lay) {γ : ℝ} {burnIn : ℕ} (hb : 0 < burnIn) {cov : ι → ℝ} (hcov : ∀ i, 0 < cov i)
    {cm : Option (ι → ℝ)} {L : ℕ} {data : δ → δ × β} {d₀ : δ}
    {sg : StochGrad ι β μ} {G : (ι → ℝ) → β → (ι → ℝ)} (hG : ∀ x b ms, (sg x b ms).2 = G x b)
    {fullPot : FullPotFn ι φ μ} {U : (ι → ℝ) → ℝ} {D : Set (ι → ℝ)} (hfp : Spec.PotentialOn fullPot U D)
    (f₀ : φ) (ms : μ) {x₀ : ι → ℝ} (hx₀ : x₀ ∈ D) {key : κ} (hu : ∀ n, 0 ≤ runUnif sp key n P) (prm : ℕ → Params)

omit [Fintype ι] in
theorem diagonal_of_inverse {inv sqrt : ι → ℝ} (h : ∀ i, 0 < inv i → 0 < sqrt i ∧ sqrt i * sqrt i * inv i = 1)
    (hi : ∀ i, 0 < inv i) : (⟨.diag inv, .diag sqrt⟩ : MassMatrix ι) = Spec.usedMass none (some fun i => (inv i)⁻¹) := by
  have e1 : inv = fun i => ((inv i)⁻¹)⁻¹ := by funext i; rw [inv_inv]
  have e2 : sqrt = fun i => Real.sqrt (inv i)⁻¹ := by
    funext i
    obtain ⟨h1, h2⟩ := h i (hi i)
    have h3 : (inv i)⁻¹ = sqrt i ^ 2 := by
      rw [inv_eq_iff_eq_inv]
      refine eq_inv_of_mul_eq_one_left ?_
      linarith [h2]
    rw [h3, Real.sqrt_sq h1.le]
  show (⟨.diag inv, .diag sqrt⟩ : MassMatrix ι) = ⟨.diag fun i => ((inv i)⁻¹)⁻¹, .diag fun i => Real.sqrt (inv i)⁻¹⟩
  rw [← e1, ← e2]

include hb hcov in
omit [Inhabited β] in
/-- The masses used by the updates of a run. -/
theorem run_massVector (k : ℕ) :
    let s := fun k => Spec.massAdaptedState P lay γ burnIn cov cm L data d₀ sg fullPot f₀ ms x₀ key ((List.range k).map prm)
    let r := fun j => (s (j + 1)).integratorState.positions
    (k < burnIn ∨ ∀ i, 0 < Spec.popCov ((List.range burnIn).map r) i i) →
    Spec.usedMass (currentMass (some (diagMassAdaption burnIn cov)) (s k).massState) cm =
      Spec.usedMass none (some (massVector burnIn cov r k)) := by
  intro s r hk
  have hm := amagold_currentMass P (diagMassAdaption burnIn cov) (revInitForAmagold P lay cm d₀)
    (revForAmagold P lay γ cm L data sg) fullPot f₀ x₀ key ms ((List.range k).map prm)
  have hs : (List.range ((List.range k).map prm).length).map (fun j => (amagoldGet (amagoldRun P
      (some (diagMassAdaption burnIn cov)) (revForAmagold P lay γ cm L data sg) fullPot
      (amagoldInit P (some (diagMassAdaption burnIn cov)) (revInitForAmagold P lay cm d₀) fullPot f₀ x₀ key ms)
      (((List.range k).map prm).take (j + 1)))).vars) = (List.range k).map r := by
    rw [List.length_map, List.length_range]
    refine List.map_congr_left fun j hj => ?_
    have : j + 1 ≤ k := List.mem_range.1 hj
    rw [← List.map_take, List.take_range, Nat.min_eq_left this]
    rfl
  dsimp only at hm
  rw [hs] at hm
  have hm' : currentMass (some (diagMassAdaption burnIn cov)) (s k).massState =
      some (diagMassGet (((List.range k).map r).foldl (diagMassUpdate burnIn) (diagMassInit cov))) := hm
  rw [hm']
  show diagMassGet _ = _
  rcases Nat.lt_or_ge k burnIn with h1 | h1
  · rw [c70_before burnIn cov _ (by simpa using h1)]
    have hv := massVector_burn burnIn cov r h1
    rw [hv]
    refine diagonal_of_inverse (fun i hi => ?_) hcov
    have := Real.sqrt_pos.2 hi
    refine ⟨by positivity, ?_⟩
    have h3 := Real.mul_self_sqrt hi.le
    field_simp
    rw [sq]; exact h3.symm
  · have h2 : ∀ i, 0 < Spec.popCov ((List.range burnIn).map r) i i := hk.resolve_left (by omega)
    have e : (List.range k).map r = (List.range burnIn).map r ++ (List.range' burnIn (k - burnIn)).map r := by
      rw [← List.map_append]
      congr 1
      have h5 := List.range'_append_1 (s := 0) (m := burnIn) (n := k - burnIn)
      rw [Nat.zero_add, Nat.add_sub_cancel' h1] at h5
      rw [List.range_eq_range', List.range_eq_range', h5]
    rw [e]
    obtain ⟨inv, sqrt, he, h3, h4⟩ := c70_adapted burnIn hb cov ((List.range burnIn).map r)
      ((List.range' burnIn (k - burnIn)).map r) (by simp)
    have hv : massVector burnIn cov r k = fun i => (inv i)⁻¹ := by
      rw [massVector_adapted burnIn cov h1 h2]
      funext i
      rw [h3]
    rw [he, hv]
    exact diagonal_of_inverse (fun i hi => h4 i (by rw [← h3]; exact hi)) fun i => by rw [h3]; exact h2 i

include hsp hl hb hcov hG hfp hx₀ hu in
/-- The code performs the transitions of the chain. -/
theorem mass_states :
    let s := fun k => Spec.massAdaptedState P lay γ burnIn cov cm L data d₀ sg fullPot f₀ ms x₀ key ((List.range k).map prm)
    let r := fun j => (s (j + 1)).integratorState.positions
    let st := fun k => (((s k).integratorState.positions, (s k).integratorState.momentum),
      fun j => if j < k then r j else 0)
    ∀ k, (k < burnIn ∨ ∀ i, 0 < Spec.popCov ((List.range burnIn).map r) i i) →
      massDrive lay γ burnIn cov L sg fullPot U f₀ ms prm k (runInnov lay sp key d₀ L k P data) (st k) = st (k + 1) := by
  intro s r st
  have hrun : ∀ k, s (k + 1) = (amagoldUpdate P (some (diagMassAdaption burnIn cov)) (revForAmagold P lay γ cm L data sg)
      fullPot (s k) (prm k)).1 := by
    intro k
    show Spec.massAdaptedState P lay γ burnIn cov cm L data d₀ sg fullPot f₀ ms x₀ key ((List.range (k + 1)).map prm) = _
    rw [List.range_succ, List.map_append, List.map_cons, List.map_nil]
    exact amagoldRun_snoc ..
  have hin : ∀ k, (s k).integratorState.positions ∈ D ∧ (s k).potential = .fin (U (s k).integratorState.positions) :=
    fun k => (c128_stays P hl γ (some (diagMassAdaption burnIn cov)) cm L d₀ data sg hG fullPot hfp f₀ x₀ hx₀ key ms
      ((List.range k).map prm)).2
  have hkeys : ∀ k, (s k).integratorState.key = (fun k => P.split k 2 0)^[1 + k * L] (P.split key 2 0) ∧
      (s k).key = (fun k => P.split k 2 0)^[k] (P.split key 2 1) ∧
      (s k).integratorState.dataState = (fun d => (data d).1)^[k * L] d₀ := by
    intro k
    induction k with
    | zero => exact ⟨by rw [Nat.zero_mul]; rfl, rfl, by rw [Nat.zero_mul]; rfl⟩
    | succ k ih =>
      obtain ⟨i1, i2, i3⟩ := ih
      obtain ⟨k1, k2, k3⟩ := amagold_mass_keys P (some (diagMassAdaption burnIn cov)) lay γ cm L data sg fullPot (s k) (prm k)
      rw [hrun]
      refine ⟨?_, ?_, ?_⟩
      · rw [k2, i1, ← Function.iterate_add_apply]
        congr 1
        ring
      · rw [k1, i2, Function.iterate_succ_apply']
      · rw [k3, i3, ← Function.iterate_add_apply]
        congr 1
        ring
  intro k hk
  obtain ⟨i1, i2, i3⟩ := hkeys k
  obtain ⟨e1, -, -⟩ := amagold_code_step P hl γ (some (diagMassAdaption burnIn cov)) cm L data sg hG fullPot hfp (s k)
    (hin k).1 (hin k).2 (prm k) f₀ ms
  have h1 : (fun i : Fin L => Spec.nthBatch data (s k).integratorState.dataState i) = Spec.updateBatches data d₀ L k := by
    funext i
    unfold Spec.updateBatches Spec.nthBatch
    rw [i3, ← Function.iterate_add_apply, Nat.add_comm]
  have h2 : P.uniform (P.split (s k).key 2 1) = runUnif sp key k P := by
    rw [i2]
    subst hsp
    rfl
  have h3 := drawnNoise_run hsp lay key L (1 + k * L)
  rw [← i1] at h3
  have hmass := run_massVector (P := P) (lay := lay) (γ := γ) (burnIn := burnIn) hb hcov (cm := cm) (L := L) (data := data)
    (d₀ := d₀) (sg := sg) (fullPot := fullPot) f₀ ms (x₀ := x₀) (key := key) prm k hk
  have hv : massVector burnIn cov (st k).2 k = massVector burnIn cov r k := by
    rcases Nat.lt_or_ge k burnIn with h | h
    · rw [massVector_burn burnIn cov _ h, massVector_burn burnIn cov _ h]
    · exact massVector_congr burnIn cov (fun j hj => if_pos (by omega)) k
  have hd : amagoldDrive lay γ (some (massVector burnIn cov (st k).2 k)) L sg fullPot U f₀ ms (prm k)
      (runInnov lay sp key d₀ L k P data) (st k).1 =
      ((s (k + 1)).integratorState.positions, (s (k + 1)).integratorState.momentum) := by
    rw [hrun, e1, hv]
    unfold amagoldDrive
    show Spec.amagoldNext lay γ none (some (massVector burnIn cov r k)) L sg fullPot U f₀ ms (prm k)
      (Spec.updateBatches data d₀ L k) (st k).1
      (fun j : Fin L × ι => runNoise lay sp key (1 + k * L + j.1) P j.2) (max (runUnif sp key k P) 0) = _
    rw [max_eq_left (hu k), h1, h2, h3]
    exact (amagoldNext_mass lay γ L sg fullPot U f₀ ms (prm k) hmass _ _ _ _).symm
  have e0 : massDrive lay γ burnIn cov L sg fullPot U f₀ ms prm k (runInnov lay sp key d₀ L k P data) (st k) =
      (amagoldDrive lay γ (some (massVector burnIn cov (st k).2 k)) L sg fullPot U f₀ ms (prm k)
        (runInnov lay sp key d₀ L k P data) (st k).1,
      Function.update (st k).2 k (amagoldDrive lay γ (some (massVector burnIn cov (st k).2 k)) L sg fullPot U f₀ ms (prm k)
        (runInnov lay sp key d₀ L k P data) (st k).1).1) := rfl
  rw [e0, hd]
  refine Prod.ext rfl ?_
  funext j
  by_cases hj : j = k
  · subst hj
    dsimp only
    rw [Function.update_self]
    exact (if_pos (Nat.lt_succ_self j)).symm
  · dsimp only
    rw [Function.update_of_ne hj]
    show (if j < k then r j else 0) = if j < k + 1 then r j else 0
    by_cases hjk : j < k
    · rw [if_pos hjk, if_pos (by omega)]
    · rw [if_neg hjk, if_neg (by omega)]

end

/-! ## C149 -/

section
variable [Inhabited β] [Countable β] [MeasurableSpace β] [MeasurableSingletonClass β] [MeasurableSpace Ω]
  {prob : Measure Ω} [IsProbabilityMeasure prob]
  {P : Ω → Prng κ} {data : Ω → δ → δ × β} {d₀ : δ} {L : ℕ} {w : (Fin L → β) → ENNReal} {sp : κ → ℕ → ℕ → κ}
  (hR : Spec.IdealRandom prob P data d₀ L w sp) {lay : Layout ι} (hlay : Spec.Layout.Valid lay) (key : κ)
  {γ : ℝ} (hγ : 0 < γ) {burnIn : ℕ} (hb : 0 < burnIn) {cov : ι → ℝ} (hcov : ∀ i, 0 < cov i) (cm : Option (ι → ℝ))
  (sg : StochGrad ι β μ) {G : (ι → ℝ) → β → (ι → ℝ)} (hG : ∀ x b ms, (sg x b ms).2 = G x b)
  (hGm : ∀ b, Measurable fun x => G x b) (fullPot : FullPotFn ι φ μ) {U : (ι → ℝ) → ℝ}
  (hU : Measurable U) {D : Set (ι → ℝ)} (hD : MeasurableSet D) (hfp : Spec.PotentialOn fullPot U D)
  (f₀ : φ) (ms : μ) {x₀ : ι → ℝ} (hx₀ : x₀ ∈ D) {ps : List Params} (hps : ps.length = burnIn)
  (hps0 : ∀ q ∈ ps, 0 ≤ q.stepSize) {p : Params} (hp : 0 < p.stepSize)

/-- The parameters of the updates: those of the burn in, then always the same. -/
def burnParams (ps : List Params) (p : Params) (k : ℕ) : Params := ps.getD k p

theorem burnParams_take (ps : List Params) (p : Params) {n k : ℕ} (hk : k ≤ ps.length + n) :
    (ps ++ List.replicate n p).take k = (List.range k).map (burnParams ps p) := by
  refine List.ext_getElem? fun j => ?_
  rw [List.getElem?_take, List.getElem?_map]
  by_cases hj : j < k
  · rw [if_pos hj, List.getElem?_range hj, Option.map_some, List.getElem?_append]
    unfold burnParams
    rw [List.getD_eq_getElem?_getD]
    split
    · rename_i h
      rw [List.getElem?_eq_getElem h, Option.getD_some]
    · rename_i h
      rw [List.getElem?_replicate, if_pos (by omega), List.getElem?_eq_none (by omega), Option.getD_none]
  · rw [if_neg hj, List.getElem?_eq_none (by simpa using hj)]
    rfl

/-- The state at the end of the burn in. -/
noncomputable def massBurned (lay : Layout ι) (γ : ℝ) (burnIn : ℕ) (cov : ι → ℝ) (sg : StochGrad ι β μ)
    (fullPot : FullPotFn ι φ μ) (U : (ι → ℝ) → ℝ) (f₀ : φ) (ms : μ) (prm : ℕ → Params) (x₀ : ι → ℝ)
    (sp : κ → ℕ → ℕ → κ) (key : κ) (d₀ : δ) (L : ℕ)
    (P : Prng κ) (data : δ → δ × β) : ((ι → ℝ) × (ι → ℝ)) × (ℕ → ι → ℝ) :=
  (drive (massDrive lay γ burnIn cov L sg fullPot U f₀ ms prm) (fun (_ : Unit) _ => ()) (List.range' 0 burnIn) 0
    (fun m => runInnov lay sp key d₀ L m P data)
    ((), ((x₀, (diagonalMass fun i => (cov i)⁻¹).sqrt.mul (runNoise lay sp key 0 P)), fun _ => 0))).2

theorem drive_states_until {E S : Type} (next : ℕ → E → S → S) (acc : Acc → S → Acc) (V : ℕ → E) (st : ℕ → S) (len : ℕ) :
    ∀ (n : ℕ) (_ : ∀ k, n ≤ k → k < n + len → next k (V k) (st k) = st (k + 1)) (c : Acc),
      drive next acc (List.range' n len) n V (c, st n) =
      ((List.range' (n + 1) len).foldl (fun c k => acc c (st k)) c, st (n + len)) := by
  induction len with
  | zero => intros; rfl
  | succ len ih =>
    intro n h c
    rw [List.range'_succ, List.range'_succ, drive]
    dsimp only
    rw [h n le_rfl (by omega), ih (n + 1) (fun k h1 h2 => h k (by omega) (by omega)), List.foldl_cons,
      show n + (len + 1) = n + 1 + len by omega]

include hR hlay hb hcov hG hfp hx₀ hps in
omit [Countable β] [MeasurableSingletonClass β] [IsProbabilityMeasure prob] in
/-- The samples of the burn in, and the mean over the later samples, in terms of the random numbers. -/
theorem mass_mean (f : (ι → ℝ) → ℝ) :
    ∀ᵐ ω ∂prob,
      let B := massBurned lay γ burnIn cov sg fullPot U f₀ ms (burnParams ps p) x₀ sp key d₀ L (P ω) (data ω)
      let xs := Spec.massAdaptedSamples (P ω) lay γ burnIn cov cm L (data ω) d₀ sg fullPot f₀ ms x₀ key ps
      (List.range burnIn).map B.2 = xs ∧
      ((∀ i, 0 < Spec.popCov xs i i) → ∀ n : ℕ,
        Spec.meanOver f ((Spec.massAdaptedSamples (P ω) lay γ burnIn cov cm L (data ω) d₀ sg fullPot f₀ ms x₀ key
          (ps ++ List.replicate n p)).drop burnIn) =
        (drive (massDrive lay γ burnIn cov L sg fullPot U f₀ ms (burnParams ps p))
          (fun (c : ℝ) (q : ((ι → ℝ) × (ι → ℝ)) × (ℕ → ι → ℝ)) => c + f q.1.1) (List.range' burnIn n) burnIn
          (fun m => runInnov lay sp key d₀ L m (P ω) (data ω)) (0, B)).1 / n) := by
  filter_upwards [runUnif_nonneg hR key] with ω hω B xs
  have hsp := hR.split_eq ω
  have hst := mass_states hsp hlay.injective (γ := γ) hb hcov (cm := cm) (L := L) (data := data ω) (d₀ := d₀) (sg := sg) hG
    (fullPot := fullPot) (U := U) hfp f₀ ms hx₀ hω (burnParams ps p)
  dsimp only at hst
  set s := fun k => Spec.massAdaptedState (P ω) lay γ burnIn cov cm L (data ω) d₀ sg fullPot f₀ ms x₀ key
    ((List.range k).map (burnParams ps p)) with hs
  set r := fun j => (s (j + 1)).integratorState.positions with hr
  let st : ℕ → ((ι → ℝ) × (ι → ℝ)) × (ℕ → ι → ℝ) := fun k =>
    (((s k).integratorState.positions, (s k).integratorState.momentum), fun j => if j < k then r j else 0)
  have hsam : ∀ n, Spec.massAdaptedSamples (P ω) lay γ burnIn cov cm L (data ω) d₀ sg fullPot f₀ ms x₀ key
      (ps ++ List.replicate n p) = (List.range (burnIn + n)).map r := by
    intro n
    unfold Spec.massAdaptedSamples
    rw [List.length_append, List.length_replicate, hps]
    refine List.map_congr_left fun j hj => ?_
    rw [burnParams_take ps p (by have := List.mem_range.1 hj; omega)]
    rfl
  have hxs : xs = (List.range burnIn).map r := by
    have := hsam 0
    rw [List.replicate_zero, List.append_nil, Nat.add_zero] at this
    exact this
  have hst' : ∀ k, (k < burnIn ∨ ∀ i, 0 < Spec.popCov xs i i) →
      massDrive lay γ burnIn cov L sg fullPot U f₀ ms (burnParams ps p) k (runInnov lay sp key d₀ L k (P ω) (data ω)) (st k) =
      st (k + 1) := fun k hk => hst k (by rw [hxs] at hk; exact hk)
  have hmom : (s 0).integratorState.momentum = (diagonalMass fun i => (cov i)⁻¹).sqrt.mul (runNoise lay sp key 0 (P ω)) := by
    have e := diagonal_of_inverse (inv := cov) (sqrt := fun i => 1 / Real.sqrt (cov i)) (fun i hi => by
      have := Real.sqrt_pos.2 hi
      refine ⟨by positivity, ?_⟩
      have h3 := Real.mul_self_sqrt hi.le
      field_simp
      rw [sq]; exact h3.symm) hcov
    unfold diagonalMass
    rw [← e, ← hsp]
    rfl
  have h0 : st 0 = ((x₀, (diagonalMass fun i => (cov i)⁻¹).sqrt.mul (runNoise lay sp key 0 (P ω))), fun _ => 0) := by
    rw [← hmom]
    refine Prod.ext rfl ?_
    funext i
    show (if i < 0 then r i else 0) = 0
    exact if_neg (Nat.not_lt_zero i)
  have hB : B = st burnIn := by
    show massBurned _ _ _ _ _ _ _ _ _ _ _ _ _ _ _ _ _ = _
    unfold massBurned
    rw [← h0, drive_states_until _ _ _ st _ 0 fun k _ hk => hst' k (Or.inl (by omega))]
    show st (0 + burnIn) = _
    rw [Nat.zero_add]
  refine ⟨?_, fun hpos n => ?_⟩
  · rw [hB, hxs]
    refine List.map_congr_left fun j hj => ?_
    show (if j < burnIn then r j else 0) = r j
    exact if_pos (List.mem_range.1 hj)
  · rw [hB, drive_states_until _ _ _ st _ burnIn fun k _ _ => hst' k (Or.inr hpos), hsam]
    have hdrop : ((List.range (burnIn + n)).map r).drop burnIn = (List.range n).map fun i => r (burnIn + i) := by
      rw [List.range_add, List.map_append, List.drop_append_of_le_length (by simp), List.drop_of_length_le (by simp),
        List.nil_append, List.map_map]
      rfl
    rw [hdrop]
    unfold Spec.meanOver
    rw [List.length_map, List.length_range, List.map_map, List.range'_eq_map_range, List.foldl_map]
    congr 1
    have hsum : ∀ (l : List ℕ) (c : ℝ), l.foldl (fun (c : ℝ) (i : ℕ) => c + f (st (burnIn + 1 + i)).1.1) c =
        c + (l.map fun i => f (st (burnIn + 1 + i)).1.1).sum := by
      intro l
      induction l with
      | nil => intro c; simp
      | cons z l ih => intro c; rw [List.foldl_cons, ih, List.map_cons, List.sum_cons, add_assoc]
    rw [hsum, zero_add]
    congr 1
    refine List.map_congr_left fun i _ => ?_
    show f (s (burnIn + i + 1)).integratorState.positions = f (s (burnIn + 1 + i)).integratorState.positions
    rw [show burnIn + i + 1 = burnIn + 1 + i by omega]

omit [Fintype ι] [Inhabited β] [Countable β] [MeasurableSpace β] [MeasurableSingletonClass β] in
theorem burnParams_nonneg {ps : List Params} (hps0 : ∀ q ∈ ps, 0 ≤ q.stepSize) {p : Params} (hp : 0 < p.stepSize) (k : ℕ) :
    0 ≤ (burnParams ps p k).stepSize := by
  unfold burnParams
  rw [List.getD_eq_getElem?_getD]
  cases h : ps[k]? with
  | none => exact hp.le
  | some q => exact hps0 q (List.mem_of_getElem? h)

include hR hlay hγ hb hcov hG hGm hU hD hfp hx₀ hps hps0 hp in
omit [IsProbabilityMeasure prob] in
/-- The event of positive variances and the mean over the samples are measurable. -/
theorem mass_mean_aemeasurable {f : (ι → ℝ) → ℝ} (hf : Measurable f) (n : ℕ) :
    NullMeasurableSet {ω | ∀ i, 0 < Spec.popCov (Spec.massAdaptedSamples (P ω) lay γ burnIn cov cm L (data ω) d₀ sg
        fullPot f₀ ms x₀ key ps) i i} prob ∧
    AEMeasurable (fun ω => Spec.meanOver f ((Spec.massAdaptedSamples (P ω) lay γ burnIn cov cm L (data ω) d₀ sg fullPot f₀ ms x₀
        key (ps ++ List.replicate n p)).drop burnIn))
      (prob.restrict {ω | ∀ i, 0 < Spec.popCov (Spec.massAdaptedSamples (P ω) lay γ burnIn cov cm L (data ω) d₀ sg
        fullPot f₀ ms x₀ key ps) i i}) := by
  set prm := burnParams ps p with hprm
  have hnext := massDrive_measurable (L := L) burnIn f₀ ms hlay.injective hγ.le hcov hG hGm hU hD hfp
    (burnParams_nonneg hps0 hp)
  have h0 : Measurable fun ω => runNoise lay sp key 0 (P ω) :=
    (runNoise_measurable (data := data) (d₀ := d₀) (L := L) hlay (Set.mem_univ 0) subset_rfl).mono (known_le hR _) le_rfl
  have hH0 : Measurable fun ω =>
      (((), ((x₀, (diagonalMass fun i => (cov i)⁻¹).sqrt.mul (runNoise lay sp key 0 (P ω))), fun _ => 0)) :
        Unit × (((ι → ℝ) × (ι → ℝ)) × (ℕ → ι → ℝ))) :=
    (by fun_prop : Measurable fun p : ι → ℝ => (((), ((x₀, p), fun _ => 0)) :
      Unit × (((ι → ℝ) × (ι → ℝ)) × (ℕ → ι → ℝ)))).comp
      ((tensor_mul_measurable (diagonalMass fun i => (cov i)⁻¹).sqrt).comp h0)
  let B : Ω → ((ι → ℝ) × (ι → ℝ)) × (ℕ → ι → ℝ) := fun ω =>
    massBurned lay γ burnIn cov sg fullPot U f₀ ms prm x₀ sp key d₀ L (P ω) (data ω)
  have hB : Measurable B :=
    measurable_snd.comp (drive_measurable (next := massDrive lay γ burnIn cov L sg fullPot U f₀ ms prm)
      (acc := fun (_ : Unit) (_ : ((ι → ℝ) × (ι → ℝ)) × (ℕ → ι → ℝ)) => ()) hR hlay key measurable_const
      (List.range' 0 burnIn) (fun i _ => hnext i) 0 _ hH0)
  have hH : Measurable fun ω => ((0, B ω) : ℝ × (((ι → ℝ) × (ι → ℝ)) × (ℕ → ι → ℝ))) :=
    (by fun_prop : Measurable fun q : ((ι → ℝ) × (ι → ℝ)) × (ℕ → ι → ℝ) =>
      ((0, q) : ℝ × (((ι → ℝ) × (ι → ℝ)) × (ℕ → ι → ℝ)))).comp hB
  have hacc : Measurable fun q : ℝ × (((ι → ℝ) × (ι → ℝ)) × (ℕ → ι → ℝ)) => q.1 + f q.2.1.1 := by fun_prop
  have hdm := measurable_fst.comp (drive_measurable (next := massDrive lay γ burnIn cov L sg fullPot U f₀ ms prm)
    (acc := fun (c : ℝ) (q : ((ι → ℝ) × (ι → ℝ)) × (ℕ → ι → ℝ)) => c + f q.1.1) hR hlay key hacc
    (List.range' burnIn n) (fun i _ => hnext i) burnIn _ hH)
  have hmean := mass_mean hR hlay key hb hcov cm sg hG fullPot hfp f₀ ms hx₀ hps (γ := γ) (p := p) f
  have hEE : {ω | ∀ i, 0 < Spec.popCov (Spec.massAdaptedSamples (P ω) lay γ burnIn cov cm L (data ω) d₀ sg
        fullPot f₀ ms x₀ key ps) i i} =ᵐ[prob] {ω | ∀ i, 0 < Spec.popCov ((List.range burnIn).map (B ω).2) i i} := by
    filter_upwards [hmean] with ω hω
    refine propext ?_
    show (∀ i, 0 < Spec.popCov _ i i) ↔ ∀ i, 0 < Spec.popCov _ i i
    rw [show (List.range burnIn).map (B ω).2 = _ from hω.1]
  have hE'm : MeasurableSet {ω | ∀ i, 0 < Spec.popCov ((List.range burnIn).map (B ω).2) i i} :=
    (measurable_snd.comp hB) (variances_measurable burnIn)
  have hEn := hE'm.nullMeasurableSet.congr hEE.symm
  refine ⟨hEn, _, hdm.div_const (n : ℝ), ?_⟩
  rw [Filter.EventuallyEq, ae_restrict_iff'₀ hEn]
  filter_upwards [hmean] with ω hω hωE
  exact hω.2 hωE n

include hR hlay hγ hb hcov hG hGm hU hD hfp hx₀ hps hps0 hp in
/-- **C149.** With ideal random numbers, AMAGOLD with `mass_matrix(diagonal=True)` samples the posterior after the
burn in: restricted to the event that all variances of the samples of the burn in are positive, the mean square
difference between the mean of a bounded function over the `n` samples after the burn in and its posterior mean
converges to zero. The masses used after the burn in are random. -/
theorem c149_mean_square (hL : 2 ≤ L) (hw : ∀ b, w (fun i => b (Fin.rev i)) = w b) (hw1 : ∑' b, w b = 1)
    (hZ0 : Spec.posterior U D Set.univ ≠ 0) (hZ : Spec.posterior U D Set.univ ≠ ⊤)
    {f : (ι → ℝ) → ℝ} (hf : Measurable f) {C : ℝ} (hC : ∀ q, |f q| ≤ C) :
    Tendsto (fun n => ∫⁻ ω in {ω | ∀ i, 0 < Spec.popCov (Spec.massAdaptedSamples (P ω) lay γ burnIn cov cm L (data ω) d₀ sg
        fullPot f₀ ms x₀ key ps) i i},
      ENNReal.ofReal ((Spec.meanOver f ((Spec.massAdaptedSamples (P ω) lay γ burnIn cov cm L (data ω) d₀ sg fullPot f₀ ms x₀
        key (ps ++ List.replicate n p)).drop burnIn) - Spec.posteriorMean U D f) ^ 2) ∂prob) atTop (𝓝 0) := by
  set M := Spec.posteriorMean U D f with hM
  set prm := burnParams ps p with hprm
  have hprm0 := burnParams_nonneg hps0 hp
  have hprmp : ∀ k, burnIn ≤ k → prm k = p := by
    intro k hk
    rw [hprm]
    unfold burnParams
    rw [List.getD_eq_getElem?_getD, List.getElem?_eq_none (by omega), Option.getD_none]
  have hpr := innovLaw_prob hR hlay key
  have hnext := massDrive_measurable (L := L) burnIn f₀ ms hlay.injective hγ.le hcov hG hGm hU hD hfp hprm0
  have hsq := tensor_mul_measurable (diagonalMass fun i => (cov i)⁻¹).sqrt
  have h0 : Measurable[known P data d₀ L (pastKeys lay sp key L 0)] fun ω => runNoise lay sp key 0 (P ω) :=
    runNoise_measurable hlay (T := Set.Iio (1 + 0 * L)) (by simp) Set.subset_union_left
  have hH0 : Measurable[known P data d₀ L (pastKeys lay sp key L 0)] fun ω =>
      (((), ((x₀, (diagonalMass fun i => (cov i)⁻¹).sqrt.mul (runNoise lay sp key 0 (P ω))), fun _ => 0)) :
        Unit × (((ι → ℝ) × (ι → ℝ)) × (ℕ → ι → ℝ))) :=
    (by fun_prop : Measurable fun p : ι → ℝ => (((), ((x₀, p), fun _ => 0)) :
      Unit × (((ι → ℝ) × (ι → ℝ)) × (ℕ → ι → ℝ)))).comp (hsq.comp h0)
  let B : Ω → ((ι → ℝ) × (ι → ℝ)) × (ℕ → ι → ℝ) := fun ω =>
    massBurned lay γ burnIn cov sg fullPot U f₀ ms prm x₀ sp key d₀ L (P ω) (data ω)
  have hB : Measurable[known P data d₀ L (pastKeys lay sp key L burnIn)] B := by
    have := measurable_snd.comp (drive_known (next := massDrive lay γ burnIn cov L sg fullPot U f₀ ms prm)
      (acc := fun (_ : Unit) (_ : ((ι → ℝ) × (ι → ℝ)) × (ℕ → ι → ℝ)) => ()) hlay key measurable_const
      (List.range' 0 burnIn) (fun i _ => hnext i) 0 _ hH0)
    rw [Nat.zero_add, List.length_range'] at this
    exact this
  have hB' : Measurable B := hB.mono (known_le hR _) le_rfl
  have hH : Measurable[known P data d₀ L (pastKeys lay sp key L burnIn)] fun ω => ((0, B ω) :
      ℝ × (((ι → ℝ) × (ι → ℝ)) × (ℕ → ι → ℝ))) :=
    (by fun_prop : Measurable fun q : ((ι → ℝ) × (ι → ℝ)) × (ℕ → ι → ℝ) =>
      ((0, q) : ℝ × (((ι → ℝ) × (ι → ℝ)) × (ℕ → ι → ℝ)))).comp hB
  have hacc : Measurable fun q : ℝ × (((ι → ℝ) × (ι → ℝ)) × (ℕ → ι → ℝ)) => q.1 + f q.2.1.1 := by fun_prop
  have hF : ∀ n : ℕ, Measurable fun a : ℝ => ENNReal.ofReal ((a / n - M) ^ 2) := fun n => by fun_prop
  let c : Ω → ι → ℝ := fun ω => massVector burnIn cov (B ω).2 burnIn
  let A : ℕ → Ω → ENNReal := fun n ω => drivePath (amagoldDrive lay γ (some (c ω)) L sg fullPot U f₀ ms)
    (fun (c : ℝ) (z : (ι → ℝ) × (ι → ℝ)) => c + f z.1) (innovLaw ι L w) (fun c => ENNReal.ofReal ((c / n - M) ^ 2))
    (List.replicate n p) (0, (B ω).1)
  have hA : ∀ n ω, A n ω = drivePath (massDrive lay γ burnIn cov L sg fullPot U f₀ ms prm)
      (fun (c : ℝ) (q : ((ι → ℝ) × (ι → ℝ)) × (ℕ → ι → ℝ)) => c + f q.1.1) (innovLaw ι L w)
      (fun c => ENNReal.ofReal ((c / n - M) ^ 2)) (List.range' burnIn n) (0, B ω) := fun n ω =>
    (massPath_eq burnIn f₀ ms (fun (c : ℝ) (z : (ι → ℝ) × (ι → ℝ)) => c + f z.1) (innovLaw ι L w) _ hprmp n burnIn
      le_rfl 0 (B ω).1 (B ω).2).symm
  have hmeas : ∀ n, Measurable (A n) := by
    intro n
    rw [show A n = _ from funext (hA n)]
    exact (drivePath_measurable (acc := fun (c : ℝ) (q : ((ι → ℝ) × (ι → ℝ)) × (ℕ → ι → ℝ)) => c + f q.1.1) hacc (hF n) _
      (fun i _ => hnext i)).comp (hH.mono (known_le hR _) le_rfl)
  have hcpos : ∀ ω, Spec.MassOk (Spec.usedMass none (some (c ω))) := fun ω => massOk_const (massVector_pos burnIn hcov _ _)
  have lim := tendsto_lintegral_of_dominated_convergence (μ := prob) (F := A) (f := fun _ => 0)
    (fun _ => ENNReal.ofReal ((C + |M|) ^ 2)) hmeas (fun n => Eventually.of_forall fun ω =>
      fixed_bound hlay.injective hγ (some (c ω)) (hcpos ω) sg hG hGm fullPot hU hD hfp f₀ ms hw1 p hp hf hC M n _)
    (by rw [lintegral_const, measure_univ, mul_one]; exact ENNReal.ofReal_ne_top)
    (Eventually.of_forall fun ω =>
      fixed_tendsto hlay.injective hγ (some (c ω)) (hcpos ω) hL sg hG hGm fullPot hU hD hfp f₀ ms hw hw1 p hp hf hC hZ0 hZ _)
  rw [lintegral_zero] at lim
  refine tendsto_of_tendsto_of_tendsto_of_le_of_le tendsto_const_nhds lim (fun n => bot_le) fun n => ?_
  have hd := drive_law (next := massDrive lay γ burnIn cov L sg fullPot U f₀ ms prm)
    (acc := fun (c : ℝ) (q : ((ι → ℝ) × (ι → ℝ)) × (ℕ → ι → ℝ)) => c + f q.1.1) hR hlay key hacc (hF n)
    (List.range' burnIn n) (fun i _ => hnext i) burnIn _ hH
  have hmean := mass_mean hR hlay key hb hcov cm sg hG fullPot hfp f₀ ms hx₀ hps (γ := γ) (p := p) f
  set E := {ω | ∀ i, 0 < Spec.popCov (Spec.massAdaptedSamples (P ω) lay γ burnIn cov cm L (data ω) d₀ sg
        fullPot f₀ ms x₀ key ps) i i} with hE
  set E' := {ω | ∀ i, 0 < Spec.popCov ((List.range burnIn).map (B ω).2) i i} with hE'
  have hEE : E =ᵐ[prob] E' := by
    filter_upwards [hmean] with ω hω
    refine propext ?_
    show (∀ i, 0 < Spec.popCov _ i i) ↔ ∀ i, 0 < Spec.popCov _ i i
    rw [show (List.range burnIn).map (B ω).2 = _ from hω.1]
  have hE'm : MeasurableSet E' := (measurable_snd.comp hB') (variances_measurable burnIn)
  have hA2 : ∫⁻ ω, A n ω ∂prob = _ := (lintegral_congr (hA n)).trans hd.symm
  show ∫⁻ ω in E, _ ∂prob ≤ ∫⁻ ω, A n ω ∂prob
  rw [hA2, setLIntegral_congr hEE]
  refine le_trans ?_ (setLIntegral_le_lintegral E' _)
  refine setLIntegral_mono_ae' hE'm ?_
  filter_upwards [hmean] with ω hω hωE
  have hpos : ∀ i, 0 < Spec.popCov (Spec.massAdaptedSamples (P ω) lay γ burnIn cov cm L (data ω) d₀ sg
        fullPot f₀ ms x₀ key ps) i i := by
    rw [← hω.1]
    exact hωE
  rw [hω.2 hpos n]

include hR hlay hγ hb hcov hG hGm hU hD hfp hx₀ hps hps0 hp in
/-- **C149.** The probability that all variances of the samples of the burn in are positive and the mean over the `n`
samples after the burn in differs from the posterior mean by `ε` or more converges to zero. -/
theorem c149_probability (hL : 2 ≤ L) (hw : ∀ b, w (fun i => b (Fin.rev i)) = w b) (hw1 : ∑' b, w b = 1)
    (hZ0 : Spec.posterior U D Set.univ ≠ 0) (hZ : Spec.posterior U D Set.univ ≠ ⊤)
    {f : (ι → ℝ) → ℝ} (hf : Measurable f) {C : ℝ} (hC : ∀ q, |f q| ≤ C) {ε : ℝ} (hε : 0 < ε) :
    Tendsto (fun n => prob {ω | (∀ i, 0 < Spec.popCov (Spec.massAdaptedSamples (P ω) lay γ burnIn cov cm L (data ω) d₀ sg
        fullPot f₀ ms x₀ key ps) i i) ∧
      ε ≤ |Spec.meanOver f ((Spec.massAdaptedSamples (P ω) lay γ burnIn cov cm L (data ω) d₀ sg fullPot f₀ ms x₀
        key (ps ++ List.replicate n p)).drop burnIn) - Spec.posteriorMean U D f|}) atTop (𝓝 0) := by
  have h1 := c149_mean_square hR hlay key hγ hb hcov cm sg hG hGm fullPot hU hD hfp f₀ ms hx₀ hps hps0 hp hL hw hw1 hZ0 hZ
    hf hC
  have hε2 : ENNReal.ofReal (ε ^ 2) ≠ 0 := by
    rw [Ne, ENNReal.ofReal_eq_zero, not_le]; positivity
  have h2 := ENNReal.Tendsto.div_const h1 (Or.inr hε2)
  rw [ENNReal.zero_div] at h2
  refine tendsto_of_tendsto_of_tendsto_of_le_of_le tendsto_const_nhds h2 (fun n => bot_le) fun n => ?_
  set M := Spec.posteriorMean U D f with hM
  set E := {ω | ∀ i, 0 < Spec.popCov (Spec.massAdaptedSamples (P ω) lay γ burnIn cov cm L (data ω) d₀ sg
        fullPot f₀ ms x₀ key ps) i i} with hE
  set X : Ω → ℝ := fun ω => Spec.meanOver f ((Spec.massAdaptedSamples (P ω) lay γ burnIn cov cm L (data ω) d₀ sg fullPot f₀ ms x₀
        key (ps ++ List.replicate n p)).drop burnIn) with hX
  show prob {ω | ω ∈ E ∧ ε ≤ |X ω - M|} ≤ (∫⁻ ω in E, ENNReal.ofReal ((X ω - M) ^ 2) ∂prob) / ENNReal.ofReal (ε ^ 2)
  obtain ⟨hEn, hXm⟩ : NullMeasurableSet E prob ∧ AEMeasurable X (prob.restrict E) := by
    exact mass_mean_aemeasurable hR hlay key hγ hb hcov cm sg hG hGm fullPot hU hD hfp f₀ ms hx₀ hps hps0 hp hf n
  have h3 := meas_ge_le_lintegral_div (μ := prob.restrict E) (((hXm.sub_const M).pow_const 2).ennreal_ofReal) hε2
    ENNReal.ofReal_ne_top
  refine le_trans ?_ h3
  rw [Measure.restrict_apply₀' hEn]
  refine measure_mono fun ω hω => ⟨?_, hω.1⟩
  refine ENNReal.ofReal_le_ofReal ?_
  rw [← sq_abs (_ - M)]
  exact pow_le_pow_left₀ hε.le hω.2 2

omit [Fintype ι] [Inhabited β] [Countable β] [MeasurableSpace β] [MeasurableSingletonClass β] in
/-- Samples with two different values have a positive variance. -/
theorem popCov_pos {xs : List (ι → ℝ)} {i : ι} {x y : ι → ℝ} (hx : x ∈ xs) (hy : y ∈ xs) (h : x i ≠ y i) :
    0 < Spec.popCov xs i i := by
  unfold Spec.popCov
  have hlen : (0 : ℝ) < xs.length := by exact_mod_cast List.length_pos_of_mem hx
  refine div_pos ?_ hlen
  by_contra hle
  have h1 : ∀ z ∈ xs, (z i - Spec.sampleMean xs i) * (z i - Spec.sampleMean xs i) ≤ 0 := by
    intro z hz
    refine le_trans (List.single_le_sum (l := xs.map fun x => (x i - Spec.sampleMean xs i) * (x i - Spec.sampleMean xs i))
      (fun t ht => ?_) _ (List.mem_map_of_mem hz)) (not_lt.1 hle)
    obtain ⟨z', -, rfl⟩ := List.mem_map.1 ht
    exact mul_self_nonneg _
  have h2 : ∀ z ∈ xs, z i = Spec.sampleMean xs i := fun z hz => by
    have := mul_self_eq_zero.1 (le_antisymm (h1 z hz) (mul_self_nonneg _))
    linarith
  exact h ((h2 x hx).trans (h2 y hy).symm)

omit [Fintype ι] [Inhabited β] [Countable β] [MeasurableSpace β] [MeasurableSingletonClass β] in
/-- The integral of a positive function with respect to a probability measure is positive. -/
theorem lintegral_pos_of_all {X : Type} [MeasurableSpace X] {m : Measure X} [IsProbabilityMeasure m] {g : X → ENNReal}
    (hg : Measurable g) (h : ∀ x, 0 < g x) : 0 < ∫⁻ x, g x ∂m := by
  rw [lintegral_pos_iff_support hg]
  have e : Function.support g = Set.univ := by
    ext x
    simp only [Function.mem_support, Set.mem_univ, iff_true]
    exact (h x).ne'
  rw [e, measure_univ]
  exact one_pos

omit [Fintype ι] [Inhabited β] [Countable β] [MeasurableSpace β] [MeasurableSingletonClass β] in
theorem drivePath_cons_pos {E S A Q : Type} [MeasurableSpace E] [MeasurableSpace S] [MeasurableSpace A]
    {next : Q → E → S → S} {acc : A → S → A} (hacc : Measurable fun q : A × S => acc q.1 q.2) {lam : Measure E}
    [IsProbabilityMeasure lam] {F : A → ENNReal} (hF : Measurable F) {p : Q} {prms : List Q}
    (hnext : ∀ q ∈ p :: prms, Measurable fun x : E × S => next q x.1 x.2) {h : A × S}
    (hall : ∀ v, 0 < drivePath next acc lam F prms (acc h.1 (next p v h.2), next p v h.2)) :
    0 < drivePath next acc lam F (p :: prms) h := by
  have hm : Measurable fun v : E => drivePath next acc lam F prms (acc h.1 (next p v h.2), next p v h.2) :=
    ((drivePath_measurable hacc hF prms fun q hq => hnext q (List.mem_cons_of_mem _ hq)).comp
      (driveStep_measurable hacc (hnext p List.mem_cons_self))).comp
      (by fun_prop : Measurable fun v : E => (h, v))
  exact lintegral_pos_of_all hm hall

include hU in
omit [Inhabited β] [Countable β] [MeasurableSpace β] [MeasurableSingletonClass β] in
/-- Almost all points of the support differ from a given one in all variables. -/
theorem differing_volume (hD : MeasurableSet D) (hZ0 : Spec.posterior U D Set.univ ≠ 0) (x : ι → ℝ) :
    volume {z : (ι → ℝ) × (ι → ℝ) | z.1 ∈ D ∧ ∀ i, z.1 i ≠ x i} ≠ 0 := by
  have hDv : volume D ≠ 0 := by
    intro h
    refine hZ0 ?_
    unfold Spec.posterior
    rw [Measure.restrict_eq_zero.2 h]
    simp
  have hnull : volume {q : ι → ℝ | ¬ ∀ i, q i ≠ x i} = 0 := by
    have : {q : ι → ℝ | ¬ ∀ i, q i ≠ x i} ⊆ ⋃ i, {q : ι → ℝ | q i = x i} := by
      intro q hq
      simp only [Set.mem_setOf_eq, not_forall, not_not] at hq
      simpa using hq
    refine measure_mono_null this (measure_iUnion_null fun i => ?_)
    rw [volume_pi]
    exact Measure.pi_hyperplane (fun _ : ι => (volume : Measure ℝ)) i (x i)
  have e : {z : (ι → ℝ) × (ι → ℝ) | z.1 ∈ D ∧ ∀ i, z.1 i ≠ x i} =
      {q : ι → ℝ | q ∈ D ∧ ∀ i, q i ≠ x i} ×ˢ Set.univ := by
    ext z; simp
  rw [e, Measure.volume_eq_prod, Measure.prod_prod]
  have h1 : volume {q : ι → ℝ | q ∈ D ∧ ∀ i, q i ≠ x i} ≠ 0 := by
    intro h0
    refine hDv (measure_mono_null (t := {q : ι → ℝ | q ∈ D ∧ ∀ i, q i ≠ x i} ∪ {q : ι → ℝ | ¬ ∀ i, q i ≠ x i}) ?_
      (measure_union_null h0 hnull))
    intro q hq
    by_cases h : ∀ i, q i ≠ x i
    · exact Or.inl ⟨hq, h⟩
    · exact Or.inr h
  have h2 : volume (Set.univ : Set (ι → ℝ)) ≠ 0 := by
    rw [volume_pi, Measure.pi_univ]
    refine Finset.prod_ne_zero_iff.2 fun i _ => ?_
    simp
  exact mul_ne_zero h1 h2

open Classical in
include hR hlay hγ hb hcov hG hGm hU hD hfp hx₀ hps in
/-- **C149.** The burn in can succeed: with at least two updates in the burn in and positive step sizes, the
variances of the samples of the burn in are all positive with positive probability. -/
theorem c149_positive (hb2 : 2 ≤ burnIn) (hps1 : ∀ q ∈ ps, 0 < q.stepSize) (hL : 2 ≤ L) (hw1 : ∑' b, w b = 1)
    (hZ0 : Spec.posterior U D Set.univ ≠ 0) :
    0 < prob {ω | ∀ i, 0 < Spec.popCov (Spec.massAdaptedSamples (P ω) lay γ burnIn cov cm L (data ω) d₀ sg
        fullPot f₀ ms x₀ key ps) i i} := by
  have hpr := innovLaw_prob hR hlay key
  set prm := burnParams ps ⟨1, 1⟩ with hprm
  have hprm0 : ∀ k, 0 ≤ (prm k).stepSize := burnParams_nonneg (fun q hq => (hps1 q hq).le) one_pos
  have hprm1 : 0 < (prm 1).stepSize := by
    rw [hprm]
    unfold burnParams
    rw [List.getD_eq_getElem?_getD, List.getElem?_eq_getElem (by omega), Option.getD_some]
    exact hps1 _ (List.getElem_mem _)
  have hnext := massDrive_measurable (L := L) burnIn f₀ ms hlay.injective hγ.le hcov hG hGm hU hD hfp hprm0
  have h0 : Measurable[known P data d₀ L (pastKeys lay sp key L 0)] fun ω => runNoise lay sp key 0 (P ω) :=
    runNoise_measurable hlay (T := Set.Iio (1 + 0 * L)) (by simp) Set.subset_union_left
  have hH : Measurable[known P data d₀ L (pastKeys lay sp key L 0)] fun ω =>
      (((fun _ => 0), ((x₀, (diagonalMass fun i => (cov i)⁻¹).sqrt.mul (runNoise lay sp key 0 (P ω))), fun _ => 0)) :
        (ℕ → ι → ℝ) × (((ι → ℝ) × (ι → ℝ)) × (ℕ → ι → ℝ))) :=
    (by fun_prop : Measurable fun p : ι → ℝ => (((fun _ => 0), ((x₀, p), fun _ => 0)) :
      (ℕ → ι → ℝ) × (((ι → ℝ) × (ι → ℝ)) × (ℕ → ι → ℝ)))).comp ((tensor_mul_measurable (diagonalMass fun i => (cov i)⁻¹).sqrt).comp h0)
  have hacc : Measurable fun q : (ℕ → ι → ℝ) × (((ι → ℝ) × (ι → ℝ)) × (ℕ → ι → ℝ)) => q.2.2 := by fun_prop
  let F : (ℕ → ι → ℝ) → ENNReal := {r | ∀ i, r 1 i ≠ r 0 i}.indicator fun _ => 1
  have hFs : MeasurableSet {r : ℕ → ι → ℝ | ∀ i, r 1 i ≠ r 0 i} := by
    have e : {r : ℕ → ι → ℝ | ∀ i, r 1 i ≠ r 0 i} = ⋂ i, {r : ℕ → ι → ℝ | r 1 i = r 0 i}ᶜ := by ext r; simp
    rw [e]
    have hc : ∀ (k : ℕ) (i : ι), Measurable fun r : ℕ → ι → ℝ => r k i := fun k i =>
      (measurable_pi_apply i).comp (measurable_pi_apply k)
    exact MeasurableSet.iInter fun i => (measurableSet_eq_fun (hc 1 i) (hc 0 i)).compl
  have hF : Measurable F := measurable_const.indicator hFs
  have hd := drive_law (next := massDrive lay γ burnIn cov L sg fullPot U f₀ ms prm)
    (acc := fun (_ : ℕ → ι → ℝ) (q : ((ι → ℝ) × (ι → ℝ)) × (ℕ → ι → ℝ)) => q.2) hR hlay key hacc hF
    (List.range' 0 2) (fun i _ => hnext i) 0 _ hH
  -- the event in terms of the drive
  have hsub : ∫⁻ ω, F (drive (massDrive lay γ burnIn cov L sg fullPot U f₀ ms prm) (fun (_ : ℕ → ι → ℝ) (q : ((ι → ℝ) × (ι → ℝ)) × (ℕ → ι → ℝ)) => q.2)
      (List.range' 0 2) 0 (fun m => runInnov lay sp key d₀ L m (P ω) (data ω))
      ((fun _ => 0), ((x₀, (diagonalMass fun i => (cov i)⁻¹).sqrt.mul (runNoise lay sp key 0 (P ω))), fun _ => 0))).1 ∂prob ≤
      prob {ω | ∀ i, 0 < Spec.popCov (Spec.massAdaptedSamples (P ω) lay γ burnIn cov cm L (data ω) d₀ sg
        fullPot f₀ ms x₀ key ps) i i} := by
    have hEn := (mass_mean_aemeasurable hR hlay key hγ hb hcov cm sg hG hGm fullPot hU hD hfp f₀ ms hx₀ hps
      (fun q hq => (hps1 q hq).le) (p := ⟨1, 1⟩) one_pos (f := fun _ => 0) measurable_const 0).1
    rw [← lintegral_indicator_one₀ hEn]
    refine lintegral_mono_ae ?_
    filter_upwards [runUnif_nonneg hR key] with ω hω
    have hsp := hR.split_eq ω
    have hst := mass_states hsp hlay.injective (γ := γ) hb hcov (cm := cm) (L := L) (data := data ω) (d₀ := d₀) (sg := sg) hG
      (fullPot := fullPot) (U := U) hfp f₀ ms hx₀ hω prm
    dsimp only at hst
    set s := fun k => Spec.massAdaptedState (P ω) lay γ burnIn cov cm L (data ω) d₀ sg fullPot f₀ ms x₀ key
      ((List.range k).map prm) with hs
    set r := fun j => (s (j + 1)).integratorState.positions with hr
    let st : ℕ → ((ι → ℝ) × (ι → ℝ)) × (ℕ → ι → ℝ) := fun k =>
      (((s k).integratorState.positions, (s k).integratorState.momentum), fun j => if j < k then r j else 0)
    have hxs : Spec.massAdaptedSamples (P ω) lay γ burnIn cov cm L (data ω) d₀ sg fullPot f₀ ms x₀ key ps =
        (List.range burnIn).map r := by
      unfold Spec.massAdaptedSamples
      rw [hps]
      refine List.map_congr_left fun j hj => ?_
      have h5 := burnParams_take ps ⟨1, 1⟩ (n := 0) (k := j + 1) (by have := List.mem_range.1 hj; omega)
      rw [List.replicate_zero, List.append_nil] at h5
      rw [h5]
      rfl
    have hmom : (s 0).integratorState.momentum = (diagonalMass fun i => (cov i)⁻¹).sqrt.mul (runNoise lay sp key 0 (P ω)) := by
      have e := diagonal_of_inverse (inv := cov) (sqrt := fun i => 1 / Real.sqrt (cov i)) (fun i hi => by
        have := Real.sqrt_pos.2 hi
        refine ⟨by positivity, ?_⟩
        have h3 := Real.mul_self_sqrt hi.le
        field_simp
        rw [sq]; exact h3.symm) hcov
      unfold diagonalMass
      rw [← e, ← hsp]
      rfl
    have h0 : st 0 = ((x₀, (diagonalMass fun i => (cov i)⁻¹).sqrt.mul (runNoise lay sp key 0 (P ω))), fun _ => 0) := by
      rw [← hmom]
      refine Prod.ext rfl ?_
      funext i
      show (if i < 0 then r i else 0) = 0
      exact if_neg (Nat.not_lt_zero i)
    rw [← h0, drive_states_until _ _ _ st _ 0 fun k _ hk => hst k (Or.inl (by omega))]
    show F (st 2).2 ≤ _
    by_cases hdiff : ∀ i, r 1 i ≠ r 0 i
    · have hmem : ω ∈ {ω | ∀ i, 0 < Spec.popCov (Spec.massAdaptedSamples (P ω) lay γ burnIn cov cm L (data ω) d₀ sg
          fullPot f₀ ms x₀ key ps) i i} := by
        intro i
        rw [hxs]
        exact popCov_pos (x := r 1) (y := r 0) (List.mem_map_of_mem (List.mem_range.2 (by omega)))
          (List.mem_map_of_mem (List.mem_range.2 (by omega))) (hdiff i)
      rw [Set.indicator_of_mem hmem]
      exact Set.indicator_le_self' (fun _ _ => zero_le) (st 2).2 |>.trans le_rfl
    · have : (st 2).2 ∉ {r : ℕ → ι → ℝ | ∀ i, r 1 i ≠ r 0 i} := hdiff
      show {r : ℕ → ι → ℝ | ∀ i, r 1 i ≠ r 0 i}.indicator (fun _ => (1 : ENNReal)) (st 2).2 ≤ _
      rw [Set.indicator_of_notMem this]
      exact bot_le
  refine lt_of_lt_of_le ?_ hsub
  rw [hd]
  -- the second update moves all variables with positive probability
  have hsecond : ∀ (z : (ι → ℝ) × (ι → ℝ)) (r : ℕ → ι → ℝ), r 0 = z.1 →
      0 < ∫⁻ v, F (massDrive lay γ burnIn cov L sg fullPot U f₀ ms prm 1 v (z, r)).2 ∂innovLaw ι L w := by
    intro z r hr
    set c := massVector burnIn cov r 1 with hc
    have hcok : Spec.MassOk (Spec.usedMass none (some c)) := massOk_const (massVector_pos burnIn hcov _ _)
    set A := {y : (ι → ℝ) × (ι → ℝ) | y.1 ∈ D ∧ ∀ i, y.1 i ≠ z.1 i} with hA
    have hAm : MeasurableSet A := by
      have e : A = {y : (ι → ℝ) × (ι → ℝ) | y.1 ∈ D} ∩ ⋂ i, {y : (ι → ℝ) × (ι → ℝ) | y.1 i = z.1 i}ᶜ := by
        ext y; simp [hA]
      rw [e]
      have hc : ∀ i : ι, Measurable fun y : (ι → ℝ) × (ι → ℝ) => y.1 i := fun i =>
        (measurable_pi_apply i).comp measurable_fst
      exact (measurable_fst hD).inter (MeasurableSet.iInter fun i =>
        (measurableSet_eq_fun (hc i) measurable_const).compl)
    have hreach := c129_reaches hlay.injective hγ none (some c) hcok hL sg hG hGm fullPot hU hD hfp f₀ ms w hw1 (prm 1)
      hprm1 hAm (fun y hy => hy.1) (differing_volume hU hD hZ0 z.1) z
    refine lt_of_lt_of_le hreach ?_
    have hm1 : Measurable fun v : (Fin L → β) × (Fin L × ι → ℝ) × ℝ =>
        F (massDrive lay γ burnIn cov L sg fullPot U f₀ ms prm 1 v (z, r)).2 :=
      hF.comp (measurable_snd.comp ((hnext 1).comp (by fun_prop :
        Measurable fun v : (Fin L → β) × (Fin L × ι → ℝ) × ℝ => (v, ((z, r) : ((ι → ℝ) × (ι → ℝ)) × (ℕ → ι → ℝ))))))
    rw [innovLaw_lintegral w hm1, amagoldExpect_single]
    refine ENNReal.tsum_le_tsum fun b => ?_
    refine mul_le_mul_right (lintegral_mono fun x => lintegral_mono_ae ?_) _
    filter_upwards [unif_nonneg] with u hu
    have e : (massDrive lay γ burnIn cov L sg fullPot U f₀ ms prm 1 (b, x, u) (z, r)).2 =
        Function.update r 1 (Spec.amagoldNext lay γ none (some c) L sg fullPot U f₀ ms (prm 1) b z x u).1 := by
      show Function.update r 1 (Spec.amagoldNext lay γ none (some c) L sg fullPot U f₀ ms (prm 1) b z x (max u 0)).1 = _
      rw [max_eq_left hu]
    rw [e]
    by_cases hy : Spec.amagoldNext lay γ none (some c) L sg fullPot U f₀ ms (prm 1) b z x u ∈ A
    · have h7 : Function.update r 1 (Spec.amagoldNext lay γ none (some c) L sg fullPot U f₀ ms (prm 1) b z x u).1 ∈
          {r : ℕ → ι → ℝ | ∀ i, r 1 i ≠ r 0 i} := by
        intro i
        rw [Function.update_self, Function.update_of_ne (by norm_num), hr]
        exact hy.2 i
      rw [Set.indicator_of_mem hy]
      show _ ≤ {r : ℕ → ι → ℝ | ∀ i, r 1 i ≠ r 0 i}.indicator (fun _ => (1 : ENNReal)) _
      rw [Set.indicator_of_mem h7]
    · rw [Set.indicator_of_notMem hy]
      exact bot_le
  have hpath : ∀ h : (ℕ → ι → ℝ) × (((ι → ℝ) × (ι → ℝ)) × (ℕ → ι → ℝ)), 0 < drivePath (massDrive lay γ burnIn cov L sg fullPot U f₀ ms prm)
      (fun (_ : ℕ → ι → ℝ) (q : ((ι → ℝ) × (ι → ℝ)) × (ℕ → ι → ℝ)) => q.2) (innovLaw ι L w) F (List.range' 0 2) h := by
    intro h
    refine drivePath_cons_pos hacc hF (fun i _ => hnext i) fun v => ?_
    exact hsecond (massDrive lay γ burnIn cov L sg fullPot U f₀ ms prm 0 v h.2).1
      (massDrive lay γ burnIn cov L sg fullPot U f₀ ms prm 0 v h.2).2 (by unfold massDrive; dsimp only; rw [Function.update_self])
  have hmeas : Measurable fun ω => drivePath (massDrive lay γ burnIn cov L sg fullPot U f₀ ms prm)
      (fun (_ : ℕ → ι → ℝ) (q : ((ι → ℝ) × (ι → ℝ)) × (ℕ → ι → ℝ)) => q.2) (innovLaw ι L w) F (List.range' 0 2)
      ((fun _ => 0), ((x₀, (diagonalMass fun i => (cov i)⁻¹).sqrt.mul (runNoise lay sp key 0 (P ω))), fun _ => 0)) :=
    (drivePath_measurable (next := massDrive lay γ burnIn cov L sg fullPot U f₀ ms prm)
      (acc := fun (_ : ℕ → ι → ℝ) (q : ((ι → ℝ) × (ι → ℝ)) × (ℕ → ι → ℝ)) => q.2) hacc (lam := innovLaw ι L w) hF (List.range' 0 2)
      (fun i _ => hnext i)).comp (hH.mono (known_le hR _) le_rfl)
  exact lintegral_pos_of_all hmeas fun ω => hpath _

end

/-- The hypotheses can be met: with ideal random numbers and mini-batches drawn from two possible ones, for the
exponential distribution truncated to the unit interval and a burn in of three updates, the probability that the burn
in succeeds is positive, and if it does, the means over the later samples converge. -/
example (ε : ℝ) (hε : 0 < ε) :
    let xs := fun (prms : List Params) (ω : IdealSpace.Space 2 Bool) => Spec.massAdaptedSamples (IdealSpace.gen ω)
      (Spec.vectorLayout 1) 1 3 (fun _ => 1 / 4) none 2 (IdealSpace.batches ω) 0 halfGrad boxPot () () 0 []  prms
    let ps : List Params := [⟨1 / 2, 1⟩, ⟨1 / 2, 1⟩, ⟨1 / 4, 1⟩]
    let law := IdealSpace.law (PMF.uniformOfFintype (Fin 2 → Bool))
    0 < law {ω | ∀ i, 0 < Spec.popCov (xs ps ω) i i} ∧
    Tendsto (fun n => law {ω | (∀ i, 0 < Spec.popCov (xs ps ω) i i) ∧
      ε ≤ |Spec.meanOver (fun q : Fin 1 → ℝ => max 0 (min 1 (q 0)))
          ((xs (ps ++ List.replicate n ⟨1 / 8, 1⟩) ω).drop 3) -
        Spec.posteriorMean (fun x : Fin 1 → ℝ => x 0) (Set.Icc 0 1) (fun q : Fin 1 → ℝ => max 0 (min 1 (q 0)))|})
      atTop (𝓝 0) := by
  intro xs ps law
  have hU : Measurable fun x : Fin 1 → ℝ => x 0 := measurable_pi_apply 0
  have hf : Measurable fun q : Fin 1 → ℝ => max 0 (min 1 (q 0)) := by fun_prop
  have hv : Spec.Layout.Valid (Spec.vectorLayout 1) :=
    ⟨Spec.vectorLayout_injective 1, fun _ => Nat.one_pos, fun i => i.2⟩
  have hpr : IsProbabilityMeasure law := by
    show IsProbabilityMeasure (IdealSpace.law _)
    unfold IdealSpace.law; infer_instance
  have hfp : Spec.PotentialOn boxPot (fun x : Fin 1 → ℝ => x 0) (Set.Icc 0 1) :=
    ⟨fun x f ms h => if_pos h, fun x f ms h => Or.inl (if_neg h)⟩
  have hx : (0 : Fin 1 → ℝ) ∈ Set.Icc (0 : Fin 1 → ℝ) 1 := ⟨le_refl _, fun _ => zero_le_one⟩
  have hp : ∀ q ∈ ps, 0 < q.stepSize := by
    intro q hq
    simp only [ps, List.mem_cons, List.not_mem_nil, or_false] at hq
    rcases hq with rfl | rfl | rfl <;> norm_num
  have hcov : ∀ _ : Fin 1, (0 : ℝ) < 1 / 4 := fun _ => by norm_num
  refine ⟨c149_positive (burnIn := 3) (IdealSpace.ideal _) hv [] one_pos (by norm_num) hcov none halfGrad
    (G := fun _ b _ => if b then 1 else 0) (fun _ _ _ => rfl) (fun _ => measurable_const) boxPot hU measurableSet_Icc hfp
    () () hx rfl (by norm_num) hp le_rfl (PMF.tsum_coe _) trunc_proper.1, ?_⟩
  refine c149_probability (burnIn := 3) (IdealSpace.ideal _) hv [] one_pos (by norm_num) hcov none halfGrad
    (G := fun _ b _ => if b then 1 else 0) (fun _ _ _ => rfl) (fun _ => measurable_const) boxPot hU measurableSet_Icc hfp
    () () hx rfl (fun q hq => (hp q hq).le) (by norm_num) le_rfl (fun b => by simp) (PMF.tsum_coe _)
    trunc_proper.1 trunc_proper.2 hf (C := 1) (fun q => ?_) hε
  rw [abs_of_nonneg (le_max_left _ _)]
  exact max_le zero_le_one (min_le_left _ _)

end JaxSgmc
