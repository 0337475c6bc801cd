import Verif.Lemmas.UniformKernel

/-!
# Convergence to the invariant distribution

A Markov chain with changing transitions, which all keep one distribution invariant, converges to it in total variation,
uniformly over the transitions.
-/

namespace JaxSgmc

open MeasureTheory ProbabilityTheory Filter Topology

variable {α Θ : Type*} [MeasurableSpace α]

section
variable {P : Θ → Kernel α α} [∀ θ, IsMarkovKernel (P θ)] {π : Measure α} [IsProbabilityMeasure π]

/-- The number of steps which is necessary for mixing depends on the bound of the function, and not on the function. -/
theorem chainMean_mixing_uniform (hinv : ∀ θ, P θ ∘ₘ π = π)
    (hmin : ∀ t : ℝ, 0 < t → ∃ S, MeasurableSet S ∧ π.real Sᶜ ≤ t ∧ ∃ κ : ℝ, 0 < κ ∧ ∀ θ, ∀ z ∈ S,
      ENNReal.ofReal κ • π.restrict S ≤ P θ z) {C : ℝ} (hC0 : 0 ≤ C) {t : ℝ} (ht : 0 < t) :
    ∃ n₀ : ℕ, ∀ g : α → ℝ, Measurable g → (∀ z, |g z| ≤ C) → ∫ z, g z ∂π = 0 →
      ∀ l : List Θ, n₀ ≤ l.length → ∫ z, |chainMean P g l z| ∂π ≤ t := by
  obtain ⟨S, hS, hSt, κ, hκ, hκS⟩ := hmin (min (1 / 2) (t / (4 * (C + 1)))) (by positivity)
  have hS2 : 1 / 2 ≤ π.real S := by
    have := probReal_compl_eq_one_sub (μ := π) hS
    have := hSt.trans (min_le_left _ _)
    linarith
  have hSC : 4 * (C * π.real Sᶜ) ≤ t := by
    have h1 := hSt.trans (min_le_right _ _)
    rw [le_div_iff₀ (by positivity)] at h1
    have := measureReal_nonneg (μ := π) (s := Sᶜ)
    nlinarith
  set κ' := min κ 1 with hκ'
  have hκ'0 : 0 < κ' := lt_min hκ one_pos
  have hκ'1 : κ' ≤ 1 := min_le_right _ _
  have hκS' : ∀ θ, ∀ z ∈ S, ENNReal.ofReal κ' • π.restrict S ≤ P θ z := fun θ z hz => by
    refine le_trans ?_ (hκS θ z hz)
    refine Measure.le_iff.2 fun A _ => ?_
    simp only [Measure.smul_apply, smul_eq_mul]
    exact mul_le_mul_left (ENNReal.ofReal_le_ofReal (min_le_left _ _)) _
  have hr0 : 0 ≤ 1 - κ' / 4 := by linarith
  have hr1 : 1 - κ' / 4 < 1 := by linarith
  have hlim : Tendsto (fun n : ℕ => (1 - κ' / 4) ^ n * C) atTop (𝓝 0) := by
    simpa using (tendsto_pow_atTop_nhds_zero_of_lt_one hr0 hr1).mul_const C
  obtain ⟨n₀, hn₀⟩ := (hlim.eventually (ge_mem_nhds ht)).exists_forall_of_atTop
  refine ⟨n₀, fun g hg hC h0 => ?_⟩
  have hlist : ∀ l : List Θ, ∫ z, |chainMean P g l z| ∂π ≤ t ∨
      ∫ z, |chainMean P g l z| ∂π ≤ (1 - κ' / 4) ^ l.length * C := by
    intro l
    induction l with
    | nil =>
      right
      show ∫ z, |g z| ∂π ≤ _
      have := integral_mono (μ := π) (bounded_integrable hg hC π).abs (integrable_const C) hC
      simpa using this
    | cons θ l ih =>
      have hm := chainMean_measurable (P := P) hg l
      have hb := chainMean_le (P := P) hC l
      have hle := stepMean_abs_integral hinv θ hm hb
      by_cases hlt : ∫ z, |chainMean P g l z| ∂π ≤ t
      · left
        exact hle.trans hlt
      · right
        have h1 := stepMean_contracts hinv hS hS2 hκ'0 θ (hκS' θ) hm hb ((chainMean_integral hinv hg hC l).trans h0)
          (hSC.trans (not_le.1 hlt).le)
        rw [List.length_cons, pow_succ', mul_assoc]
        exact h1.trans (mul_le_mul_of_nonneg_left (ih.resolve_left hlt) hr0)
  exact fun l hl => (hlist l).elim id fun h => h.trans (hn₀ _ hl)

/-- **Convergence in total variation**, uniformly over all transitions and all initial states in `Z`. -/
theorem chainMean_converges (hinv : ∀ θ, P θ ∘ₘ π = π)
    (hmin : ∀ t : ℝ, 0 < t → ∃ S, MeasurableSet S ∧ π.real Sᶜ ≤ t ∧ ∃ κ : ℝ, 0 < κ ∧ ∀ θ, ∀ z ∈ S,
      ENNReal.ofReal κ • π.restrict S ≤ P θ z) {Z : Set α}
    (hstart : ∀ δ : ℝ, 0 < δ → ∃ (k₀ : ℕ) (c : ℝ), 0 ≤ c ∧ ∀ z ∈ Z, ∀ l : List Θ, k₀ ≤ l.length →
      ∀ (φ : α → ℝ) (B : ℝ), Measurable φ → (∀ y, 0 ≤ φ y ∧ φ y ≤ B) →
        chainMean P φ l z ≤ c * ∫ y, φ y ∂π + δ * B)
    {C : ℝ} (hC0 : 0 ≤ C) {ε : ℝ} (hε : 0 < ε) :
    ∃ N : ℕ, ∀ z ∈ Z, ∀ l : List Θ, N ≤ l.length → ∀ g : α → ℝ, Measurable g → (∀ z, |g z| ≤ C) →
      |chainMean P g l z - ∫ y, g y ∂π| ≤ ε := by
  obtain ⟨k₀, c, hc, hk₀⟩ := hstart (ε / (2 * (2 * C + 1))) (by positivity)
  obtain ⟨n₀, hn₀⟩ := chainMean_mixing_uniform (P := P) hinv hmin (show 0 ≤ 2 * C by positivity) (t := ε / (2 * (c + 1))) (by positivity)
  refine ⟨k₀ + n₀, fun z hz l hl g hg hC => ?_⟩
  set M := ∫ y, g y ∂π with hM
  have hMC : |M| ≤ C := by
    have h1 := (abs_integral_le_integral_abs (f := g) (μ := π)).trans
      (integral_mono (μ := π) (bounded_integrable hg hC π).abs (integrable_const C) hC)
    simpa using h1
  set g' : α → ℝ := fun y => g y + -M with hg'
  have hgm : Measurable g' := hg.add measurable_const
  have hgC : ∀ y, |g' y| ≤ 2 * C := fun y => by
    have := (abs_add_le (g y) (-M)).trans (add_le_add (hC y) ((abs_neg M).le.trans hMC))
    rw [two_mul]; exact this
  have hg0 : ∫ y, g' y ∂π = 0 := by
    rw [hg', integral_add (bounded_integrable hg hC π) (integrable_const _)]
    simp [hM]
  have hcm : ∀ (l : List Θ) (z : α), chainMean P (fun _ => -M) l z = -M := by
    intro l
    induction l with
    | nil => intro z; rfl
    | cons θ l ih =>
      intro z
      show stepMean (P θ) (chainMean P (fun _ => -M) l) z = -M
      rw [show chainMean P (fun _ => -M) l = fun _ => -M from funext ih]
      simp [stepMean]
  have e1 : chainMean P g l z - M = chainMean P g' l z := by
    rw [hg', chainMean_add hg measurable_const hC (C' := C) (fun _ => by rw [abs_neg]; exact hMC), hcm]
    ring
  rw [e1, ← List.take_append_drop k₀ l, chainMean_append]
  have hlen1 : (l.take k₀).length = k₀ := by rw [List.length_take]; omega
  have hlen2 : n₀ ≤ (l.drop k₀).length := by rw [List.length_drop]; omega
  have hm := chainMean_measurable (P := P) hgm (l.drop k₀)
  have hb := chainMean_le (P := P) hgC (l.drop k₀)
  have h1 := chainMean_abs (P := P) hm hb (l.take k₀) z
  have h2 := hk₀ z hz (l.take k₀) hlen1.ge (fun y => |chainMean P g' (l.drop k₀) y|) (2 * C) (abs_measurable hm)
    fun y => ⟨abs_nonneg _, hb y⟩
  have h3 := hn₀ g' hgm hgC hg0 (l.drop k₀) hlen2
  have h4 : c * (ε / (2 * (c + 1))) ≤ ε / 2 := by
    rw [mul_div_assoc', div_le_iff₀ (by positivity)]
    nlinarith
  have h5 : ε / (2 * (2 * C + 1)) * (2 * C) ≤ ε / 2 := by
    rw [div_mul_eq_mul_div, div_le_iff₀ (by positivity)]
    nlinarith
  have h6 := mul_le_mul_of_nonneg_left h3 hc
  linarith

end

section
variable {ι β Θ : Type} [Fintype ι] [Inhabited β] {n : ℕ} {γ l u : ℝ} (hγ : 0 < γ) (hl : 0 < l) {h : Θ → ℝ}
  (hh : ∀ i, l ≤ h i ∧ h i ≤ u) {m : MassMatrix ι} (hm : Spec.MassOk m) {v : (ι → ℝ) →ₗ[ℝ] (ι → ℝ)}
  (hv : ∀ r, m.sqrt.mul (v r) = r)
  {G : (ι → ℝ) → β → (ι → ℝ)} (hGm : ∀ b, Measurable fun x => G x b)
  (hGb : ∀ R : ℝ, ∃ B : ℝ, ∀ b q, ‖q‖ ≤ R → ‖G q b‖ ≤ B)
  {U : (ι → ℝ) → ℝ} (hU : Measurable U) {D : Set (ι → ℝ)} (hD : MeasurableSet D)
  (w : (Fin (n + 2) → β) → ENNReal) (hw1 : ∑' b, w b = 1)
  {π : Measure ((ι → ℝ) × (ι → ℝ))} {k₀ : ENNReal} (hk0 : k₀ ≠ 0) (hkt : k₀ ≠ ⊤)
  (hπ : ∀ A, MeasurableSet A → π A = k₀ * ∫⁻ z in A ∩ {z | z.1 ∈ D}, ENNReal.ofReal (Real.exp (-(U z.1 + Spec.kinetic m z.2))))

include hγ hl hh hm hv hGm hGb hU hD hw1 hk0 hkt hπ in
/-- Chains of proposals with changing step sizes converge in total variation, uniformly in bounded regions. -/
theorem moves_converge [IsProbabilityMeasure π] {P : Θ → Kernel ((ι → ℝ) × (ι → ℝ)) ((ι → ℝ) × (ι → ℝ))}
    [∀ θ, IsMarkovKernel (P θ)] (hP : ∀ θ z, P θ z = moveLaw m U D w (leapPaths γ m v G n (h θ)) z +
      stayProb m U D w (leapPaths γ m v G n (h θ)) z • Measure.dirac (z.1, -z.2)) (hinv : ∀ θ, P θ ∘ₘ π = π)
    {C : ℝ} (hC0 : 0 ≤ C) (R₀ : ℝ) {ε : ℝ} (hε : 0 < ε) :
    ∃ N : ℕ, ∀ z ∈ levelSet U D R₀, ∀ l : List Θ, N ≤ l.length → ∀ g : (ι → ℝ) × (ι → ℝ) → ℝ, Measurable g → (∀ z, |g z| ≤ C) →
      |chainMean P g l z - ∫ y, g y ∂π| ≤ ε := by
  obtain ⟨R, hR, hRt⟩ := target_levels hU hD hπ (show (0 : ℝ) < 1 / 2 by norm_num) R₀
  obtain ⟨κ, hκ, hstay⟩ := moves_stay hγ hl hh hm hv hGm hGb hU hD w hw1 hkt hπ hP hRt
  obtain ⟨N, hN⟩ := chainMean_converges (P := P) (π := π) (Z := levelSet U D R) hinv (fun t ht => by
      obtain ⟨R₁, -, h1⟩ := target_levels hU hD hπ ht R₀
      obtain ⟨κ₁, hκ₁, hmove₁⟩ := moveLaw_target (Θ := Θ) hγ hl hh hm hv hGm hGb hU hD w hw1 hkt hπ R₁
      refine ⟨levelSet U D R₁, levelSet_measurable hU hD R₁, h1, κ₁, hκ₁, fun θ z hz => ?_⟩
      rw [hP]
      exact (hmove₁ θ z hz).trans (Measure.le_add_right le_rfl)) (fun δ hδ =>
      chain_density hinv (fun θ z => moveLaw m U D w (leapPaths γ m v G n (h θ)) z)
        (fun θ z => stayProb m U D w (leapPaths γ m v G n (h θ)) z) (fun z => (z.1, -z.2)) hP
        (fun z hz => levelSet_flip hz) (ε := κ / 2) (by positivity) hstay
        (fun δ hδ => moveLaw_density (Θ := Θ) hγ hl hh hm hv hGm hGb hU hD w hw1 hk0 hkt hπ R hδ) hδ) hC0 hε
  exact ⟨N, fun z hz => hN z (levelSet_mono hR hz)⟩

end

end JaxSgmc
