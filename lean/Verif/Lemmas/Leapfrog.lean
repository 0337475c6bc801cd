import Verif.Lemmas.Integrator

/-! # The path of `reversible_leapfrog` and its reversal -/

namespace JaxSgmc

variable {ι κ δ β μ : Type} [Fintype ι]

theorem vscale_eq (c : ℝ) (v : ι → ℝ) : vscale c v = c • v := rfl

theorem vadd_eq (a b : ι → ℝ) : vadd a b = a + b := rfl

/-- States along `lax.scan`. -/
noncomputable def revState (P : Prng κ) (lay : Layout ι) (γ : ℝ) (getData : δ → δ × β)
    (sg : StochGrad ι β μ) (prm : Params) (m : MassMatrix ι) (s : LeapfrogState ι ℝ κ δ μ) (n : ℕ) :
    LeapfrogState ι ℝ κ δ μ :=
  (List.range n).foldl (revBody P lay γ getData sg prm m) s

section
variable (P : Prng κ) (lay : Layout ι) (γ : ℝ) (getData : δ → δ × β) (sg : StochGrad ι β μ)
  (prm : Params) (m : MassMatrix ι) (s : LeapfrogState ι ℝ κ δ μ)

theorem revState_succ (n : ℕ) : revState P lay γ getData sg prm m s (n + 1) =
    revBody P lay γ getData sg prm m (revState P lay γ getData sg prm m s n) n := by
  simp [revState, List.range_succ, List.foldl_append]

theorem revState_key (n : ℕ) : (revState P lay γ getData sg prm m s n).key =
    (fun k => P.split k 2 0)^[n] s.key := by
  induction n with
  | zero => rfl
  | succ n ih => rw [revState_succ, Function.iterate_succ_apply', ← ih]; rfl

theorem revState_data (n : ℕ) : (revState P lay γ getData sg prm m s n).dataState =
    (fun d => (getData d).1)^[n] s.dataState := by
  induction n with
  | zero => rfl
  | succ n ih => rw [revState_succ, Function.iterate_succ_apply', ← ih]; rfl

theorem revState_positions (n : ℕ) : (revState P lay γ getData sg prm m s (n + 1)).positions =
    if n = 0 then (revState P lay γ getData sg prm m s n).positions
    else (revState P lay γ getData sg prm m s n).positions +
      prm.stepSize • m.inv.mul (revState P lay γ getData sg prm m s n).momentum := by
  rw [revState_succ]
  simp only [revBody, positionUpdate, vscale_eq, vadd_eq]

theorem revState_momentum {G : (ι → ℝ) → β → (ι → ℝ)} (hG : ∀ x b ms, (sg x b ms).2 = G x b) (n : ℕ) :
    (revState P lay γ getData sg prm m s (n + 1)).momentum =
      kick γ prm.stepSize m (revState P lay γ getData sg prm m s n).momentum
        (G (revState P lay γ getData sg prm m s (n + 1)).positions
          (Spec.nthBatch getData s.dataState n)) (Spec.leapNoise P lay s.key n) := by
  have h1 : (-1.0 : ℝ) * prm.stepSize = -prm.stepSize := by norm_num
  rw [revState_positions, revState_succ]
  simp only [revBody, kick, vscale_eq, vadd_eq, hG, revState_key, revState_data, Spec.nthBatch,
    Spec.leapNoise, h1, positionUpdate]

theorem revState_potential {G : (ι → ℝ) → β → (ι → ℝ)} (hG : ∀ x b ms, (sg x b ms).2 = G x b) (n : ℕ) :
    (revState P lay γ getData sg prm m s (n + 1)).potential =
      prm.stepSize / 2 * bil m ((revState P lay γ getData sg prm m s n).momentum +
          (revState P lay γ getData sg prm m s (n + 1)).momentum)
        (G (revState P lay γ getData sg prm m s (n + 1)).positions
          (Spec.nthBatch getData s.dataState n)) +
      (revState P lay γ getData sg prm m s n).potential := by
  have h1 : (0.5 : ℝ) * prm.stepSize = prm.stepSize / 2 := by ring
  rw [revState_momentum P lay γ getData sg prm m s hG, revState_positions, revState_succ]
  have h2 : (-1.0 : ℝ) * prm.stepSize = -prm.stepSize := by norm_num
  simp only [revBody, leapEnergy, vscale_eq, vadd_eq, hG, revState_data, Spec.nthBatch, h1,
    positionUpdate, vdot, bil, kick, Spec.leapNoise, revState_key, h2]

end

/-- `integrate` in terms of the states along the scan. -/
theorem revIntegrate_eq (P : Prng κ) (lay : Layout ι) (γ : ℝ) (cm : Option (ι → ℝ)) (L : ℕ)
    (getData : δ → δ × β) (sg : StochGrad ι β μ) (s : LeapfrogState ι ℝ κ δ μ) (prm : Params)
    (mass : Option (MassMatrix ι)) :
    let m := Spec.usedMass mass cm
    let start : LeapfrogState ι ℝ κ δ μ := { s with
      positions := s.positions + (prm.stepSize / 2) • m.inv.mul s.momentum
      potential := 0 }
    let e := revState P lay γ getData sg prm m start L
    revIntegrate P lay γ cm L getData sg s prm mass =
      { e with positions := e.positions + (prm.stepSize / 2) • m.inv.mul e.momentum } := by
  have h1 : (0.5 : ℝ) * prm.stepSize = prm.stepSize / 2 := by ring
  simp only [revIntegrate, resolveMass_eq, positionUpdate, vscale_eq, vadd_eq, h1, revState]

/-- The noise of the reversed run belonging to step `n`; `w` is an inverse of the square root of the
mass matrix. -/
noncomputable def backNoise (P : Prng κ) (lay : Layout ι) (γ : ℝ) (getData : δ → δ × β)
    (sg : StochGrad ι β μ) (prm : Params) (m : MassMatrix ι) (w : (ι → ℝ) → (ι → ℝ))
    (s : LeapfrogState ι ℝ κ δ μ) (n : ℕ) : ι → ℝ :=
  kickRev γ prm.stepSize (w ((revState P lay γ getData sg prm m s n).momentum +
    (revState P lay γ getData sg prm m s (n + 1)).momentum)) (Spec.leapNoise P lay s.key n)

/-- The energy balance summed along a path, for given reversed noises. -/
theorem rev_energy' (P : Prng κ) (lay : Layout ι) {γ : ℝ} (hγ : 0 ≤ γ) (getData : δ → δ × β)
    (sg : StochGrad ι β μ) (prm : Params) (hh : 0 ≤ prm.stepSize) {m : MassMatrix ι}
    (hm : Spec.MassOk m) {w : (ι → ℝ) → (ι → ℝ)} (hw : ∀ r, m.sqrt.mul (w r) = r)
    (s : LeapfrogState ι ℝ κ δ μ) {G : (ι → ℝ) → β → (ι → ℝ)}
    (hG : ∀ x b ms, (sg x b ms).2 = G x b) (hs : s.potential = 0) :
      (∀ n, kick γ prm.stepSize m (-(revState P lay γ getData sg prm m s (n + 1)).momentum)
        (G (revState P lay γ getData sg prm m s (n + 1)).positions
          (Spec.nthBatch getData s.dataState n)) (backNoise P lay γ getData sg prm m w s n) =
        -(revState P lay γ getData sg prm m s n).momentum) ∧
      ∀ n, Spec.kinetic m s.momentum + Spec.noiseEnergy (Spec.leapNoise P lay s.key) n =
        Spec.kinetic m (revState P lay γ getData sg prm m s n).momentum +
          Spec.noiseEnergy (backNoise P lay γ getData sg prm m w s) n +
          (revState P lay γ getData sg prm m s n).potential := by
  let R := fun n => (revState P lay γ getData sg prm m s n).momentum
  let g := fun n => G (revState P lay γ getData sg prm m s (n + 1)).positions
    (Spec.nthBatch getData s.dataState n)
  have hR : ∀ n, R (n + 1) = kick γ prm.stepSize m (R n) (g n) (Spec.leapNoise P lay s.key n) :=
    fun n => revState_momentum P lay γ getData sg prm m s hG n
  refine ⟨fun n => ?_, fun n => ?_⟩
  · have := kick_reverse hγ hh m (R n) (g n) (Spec.leapNoise P lay s.key n) (w (R n + R (n + 1)))
      (by rw [hw, hR])
    rw [← hR] at this
    exact this
  · induction n with
    | zero => simp [Spec.noiseEnergy, revState, hs]
    | succ n ih =>
      have e := kick_energy hγ hh hm (R n) (g n) (Spec.leapNoise P lay s.key n) (w (R n + R (n + 1)))
        (by rw [hw, hR])
      rw [← hR] at e
      rw [revState_potential P lay γ getData sg prm m s hG]
      simp only [Spec.noiseEnergy, Finset.sum_range_succ, backNoise] at ih ⊢
      simp only [R, g] at e ⊢
      linarith

/-- The energy balance summed along a path. -/
theorem rev_energy (P : Prng κ) (lay : Layout ι) {γ : ℝ} (hγ : 0 ≤ γ) (getData : δ → δ × β)
    (sg : StochGrad ι β μ) (prm : Params) (hh : 0 ≤ prm.stepSize) {m : MassMatrix ι}
    (hm : Spec.MassOk m) (s : LeapfrogState ι ℝ κ δ μ) {G : (ι → ℝ) → β → (ι → ℝ)}
    (hG : ∀ x b ms, (sg x b ms).2 = G x b) (hs : s.potential = 0) :
    ∃ ζ : ℕ → ι → ℝ,
      (∀ n, kick γ prm.stepSize m (-(revState P lay γ getData sg prm m s (n + 1)).momentum)
        (G (revState P lay γ getData sg prm m s (n + 1)).positions
          (Spec.nthBatch getData s.dataState n)) (ζ n) =
        -(revState P lay γ getData sg prm m s n).momentum) ∧
      ∀ n, Spec.kinetic m s.momentum + Spec.noiseEnergy (Spec.leapNoise P lay s.key) n =
        Spec.kinetic m (revState P lay γ getData sg prm m s n).momentum + Spec.noiseEnergy ζ n +
          (revState P lay γ getData sg prm m s n).potential := by
  choose w hw using hm.surj
  exact ⟨_, rev_energy' P lay hγ getData sg prm hh hm hw s hG hs⟩

/-- Along the reversed path, the run passes through the same states with negated momentum. -/
theorem rev_states {κ' δ' μ' : Type} (P : Prng κ) (lay : Layout ι) {γ : ℝ} (getData : δ → δ × β)
    (sg : StochGrad ι β μ) (prm : Params) {m : MassMatrix ι} (s : LeapfrogState ι ℝ κ δ μ)
    {G : (ι → ℝ) → β → (ι → ℝ)} (hG : ∀ x b ms, (sg x b ms).2 = G x b)
    (ζ : ℕ → ι → ℝ)
    (hζ : ∀ n, kick γ prm.stepSize m (-(revState P lay γ getData sg prm m s (n + 1)).momentum)
        (G (revState P lay γ getData sg prm m s (n + 1)).positions
          (Spec.nthBatch getData s.dataState n)) (ζ n) =
        -(revState P lay γ getData sg prm m s n).momentum)
    (L : ℕ) (P' : Prng κ') (getData' : δ' → δ' × β) (sg' : StochGrad ι β μ')
    (hG' : ∀ x b ms, (sg' x b ms).2 = G x b) (s' : LeapfrogState ι ℝ κ' δ' μ')
    (hx : s'.positions = (revState P lay γ getData sg prm m s L).positions)
    (hp : s'.momentum = -(revState P lay γ getData sg prm m s L).momentum)
    (hpot : s'.potential = 0) (hpot0 : s.potential = 0)
    (hb : ∀ i < L, Spec.nthBatch getData' s'.dataState i =
      Spec.nthBatch getData s.dataState (L - 1 - i))
    (hn : ∀ i < L, Spec.leapNoise P' lay s'.key i = ζ (L - 1 - i)) :
    ∀ i ≤ L,
      (revState P' lay γ getData' sg' prm m s' i).positions =
        (revState P lay γ getData sg prm m s (L + 1 - max 1 i)).positions ∧
      (revState P' lay γ getData' sg' prm m s' i).momentum =
        -(revState P lay γ getData sg prm m s (L - i)).momentum ∧
      (revState P' lay γ getData' sg' prm m s' i).potential =
        (revState P lay γ getData sg prm m s (L - i)).potential -
          (revState P lay γ getData sg prm m s L).potential := by
  intro i
  induction i with
  | zero => intro _; refine ⟨by simpa [revState] using hx, by simpa [revState] using hp, ?_⟩; simp [revState, hpot]
  | succ i ih =>
    intro hi
    obtain ⟨h1, h2, h3⟩ := ih (by omega)
    obtain ⟨j, rfl⟩ : ∃ j, L = i + 1 + j := ⟨L - (i + 1), by omega⟩
    have a1 : i + 1 + j - (i + 1) = j := by omega
    have a2 : i + 1 + j - i = j + 1 := by omega
    have a3 : i + 1 + j + 1 - max 1 (i + 1) = j + 1 := by omega
    have a4 : i + 1 + j - 1 - i = j := by omega
    rw [a2] at h2 h3
    rw [a1, a3]
    -- positions
    have hpos : (revState P' lay γ getData' sg' prm m s' (i + 1)).positions =
        (revState P lay γ getData sg prm m s (j + 1)).positions := by
      rw [revState_positions]
      by_cases h0 : i = 0
      · subst h0
        rw [if_pos rfl, h1]
        congr 2
      · rw [if_neg h0, h1, h2]
        have a5 : i + 1 + j + 1 - max 1 i = j + 1 + 1 := by omega
        rw [a5, revState_positions P lay γ getData sg prm m s (j + 1), if_neg (by omega),
          VTensor.mul_neg, smul_neg, add_neg_cancel_right]
    have hmom : (revState P' lay γ getData' sg' prm m s' (i + 1)).momentum =
        -(revState P lay γ getData sg prm m s j).momentum := by
      rw [revState_momentum P' lay γ getData' sg' prm m s' hG', hpos, h2, hb i (by omega),
        hn i (by omega), a4, hζ]
    refine ⟨hpos, hmom, ?_⟩
    rw [revState_potential P' lay γ getData' sg' prm m s' hG', hpos, h2, hmom, hb i (by omega), a4, h3,
      revState_potential P lay γ getData sg prm m s hG j]
    have e : -(revState P lay γ getData sg prm m s (j + 1)).momentum +
        -(revState P lay γ getData sg prm m s j).momentum =
        -((revState P lay γ getData sg prm m s j).momentum +
          (revState P lay γ getData sg prm m s (j + 1)).momentum) := by abel
    rw [e, bil_neg_left]
    ring

end JaxSgmc
