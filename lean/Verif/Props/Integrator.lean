import Verif.Lemmas.Leapfrog
import Verif.Spec.Scripted
import Verif.Lemmas.Solver
import Mathlib.Tactic.FinCases

/-!
# Properties of the reversible leapfrog integrator and AMAGOLD: C64, C65, C79
-/

namespace JaxSgmc

variable {ι κ δ β μ κ' δ' μ' : Type} [Fintype ι]

/-- The run described by the second group of arguments follows the path of the first run backwards: it
starts at the final position of the first run with negated momentum, gets the mini-batches in reversed
order and draws the noises `ξ'`. -/
structure ReversedRun (lay : Layout ι) (L : ℕ) (getData : δ → δ × β) (d : δ)
    (final : LeapfrogState ι ℝ κ δ μ) (ξ' : ℕ → ι → ℝ) (P' : Prng κ') (getData' : δ' → δ' × β)
    (s' : LeapfrogState ι ℝ κ' δ' μ') : Prop where
  positions : s'.positions = final.positions
  momentum : s'.momentum = -final.momentum
  batches : ∀ i < L, Spec.nthBatch getData' s'.dataState i = Spec.nthBatch getData d (L - 1 - i)
  noise : ∀ i < L, Spec.leapNoise P' lay s'.key i = ξ' i

/-- C64, C65: for every run of `reversible_leapfrog` there are noises `ξ'` such that every reversed run
with these noises leads back to the initial position with negated initial momentum, accumulates the
negative energy, and the energy balance `K + ½Σξ² = K' + ½Σξ'² + ρ` holds. -/
theorem c64_reversible (P : Prng κ) (lay : Layout ι) {γ : ℝ} (hγ : 0 ≤ γ) (cm : Option (ι → ℝ)) (L : ℕ)
    (getData : δ → δ × β) (sg : StochGrad ι β μ) {G : (ι → ℝ) → β → (ι → ℝ)}
    (hG : ∀ x b ms, (sg x b ms).2 = G x b) (s : LeapfrogState ι ℝ κ δ μ) (prm : Params)
    (hh : 0 ≤ prm.stepSize) (mass : Option (MassMatrix ι)) (hm : Spec.MassOk (Spec.usedMass mass cm)) :
    let e := revIntegrate P lay γ cm L getData sg s prm mass
    ∃ ξ' : ℕ → ι → ℝ,
      Spec.kinetic (Spec.usedMass mass cm) s.momentum +
          Spec.noiseEnergy (Spec.leapNoise P lay s.key) L =
        Spec.kinetic (Spec.usedMass mass cm) e.momentum + Spec.noiseEnergy ξ' L + e.potential ∧
      ∀ (κ' δ' μ' : Type) (P' : Prng κ') (getData' : δ' → δ' × β) (sg' : StochGrad ι β μ')
        (s' : LeapfrogState ι ℝ κ' δ' μ'),
        (∀ x b ms, (sg' x b ms).2 = G x b) →
        ReversedRun lay L getData s.dataState e ξ' P' getData' s' →
        let e' := revIntegrate P' lay γ cm L getData' sg' s' prm mass
        e'.positions = s.positions ∧ e'.momentum = -s.momentum ∧ e'.potential = -e.potential := by
  intro e
  set m := Spec.usedMass mass cm with hmdef
  let start : LeapfrogState ι ℝ κ δ μ := { s with
    positions := s.positions + (prm.stepSize / 2) • m.inv.mul s.momentum
    potential := 0 }
  have he : e = { revState P lay γ getData sg prm m start L with
      positions := (revState P lay γ getData sg prm m start L).positions +
        (prm.stepSize / 2) • m.inv.mul (revState P lay γ getData sg prm m start L).momentum } :=
    revIntegrate_eq P lay γ cm L getData sg s prm mass
  obtain ⟨ζ, hζ, hE⟩ := rev_energy P lay hγ getData sg prm hh hm start hG rfl
  refine ⟨fun i => ζ (L - 1 - i), ?_, ?_⟩
  · have := hE L
    rw [he]
    have hsum : Spec.noiseEnergy (fun i => ζ (L - 1 - i)) L = Spec.noiseEnergy ζ L := by
      unfold Spec.noiseEnergy
      congr 1
      exact Finset.sum_range_reflect (fun k => ∑ i, ζ k i * ζ k i) L
    rw [hsum]
    exact this
  · intro κ' δ' μ' P' getData' sg' s' hG' hr e'
    let start' : LeapfrogState ι ℝ κ' δ' μ' := { s' with
      positions := s'.positions + (prm.stepSize / 2) • m.inv.mul s'.momentum
      potential := 0 }
    have he' : e' = { revState P' lay γ getData' sg' prm m start' L with
        positions := (revState P' lay γ getData' sg' prm m start' L).positions +
          (prm.stepSize / 2) • m.inv.mul (revState P' lay γ getData' sg' prm m start' L).momentum } :=
      revIntegrate_eq P' lay γ cm L getData' sg' s' prm mass
    have hmom : s'.momentum = -(revState P lay γ getData sg prm m start L).momentum := by
      rw [hr.momentum, he]
    have hpos : start'.positions = (revState P lay γ getData sg prm m start L).positions := by
      show s'.positions + (prm.stepSize / 2) • m.inv.mul s'.momentum = _
      rw [hmom, hr.positions, he, VTensor.mul_neg, smul_neg, add_neg_cancel_right]
    obtain ⟨h1, h2, h3⟩ := rev_states P lay getData sg prm start hG ζ hζ L P' getData' sg' hG' start'
      hpos hmom rfl rfl hr.batches hr.noise L le_rfl
    have h0 : (revState P lay γ getData sg prm m start (L + 1 - max 1 L)).positions =
        start.positions := by
      rcases Nat.eq_zero_or_pos L with h | h
      · subst h; rfl
      · have : L + 1 - max 1 L = 0 + 1 := by omega
        rw [this, revState_positions, if_pos rfl]; rfl
    have h00 : (revState P lay γ getData sg prm m start (L - L)) = start := by
      rw [Nat.sub_self]; rfl
    rw [h0] at h1
    rw [h00] at h2 h3
    refine ⟨?_, ?_, ?_⟩
    · rw [he']
      show (revState P' lay γ getData' sg' prm m start' L).positions + _ = _
      rw [h1, h2, VTensor.mul_neg, smul_neg]
      show s.positions + (prm.stepSize / 2) • m.inv.mul s.momentum + _ = _
      rw [add_neg_cancel_right]
    · rw [he']; exact h2
    · rw [he', he]
      show (revState P' lay γ getData' sg' prm m start' L).potential = _
      rw [h3]
      show (0 : ℝ) - _ = _
      rw [zero_sub]

/-- A reversed run as in `c64_reversible` exists for every run and all noises (for trees in which an entry
is determined by leaf and position, i.e. all trees). -/
theorem reversedRun_exists {lay : Layout ι} (hl : Spec.Layout.Injective lay) (L : ℕ)
    (getData : δ → δ × β) (d : δ) (final : LeapfrogState ι ℝ κ δ μ) (ξ' : ℕ → ι → ℝ) (u : ℝ)
    (ms : μ') (pot : ℝ) :
    ReversedRun lay L getData d final ξ' (Spec.scripted lay ξ' u)
      (Spec.batchSource fun i => Spec.nthBatch getData d (L - 1 - i))
      ⟨pot, .main 0, final.positions, -final.momentum, 0, ms, []⟩ where
  positions := rfl
  momentum := rfl
  batches i _ := Spec.batchSource_nth _ i
  noise i _ := by rw [Spec.scripted_leapNoise hl]

/-- A case of `c64_reversible`: two variables with masses 1 and 4, friction 1/2, three steps. -/
example (lay : Layout (Fin 2)) (hlay : lay = Spec.vectorLayout 2)
    (sg : StochGrad (Fin 2) ℕ Unit) (hsg : sg = fun x (b : ℕ) _ => ((0, ()), fun i => x i + (b : ℝ)))
    (e : LeapfrogState (Fin 2) ℝ Spec.SKey ℕ Unit)
    (he : e = revIntegrate (Spec.scripted lay (fun n i => n + i) 0) lay (1 / 2) (some ![1, 4]) 3
      (Spec.batchSource fun i => i) sg ⟨0, .main 0, ![1, 2], ![3, 4], 0, (), []⟩ ⟨1, 1⟩ none) :
    ∃ ξ' : ℕ → Fin 2 → ℝ,
    (revIntegrate (Spec.scripted lay ξ' 0) lay (1 / 2) (some ![1, 4]) 3
      (Spec.batchSource fun i => 3 - 1 - i) sg
      ⟨0, .main 0, e.positions, -e.momentum, 0, (), []⟩ ⟨1, 1⟩ none).positions = ![1, 2] := by
  have hm : Spec.MassOk (Spec.usedMass none (some (![1, 4] : Fin 2 → ℝ))) :=
    massOk_const (fun i => by fin_cases i <;> norm_num)
  have hl : Spec.Layout.Injective lay := hlay ▸ Spec.vectorLayout_injective 2
  have hG : ∀ x b ms, (sg x b ms).2 = (fun (x : Fin 2 → ℝ) (b : ℕ) i => x i + (b : ℝ)) x b := by
    intro x b ms; rw [hsg]
  obtain ⟨ξ', -, h⟩ := c64_reversible (γ := 1 / 2) (Spec.scripted lay (fun n i => n + i) 0)
    lay (by norm_num) (some ![1, 4]) 3 (Spec.batchSource fun i => i) sg hG
    ⟨0, .main 0, ![1, 2], ![3, 4], 0, (), []⟩ ⟨1, 1⟩ (by norm_num) none hm
  rw [← he] at h
  exact ⟨ξ', (h Spec.SKey ℕ Unit (Spec.scripted lay ξ' 0) (Spec.batchSource fun i => 3 - 1 - i) sg
    ⟨0, .main 0, e.positions, -e.momentum, 0, (), []⟩ hG
    ⟨rfl, rfl, fun i _ => by rw [Spec.batchSource_nth, Spec.batchSource_nth],
      fun i _ => by rw [Spec.scripted_leapNoise hl]⟩).1⟩

/-- C64 without friction: the noises do not matter, every run with reversed mini-batches leads back. -/
theorem c64_frictionless (P : Prng κ) (lay : Layout ι) (cm : Option (ι → ℝ)) (L : ℕ)
    (getData : δ → δ × β) (sg : StochGrad ι β μ) {G : (ι → ℝ) → β → (ι → ℝ)}
    (hG : ∀ x b ms, (sg x b ms).2 = G x b) (s : LeapfrogState ι ℝ κ δ μ) (prm : Params)
    (mass : Option (MassMatrix ι)) (P' : Prng κ') (getData' : δ' → δ' × β) (sg' : StochGrad ι β μ')
    (s' : LeapfrogState ι ℝ κ' δ' μ') (hG' : ∀ x b ms, (sg' x b ms).2 = G x b)
    (hpos : s'.positions = (revIntegrate P lay 0 cm L getData sg s prm mass).positions)
    (hmom : s'.momentum = -(revIntegrate P lay 0 cm L getData sg s prm mass).momentum)
    (hb : ∀ i < L, Spec.nthBatch getData' s'.dataState i =
      Spec.nthBatch getData s.dataState (L - 1 - i)) :
    let e := revIntegrate P lay 0 cm L getData sg s prm mass
    let e' := revIntegrate P' lay 0 cm L getData' sg' s' prm mass
    e'.positions = s.positions ∧ e'.momentum = -s.momentum ∧ e'.potential = -e.potential := by
  intro e e'
  set m := Spec.usedMass mass cm with hmdef
  let start : LeapfrogState ι ℝ κ δ μ := { s with
    positions := s.positions + (prm.stepSize / 2) • m.inv.mul s.momentum
    potential := 0 }
  have he : e = { revState P lay 0 getData sg prm m start L with
      positions := (revState P lay 0 getData sg prm m start L).positions +
        (prm.stepSize / 2) • m.inv.mul (revState P lay 0 getData sg prm m start L).momentum } :=
    revIntegrate_eq P lay 0 cm L getData sg s prm mass
  let start' : LeapfrogState ι ℝ κ' δ' μ' := { s' with
    positions := s'.positions + (prm.stepSize / 2) • m.inv.mul s'.momentum
    potential := 0 }
  have he' : e' = { revState P' lay 0 getData' sg' prm m start' L with
      positions := (revState P' lay 0 getData' sg' prm m start' L).positions +
        (prm.stepSize / 2) • m.inv.mul (revState P' lay 0 getData' sg' prm m start' L).momentum } :=
    revIntegrate_eq P' lay 0 cm L getData' sg' s' prm mass
  have hk : ∀ (h : ℝ) (r g ξ : ι → ℝ), kick 0 h m r g ξ = r + (-h) • g := by
    intro h r g ξ; simp [kick]
  have hζ : ∀ n, kick 0 prm.stepSize m (-(revState P lay 0 getData sg prm m start (n + 1)).momentum)
        (G (revState P lay 0 getData sg prm m start (n + 1)).positions
          (Spec.nthBatch getData start.dataState n)) (Spec.leapNoise P' lay start'.key (L - 1 - n)) =
        -(revState P lay 0 getData sg prm m start n).momentum := by
    intro n
    rw [revState_momentum P lay 0 getData sg prm m start hG n, hk, hk]
    rw [neg_add, neg_smul, neg_neg, add_assoc, add_neg_cancel, add_zero]
  have hmom' : s'.momentum = -(revState P lay 0 getData sg prm m start L).momentum := by
    rw [hmom]; show -e.momentum = _; rw [he]
  have hpos' : start'.positions = (revState P lay 0 getData sg prm m start L).positions := by
    show s'.positions + (prm.stepSize / 2) • m.inv.mul s'.momentum = _
    rw [hmom', hpos]
    show e.positions + _ = _
    rw [he, VTensor.mul_neg, smul_neg, add_neg_cancel_right]
  obtain ⟨h1, h2, h3⟩ := rev_states P lay getData sg prm start hG
    (fun n => Spec.leapNoise P' lay start'.key (L - 1 - n)) hζ L P' getData' sg' hG' start'
    hpos' hmom' rfl rfl hb
    (fun i hi => by show _ = Spec.leapNoise P' lay start'.key (L - 1 - (L - 1 - i)); congr 1; omega)
    L le_rfl
  have h0 : (revState P lay 0 getData sg prm m start (L + 1 - max 1 L)).positions =
      start.positions := by
    rcases Nat.eq_zero_or_pos L with h | h
    · subst h; rfl
    · have : L + 1 - max 1 L = 0 + 1 := by omega
      rw [this, revState_positions, if_pos rfl]; rfl
  have h00 : (revState P lay 0 getData sg prm m start (L - L)) = start := by
    rw [Nat.sub_self]; rfl
  rw [h0] at h1
  rw [h00] at h2 h3
  refine ⟨?_, ?_, ?_⟩
  · rw [he']
    show (revState P' lay 0 getData' sg' prm m start' L).positions + _ = _
    rw [h1, h2, VTensor.mul_neg, smul_neg]
    show s.positions + (prm.stepSize / 2) • m.inv.mul s.momentum + _ = _
    rw [add_neg_cancel_right]
  · rw [he']; exact h2
  · rw [he', he]
    show (revState P' lay 0 getData' sg' prm m start' L).potential = _
    rw [h3]
    show (0 : ℝ) - _ = _
    rw [zero_sub]

/-- Acceptance probabilities of reciprocal ratios: the identity behind detailed balance. -/
theorem Spec.acceptProb_neg (x : ℝ) : Real.exp x * Spec.acceptProb x = Spec.acceptProb (-x) := by
  unfold Spec.acceptProb
  rw [mul_min_of_nonneg _ _ (Real.exp_pos x).le, mul_one, ← Real.exp_add, add_neg_cancel, Real.exp_zero,
    neg_neg, min_comm]

/-- C65: forward and backward acceptance ratios (before limiting them to one) are reciprocal: the
energy error `U' - U - ρ` changes its sign. -/
theorem c65_reciprocal (P : Prng κ) (lay : Layout ι) {γ : ℝ} (hγ : 0 ≤ γ) (cm : Option (ι → ℝ)) (L : ℕ)
    (getData : δ → δ × β) (sg : StochGrad ι β μ) {G : (ι → ℝ) → β → (ι → ℝ)}
    (hG : ∀ x b ms, (sg x b ms).2 = G x b) (s : LeapfrogState ι ℝ κ δ μ) (prm : Params)
    (hh : 0 ≤ prm.stepSize) (mass : Option (MassMatrix ι)) (hm : Spec.MassOk (Spec.usedMass mass cm))
    (U : (ι → ℝ) → ℝ) :
    let e := revIntegrate P lay γ cm L getData sg s prm mass
    ∃ ξ' : ℕ → ι → ℝ,
      ∀ (κ' δ' μ' : Type) (P' : Prng κ') (getData' : δ' → δ' × β) (sg' : StochGrad ι β μ')
        (s' : LeapfrogState ι ℝ κ' δ' μ'),
        (∀ x b ms, (sg' x b ms).2 = G x b) →
        ReversedRun lay L getData s.dataState e ξ' P' getData' s' →
        let e' := revIntegrate P' lay γ cm L getData' sg' s' prm mass
        U e'.positions - U s'.positions - e'.potential =
          -(U e.positions - U s.positions - e.potential) := by
  intro e
  obtain ⟨ξ', -, h⟩ := c64_reversible P lay hγ cm L getData sg hG s prm hh mass hm
  refine ⟨ξ', fun κ' δ' μ' P' getData' sg' s' hG' hr => ?_⟩
  obtain ⟨h1, -, h3⟩ := h κ' δ' μ' P' getData' sg' s' hG' hr
  dsimp only
  rw [h1, h3, hr.positions]
  ring

/-! ## C79: AMAGOLD -/

section
variable {φ Ms φ' : Type}

/-- The state of the integrator as AMAGOLD hands it to `reversible_leapfrog`. -/
def toReal (s : LeapfrogState ι XF κ δ μ) : LeapfrogState ι ℝ κ δ μ :=
  ⟨0, s.key, s.positions, s.momentum, s.dataState, s.modelState, s.drawn⟩

/-- C79: AMAGOLD satisfies detailed balance pathwise.  `s` is any state of AMAGOLD whose stored potential
is the full potential `U`; the proposal is `(q', p')` with acceptance ratio `α`.  There are noises `ξ'`
such that any AMAGOLD state `s'` at `(q', -p')` which gets the mini-batches in reversed order and the
noises `ξ'` proposes `(q, -p)` with an acceptance ratio `α'` satisfying
`exp(-U(q) - K(p) - ½Σξ²) α = exp(-U(q') - K(p') - ½Σξ'²) α'`. -/
theorem c79_amagold (P : Prng κ) (lay : Layout ι) {γ : ℝ} (hγ : 0 ≤ γ) (cm : Option (ι → ℝ)) (L : ℕ)
    (getData : δ → δ × β) (sg : StochGrad ι β μ) {G : (ι → ℝ) → β → (ι → ℝ)}
    (hG : ∀ x b ms, (sg x b ms).2 = G x b) (fullPot : FullPotFn ι φ μ) (U : (ι → ℝ) → ℝ)
    (hU : ∀ x f ms, (fullPot x f ms).1 = .fin (U x)) (s : AmagoldState ι κ δ μ φ Ms)
    (hs : s.potential = .fin (U s.integratorState.positions)) (prm : Params)
    (hh : 0 ≤ prm.stepSize) (hm : Spec.MassOk (Spec.usedMass none cm)) :
    let m := Spec.usedMass none cm
    let q := revForAmagold P lay γ cm L getData sg s.integratorState prm none
    ∃ (ξ' : ℕ → ι → ℝ) (α : ℝ),
      (amagoldUpdate P none (revForAmagold P lay γ cm L getData sg) fullPot s prm).2 = .fin α ∧
      ∀ (κ' δ' μ' : Type) (P' : Prng κ') (getData' : δ' → δ' × β) (sg' : StochGrad ι β μ')
        (fullPot' : FullPotFn ι φ' μ') (s' : AmagoldState ι κ' δ' μ' φ' Ms),
        (∀ x b ms, (sg' x b ms).2 = G x b) →
        (∀ x f ms, (fullPot' x f ms).1 = .fin (U x)) →
        s'.potential = .fin (U s'.integratorState.positions) →
        ReversedRun lay L getData s.integratorState.dataState (toReal q) ξ' P' getData'
          (toReal s'.integratorState) →
        let q' := revForAmagold P' lay γ cm L getData' sg' s'.integratorState prm none
        q'.positions = s.integratorState.positions ∧
        q'.momentum = -s.integratorState.momentum ∧
        ∃ α' : ℝ,
          (amagoldUpdate P' none (revForAmagold P' lay γ cm L getData' sg') fullPot' s' prm).2 =
            .fin α' ∧
          Real.exp (-U s.integratorState.positions - Spec.kinetic m s.integratorState.momentum -
              Spec.noiseEnergy (Spec.leapNoise P lay s.integratorState.key) L) * α =
            Real.exp (-U q.positions - Spec.kinetic m q.momentum - Spec.noiseEnergy ξ' L) * α' := by
  intro m q
  obtain ⟨ξ', hE, h⟩ := c64_reversible P lay hγ cm L getData sg hG (toReal s.integratorState) prm hh
    none hm
  set e := revIntegrate P lay γ cm L getData sg (toReal s.integratorState) prm none with he
  have hα := (amagold_ratio P (revForAmagold P lay γ cm L getData sg) fullPot s prm
    (U s.integratorState.positions) (U e.positions) e.potential hs ⟨hU _ _ _, rfl⟩)
  refine ⟨ξ', _, hα, fun κ' δ' μ' P' getData' sg' fullPot' s' hG' hU' hs' hr => ?_⟩
  obtain ⟨h1, h2, h3⟩ := h κ' δ' μ' P' getData' sg' (toReal s'.integratorState) hG'
    ⟨hr.positions, hr.momentum, hr.batches, hr.noise⟩
  set e' := revIntegrate P' lay γ cm L getData' sg' (toReal s'.integratorState) prm none with he'
  have hα' := (amagold_ratio P' (revForAmagold P' lay γ cm L getData' sg') fullPot' s' prm
    (U s'.integratorState.positions) (U e'.positions) e'.potential hs' ⟨hU' _ _ _, rfl⟩)
  refine ⟨h1, h2, _, hα', ?_⟩
  have hp : s'.integratorState.positions = e.positions := hr.positions
  rw [h3, h1, hp]
  show _ = Real.exp (-U e.positions - Spec.kinetic m e.momentum - Spec.noiseEnergy ξ' L) *
    Spec.acceptProb (U s.integratorState.positions - U e.positions - -e.potential)
  have hx : U s.integratorState.positions - U e.positions - -e.potential =
      -(U e.positions - U s.integratorState.positions - e.potential) := by ring
  rw [hx, ← Spec.acceptProb_neg, ← mul_assoc, ← Real.exp_add]
  congr 2
  have hE' : Spec.kinetic m s.integratorState.momentum +
      Spec.noiseEnergy (Spec.leapNoise P lay s.integratorState.key) L =
      Spec.kinetic m e.momentum + Spec.noiseEnergy ξ' L + e.potential := hE
  linarith

end

end JaxSgmc
