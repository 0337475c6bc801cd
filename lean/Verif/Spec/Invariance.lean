import Verif.Spec.Scripted
import Verif.Model.Solver
import Mathlib.MeasureTheory.Measure.Lebesgue.EqHaar
import Mathlib.Probability.Distributions.Gaussian.Real

/-!
# Specification: invariant distributions

Random numbers are idealised: all standard normal numbers drawn in one step of a sampler are independent
and normally distributed, the uniform number is independent of them.  (That no key is used twice is
property C74.)
-/

namespace JaxSgmc.Spec

open MeasureTheory

variable {ι β : Type}

/-- The (unnormalised) target distribution of positions and momenta with density
`exp(-(U(q) + K(p)) / T)`. -/
noncomputable def target [Fintype ι] (m : MassMatrix ι) (U : (ι → ℝ) → ℝ) (T : ℝ) :
    Measure ((ι → ℝ) × (ι → ℝ)) :=
  volume.withDensity fun z => ENNReal.ofReal (Real.exp (-(U z.1 + kinetic m z.2) / T))

/-- The target distribution of a model in which only positions in `D` are possible: density
`exp(-(U(q) + K(p)) / T)` for `q` in `D` and zero elsewhere. -/
noncomputable def targetOn [Fintype ι] (m : MassMatrix ι) (U : (ι → ℝ) → ℝ) (D : Set (ι → ℝ)) (T : ℝ) :
    Measure ((ι → ℝ) × (ι → ℝ)) :=
  (target m U T).restrict {z | z.1 ∈ D}

/-- The (unnormalised) posterior of a model with potential `U` in which only positions in `D` are possible:
density `exp(-U(q))` for `q` in `D` and zero elsewhere. -/
noncomputable def posterior [Fintype ι] (U : (ι → ℝ) → ℝ) (D : Set (ι → ℝ)) : Measure (ι → ℝ) :=
  (volume.restrict D).withDensity fun q => ENNReal.ofReal (Real.exp (-U q))

/-- The distribution of momenta with density proportional to `exp(-½ pᵀ M⁻¹ p)`, i.e. N(0, M). -/
def IsMomentumLaw [Fintype ι] (m : MassMatrix ι) (ν : Measure (ι → ℝ)) : Prop :=
  ∃ c : ENNReal, c ≠ 0 ∧ c ≠ ⊤ ∧
    ν = c • (volume : Measure (ι → ℝ)).withDensity fun p => ENNReal.ofReal (Real.exp (-kinetic m p))

/-- The distribution of independent standard normal numbers. -/
noncomputable def normals (κ : Type) [Fintype κ] : Measure (κ → ℝ) :=
  Measure.pi fun _ => ProbabilityTheory.gaussianReal 0 1

/-- The uniform distribution on `[0, 1)`. -/
noncomputable def unif : Measure ℝ := volume.restrict (Set.Ico 0 1)

/-- The noise vectors `ξ 0, …, ξ (n - 1)` given by their entries. -/
def noiseSeq {n : ℕ} (x : Fin n × ι → ℝ) (k : ℕ) : ι → ℝ :=
  fun i => if h : k < n then x (⟨k, h⟩, i) else 0

/-- The mini-batches `b 0, …, b (n - 1)`. -/
def batchSeq [Inhabited β] {n : ℕ} (b : Fin n → β) (k : ℕ) : β :=
  if h : k < n then b ⟨k, h⟩ else default

/-- The full potential is `U` on `D`; elsewhere it is `+inf` or not a number (density zero or undefined). -/
structure PotentialOn {φ μ : Type} (fullPot : FullPotFn ι φ μ) (U : (ι → ℝ) → ℝ) (D : Set (ι → ℝ)) : Prop where
  fin : ∀ x f ms, x ∈ D → (fullPot x f ms).1 = .fin (U x)
  out : ∀ x f ms, x ∉ D → (fullPot x f ms).1 = .pinf ∨ (fullPot x f ms).1 = .nan

/-- A mass adaption which always returns the mass `m`. -/
def constantMass (m : MassMatrix ι) : MassAdaption ι Unit := ⟨fun _ => (), fun _ _ => (), fun _ => m⟩

/-- One step of AMAGOLD (`amagold` with `reversible_leapfrog`) with the adapted mass `am` (or none) from
positions and momenta `z` with mini-batches `b`, entries of the noise vectors `x` and uniform number `u`: new positions
and momenta. -/
noncomputable def amagoldNext [Fintype ι] [Inhabited β] {φ μ : Type} (lay : Layout ι) (γ : ℝ)
    (am : Option (MassMatrix ι)) (cm : Option (ι → ℝ)) (L : ℕ) (sg : StochGrad ι β μ)
    (fullPot : FullPotFn ι φ μ) (U : (ι → ℝ) → ℝ) (f : φ) (ms : μ) (prm : Params) (b : Fin L → β) (z : (ι → ℝ) × (ι → ℝ))
    (x : Fin L × ι → ℝ) (u : ℝ) : (ι → ℝ) × (ι → ℝ) :=
  let P := scripted lay (noiseSeq x) u
  let s : AmagoldState ι SKey ℕ μ φ Unit :=
    { integratorState := ⟨.fin 0, .main 0, z.1, z.2, 0, ms, []⟩
      potential := .fin (U z.1)
      fullDataState := f
      key := .main 0
      acceptanceRatio := (.fin 0, 0)
      massState := am.map fun _ => ()
      drawn := [] }
  let s' := (amagoldUpdate P (am.map constantMass)
    (revForAmagold P lay γ cm L (batchSource (batchSeq b)) sg) fullPot s prm).1
  (s'.integratorState.positions, s'.integratorState.momentum)

/-- The expectation of `f` after steps of AMAGOLD with the given parameters (step sizes), started at `z`:
all steps use independent mini-batches, noises and uniform numbers. -/
noncomputable def amagoldExpect [Fintype ι] [Inhabited β] {φ μ : Type} (lay : Layout ι) (γ : ℝ)
    (am : Option (MassMatrix ι)) (cm : Option (ι → ℝ)) (L : ℕ) (sg : StochGrad ι β μ) (fullPot : FullPotFn ι φ μ) (U : (ι → ℝ) → ℝ) (f₀ : φ) (ms : μ)
    (w : (Fin L → β) → ENNReal) (f : (ι → ℝ) × (ι → ℝ) → ENNReal) :
    List Params → (ι → ℝ) × (ι → ℝ) → ENNReal
  | [], z => f z
  | prm :: prms, z => ∑' b, w b * ∫⁻ x, ∫⁻ u, amagoldExpect lay γ am cm L sg fullPot U f₀ ms w f prms
      (amagoldNext lay γ am cm L sg fullPot U f₀ ms prm b z x u) ∂unif
        ∂normals (Fin L × ι)

/-- The expectation of a function `F` of the states visited in steps of AMAGOLD with the given parameters, started
at `z` after the states `past`: all steps use independent mini-batches, noises and uniform numbers. -/
noncomputable def amagoldPath [Fintype ι] [Inhabited β] {φ μ : Type} (lay : Layout ι) (γ : ℝ)
    (am : Option (MassMatrix ι)) (cm : Option (ι → ℝ)) (L : ℕ) (sg : StochGrad ι β μ) (fullPot : FullPotFn ι φ μ)
    (U : (ι → ℝ) → ℝ) (f₀ : φ) (ms : μ) (w : (Fin L → β) → ENNReal)
    (F : List ((ι → ℝ) × (ι → ℝ)) → ENNReal) :
    List Params → List ((ι → ℝ) × (ι → ℝ)) → (ι → ℝ) × (ι → ℝ) → ENNReal
  | [], past, _ => F past
  | prm :: prms, past, z => ∑' b, w b * ∫⁻ x, ∫⁻ u,
      let z' := amagoldNext lay γ am cm L sg fullPot U f₀ ms prm b z x u
      amagoldPath lay γ am cm L sg fullPot U f₀ ms w F prms (past ++ [z']) z' ∂unif ∂normals (Fin L × ι)

/-- The posterior mean of `f`. -/
noncomputable def posteriorMean [Fintype ι] (U : (ι → ℝ) → ℝ) (D : Set (ι → ℝ)) (f : (ι → ℝ) → ℝ) : ℝ :=
  (∫ q, f q ∂posterior U D) / (posterior U D Set.univ).toReal

/-- The average of `f` over the positions of a list of states. -/
noncomputable def average (f : (ι → ℝ) → ℝ) (zs : List ((ι → ℝ) × (ι → ℝ))) : ℝ :=
  (zs.map fun z => f z.1).sum / zs.length

/-- One step of SGGMC (`sggmc` with `obabo` and constant mass) from positions and momenta `z` with
mini-batches `b`, entries of the noise vectors `x` and uniform number `u`: state and acceptance ratio. -/
noncomputable def sggmcStep [Fintype ι] [Inhabited β] {φ μ : Type} (lay : Layout ι) (γ : ℝ)
    (cm : Option (ι → ℝ)) (L : ℕ) (sg : StochGrad ι β μ) (fullPot : FullPotFn ι φ μ)
    (U : (ι → ℝ) → ℝ) (f : φ) (ms : μ) (prm : Params) (b : Fin (2 * L) → β)
    (z : (ι → ℝ) × (ι → ℝ)) (x : Fin (2 * L) × ι → ℝ) (u : ℝ) :
    SggmcState ι SKey ℕ μ φ Unit × XF :=
  let P := scripted lay (noiseSeq x) u
  let s : SggmcState ι SKey ℕ μ φ Unit :=
    { integratorState := ⟨0, .main 0, z.1, z.2, 0, ms, .fin 0, .fin 0, []⟩
      potential := .fin (U z.1)
      fullDataState := f
      key := .main 0
      acceptanceRatio := (.fin 0, 0, .fin 0)
      massState := none
      drawn := [] }
  sggmcUpdate P none (obaboForSggmc P lay γ cm L (batchSource (batchSeq b)) sg) fullPot s prm

/-- Positions and momenta after a step of SGGMC. -/
noncomputable def sggmcNext [Fintype ι] [Inhabited β] {φ μ : Type} (lay : Layout ι) (γ : ℝ)
    (cm : Option (ι → ℝ)) (L : ℕ) (sg : StochGrad ι β μ) (fullPot : FullPotFn ι φ μ)
    (U : (ι → ℝ) → ℝ) (f : φ) (ms : μ) (prm : Params) (b : Fin (2 * L) → β)
    (z : (ι → ℝ) × (ι → ℝ)) (x : Fin (2 * L) × ι → ℝ) (u : ℝ) : (ι → ℝ) × (ι → ℝ) :=
  let s := (sggmcStep lay γ cm L sg fullPot U f ms prm b z x u).1
  (s.integratorState.positions, s.integratorState.momentum)

open Classical in
/-- SGGMC as it should be: if the proposal is rejected (the uniform number is not below the reported
acceptance ratio), the momentum is negated. -/
noncomputable def sggmcNegated [Fintype ι] [Inhabited β] {φ μ : Type} (lay : Layout ι) (γ : ℝ)
    (cm : Option (ι → ℝ)) (L : ℕ) (sg : StochGrad ι β μ) (fullPot : FullPotFn ι φ μ)
    (U : (ι → ℝ) → ℝ) (f : φ) (ms : μ) (prm : Params) (b : Fin (2 * L) → β)
    (z : (ι → ℝ) × (ι → ℝ)) (x : Fin (2 * L) × ι → ℝ) (u : ℝ) : (ι → ℝ) × (ι → ℝ) :=
  let next := sggmcNext lay γ cm L sg fullPot U f ms prm b z x u
  if XF.Lt (.fin u) (sggmcStep lay γ cm L sg fullPot U f ms prm b z x u).2 then next
  else (next.1, -next.2)

end JaxSgmc.Spec
