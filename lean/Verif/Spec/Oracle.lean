import Verif.Spec.Invariance
import Verif.Spec.Keys
import Verif.Model.Samples
import Mathlib.Probability.Independence.Basic

/-!
# Specification: ideal random numbers

A probability space on which the random number generator of JAX and the mini-batches are ideal: the keys are
split deterministically and different keys returned by one call of `random.split` never lead to a common key
(`IdealSplit`), the numbers drawn with different keys are independent, the numbers drawn with one key have the
distribution requested, and the mini-batches of different updates are independent of each other and of the keys.
Nothing is said about numbers drawn twice with the same key: a program which re-uses a key does not get
independent numbers.
-/

namespace JaxSgmc.Spec

open MeasureTheory ProbabilityTheory

variable {ι κ δ β Ω : Type}

/-- All entries of a tree belong to an array of the tree and have a position in this array. -/
structure Layout.Valid (lay : Layout ι) : Prop where
  injective : Layout.Injective lay
  leaf_lt : ∀ i, lay.leaf i < lay.leaves
  pos_lt : ∀ i, lay.pos i < lay.size (lay.leaf i)

/-- The mini-batches of update `n`, if every update takes `L` mini-batches. -/
def updateBatches (data : δ → δ × β) (d₀ : δ) (L n : ℕ) (i : Fin L) : β := nthBatch data d₀ (n * L + i)

/-- What can be known from the numbers drawn with one key (left), or from the mini-batches of one update
(right). -/
@[instance_reducible]
def drawn [MeasurableSpace β] (P : Ω → Prng κ) (data : Ω → δ → δ × β) (d₀ : δ) (L : ℕ) :
    κ ⊕ ℕ → MeasurableSpace Ω
  | .inl k => MeasurableSpace.comap (fun ω => ((P ω).normal k, (P ω).uniform k)) inferInstance
  | .inr n => MeasurableSpace.comap (fun ω => updateBatches (data ω) d₀ L n) inferInstance

/-- Ideal random numbers; the mini-batches of an update have the joint distribution `w`. -/
structure IdealRandom [MeasurableSpace Ω] [MeasurableSpace β] (prob : Measure Ω) (P : Ω → Prng κ)
    (data : Ω → δ → δ × β) (d₀ : δ) (L : ℕ) (w : (Fin L → β) → ENNReal) (split : κ → ℕ → ℕ → κ) : Prop where
  split_eq : ∀ ω, (P ω).split = split
  ideal : ∀ ω, IdealSplit (P ω)
  measurable : ∀ j, drawn P data d₀ L j ≤ (inferInstance : MeasurableSpace Ω)
  normal_law : ∀ k n, prob.map (fun ω (i : Fin n) => (P ω).normal k n i) = normals (Fin n)
  uniform_law : ∀ k, prob.map (fun ω => (P ω).uniform k) = unif
  batch_law : ∀ n b, prob {ω | updateBatches (data ω) d₀ L n = b} = w b
  independent : iIndep (drawn P data d₀ L) prob

/-- The state of AMAGOLD (`amagold` with `reversible_leapfrog`, constant mass and `L` leapfrog steps) after the
updates with parameters `prms`, started with the sample `x₀` and the key `key`. -/
noncomputable def amagoldState {φ μ : Type} [Fintype ι] (P : Prng κ) (lay : Layout ι) (γ : ℝ) (cm : Option (ι → ℝ)) (L : ℕ)
    (data : δ → δ × β) (d₀ : δ) (sg : StochGrad ι β μ) (fullPot : FullPotFn ι φ μ) (f₀ : φ) (ms : μ) (x₀ : ι → ℝ)
    (key : κ) (prms : List Params) : AmagoldState ι κ δ μ φ Unit :=
  amagoldRun P none (revForAmagold P lay γ cm L data sg) fullPot
    (amagoldInit P none (revInitForAmagold P lay cm d₀) fullPot f₀ x₀ key ms) prms

/-- The samples reported after each of the updates. -/
noncomputable def amagoldSamples {φ μ : Type} [Fintype ι] (P : Prng κ) (lay : Layout ι) (γ : ℝ) (cm : Option (ι → ℝ)) (L : ℕ)
    (data : δ → δ × β) (d₀ : δ) (sg : StochGrad ι β μ) (fullPot : FullPotFn ι φ μ) (f₀ : φ) (ms : μ) (x₀ : ι → ℝ)
    (key : κ) (prms : List Params) : List (ι → ℝ) :=
  (List.range prms.length).map fun k =>
    (amagoldGet (amagoldState P lay γ cm L data d₀ sg fullPot f₀ ms x₀ key (prms.take (k + 1)))).vars

/-- The positions and momenta after each of the updates. -/
noncomputable def amagoldVisited {φ μ : Type} [Fintype ι] (P : Prng κ) (lay : Layout ι) (γ : ℝ) (cm : Option (ι → ℝ)) (L : ℕ)
    (data : δ → δ × β) (d₀ : δ) (sg : StochGrad ι β μ) (fullPot : FullPotFn ι φ μ) (f₀ : φ) (ms : μ) (x₀ : ι → ℝ)
    (key : κ) (prms : List Params) : List ((ι → ℝ) × (ι → ℝ)) :=
  (List.range prms.length).map fun k =>
    let s := amagoldState P lay γ cm L data d₀ sg fullPot f₀ ms x₀ key (prms.take (k + 1))
    (s.integratorState.positions, s.integratorState.momentum)

/-- The mean of `f` over a list of samples. -/
noncomputable def meanOver (f : (ι → ℝ) → ℝ) (xs : List (ι → ℝ)) : ℝ := (xs.map f).sum / xs.length

end JaxSgmc.Spec
