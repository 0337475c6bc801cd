import Verif.Model.AliasRun
import Verif.Spec.Saving

/-!
# Vocabulary for the results of the ready to use solvers
-/

namespace JaxSgmc.Spec

open JaxSgmc

/-- Step sizes decreasing from `first` in the first to `last` in the last of `its` iterations. -/
structure DecreasingSteps (first last : ℝ) (its : Nat) (step : Nat → ℝ) : Prop where
  start : step 0 = first
  finish : step (its - 1) = last
  positive : ∀ i, 0 < step i
  decreasing : ∀ i j, i < j → step j < step i

/-- `accepted` different iterations after the burn in, in order. -/
structure Thinned (burnIn its accepted : Nat) (kept : List Nat) : Prop where
  count : kept.length = accepted
  increasing : kept.Pairwise (· < ·)
  range : ∀ i ∈ kept, burnIn ≤ i ∧ i < its

/-- The result of a chain consists of the samples `kept` in order, and nothing else. -/
structure ReturnedSamples {α : Type} (kept : List (Tree α)) (r : SaveResult α) : Prop where
  count : r.sampleCount = kept.length
  rows : ∀ l ∈ r.samples.leaves, l.length = kept.length
  row : ∀ (j : Nat) (s : Tree α), kept[j]? = some s → r.samples.map (fun l => l[j]?) = s.map some

/-- A dictionary with the given entries. -/
def sampleDict {ι μ : Type} (entries : List (String × OutLeaf ι μ)) : Tree (OutLeaf ι μ) :=
  .node (.dict (entries.map fun e => e.1.toList)) (entries.map fun e => .leaf e.2)

section
variable {ι κ δ μ A φ Ms : Type}

/-- What `langevin_diffusion` is documented to report for a state: the current position as sample. -/
def reportedLangevin (s : LangevinState ι κ δ μ A) : Tree (OutLeaf ι μ) :=
  sampleDict [("likelihood", .scalar (.fin (-s.potential))), ("model_state", .model s.modelState),
    ("variables", .vector s.latent)]

/-- The sample reported by `friction_leapfrog`. -/
def reportedLeapfrog (s : LeapfrogState ι ℝ κ δ μ) : Tree (OutLeaf ι μ) :=
  sampleDict [("energy", .scalar (.fin s.potential)), ("model_state", .model s.modelState),
    ("variables", .vector s.positions)]

/-- The sample reported by `obabo`. -/
def reportedObabo (s : ObaboState ι ℝ κ δ μ) : Tree (OutLeaf ι μ) :=
  sampleDict [("energy", .scalar (.fin s.potential)), ("model_state", .model s.modelState),
    ("variables", .vector s.positions)]

/-- The sample reported by `amagold`. -/
def reportedAmagold (s : AmagoldState ι κ δ μ φ Ms) : Tree (OutLeaf ι μ) :=
  sampleDict [("acceptance_ratio", .scalar s.acceptanceRatio.1), ("energy", .scalar s.integratorState.potential),
    ("model_state", .model s.integratorState.modelState), ("step_size", .scalar (.fin s.acceptanceRatio.2)),
    ("variables", .vector s.integratorState.positions)]

/-- The sample reported by `sggmc`. -/
def reportedSggmc (s : SggmcState ι κ δ μ φ Ms) : Tree (OutLeaf ι μ) :=
  sampleDict [("acceptance_ratio", .scalar s.acceptanceRatio.1),
    ("energy", .scalar (.fin s.integratorState.potential)), ("kinetic_energy", .scalar s.acceptanceRatio.2.2),
    ("model_state", .model s.integratorState.modelState), ("potential", .scalar s.potential),
    ("step_size", .scalar (.fin s.acceptanceRatio.2.1)), ("variables", .vector s.integratorState.positions)]

end

/-- The state of a chain after `n` updates with the given schedules. -/
def drive {S Vs Vt α : Type} (solver : Solver S Vs Vt α) (scheds : Nat → List (Schedule Vs Vt)) (s : S) :
    Nat → S
  | 0 => s
  | i + 1 => (solver.update (drive solver scheds s i) (scheds i)).1

/-- The schedules of the first `n` iterations as seen by an integrator, with the temperature `τ`. -/
def paramsUpTo (step : Nat → ℝ) (τ : ℝ) (n : Nat) : List Params :=
  (List.range n).map fun t => ⟨step t, τ⟩

/-- Positive step sizes, starting with `first`, which do not change after the burn in. -/
structure FrozenSteps (first : ℝ) (burnIn : Nat) (step : Nat → ℝ) : Prop where
  start : step 0 = first
  positive : ∀ i, 0 < step i
  frozen : ∀ i, burnIn ≤ i → step i = step burnIn

end JaxSgmc.Spec
