import Verif.Spec.TreeSolver
import Verif.Spec.Alias
import Verif.Model.TreeRun

/-! # Vocabulary: results of complete runs on trees -/

namespace JaxSgmc.Spec

open JaxSgmc

/-- An entry of a reported dictionary: a number, the model state or the sample. -/
inductive Reported (μ : Type)
  | number (x : XF)
  | model (m : μ)
  | sample (t : Tree (Arr ℝ))

/-- The entry as part of the returned tree: the sample keeps its structure. -/
def Reported.tree {μ : Type} : Reported μ → Tree (OutLeafT μ)
  | .number x => .leaf (.scalar x)
  | .model m => .leaf (.model m)
  | .sample t => t.map .array

/-- A dictionary with the given entries. -/
def reportDict {μ : Type} (entries : List (String × Reported μ)) : Tree (OutLeafT μ) :=
  .node (.dict (entries.map fun e => e.1.toList)) (entries.map fun e => e.2.tree)

section
variable {n : ℕ} {κ δ μ A φ Ms : Type}

/-- What SGLD reports for the state `s` when the sample is the tree `x`. -/
def langevinReport (s : LangevinState (Fin n) κ δ μ A) (x : Tree (Arr ℝ)) : Tree (OutLeafT μ) :=
  reportDict [("likelihood", .number (.fin (-s.potential))), ("model_state", .model s.modelState),
    ("variables", .sample x)]

/-- What SGHMC reports for the state `s` when the sample is the tree `x`. -/
def leapfrogReport (s : LeapfrogState (Fin n) ℝ κ δ μ) (x : Tree (Arr ℝ)) : Tree (OutLeafT μ) :=
  reportDict [("energy", .number (.fin s.potential)), ("model_state", .model s.modelState),
    ("variables", .sample x)]

/-- What OBABO reports for the state `s` when the sample is the tree `x`. -/
def obaboReport (s : ObaboState (Fin n) ℝ κ δ μ) (x : Tree (Arr ℝ)) : Tree (OutLeafT μ) :=
  reportDict [("energy", .number (.fin s.potential)), ("model_state", .model s.modelState),
    ("variables", .sample x)]

/-- What AMAGOLD reports for the state `s` when the sample is the tree `x`. -/
def amagoldReport (s : AmagoldState (Fin n) κ δ μ φ Ms) (x : Tree (Arr ℝ)) : Tree (OutLeafT μ) :=
  reportDict [("acceptance_ratio", .number s.acceptanceRatio.1), ("energy", .number s.integratorState.potential),
    ("model_state", .model s.integratorState.modelState), ("step_size", .number (.fin s.acceptanceRatio.2)),
    ("variables", .sample x)]

/-- What SGGMC reports for the state `s` when the sample is the tree `x`. -/
def sggmcReport (s : SggmcState (Fin n) κ δ μ φ Ms) (x : Tree (Arr ℝ)) : Tree (OutLeafT μ) :=
  reportDict [("acceptance_ratio", .number s.acceptanceRatio.1),
    ("energy", .number (.fin s.integratorState.potential)), ("kinetic_energy", .number s.acceptanceRatio.2.2),
    ("model_state", .model s.integratorState.modelState), ("potential", .number s.potential),
    ("step_size", .number (.fin s.acceptanceRatio.2.1)), ("variables", .sample x)]

end

/-- The result `r` of a chain consists of the reports `report i x` for the iterations `i` in `kept`, in this order,
where the sample `x` is the tree of the shape of `x0` with the entries `entries i`. -/
def ReturnedTrees {μ : Type} (x0 : Tree (Arr ℝ)) (kept : List ℕ) (entries : ℕ → Fin (ravel x0).length → ℝ)
    (report : ℕ → Tree (Arr ℝ) → Tree (OutLeafT μ)) (r : SaveResult (OutLeafT μ)) : Prop :=
  ∃ x : ℕ → Tree (Arr ℝ), (∀ i ∈ kept, Entries x0 (x i) (entries i)) ∧
    ReturnedSamples (kept.map fun i => report i (x i)) r

/-- The initial samples of the chains (first components) are trees of the shape of `x0` with the entries of the
vectors; everything else is the same. -/
def SameChains {D : Type} (x0 : Tree (Arr ℝ)) (chains : List (Tree (Arr ℝ) × D))
    (vectors : List ((Fin (ravel x0).length → ℝ) × D)) : Prop :=
  List.Forall₂ (fun c v => Entries x0 c.1 v.1 ∧ c.2 = v.2) chains vectors

end JaxSgmc.Spec
