import Verif.Model.NumpyLoader
import Mathlib.Data.List.Forall2

/-!
# Vocabulary for stating properties of data loaders

Nothing here looks at the internal state of chains: only at operations and their outcomes.
-/

namespace JaxSgmc.Spec

open JaxSgmc

/-- The entries whose mask is `true`. -/
def valid {α : Type} : List α → List Bool → List α
  | x :: xs, true :: ms => x :: valid xs ms
  | _ :: xs, false :: ms => valid xs ms
  | _, _ => []

/-- The operation concerns chain `cid`. -/
def touches (cid : Nat) : LOp → Bool
  | .get c => c == cid
  | .save c _ => c == cid
  | .load c _ => c == cid
  | _ => false

/-- The checkpoint variable used by an operation. -/
def handle? : LOp → Option Nat
  | .save _ h => some h
  | .load _ h => some h
  | _ => none

/-- The operation restores chain `cid` from a checkpoint. -/
def isLoad (cid : Nat) : LOp → Bool
  | .load c _ => c == cid
  | _ => false

/-- The outcomes of all `get_batches(cid)` calls of a history. -/
def outcomes {ρ : Type} (cid : Nat) : List (LOp × LOut ρ) → List (LOut ρ)
  | [] => []
  | (.get c, o) :: h => if c = cid then o :: outcomes cid h else outcomes cid h
  | _ :: h => outcomes cid h

/-- The mini-batches of array `name` in the order in which they were delivered. -/
def miniBatches {ρ : Type} (name : String) : List (LOut ρ) → List (List ρ)
  | [] => []
  | .batches b :: os => (b.obs.lookup name).getD [] ++ miniBatches name os
  | _ :: os => miniBatches name os

/-- The masks of the mini-batches in the order in which they were delivered. -/
def masks {ρ : Type} : List (LOut ρ) → List (List Bool)
  | [] => []
  | .batches b :: os => b.mask ++ masks os
  | _ :: os => masks os

/-- A state of a data loader a user can reach: created from arrays, then any operations. -/
def Reachable {σ ρ : Type} (R : Rng σ) (data : List (String × List ρ)) (s : LSys σ ρ) : Prop :=
  ∃ L ops, mkLoader data = .ok L ∧ s = (lrun R { loader := L, ckpts := fun _ => none } ops).1

/-- Rows `rows` are the observations with indices `idx` of the array `data`. -/
def RowsOf {ρ : Type} (data : List ρ) (idx : List Nat) (rows : List ρ) : Prop :=
  rows.map some = idx.map (fun i => data[i]?)

/-- `b` is the answer of a loader holding `data` to a request for `cs` batches of `mb` observations:
the mask has shape `(cs, mb)` and for one common index array of shape `(cs, mb)` every array of the
dataset contributes the rows with these indices (in particular all indices are in range). -/
def IsAnswer {ρ : Type} (data : List (String × List ρ)) (cs mb : Nat) (b : Batches ρ) : Prop :=
  b.mask.length = cs ∧ (∀ m ∈ b.mask, m.length = mb) ∧
  b.obs.map (·.1) = data.map (·.1) ∧
  ∃ idx : List (List Nat), idx.length = cs ∧ (∀ i ∈ idx, i.length = mb) ∧
    ∀ name d, data.lookup name = some d →
      ∃ rows, b.obs.lookup name = some rows ∧ List.Forall₂ (RowsOf d) idx rows

/-- The chain ids handed out by a history. -/
def registeredIds {ρ : Type} : List (LOp × LOut ρ) → List Nat
  | [] => []
  | (_, .registered c) :: h => c :: registeredIds h
  | _ :: h => registeredIds h

end JaxSgmc.Spec
