import Verif.Model.TensorflowLoader
import Verif.Spec.Data

/-!
# Specification: mini-batches of a TensorFlow dataset
-/

namespace JaxSgmc.Spec

open JaxSgmc

/-- The outcomes of all `get_batches(cid)` calls of a history. -/
def tfOutcomes {ρ : Type} (cid : Nat) : List (TfOp × TfOut ρ) → List (TfOut ρ)
  | [] => []
  | (.get c, o) :: h => if c = cid then o :: tfOutcomes cid h else tfOutcomes cid h
  | _ :: h => tfOutcomes cid h

/-- The observations delivered under a name, in the order of their delivery. -/
def tfStream {ρ : Type} (name : String) : List (TfOut ρ) → List ρ
  | [] => []
  | .batches obs :: os => ((obs.lookup name).getD []).flatten ++ tfStream name os
  | _ :: os => tfStream name os

/-- The result of `get_batches` has the names `keys` and `cs` mini-batches of `mb` observations each. -/
def TfShape {ρ : Type} (keys : List String) (cs mb : Nat) (o : TfOut ρ) : Prop :=
  ∃ obs, o = .batches obs ∧ obs.map (·.1) = keys ∧
    ∀ x ∈ obs, x.2.length = cs ∧ ∀ l ∈ x.2, l.length = mb

/-- Shuffling an infinite stream with a buffer of `B` elements: no element is repeated, and an element is
returned at most `B - 1` positions too early. -/
structure BufferedShuffle (B : Nat) (times : List Nat) : Prop where
  nodup : times.Nodup
  early : ∀ j t, times[j]? = some t → t < j + B

/-- A generator for examples: it follows a list of choices. -/
def toyTfRng : TfRng (List Nat) where
  seed n := [n]
  pick g B := (g.headD 0 % B, g.tail)

theorem toyTfRng_lawful : toyTfRng.Lawful where
  lt g B hB := Nat.mod_lt _ hB

end JaxSgmc.Spec
