import Verif.Model.DeviceLoader
import Verif.Spec.Data
import Verif.Spec.Keys

/-!
# Specification: random mini-batches on the device
-/

namespace JaxSgmc.Spec

open JaxSgmc

/-- `b` is a mini-batch of `mb` observations of a dataset with `N` observations: for one common list of `mb`
indices every array contributes the rows with these indices (hence all indices are in range), all observations
are marked as valid, and the sizes are reported. -/
structure IsRandomBatch {ρ : Type} (data : List (String × List ρ)) (N mb : Nat) (b : DeviceBatch ρ) : Prop where
  names : b.obs.map (·.1) = data.map (·.1)
  rows : ∃ idx : List Nat, idx.length = mb ∧ (∀ i ∈ idx, i < N) ∧
    ∀ name d, data.lookup name = some d → ∃ r, b.obs.lookup name = some r ∧ RowsOf d idx r
  mask : b.mask.length = mb ∧ ∀ m ∈ b.mask, m = true
  count : b.observationCount = N
  size : b.batchSize = mb

/-- Random numbers for examples: consecutive indices depending on the key. -/
def toyRandint : Randint (List Nat) where
  randint k n N := (List.range n).map fun i => (i + k.sum + k.length) % N

theorem toyRandint_lawful : toyRandint.Lawful where
  length k n N _ := by simp [toyRandint]
  lt k n N i hN hi := by
    simp only [toyRandint, List.mem_map] at hi
    obtain ⟨j, _, rfl⟩ := hi
    exact Nat.mod_lt _ hN

end JaxSgmc.Spec
