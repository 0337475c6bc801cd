import Verif.Model.Hdf5Host
import Verif.Spec.Hdf5

/-!
# Vocabulary for using saved samples as reference data
-/

namespace JaxSgmc.Spec

open JaxSgmc

/-- The loader has just been opened on datasets with the same number of rows. -/
def JustOpened {σ α : Type} (L : H5Loader σ α) : Prop :=
  ∃ (file : H5File α) (subdir : Key) (sample : Tree Unit), WF sample ∧ h5Open file subdir sample = .ok L ∧
    ∀ nm ∈ L.names, ∀ rows, h5Get file nm = .ok rows → rows.length = L.obsCount

/-- Reading row `i` gives the leaves of `t`. -/
def ReadsRow {σ α : Type} (L : H5Loader σ α) (i : Nat) (t : Tree α) : Prop :=
  ∃ obs, h5Slice L [[i]] = .ok obs ∧ obs.shape = t.shape ∧ obs.leaves = t.leaves.map (fun a => [[a]])

end JaxSgmc.Spec
