import Verif.Model.Hdf5
import Verif.Spec.Tree

/-!
# Vocabulary for HDF5 files
-/

namespace JaxSgmc.Spec

open JaxSgmc

variable {α : Type}

/-- The samples (lists of leaves) saved for chain `c`, in order. -/
def h5SavedOf (c : Nat) (ops : List (H5Op α)) : List (List α) :=
  ops.filterMap (fun op => match op with
    | .save c' v => if c' = c then some v else none
    | _ => none)

/-- The registered chains: initial sample and announced number of samples. -/
def h5Registered (ops : List (H5Op α)) : List (Tree α × Int) :=
  ops.filterMap (fun op => match op with
    | .register t n => some (t, n)
    | _ => none)

/-- The call is allowed after the calls `pre`: samples have as many leaves as the initial sample of
their chain. -/
def H5Allowed (pre : List (H5Op α)) : H5Op α → Prop
  | .register t _ => WF t
  | .save c v => ∃ init n, (h5Registered pre)[c]? = some (init, n) ∧ v.length = init.leaves.length

/-- All calls are allowed. -/
def H5Protocol (ops : List (H5Op α)) : Prop :=
  ∀ pre op post, ops = pre ++ op :: post → H5Allowed pre op

/-- `content` of leaf `j` in row `i`: the `j`-th leaf of the `i`-th saved sample, or the initial zero
(for a leaf like `a`). -/
def cell (zero : α → α) (saved : List (List α)) (a : α) (i j : Nat) : Option α :=
  match saved[i]? with
  | some s => s[j]?
  | none => some (zero a)

end JaxSgmc.Spec
