import Verif.Model.TreeUtil

/-!
# Vocabulary for stating properties of the tree arithmetic
-/

namespace JaxSgmc.Spec

open JaxSgmc

variable {R : Type}

/-- Every array has as many entries as its shape says. -/
def ValidTree (t : Tree (Arr R)) : Prop := ∀ a ∈ t.leaves, a.Valid

/-- Same tree structure and same shape of corresponding leaves. -/
def SameShape (a b : Tree (Arr R)) : Prop := a.map Arr.shape = b.map Arr.shape

/-- The matrix (list of rows) with the given diagonal. -/
def diagMatrix [Zero R] (d : List R) : List (List R) :=
  (List.range d.length).map (fun i => (List.range d.length).map (fun j =>
    if i = j then d[j]?.getD 0 else 0))

/-- The matrix represented by a tensor acting on vectors with `n` entries. -/
def tensorMatrix [Zero R] (T : Tensor R) (n : Nat) : List (List R) :=
  match T with
  | .scalar c => diagMatrix (List.replicate n c)
  | .diagonal d => diagMatrix (ravel d)
  | .full m => m
  | .other _ => []

/-- The tensor fits to trees of the shape of `v`. -/
def Compatible (T : Tensor R) (v : Tree (Arr R)) : Prop :=
  match T with
  | .scalar _ => True
  | .diagonal d => ValidTree d ∧ SameShape d v
  | .full m => m.length = (ravel v).length ∧ ∀ row ∈ m, row.length = (ravel v).length
  | .other _ => False

end JaxSgmc.Spec
