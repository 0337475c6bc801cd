import Verif.Model.Format

/-!
# Specification: shapes and data types of batches
-/

namespace JaxSgmc.Spec

open JaxSgmc

/-- The array has the given shape. -/
def HasShape {α : Type} : List Nat → Nd α → Prop
  | [], .cell _ => True
  | n :: shape, .arr rows => rows.length = n ∧ ∀ r ∈ rows, HasShape shape r
  | _, _ => False

/-- All entries of the array of the given shape are equal to `z`. -/
def AllEq {α : Type} (z : α) : List Nat → Nd α → Prop
  | [], .cell a => a = z
  | _ :: shape, .arr rows => ∀ r ∈ rows, AllEq z shape r
  | _, _ => False

/-- Every row of the arrays has the shape the array claims for its rows. -/
def ArraysWF {D α : Type} (data : List (String × NpArray D α)) : Prop :=
  ∀ x ∈ data, ∀ r ∈ x.2.rows, HasShape x.2.rowShape r

/-- The named arrays have the names, data types and shapes of the format. -/
def Conforms {D α : Type} (fmt : List (String × ShapeDtype D)) (arrays : List (String × D × Nd α)) : Prop :=
  List.Forall₂ (fun f a => a.1 = f.1 ∧ a.2.1 = f.2.dtype ∧ HasShape f.2.shape a.2.2) fmt arrays

/-- What the user expects: under the name of each array, arrays with the leading dimensions `pre` followed by
the dimensions of an observation, and with the canonical data type. -/
def expectedFormat {D α : Type} (canon : D → D) (data : List (String × NpArray D α)) (pre : List Nat) :
    List (String × ShapeDtype D) :=
  data.map fun x => (x.1, ⟨pre ++ x.2.rowShape, canon x.2.dtype⟩)

end JaxSgmc.Spec
