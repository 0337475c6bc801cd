import Verif.Spec.TreeUtil

/-!
# Specification: broadcasting of arrays

The rules of `numpy`: shapes are compared from the last dimension; a missing dimension counts as one; a dimension of size
one is repeated.
-/

namespace JaxSgmc.Spec

open JaxSgmc

variable {R : Type}

/-- The size of the dimension `j`, counted from the last; missing dimensions have size one. -/
def dimFromEnd (shape : List Nat) (j : Nat) : Nat := (shape.reverse[j]?).getD 1

/-- Two shapes can be broadcast to a common shape. -/
def Broadcastable (s t : List Nat) : Prop :=
  ∀ j, dimFromEnd s j = dimFromEnd t j ∨ dimFromEnd s j = 1 ∨ dimFromEnd t j = 1

/-- The shape `u` is the common shape of `s` and `t`. -/
def CommonShape (s t u : List Nat) : Prop :=
  u.length = max s.length t.length ∧
    ∀ j, dimFromEnd u j = if dimFromEnd s j = 1 then dimFromEnd t j else dimFromEnd s j

/-- The position of an entry with a given index (first dimension first) in row-major order. -/
def position : List Nat → List Nat → Nat
  | _ :: ds, i :: is => i * ds.prod + position ds is
  | _, _ => 0

/-- The index is one of an array of this shape. -/
def InShape (shape index : List Nat) : Prop := List.Forall₂ (fun d i => i < d) shape index

/-- The index of the entry of an array of the given shape which is used for an entry of the result: surplus leading
dimensions are dropped and in dimensions of size one the only entry is used. -/
def operandIndex (shape index : List Nat) : List Nat :=
  List.zipWith (fun d i => if d = 1 then 0 else i) shape (index.drop (index.length - shape.length))

/-- `c` is the result of the element-wise operation `f` on `a` and `b` with broadcasting. -/
structure IsBroadcast (f : R → R → R) (a b c : Arr R) : Prop where
  valid : c.Valid
  shape : CommonShape a.shape b.shape c.shape
  entry : ∀ index, InShape c.shape index → ∃ x y, a.data[position a.shape (operandIndex a.shape index)]? = some x ∧
    b.data[position b.shape (operandIndex b.shape index)]? = some y ∧ c.data[position c.shape index]? = some (f x y)

end JaxSgmc.Spec
