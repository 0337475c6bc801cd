import Verif.Model.ListMap
import Verif.Model.TreeUtil

/-!
# Stacking of pytrees of arrays with shapes

`Verif.Model.ListMap` represents a stacked array by the list of its slices.  Here the functions of
`jax_sgmc/util/list_map.py` are modelled on arrays with shapes and entries in row-major order.
-/

namespace JaxSgmc

variable {R : Type}

/-- `jnp.stack(leaves, axis=0)`: `ValueError` without arrays and for arrays of different shapes.
(semantics of JAX used at util/list_map.py:54) -/
def stackArr : List (Arr R) → Except PyErr (Arr R)
  | [] => .error .valueError
  | x :: xs =>
    if xs.all (fun y => y.shape == x.shape) then .ok ⟨(xs.length + 1) :: x.shape, (x :: xs).flatMap Arr.data⟩
    else .error .valueError

/-- `pytree_list_to_leaves` (list_map.py:7-56). -/
def stackTrees (ts : List (Tree (Arr R))) : Except PyErr (Tree (Arr R)) :=
  match ts with
  | [] => .error .indexError
  | t :: _ =>
    match mapExcept stackArr (pyZip (ts.map Tree.leaves)) with
    | .error e => .error e
    | .ok superleaves => Tree.unflatten t superleaves

/-- `leaf[idx]`: the slice along the first dimension; an index out of range is clamped.  Arrays without dimensions or
without slices raise `IndexError`.
(semantics of JAX used at util/list_map.py:88) -/
def indexArr (a : Arr R) (i : Nat) : Except PyErr (Arr R) :=
  match a.shape with
  | [] => .error .indexError
  | n :: s =>
    if n = 0 then .error .indexError
    else .ok ⟨s, (a.data.drop (min i (n - 1) * s.prod)).take s.prod⟩

/-- `pytree_leaves_to_list` (list_map.py:59-91): `leaves[0].shape[0]` raises `IndexError` for a tree without leaves and
if the first leaf has no dimension. -/
def unstackTrees (t : Tree (Arr R)) : Except PyErr (List (Tree (Arr R))) :=
  match t.leaves with
  | [] => .error .indexError
  | l :: ls =>
    match l.shape with
    | [] => .error .indexError
    | n :: _ =>
      mapExcept (fun i =>
        match mapExcept (fun leaf => indexArr leaf i) (l :: ls) with
        | .error e => .error e
        | .ok xs => Tree.unflatten t xs) (List.range n)

/-- `list_vmap` and `list_pmap` (list_map.py:93-147) with `jax.vmap` (`jax.pmap`): the function is applied to every slice
and the results are stacked. -/
def listVmapArr (f : Tree (Arr R) → Tree (Arr R)) (ts : List (Tree (Arr R))) : Except PyErr (List (Tree (Arr R))) :=
  match stackTrees ts with
  | .error e => .error e
  | .ok single =>
    match unstackTrees single with
    | .error e => .error e
    | .ok slices =>
      match stackTrees (slices.map f) with
      | .error e => .error e
      | .ok result => unstackTrees result

end JaxSgmc
