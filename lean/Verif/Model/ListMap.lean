import Verif.Model.Tree

/-!
# Stacking of pytrees and vectorised functions

Models `jax_sgmc/util/list_map.py`.  A leaf of a stacked tree is the list of the slices along the
first dimension; a slice (an array) is an abstract value.  Arrays with shapes, which `jnp.stack`
may reject, are modelled in `Verif.Model.ListMapArr`.
-/

namespace JaxSgmc

variable {α β : Type}

/-- `zip(*rows)`: as many tuples as the shortest row has entries.
(semantics of Python used at util/list_map.py:55) -/
def pyZip (rows : List (List α)) : List (List α) :=
  (List.range ((rows.map List.length).min?.getD 0)).map (fun i => rows.filterMap (·[i]?))

/-- `pytree_list_to_leaves` (list_map.py:7-56): `pytrees[0]` raises `IndexError` for an empty
list, `tree_unflatten` raises `ValueError` if a tree has less leaves than the first one. -/
def pytreeListToLeaves (ts : List (Tree α)) : Except PyErr (Tree (List α)) :=
  match ts with
  | [] => .error .indexError
  | t :: _ => Tree.unflatten t (pyZip (ts.map Tree.leaves))

/-- `leaf[idx]` of a device array: an index out of range is clamped; an empty array has no
elements.
(semantics of JAX used at util/list_map.py:88) -/
def jnpIndex (xs : List α) (i : Nat) : Except PyErr α := npIndex xs (min i (xs.length - 1))

/-- `pytree_leaves_to_list` (list_map.py:59-91): `leaves[0]` raises `IndexError` for a tree without
leaves. -/
def pytreeLeavesToList (t : Tree (List α)) : Except PyErr (List (Tree α)) :=
  match t.leaves with
  | [] => .error .indexError
  | l :: ls =>
    mapExcept (fun i =>
      match mapExcept (fun leaf => jnpIndex leaf i) (l :: ls) with
      | .error e => .error e
      | .ok xs => Tree.unflatten t xs) (List.range l.length)

/-- `jax.vmap(fun, 0, 0)` of a function on pytrees (semantics of JAX): `fun` is applied to every
slice of the leaves and the results are stacked.
(used at util/list_map.py:126) -/
def vmapTree (f : Tree α → Tree β) (t : Tree (List α)) : Except PyErr (Tree (List β)) :=
  match pytreeLeavesToList t with
  | .error e => .error e
  | .ok ts => pytreeListToLeaves (ts.map f)

/-- `list_vmap` (list_map.py:93-128); `list_pmap` (list_map.py:130-147) only differs in the device
that executes the function. -/
def listVmap (f : Tree α → Tree β) (ts : List (Tree α)) : Except PyErr (List (Tree β)) :=
  match pytreeListToLeaves ts with
  | .error e => .error e
  | .ok single =>
    match vmapTree f single with
    | .error e => .error e
    | .ok result => pytreeLeavesToList result

end JaxSgmc
