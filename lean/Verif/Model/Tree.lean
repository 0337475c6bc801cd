import Verif.Model.Prelude
import Mathlib.Data.List.Sort
import Mathlib.Order.Defs.LinearOrder
import Mathlib.Data.List.Lex
import Mathlib.Data.Char
import Mathlib.Data.List.SplitOn

/-!
# Pytrees and their transformation to dictionaries

Models the pytrees of JAX as far as they are used by `jax_sgmc/io.py` and `jax_sgmc/util`: leaves,
`None`, lists, tuples, dicts and named tuples.  A dict is stored with its keys in sorted order:
`tree_flatten` sorts the keys, therefore the insertion order of a dict is not observable by any
of the modelled functions.  Custom nodes and registered rules are modelled in
`Verif.Model.Registry`.  Not modelled: the rule for haiku's `FlatMapping`, which behaves like a dict.
-/

namespace JaxSgmc

/-- Dictionary keys and field names: strings as lists of characters.
(io.py:98-113, 221-240) -/
abbrev Key := List Char

/-- A tuple of keys (`pytree_dict_keys`, io.py:147-186). -/
abbrev Path := List Key

/-- The node types with a dictionize rule (io.py:220-234). -/
inductive Kind
  | list
  | tuple
  | dict (keys : List Key)
  | ntuple (name : Key) (fields : List Key)
  deriving DecidableEq, Repr

/-- Pytrees with leaves in `α`.
(`jax.tree_util`, e.g. io.py:98-218) -/
inductive Tree (α : Type) : Type
  | leaf (a : α)
  | none
  | node (k : Kind) (ts : List (Tree α))

namespace Tree
variable {α β : Type}

/-- Induction over trees with a hypothesis for all children. -/
theorem ind {P : Tree α → Prop} (hleaf : ∀ a, P (.leaf a)) (hnone : P .none)
    (hnode : ∀ k ts, (∀ t ∈ ts, P t) → P (.node k ts)) (t : Tree α) : P t :=
  Tree.rec (motive_1 := P) (motive_2 := fun ts => ∀ t ∈ ts, P t) hleaf hnone hnode
    (by simp)
    (by
      intro t ts ht hts u hu
      rcases List.mem_cons.1 hu with rfl | h
      · exact ht
      · exact hts u h) t

mutual
/-- `tree_util.tree_leaves`.
(semantics of JAX used at io.py:99, 107, 174) -/
def leaves : Tree α → List α
  | .leaf a => [a]
  | .none => []
  | .node _ ts => leavesL ts
/-- The leaves of the children, left to right.
(see `leaves`, io.py:99, 107, 174) -/
def leavesL : List (Tree α) → List α
  | [] => []
  | t :: ts => leaves t ++ leavesL ts
end

mutual
/-- `tree_util.tree_map`.
(semantics of JAX used at io.py:362-368) -/
def map (f : α → β) : Tree α → Tree β
  | .leaf a => .leaf (f a)
  | .none => .none
  | .node k ts => .node k (mapL f ts)
/-- `tree_map` on the children.
(see `map`, io.py:362-368) -/
def mapL (f : α → β) : List (Tree α) → List (Tree β)
  | [] => []
  | t :: ts => map f t :: mapL f ts
end

/-- `tree_util.tree_structure`: the tree with its leaves forgotten.
(semantics of JAX used at io.py:139, 210) -/
def shape (t : Tree α) : Tree Unit := t.map (fun _ => ())

mutual
/-- Replaces the leaves from left to right by the given values and returns the unused values; `none`
if there are too few values.
(semantics of JAX used at io.py:175, 218) -/
def fill : Tree β → List α → Option (Tree α × List α)
  | .leaf _, [] => Option.none
  | .leaf _, a :: as => some (.leaf a, as)
  | .none, as => some (.none, as)
  | .node k ts, as => (fillL ts as).map (fun r => (.node k r.1, r.2))
/-- `fill` on the children, left to right.
(see `fill`, io.py:175, 218) -/
def fillL : List (Tree β) → List α → Option (List (Tree α) × List α)
  | [], as => some ([], as)
  | t :: ts, as =>
    match fill t as with
    | Option.none => Option.none
    | some (u, as') => (fillL ts as').map (fun r => (u :: r.1, r.2))
end

/-- `tree_util.tree_unflatten`: raises `ValueError` for too few or too many leaves.
(used at io.py:175, 218, 611) -/
def unflatten (structure_ : Tree β) (as : List α) : Except PyErr (Tree α) :=
  match fill structure_ as with
  | some (t, []) => .ok t
  | _ => .error .valueError

end Tree

/-! ### Transformation to dictionaries -/

/-- `f"list_element_{idx}"` (io.py:227, 234). -/
def elemName (i : Nat) : Key :=
  ['l','i','s','t','_','e','l','e','m','e','n','t','_'] ++ Nat.toDigits 10 i

/-- The names of the `n` children of a node (the rules of io.py:220-234). -/
def childNames : Kind → Nat → List Key
  | .list, n => (List.range n).map elemName
  | .tuple, n => (List.range n).map elemName
  | .dict ks, _ => ks
  | .ntuple _ fs, _ => fs

/-- A dictionary with the given items (stored with sorted keys, see above).
(io.py:109-113) -/
def mkDict {α : Type} (items : List (Key × Tree α)) : Tree α :=
  let s := items.insertionSort (fun a b => a.1 ≤ b.1)
  .node (.dict (s.map Prod.fst)) (s.map Prod.snd)

mutual
/-- `pytree_to_dict` (io.py:115-145) with `_dictionize` (io.py:103-113).  `treedef_is_leaf` holds for
trees with a single node: leaves, `None` and empty containers.  A node without leaves is translated
to `{}`. -/
def toDict {α : Type} : Tree α → Tree α
  | .leaf a => .leaf a
  | .none => .none
  | .node k [] => .node k []
  | .node k (t :: ts) =>
    if Tree.leavesL (t :: ts) = [] then .node (.dict []) []
    else mkDict ((childNames k (ts.length + 1)).zip (toDict t :: toDictL ts))
/-- The values of the dict comprehension (io.py:143-145). -/
def toDictL {α : Type} : List (Tree α) → List (Tree α)
  | [] => []
  | t :: ts => toDict t :: toDictL ts
end

mutual
/-- `_recurse` of `pytree_dict_keys` (io.py:177-184): the path of every leaf of a nested dict, in
the order of the leaves.  `.items()` of a node other than a dict is an `AttributeError`. -/
def paths {α : Type} : Tree α → Except PyErr (List Path)
  | .leaf _ => .ok [[]]
  | .none => .ok []
  | .node (.dict ks) ts => pathsL ks ts
  | .node _ _ => .error .attributeError
/-- `for key, value in node.items()` (io.py:183-184). -/
def pathsL {α : Type} : List Key → List (Tree α) → Except PyErr (List Path)
  | k :: ks, t :: ts =>
    match paths t with
    | .error e => .error e
    | .ok ps =>
      match pathsL ks ts with
      | .error e => .error e
      | .ok qs => .ok (ps.map (k :: ·) ++ qs)
  | _, _ => .ok []
end

/-- `pytree_dict_keys` (io.py:147-186). -/
def dictKeys {α : Type} (t : Tree α) : Except PyErr (List Path) := paths (toDict t)

/-- `element.get(key)` of a dict (io.py:215): `None` for a missing key, `AttributeError` if the
element is not a dict. -/
def dictGet {α : Type} (t : Tree α) (k : Key) : Except PyErr (Tree α) :=
  match t with
  | .node (.dict ks) ts => .ok (((ks.zip ts).lookup k).getD .none)
  | _ => .error .attributeError

/-- `_recurse_get` (io.py:211-216). -/
def getPath {α : Type} : Tree α → Path → Except PyErr (Tree α)
  | t, [] => .ok t
  | t, k :: p =>
    match dictGet t k with
    | .error e => .error e
    | .ok u => getPath u p

/-- `map` of a function which may raise an exception.
(io.py:211-216) -/
def mapExcept {α β : Type} (f : α → Except PyErr β) : List α → Except PyErr (List β)
  | [] => .ok []
  | a :: as =>
    match f a with
    | .error e => .error e
    | .ok b =>
      match mapExcept f as with
      | .error e => .error e
      | .ok bs => .ok (b :: bs)

mutual
/-- Substitutes subtrees for leaves: `tree_unflatten` accepts arbitrary objects as leaves.
(used at io.py:175, 218) -/
def graft {α : Type} : Tree (Tree α) → Tree α
  | .leaf t => t
  | .none => .none
  | .node k ts => .node k (graftL ts)
/-- `graft` on the children.
(see `graft`, io.py:175, 218) -/
def graftL {α : Type} : List (Tree (Tree α)) → List (Tree α)
  | [] => []
  | t :: ts => graft t :: graftL ts
end

/-- `dict_to_pytree` (io.py:188-218). -/
def dictToTree {α β : Type} (d : Tree α) (target : Tree β) : Except PyErr (Tree α) :=
  match dictKeys target with
  | .error e => .error e
  | .ok ks =>
    match mapExcept (getPath d) ks with
    | .error e => .error e
    | .ok vs => (Tree.unflatten target vs).map graft

/-- `"/".join(key_tuple)` (io.py:443, 560). -/
def joinPath (p : Path) : Key := ['/'].intercalate p

end JaxSgmc
