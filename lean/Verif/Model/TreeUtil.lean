import Verif.Model.Tree
import Mathlib.Algebra.Ring.Defs

/-!
# Arithmetic on pytrees

Models `jax_sgmc/util/tree_util.py`.  An array is its shape and its entries in row-major order.
-/

namespace JaxSgmc

/-- An array (`jnp.ndarray`): shape and entries in row-major order.
(util/tree_util.py:24) -/
structure Arr (R : Type) where
  shape : List Nat
  data : List R
  deriving DecidableEq, Repr

variable {R : Type}

namespace Arr

/-- The number of entries agrees with the shape.
(invariant of the arrays of util/tree_util.py:24) -/
def Valid (a : Arr R) : Prop := a.data.length = a.shape.prod

/-- The shape to which two shapes are broadcast, all in reversed order (last dimension first): a dimension of size one
and a missing dimension fit to everything.
(broadcasting of JAX used at util/tree_util.py:69, 99-102) -/
def bcast : List Nat → List Nat → Option (List Nat)
  | [], bs => some bs
  | as, [] => some as
  | a :: as, b :: bs =>
    if a = b ∨ b = 1 then (bcast as bs).map (a :: ·)
    else if a = 1 then (bcast as bs).map (b :: ·)
    else none

/-- The position in the data of an array (shape `ds`) of the entry `k` of the result (shape `rs`), both shapes in reversed
order: in a dimension of size one it is always the same entry.
(broadcasting of JAX used at util/tree_util.py:69, 99-102) -/
def bcastIndex : List Nat → List Nat → Nat → Nat
  | r :: rs, d :: ds, k => (if d = 1 then 0 else k % r) + d * bcastIndex rs ds (k / r)
  | _, _, _ => 0

/-- The entries of the array broadcast to a shape.
(broadcasting of JAX used at util/tree_util.py:69, 99-102) -/
def broadcastData (shape : List Nat) (a : Arr R) : List R :=
  (List.range shape.prod).filterMap fun k => a.data[bcastIndex shape.reverse a.shape.reverse k]?

/-- An element-wise binary operation: the arrays are broadcast to a common shape.  Shapes which do not fit are a
`TypeError` (same number of dimensions) or a `ValueError`.
(semantics of JAX used at util/tree_util.py:69, 99-102) -/
def zipWith (f : R → R → R) (a b : Arr R) : Except PyErr (Arr R) :=
  match bcast a.shape.reverse b.shape.reverse with
  | some s => .ok ⟨s.reverse, List.zipWith f (broadcastData s.reverse a) (broadcastData s.reverse b)⟩
  | none => if a.shape.length = b.shape.length then .error .typeError else .error .valueError

/-- An element-wise operation.
(semantics of JAX used at util/tree_util.py:83-86) -/
def map (f : R → R) (a : Arr R) : Arr R := ⟨a.shape, a.data.map f⟩

end Arr

/-- `map` of a binary function which may raise an exception; `zip` stops at the shorter list.
(used at util/tree_util.py:131-133) -/
def zipExcept {α β γ : Type} (f : α → β → Except PyErr γ) : List α → List β → Except PyErr (List γ)
  | a :: as, b :: bs =>
    match f a b with
    | .error e => .error e
    | .ok c =>
      match zipExcept f as bs with
      | .error e => .error e
      | .ok cs => .ok (c :: cs)
  | _, _ => .ok []

open Classical in
/-- `tree_util.tree_map` with two trees: `ValueError` if the structures differ.
(semantics of JAX used at util/tree_util.py:69, 99) -/
noncomputable def treeMap2 {α β γ : Type} (f : α → β → Except PyErr γ) (a : Tree α) (b : Tree β) :
    Except PyErr (Tree γ) :=
  if a.shape = b.shape then
    match zipExcept f a.leaves b.leaves with
    | .error e => .error e
    | .ok cs => Tree.unflatten a cs
  else .error .valueError

/-- `tree_multiply` (tree_util.py:58-69). -/
noncomputable def treeMultiply [Mul R] (a b : Tree (Arr R)) : Except PyErr (Tree (Arr R)) :=
  treeMap2 (Arr.zipWith (· * ·)) a b

/-- `tree_scale` (tree_util.py:72-86). -/
def treeScale [Mul R] (c : R) (t : Tree (Arr R)) : Tree (Arr R) := t.map (Arr.map (c * ·))

/-- `tree_add` (tree_util.py:89-102). -/
noncomputable def treeAdd [Add R] (a b : Tree (Arr R)) : Except PyErr (Tree (Arr R)) :=
  treeMap2 (Arr.zipWith (· + ·)) a b

/-- The flat vector of `ravel_pytree`.
(semantics of JAX used at util/tree_util.py:53, 116) -/
def ravel (t : Tree (Arr R)) : List R := t.leaves.flatMap Arr.data

/-- Splits a vector in pieces of the given sizes.
(semantics of JAX used at util/tree_util.py:116) -/
def splitSizes : List Nat → List R → List (List R)
  | [], _ => []
  | n :: ns, xs => xs.take n :: splitSizes ns (xs.drop n)

/-- The function `unravel` returned by `ravel_pytree(t)`: `ValueError` for a vector of a different
size.
(used at util/tree_util.py:55, 117) -/
def unravel (t : Tree (Arr R)) (v : List R) : Except PyErr (Tree (Arr R)) :=
  if v.length = (ravel t).length then
    Tree.unflatten t (List.zipWith Arr.mk (t.leaves.map Arr.shape)
      (splitSizes (t.leaves.map (fun a => a.data.length)) v))
  else .error .valueError

/-- `jnp.sum(jnp.multiply(a, b))` of two vectors.
(util/tree_util.py:133) -/
def dotList [Semiring R] (a b : List R) : R := (List.zipWith (· * ·) a b).sum

/-- `jnp.matmul(matrix, vector)`: `TypeError` if the contracting dimensions do not match.  The matrix
is the list of its rows.
(semantics of JAX used at util/tree_util.py:53, 117) -/
def matVec [Semiring R] (m : List (List R)) (v : List R) : Except PyErr (List R) :=
  if m.all (fun row => row.length == v.length) then .ok (m.map (fun row => dotList row v))
  else .error .typeError

/-- `tree_matmul` (tree_util.py:105-117). -/
def treeMatmul [Semiring R] (m : List (List R)) (t : Tree (Arr R)) : Except PyErr (Tree (Arr R)) :=
  match matVec m (ravel t) with
  | .error e => .error e
  | .ok v => unravel t v

/-- `tree_dot` (tree_util.py:119-133): `zip` of the leaves of both trees. -/
def treeDot [Semiring R] (a b : Tree (Arr R)) : Except PyErr R :=
  match zipExcept (fun x y => (Arr.zipWith (· * ·) x y).map (fun z => z.data.sum))
    a.leaves b.leaves with
  | .error e => .error e
  | .ok cs => .ok cs.sum

/-- `Tensor` (tree_util.py:27-36): the payload depends on `ndim`.  `ndim ∉ {0, 1, 2}` is
`other`. -/
inductive Tensor (R : Type)
  | scalar (c : R)
  | diagonal (d : Tree (Arr R))
  | full (m : List (List R))
  | other (ndim : Int)

/-- `tensor_matmul` (tree_util.py:38-56). -/
noncomputable def tensorMatmul [Semiring R] (m : Tensor R) (v : Tree (Arr R)) :
    Except PyErr (Tree (Arr R)) :=
  match m with
  | .scalar c => .ok (treeScale c v)
  | .diagonal d => treeMultiply d v
  | .full m => treeMatmul m v
  | .other _ => .error .notImplementedError

end JaxSgmc
