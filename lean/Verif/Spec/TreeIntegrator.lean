import Verif.Spec.TreeUtil
import Verif.Model.TreeIntegrator

/-! # Vocabulary: trees of arrays and the vectors of their entries -/

namespace JaxSgmc.Spec

open JaxSgmc

/-- In which leaf the entry number `i` of a flattened tree lies, and its position in the leaf; the argument is the
list of the sizes of the leaves. -/
def entryPlace : List Nat → Nat → Nat × Nat
  | [], i => (0, i)
  | n :: ns, i => if i < n then (0, i) else ((entryPlace ns (i - n)).1 + 1, (entryPlace ns (i - n)).2)

/-- The layout of the entries of a tree. -/
def layoutOf (t : Tree (Arr ℝ)) : Layout (Fin (ravel t).length) where
  leaves := t.leaves.length
  leaf i := (entryPlace (t.leaves.map fun a => a.data.length) i).1
  pos i := (entryPlace (t.leaves.map fun a => a.data.length) i).2
  size j := ((t.leaves.map fun a => a.data.length)[j]?).getD 0

/-- `t` is a tree of the shape of `x0` with the entries `v`. -/
def Entries (x0 t : Tree (Arr ℝ)) (v : Fin (ravel x0).length → ℝ) : Prop :=
  ValidTree t ∧ SameShape t x0 ∧ ravel t = List.ofFn v

/-- A stochastic gradient on trees of the shape of `x0` and the same on vectors. -/
def SameGradient {β μ : Type} (x0 : Tree (Arr ℝ)) (sgT : StochGradLikT β μ)
    (sg : StochGradLik (Fin (ravel x0).length) β μ) : Prop :=
  ∀ t v, Entries x0 t v → ∀ b m, (sgT t b m).1 = (sg v b m).1 ∧ Entries x0 (sgT t b m).2 (sg v b m).2

/-- The tensor on trees and the tensor on vectors. -/
def SameTensor (x0 : Tree (Arr ℝ)) : Tensor ℝ → VTensor (Fin (ravel x0).length) → Prop
  | .diagonal t, .diag d => Entries x0 t d
  | .full m, .full a => m = List.ofFn fun i => List.ofFn (a i)
  | _, _ => False

/-- A one- or two-dimensional array and the tensor it stands for. -/
def SameQuantity {n : Nat} : List ℝ ⊕ List (List ℝ) → VTensor (Fin n) → Prop
  | .inl q, .diag d => q = List.ofFn d
  | .inr m, .full a => m = List.ofFn fun i => List.ofFn (a i)
  | _, _ => False

/-- A strategy on one-dimensional arrays (before decoration) and the same strategy on vectors with `n` entries;
`rel` relates their states. -/
structure SameStrategy {β A A' : Type} (n : Nat) (flatBatch : β → List ℝ) (S : FlatStrategy A)
    (ad : AdaptStrategy (Fin n) β A') (rel : A → A' → Prop) : Prop where
  update : ∀ a a' (x g : Fin n → ℝ) b, rel a a' →
    ∃ a2, S.update a [List.ofFn x, List.ofFn g, flatBatch b] = .ok a2 ∧ rel a2 (ad.update a' x g b)
  get : ∀ a a' (x g : Fin n → ℝ) b, rel a a' →
    ∃ q1 q2, S.get a [List.ofFn x, List.ofFn g, flatBatch b] =
        .ok [q1, q2, .inl (List.ofFn (ad.get a' x g b).gamma)] ∧
      SameQuantity q1 (ad.get a' x g b).gInv ∧ SameQuantity q2 (ad.get a' x g b).sqrtGInv

/-- A state of SGLD on trees of the shape of `x0` and the same on vectors; `rel` relates the states of the
adaption. -/
def SameLangevin {κ δ μ A A' : Type} (x0 : Tree (Arr ℝ)) (rel : A → A' → Prop) (t : LangevinStateT κ δ μ A)
    (s : LangevinState (Fin (ravel x0).length) κ δ μ A') : Prop :=
  Entries x0 t.latent s.latent ∧ t.modelState = s.modelState ∧ t.key = s.key ∧ t.dataState = s.dataState ∧
    t.potential = s.potential ∧ t.variance = s.variance ∧ t.drawn = s.drawn ∧
    (match t.adaptState, s.adaptState with
      | none, none => True
      | some a, some a' => (∃ v, Entries x0 a.template v) ∧ rel a.state a'
      | _, _ => False)

end JaxSgmc.Spec
