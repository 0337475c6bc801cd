import Verif.Model.Tree

/-!
# Vocabulary for stating properties of pytrees
-/

namespace JaxSgmc.Spec

open JaxSgmc

variable {α : Type}

mutual
/-- A pytree that can exist in Python: the keys of a dict are distinct (and, in our representation,
sorted), the fields of a named tuple are distinct, and there is one child per key or field. -/
def WF : Tree α → Prop
  | .leaf _ => True
  | .none => True
  | .node k ts =>
    (match k with
     | .dict ks => ks.length = ts.length ∧ ks.Pairwise (· < ·)
     | .ntuple _ fs => fs.length = ts.length ∧ fs.Nodup
     | _ => True) ∧ WFL ts
def WFL : List (Tree α) → Prop
  | [] => True
  | t :: ts => WF t ∧ WFL ts
end

mutual
/-- The leaves of a pytree from left to right, each with its path: the keys, field names and
`list_element_i` on the way from the root to the leaf. -/
def namedLeaves : Tree α → List (Path × α)
  | .leaf a => [([], a)]
  | .none => []
  | .node k ts => namedLeavesL (childNames k ts.length) ts
def namedLeavesL : List Key → List (Tree α) → List (Path × α)
  | n :: ns, t :: ts => (namedLeaves t).map (fun x => (n :: x.1, x.2)) ++ namedLeavesL ns ts
  | _, _ => []
end

mutual
/-- All children appear in the order of their names: the fields of named tuples are declared in
alphabetical order and lists and tuples have no more than ten elements (`list_element_10` is
smaller than `list_element_2`). -/
def Ordered : Tree α → Prop
  | .leaf _ => True
  | .none => True
  | .node k ts =>
    (match k with
     | .ntuple _ fs => fs.Pairwise (· < ·)
     | .dict _ => True
     | _ => ts.length ≤ 10) ∧ OrderedL ts
def OrderedL : List (Tree α) → Prop
  | [] => True
  | t :: ts => Ordered t ∧ OrderedL ts
end

mutual
/-- A nested dictionary: all containers are dicts. -/
def AllDicts : Tree α → Prop
  | .leaf _ => True
  | .none => True
  | .node (.dict _) ts => AllDictsL ts
  | .node _ _ => False
def AllDictsL : List (Tree α) → Prop
  | [] => True
  | t :: ts => AllDicts t ∧ AllDictsL ts
end

mutual
/-- The tree contains an empty list, tuple or named tuple below nodes that have leaves. -/
def hasEmptySeq : Tree α → Bool
  | .leaf _ => false
  | .none => false
  | .node (.dict _) [] => false
  | .node _ [] => true
  | .node _ (t :: ts) =>
    if Tree.leavesL (t :: ts) = [] then false else hasEmptySeq t || hasEmptySeqL ts
def hasEmptySeqL : List (Tree α) → Bool
  | [] => false
  | t :: ts => hasEmptySeq t || hasEmptySeqL ts
end

end JaxSgmc.Spec
