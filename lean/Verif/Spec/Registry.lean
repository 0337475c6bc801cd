import Verif.Model.Registry
import Verif.Spec.Tree

/-!
# Vocabulary for stating properties of the registered rules
-/

namespace JaxSgmc.Spec

open JaxSgmc

variable {α : Type}

/-- Every class is a subclass of itself, and `list`, `tuple` and `dict` are unrelated. -/
structure PythonClasses (ct : ClassTable) : Prop where
  refl : ∀ c, ct.isSub c c = true
  list_tuple : ct.isSub .list .tuple = false
  list_dict : ct.isSub .list .dict = false
  tuple_list : ct.isSub .tuple .list = false
  tuple_dict : ct.isSub .tuple .dict = false
  dict_list : ct.isSub .dict .list = false
  dict_tuple : ct.isSub .dict .tuple = false
  tuple_fields : ct.hasFields .tuple = false

/-- The rules after the given calls of `register_dictionize_rule`, starting with those of the
module; a call which raises an exception has no effect. -/
def registryAfter (ct : ClassTable) (calls : List (PyClass × Rule α)) : Registry α :=
  calls.foldl (fun reg e => match register reg e.1 e.2 with | .ok reg' => reg' | .error _ => reg)
    (builtinRules ct)

/-- The result of `pytree_to_dict` for a node if its items are `items`: all values are translated and
the dictionary of the results is built. -/
def translated (translate : Tree α → Except PyErr (Tree α)) (items : List (Key × Tree α)) :
    Except PyErr (Tree α) :=
  (mapExcept (fun x => (translate x.2).map (fun d => (x.1, d))) items).map dictComp

mutual
/-- The number of nested calls needed for the tree. -/
def height : Tree α → Nat
  | .leaf _ => 1
  | .none => 1
  | .node _ ts => heightL ts + 1
def heightL : List (Tree α) → Nat
  | [] => 1
  | t :: ts => max (height t) (heightL ts)
end

mutual
/-- No node of the tree is an instance of the class `c`. -/
def NoInstance (ct : ClassTable) (c : PyClass) : Tree α → Prop
  | .leaf _ => True
  | .none => True
  | .node k ts => ct.isSub k.cls c = false ∧ NoInstanceL ct c ts
def NoInstanceL (ct : ClassTable) (c : PyClass) : List (Tree α) → Prop
  | [] => True
  | t :: ts => NoInstance ct c t ∧ NoInstanceL ct c ts
end

/-- A rule which returns only children of the node. -/
def ChildrenOnly (r : Rule α) : Prop :=
  ∀ k ts items, r k ts = .ok items → ∀ x ∈ items, x.2 ∈ ts

/-- A rule which gives every child of a node exactly one name, and different children different
names. -/
def NamesChildren (r : Rule α) (k : Kind) (ts : List (Tree α)) : Prop :=
  ∃ items, r k ts = .ok items ∧ (items.map Prod.snd).Perm ts ∧ (items.map Prod.fst).Nodup

/-- In addition, the children are returned in the order of the leaves and this is the order of their
names. -/
def NamesChildrenInOrder (r : Rule α) (k : Kind) (ts : List (Tree α)) : Prop :=
  ∃ items, r k ts = .ok items ∧ items.map Prod.snd = ts ∧
    (items.map Prod.fst).Pairwise (· < ·)

mutual
/-- All nodes of the tree satisfy `P`. -/
def AllNodes (P : Kind → List (Tree α) → Prop) : Tree α → Prop
  | .leaf _ => True
  | .none => True
  | .node k ts => P k ts ∧ AllNodesL P ts
def AllNodesL (P : Kind → List (Tree α) → Prop) : List (Tree α) → Prop
  | [] => True
  | t :: ts => AllNodes P t ∧ AllNodesL P ts
end

/-- The node is a dict or a named tuple, or an instance of a subclass: it has one name per child. -/
def HasNames (ct : ClassTable) (k : Kind) : Prop :=
  ct.isSub k.cls .dict = true ∨ (ct.isSub k.cls .tuple = true ∧ ct.hasFields k.cls = true)

/-- A pytree that can exist in Python: dicts, named tuples and instances of their subclasses have
distinct names, one per child (those of a dict are sorted in our representation); a node without
children has no names. -/
def WFC (ct : ClassTable) (t : Tree α) : Prop :=
  AllNodes (fun k ts => (HasNames ct k → k.ownNames.length = ts.length ∧ k.ownNames.Nodup) ∧
    (k.cls = .dict → k.ownNames.Pairwise (· < ·)) ∧ (ts = [] → k.ownNames = [])) t

/-- All nodes are lists, tuples, dicts or named tuples. -/
def StandardNodes (ct : ClassTable) (t : Tree α) : Prop :=
  AllNodes (fun k _ => k.cls = .list ∨ k.cls = .tuple ∨ k.cls = .dict ∨
    (ct.isSub k.cls .tuple = true ∧ ct.hasFields k.cls = true ∧
      ct.isSub k.cls .list = false ∧ ct.isSub k.cls .dict = false)) t

/-- The rules registered by the user name the children of all nodes of the tree to which they may be
applied. -/
def RulesNameChildren (ct : ClassTable) (calls : List (PyClass × Rule α)) (t : Tree α) : Prop :=
  AllNodes (fun k ts => ∀ e ∈ calls, ct.isSub k.cls e.1 = true → NamesChildren e.2 k ts) t

/-- No registered type is a superclass of the class of the node. -/
def UnknownNode (ct : ClassTable) (calls : List (PyClass × Rule α)) (k : Kind) : Prop :=
  ct.isSub k.cls .list = false ∧ ct.isSub k.cls .tuple = false ∧ ct.isSub k.cls .dict = false ∧
    ∀ e ∈ calls, ct.isSub k.cls e.1 = false

/-- The names of all nodes are in the order of the leaves: the rules of the user return the children
in the order of the leaves and name them in increasing order; named tuples and other nodes with
names declare them in alphabetical order; lists and tuples have no more than ten elements; objects of
unregistered classes have no more than ten leaves. -/
def RulesInOrder (ct : ClassTable) (calls : List (PyClass × Rule α)) (t : Tree α) : Prop :=
  AllNodes (fun k ts => (∀ e ∈ calls, ct.isSub k.cls e.1 = true → NamesChildrenInOrder e.2 k ts) ∧
    (HasNames ct k → k.ownNames.Pairwise (· < ·)) ∧
    (ct.isSub k.cls .list = true ∨ ct.isSub k.cls .tuple = true → ts.length ≤ 10) ∧
    (UnknownNode ct calls k → (Tree.leavesL ts).length ≤ 10)) t

end JaxSgmc.Spec
