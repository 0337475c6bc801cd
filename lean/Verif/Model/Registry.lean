import Verif.Model.Tree

/-!
# The registry of rules which translate nodes to dictionaries

Models `register_dictionize_rule`, `_dictionize` and `pytree_to_dict` of `jax_sgmc/io.py` for pytrees
with nodes of any class.  An object of a class other than `list`, `tuple` and `dict` is represented
as `.ntuple name names`, where `name` is the name of its class and `names` are its keys or field
names (e.g. a named tuple, an `OrderedDict`, a class registered with `register_pytree_node`); which
classes it is an instance of is a parameter.  Rules of the user are arbitrary functions and may
raise an exception.
-/

namespace JaxSgmc

/-- The classes of nodes: `list`, `tuple`, `dict` and all others, by name. (io.py:69, 220-234) -/
inductive PyClass
  | list
  | tuple
  | dict
  | other (name : Key)
  deriving DecidableEq, Repr

/-- `type(node)`. (io.py:110) -/
def Kind.cls : Kind → PyClass
  | .list => .list
  | .tuple => .tuple
  | .dict _ => .dict
  | .ntuple n _ => .other n

/-- What Python knows about classes: `issubclass(a, b)` and `hasattr(node, '_fields')`.
(io.py:110, 231) -/
structure ClassTable where
  isSub : PyClass → PyClass → Bool
  hasFields : PyClass → Bool

/-- A rule: the items of the dictionary for a node with the given children. (io.py:71-96) -/
abbrev Rule (α : Type) := Kind → List (Tree α) → Except PyErr (List (Key × Tree α))

/-- `_dictionize_rules`: the types with their rules in the order of their registration.
(io.py:68-69) -/
abbrev Registry (α : Type) := List (PyClass × Rule α)

variable {α : Type}

/-- `register_dictionize_rule(type)(rule)` (io.py:71-96). -/
def register (reg : Registry α) (c : PyClass) (r : Rule α) : Except PyErr (Registry α) :=
  if c ∈ reg.map Prod.fst then .error .assertionError else .ok (reg ++ [(c, r)])

/-- The keys or field names of a node. (io.py:221-232) -/
def Kind.ownNames : Kind → List Key
  | .dict ks => ks
  | .ntuple _ fs => fs
  | _ => []

/-- `((f"list_element_{idx}", value) for idx, value in enumerate(some_list))` (io.py:227, 234). -/
def enumItems (ts : List (Tree α)) : List (Key × Tree α) :=
  ((List.range ts.length).map elemName).zip ts

/-- `_dict_to_dict` (io.py:220-222). -/
def dictRule : Rule α := fun k ts => .ok (k.ownNames.zip ts)

/-- `_list_to_dict` (io.py:224-226). -/
def listRule : Rule α := fun _ ts => .ok (enumItems ts)

/-- `_namedtuple_to_dict` (io.py:228-233). -/
def tupleRule (ct : ClassTable) : Rule α := fun k ts =>
  if ct.hasFields k.cls then .ok (k.ownNames.zip ts) else .ok (enumItems ts)

/-- The rules after the import of the module (io.py:220-233; haiku is not installed). -/
def builtinRules (ct : ClassTable) : Registry α :=
  [(.dict, dictRule), (.list, listRule), (.tuple, tupleRule ct)]

/-- `f"unknown~pytree~leaf~{idx}"` (io.py:100). -/
def unknownName (i : Nat) : Key :=
  ['u','n','k','n','o','w','n','~','p','y','t','r','e','e','~','l','e','a','f','~'] ++ Nat.toDigits 10 i

/-- `_default_dictionize` (io.py:98-101). -/
def defaultItems (ts : List (Tree α)) : List (Key × Tree α) :=
  ((List.range (Tree.leavesL ts).length).map unknownName).zip ((Tree.leavesL ts).map Tree.leaf)

/-- `_dictionize` (io.py:103-113): the first registered type of which the node is an instance. -/
def dictionize (ct : ClassTable) (reg : Registry α) (k : Kind) (ts : List (Tree α)) :
    Except PyErr (List (Key × Tree α)) :=
  if Tree.leavesL ts = [] then .ok []
  else
    match reg.find? (fun e => ct.isSub k.cls e.1) with
    | some e => e.2 k ts
    | none => .ok (defaultItems ts)

/-- The assignment `d[key] = value`: an existing key keeps its position. (io.py:143-145) -/
def assignItem (d : List (Key × Tree α)) (x : Key × Tree α) : List (Key × Tree α) :=
  if x.1 ∈ d.map Prod.fst then d.map (fun y => if y.1 = x.1 then x else y) else d ++ [x]

/-- A dictionary comprehension: later items replace earlier ones with the same key.
(io.py:143-145) -/
def dictComp (items : List (Key × Tree α)) : Tree α := mkDict (items.foldl assignItem [])

/-- `pytree_to_dict` (io.py:115-145) for nodes of any class.  The first argument is the number of
nested calls allowed by Python's recursion limit (exceeding it raises `RecursionError`, a
`RuntimeError`): a rule of the user may return the node itself. -/
def toDictR (ct : ClassTable) (reg : Registry α) : Nat → Tree α → Except PyErr (Tree α)
  | 0, _ => .error .runtimeError
  | _ + 1, .leaf a => .ok (.leaf a)
  | _ + 1, .none => .ok .none
  | _ + 1, .node k [] => .ok (.node k [])
  | n + 1, .node k (t :: ts) =>
    match dictionize ct reg k (t :: ts) with
    | .error e => .error e
    | .ok items =>
      match mapExcept (fun x => (toDictR ct reg n x.2).map (fun d => (x.1, d))) items with
      | .error e => .error e
      | .ok ds => .ok (dictComp ds)

/-- `pytree_dict_keys` (io.py:147-186). -/
def dictKeysR (ct : ClassTable) (reg : Registry α) (limit : Nat) (t : Tree α) :
    Except PyErr (List Path) :=
  match toDictR ct reg limit t with
  | .error e => .error e
  | .ok d => paths d

/-- `dict_to_pytree` (io.py:188-218). -/
def dictToTreeR (ct : ClassTable) (reg : Registry α) (limit : Nat) (d target : Tree α) :
    Except PyErr (Tree α) :=
  match dictKeysR ct reg limit target with
  | .error e => .error e
  | .ok ks =>
    match mapExcept (getPath d) ks with
    | .error e => .error e
    | .ok vs => (Tree.unflatten target vs).map graft

end JaxSgmc
