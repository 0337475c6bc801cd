import Verif.Model.Saving

/-!
# The npz files of the memory collector

Models the last statement of `MemoryCollector.finalize` in `jax_sgmc/io.py`,
`onp.savez(output_file, **dict(zip(names, arrays)))`.  `Verif.Model.Saving` keeps the pairs of names
and arrays (`MemCollector.files`); here they pass through the dictionary and the call of `savez`.
Simplification: an npz file is the list of its arrays by name.
-/

namespace JaxSgmc

variable {β : Type}

/-- `d[name] = value`: an existing name keeps its position. (io.py:591) -/
def npzAssign (d : List (Key × β)) (x : Key × β) : List (Key × β) :=
  if x.1 ∈ d.map Prod.fst then d.map (fun y => if y.1 = x.1 then x else y) else d ++ [x]

/-- `dict(zip(names, arrays))`: later arrays replace earlier ones of the same name. (io.py:591) -/
def npzDict (items : List (Key × β)) : List (Key × β) := items.foldl npzAssign []

/-- The name of the first parameter of `numpy.savez`. (io.py:589-591) -/
def savezParam : Key := ['f','i','l','e']

/-- `onp.savez(output_file, **arrays)`: an array with the name of the positional parameter is
rejected by Python with `TypeError`. (io.py:589-591) -/
def savez (arrays : List (Key × β)) : Except PyErr (List (Key × β)) :=
  if savezParam ∈ arrays.map Prod.fst then .error .typeError else .ok arrays

/-- The content of the file written for the pairs of names and arrays. (io.py:589-591) -/
def npzFile (items : List (Key × β)) : Except PyErr (List (Key × β)) := savez (npzDict items)

end JaxSgmc
