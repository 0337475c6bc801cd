/-!
# Common vocabulary of the model

Python exceptions are modelled as values of `PyErr`.
-/

namespace JaxSgmc

/-- The Python exceptions that occur in the modelled code.
(e.g. data/core.py:439-449, data/numpy_loader.py:54-58, scheduler.py:647) -/
inductive PyErr
  | valueError
  | assertionError
  | indexError
  | keyError
  | runtimeError
  | unboundLocalError
  | zeroDivisionError
  | attributeError
  | typeError
  | nameError
  | notImplementedError
  deriving DecidableEq, Repr

/-- Numpy fancy indexing `xs[idx]` for a single (non-negative) index: raises `IndexError` if the
index is out of range.  (Indices are never negative in the modelled code.)
(numpy semantics used at data/numpy_loader.py:330-336) -/
def npIndex {α : Type} (xs : List α) (i : Nat) : Except PyErr α :=
  match xs[i]? with
  | some x => .ok x
  | none => .error .indexError

/-- Numpy fancy indexing `xs[idxs]` with a list of indices.
(numpy semantics used at data/numpy_loader.py:330-336) -/
def npTake {α : Type} (xs : List α) : List Nat → Except PyErr (List α)
  | [] => .ok []
  | i :: is =>
    match npIndex xs i with
    | .error e => .error e
    | .ok x =>
      match npTake xs is with
      | .error e => .error e
      | .ok r => .ok (x :: r)

/-- Numpy fancy assignment `xs[idxs] = vals` (sequential semantics; the index lists of the
modelled code contain no repetitions).  Raises `IndexError` for an index out of range and
`ValueError` if the shapes do not match.
(numpy semantics used at data/numpy_loader.py:391-460) -/
def npPut {α : Type} (xs : List α) : List Nat → List α → Except PyErr (List α)
  | [], [] => .ok xs
  | i :: is, v :: vs => if i < xs.length then npPut (xs.set i v) is vs else .error .indexError
  | _, _ => .error .valueError

end JaxSgmc
