import Verif.Model.ListMap

/-!
# Saving samples to JSON files

Models `JSONCollector` (`jax_sgmc/io.py:301-375`).  A sample arrives as the list of its leaves
(io.py:696-704); a leaf is an abstract value.  The serialisation by `ujson` is not modelled: the
content of a file is the stacked list of leaves passed to `ujson.dump`.
-/

namespace JaxSgmc

variable {α : Type}

/-- `JSONCollector`: the samples of every chain, the write frequency, the written files (latest
first).
(io.py:310-316) -/
structure JsonColl (α : Type) where
  freq : Nat
  chains : List (List (List α))
  files : List (Key × List (List α))

/-- `JSONCollector(dir, write_frequency)` (io.py:310-316). -/
def jsonNew (freq : Nat) : JsonColl α := ⟨freq, [], []⟩

/-- `f"chain_{chain_id}_iteration_{iteration}.json"` (io.py:359). -/
def jsonName (c i : Nat) : Key :=
  ['c','h','a','i','n','_'] ++ Nat.toDigits 10 c ++
    ['_','i','t','e','r','a','t','i','o','n','_'] ++ Nat.toDigits 10 i ++ ['.','j','s','o','n']

/-- `register_chain` (io.py:322-331). -/
def jsonRegister (C : JsonColl α) : JsonColl α × Nat :=
  ({ C with chains := C.chains ++ [[]] }, C.chains.length)

/-- `_write_file` (io.py:358-371): `tree_map` raises `ValueError` if the samples have different
numbers of leaves and `TypeError` without a sample. -/
def jsonWrite (C : JsonColl α) (c i : Nat) (samples : List (List α)) :
    Except PyErr (JsonColl α) :=
  match samples with
  | [] => .error .typeError
  | s :: _ =>
    if samples.all (fun s' => s'.length == s.length) then
      .ok { C with files := (jsonName c i, pyZip samples) :: C.files }
    else .error .valueError

/-- `save` (io.py:333-343).  The number of samples (`_sample_count`) is the length of the list. -/
def jsonSave (C : JsonColl α) (c : Nat) (values : List α) : Except PyErr (JsonColl α) :=
  match C.chains[c]? with
  | none => .error .indexError
  | some samples =>
    let C' := { C with chains := C.chains.set c (samples ++ [values]) }
    if C.freq > 0 ∧ (samples.length + 1) % C.freq = 0 then
      jsonWrite C' c (samples.length + 1) (samples ++ [values])
    else .ok C'

/-- `finalize` (io.py:345-348). -/
def jsonFinalize (C : JsonColl α) (c : Nat) : Except PyErr (JsonColl α) :=
  match C.chains[c]? with
  | none => .error .indexError
  | some samples =>
    if samples.length > 0 then jsonWrite C c samples.length samples else .ok C

/-- The calls of the methods of the collector.
(test driver: histories of the calls of io.py:322-348) -/
inductive JsonOp (α : Type) where
  | register : JsonOp α
  | save : Nat → List α → JsonOp α
  | finalize : Nat → JsonOp α

/-- One call.
(io.py:322-348) -/
def jsonStep (C : JsonColl α) : JsonOp α → Except PyErr (JsonColl α)
  | .register => .ok (jsonRegister C).1
  | .save c values => jsonSave C c values
  | .finalize c => jsonFinalize C c

/-- A sequence of calls; stops at the first exception.
(histories of io.py:322-348) -/
def jsonRun (C : JsonColl α) : List (JsonOp α) → Except PyErr (JsonColl α)
  | [] => .ok C
  | op :: ops =>
    match jsonStep C op with
    | .error e => .error e
    | .ok C' => jsonRun C' ops

end JaxSgmc
