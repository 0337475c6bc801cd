import Verif.Model.Json

/-!
# Files on the disk while samples are saved

Models the writes of `JSONCollector._write_file` (`jax_sgmc/io.py:358-371`) to the disk one by one, so
that the process may be killed between any two of them.  Simplification: what is written reaches the
disk in program order, character by character (buffering only makes the steps coarser); a loss of power
with reordered writes is not modelled.
-/

namespace JaxSgmc

variable {α : Type}

/-- The values passed to `ujson.dump`: nested lists of numbers, a number being given by its text.
(io.py:366-371: results of `leaf.tolist()`) -/
inductive JVal where
  | num : Key → JVal
  | arr : List JVal → JVal

mutual
/-- `ujson.dump`: no white space.
(io.py:371) -/
def JVal.render : JVal → Key
  | .num s => s
  | .arr [] => ['[', ']']
  | .arr (x :: xs) => '[' :: (x.render ++ JVal.renderTail xs)
/-- The further entries of a list and the closing bracket.
(io.py:371) -/
def JVal.renderTail : List JVal → Key
  | [] => [']']
  | x :: xs => ',' :: (x.render ++ JVal.renderTail xs)
end

/-- The text of a file: the list of the stacked leaves, every one of them a list with one entry per
sample (io.py:362-371).  `toList` is `tolist` of a leaf of one sample. -/
def jsonDump (toList : α → JVal) (content : List (List α)) : Key :=
  (JVal.arr (content.map fun col => .arr (col.map toList))).render

/-- The files of the directory.
(io.py:312-313) -/
abbrev Disk := Key → Option Key

/-- What the process does to the disk, step by step: `filename.touch()`, `open(filename, "w")`, one
more character written.
(io.py:360, 370, 371) -/
inductive DiskOp where
  | touch : Key → DiskOp
  | truncate : Key → DiskOp
  | append : Key → Char → DiskOp

/-- The effect of one step.
(io.py:360, 370, 371) -/
def diskStep (d : Disk) : DiskOp → Disk
  | .touch f => fun g => if g = f then some ((d f).getD []) else d g
  | .truncate f => fun g => if g = f then some [] else d g
  | .append f ch => fun g => if g = f then (d f).map (· ++ [ch]) else d g

/-- The effect of a sequence of steps.
(io.py:358-371) -/
def diskRun (d : Disk) : List DiskOp → Disk
  | [] => d
  | s :: ss => diskRun (diskStep d s) ss

/-- The steps of `_write_file` (io.py:358-371): the file is touched before the samples are stacked,
which may fail. -/
def jsonFileOps (toList : α → JVal) (c i : Nat) (samples : List (List α)) : List DiskOp :=
  .touch (jsonName c i) ::
    match samples with
    | [] => []
    | s :: _ =>
      if samples.all (fun s' => s'.length == s.length) then
        .truncate (jsonName c i) ::
          (jsonDump toList (pyZip samples)).map (.append (jsonName c i))
      else []

/-- The steps of one call of a method of the collector (io.py:322-348). -/
def jsonCallOps (toList : α → JVal) (C : JsonColl α) : JsonOp α → List DiskOp
  | .register => []
  | .save c values =>
    match C.chains[c]? with
    | none => []
    | some samples =>
      if C.freq > 0 ∧ (samples.length + 1) % C.freq = 0 then
        jsonFileOps toList c (samples.length + 1) (samples ++ [values])
      else []
  | .finalize c =>
    match C.chains[c]? with
    | none => []
    | some samples =>
      if samples.length > 0 then jsonFileOps toList c samples.length samples else []

/-- The steps of a sequence of calls; stops at the first exception.
(histories of io.py:322-348) -/
def jsonTrace (toList : α → JVal) (C : JsonColl α) : List (JsonOp α) → List DiskOp
  | [] => []
  | op :: ops =>
    jsonCallOps toList C op ++
      match jsonStep C op with
      | .error _ => []
      | .ok C' => jsonTrace toList C' ops

/-- The disk if the process is killed after `k` steps of the calls `ops`; `d0` are the files which were
in the directory before.
(io.py:310-371) -/
def jsonCrash (toList : α → JVal) (d0 : Disk) (freq : Nat) (ops : List (JsonOp α)) (k : Nat) : Disk :=
  diskRun d0 ((jsonTrace toList (jsonNew freq) ops).take k)

end JaxSgmc
