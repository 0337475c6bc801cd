import Verif.Spec.Json
import Verif.Model.Crash

/-!
# Vocabulary for crashes while samples are saved
-/

namespace JaxSgmc.Spec

open JaxSgmc

variable {α : Type}

/-- `pre` are calls which have returned when the process is killed after `k` steps of the calls
`ops`. -/
structure Returned (toList : α → JVal) (freq : Nat) (ops : List (JsonOp α)) (k : Nat)
    (pre : List (JsonOp α)) : Prop where
  initial : pre <+: ops
  ok : ∃ C, jsonRun (jsonNew freq) pre = .ok C
  steps : (jsonTrace toList (jsonNew freq) pre).length ≤ k

/-- The file `chain_{c}_iteration_{m}.json` is complete: it holds the first `m` samples of `samples`. -/
def CompleteFile (toList : α → JVal) (d : Disk) (samples : List (List α)) (c m : Nat) : Prop :=
  m ≤ samples.length ∧
  ∃ content, Stacked (samples.take m) content ∧ d (jsonName c m) = some (jsonDump toList content)

mutual
/-- The text of a number is not empty and contains no bracket and no comma. -/
def JVal.Ok : JVal → Prop
  | .num s => s ≠ [] ∧ ∀ ch ∈ s, ch ≠ '[' ∧ ch ≠ ']' ∧ ch ≠ ','
  | .arr xs => JVal.OkList xs
def JVal.OkList : List JVal → Prop
  | [] => True
  | x :: xs => JVal.Ok x ∧ JVal.OkList xs
end

/-- The text is not the text of any value: a reader fails. -/
def Unreadable (text : Key) : Prop := ∀ v : JVal, JVal.Ok v → v.render ≠ text

end JaxSgmc.Spec
