import Verif.Model.Json

/-!
# Vocabulary for the JSON collector
-/

namespace JaxSgmc.Spec

open JaxSgmc

variable {α : Type}

/-- The samples saved for chain `c`, in order. -/
def savedOf (c : Nat) (ops : List (JsonOp α)) : List (List α) :=
  ops.filterMap (fun op => match op with
    | .save c' v => if c' = c then some v else none
    | _ => none)

/-- The number of registered chains. -/
def jsonRegistered (ops : List (JsonOp α)) : Nat :=
  ops.countP (fun op => match op with | .register => true | _ => false)

/-- The calls `ops` include a reason to write the first `i` samples of chain `c`: the `i`-th sample
was saved and `i` is a multiple of the write frequency, or `finalize` was called after `i` samples. -/
def Due (freq : Nat) (ops : List (JsonOp α)) (c i : Nat) : Prop :=
  ∃ pre op post, ops = pre ++ op :: post ∧
    (((∃ v, op = .save c v) ∧ i = (savedOf c pre).length + 1 ∧ 0 < freq ∧ freq ∣ i) ∨
     (op = .finalize c ∧ i = (savedOf c pre).length ∧ 0 < i))

/-- `content` is the stack of the samples: one list per leaf, holding the leaf of every sample. -/
structure Stacked (samples : List (List α)) (content : List (List α)) : Prop where
  leaf : ∀ s ∈ samples, s.length = content.length
  length : ∀ col ∈ content, col.length = samples.length
  entry : ∀ j k : Nat, (content[j]?).bind (fun col : List α => col[k]?) = (samples[k]?).bind (fun s : List α => s[j]?)

end JaxSgmc.Spec
