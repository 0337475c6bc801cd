import Verif.Model.CollectorCalls
import Verif.Spec.Saving

/-!
# Specification: what a caller of a memory collector expects

The expected state is a list of chains in the order of registration.  The chain number `id` does not exist if
`id` or fewer chains have been registered.
-/

namespace JaxSgmc.Spec

open JaxSgmc

variable {α : Type}

/-- A registered chain: the first sample, the announced number of samples, the samples saved up to now and
whether it has been finalized. -/
structure ExpectedChain (α : Type) where
  init : Tree α
  size : Nat
  kept : List (Tree α)
  finalized : Bool

/-- What a call does and raises. -/
def expectedCall (chains : List (ExpectedChain α)) : MemCall α → List (ExpectedChain α) × Option PyErr
  | .register sample n => (chains ++ [⟨sample, n.toNat, [], false⟩], none)
  | .save id sample =>
    match chains[id]? with
    | none => (chains, some .indexError)
    | some c =>
      if c.kept.length < c.size then (chains.set id { c with kept := c.kept ++ [sample] }, none)
      else (chains, some .indexError)
  | .finalize id =>
    match chains[id]? with
    | none => (chains, some .indexError)
    | some c =>
      if c.finalized then (chains, some .runtimeError)
      else (chains.set id { c with finalized := true }, none)

/-- What some calls do and raise. -/
def expectedCalls : List (ExpectedChain α) → List (MemCall α) → List (ExpectedChain α) × List (Option PyErr)
  | chains, [] => (chains, [])
  | chains, c :: cs =>
    let r := expectedCall chains c
    let rs := expectedCalls r.1 cs
    (rs.1, r.2 :: rs.2)

/-- The arguments are of the right kind: a registered sample contains an array and its entries have names (if
needed), the announced number is not negative, a saved sample has the structure of the registered one. -/
def Sensible (saveDir : Bool) (chains : List (ExpectedChain α)) : MemCall α → Prop
  | .register sample n => 0 ≤ n ∧ Nameable saveDir sample ∧ sample.leaves ≠ []
  | .save id sample => ∀ c, chains[id]? = some c → sample.shape = c.init.shape
  | .finalize _ => True

/-- All calls have sensible arguments. -/
def AllSensible (saveDir : Bool) : List (ExpectedChain α) → List (MemCall α) → Prop
  | _, [] => True
  | chains, c :: cs => Sensible saveDir chains c ∧ AllSensible saveDir (expectedCall chains c).1 cs

end JaxSgmc.Spec
