import Verif.Model.Callbacks
import Verif.Spec.Saving

/-!
# Vocabulary for schedules of callbacks
-/

namespace JaxSgmc.Spec

open JaxSgmc

variable {α : Type}

/-- The kept samples of a chain reached in a schedule, in order. -/
def samplesOf (c : Nat) (cmds : List (Cmd α)) : List (Tree α) :=
  cmds.filterMap (fun x => match x with
    | .sample c' t => if c' = c then some t else none
    | _ => none)

/-- The chains registered in a schedule (initial sample and announced number of samples); chain `c`
is the `c`-th registered chain. -/
def registered (cmds : List (Cmd α)) : List (Tree α × Int) :=
  cmds.filterMap (fun x => match x with
    | .register t n => some (t, n)
    | _ => none)

/-- A command respects the protocol of `mcmc`, given the commands executed before: samples belong to
registered chains, have the announced structure, are not more than announced, and precede the single
`finalize` of the chain. -/
def Allowed (pre : List (Cmd α)) : Cmd α → Prop
  | .register _ n => 0 ≤ n
  | .sample c t => (∀ x ∈ pre, x ≠ .finalize c) ∧
    ∃ init n, (registered pre)[c]? = some (init, n) ∧ t.shape = init.shape ∧
      ((samplesOf c pre).length : Int) < n
  | .finalize c => (∀ x ∈ pre, x ≠ .finalize c) ∧ c < (registered pre).length
  | .callback _ => True
  | .finished _ => True

/-- Every command of the schedule respects the protocol. -/
def Protocol (cmds : List (Cmd α)) : Prop :=
  ∀ pre x post, cmds = pre ++ x :: post → Allowed pre x

end JaxSgmc.Spec
