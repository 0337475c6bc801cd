import Verif.Model.Potential

/-!
# Specification: the model state after the evaluation of a potential
-/

namespace JaxSgmc.Spec

variable {K ρ S θ : Type}

/-- The model state after a batch: without model state there is none; a likelihood of single observations gets the
same state for all observations of the batch, and the one it returns for the first observation is kept; a batched
likelihood returns the new state. -/
def stateStep (lik : Likelihood K ρ S θ) (x : θ) (st : Option S) (rows : List ρ) : Option S :=
  match lik with
  | .plain _ => none
  | .batched _ => none
  | .stateful f => if st.isSome then rows.head?.bind (fun r => (f st x r).2) else none
  | .batchedStateful f => (f st x rows).2

/-- The model state after all batches, passed on from batch to batch. -/
def stateAfter (lik : Likelihood K ρ S θ) (x : θ) (st : Option S) (batches : List (List ρ)) : Option S :=
  batches.foldl (stateStep lik x) st

end JaxSgmc.Spec
