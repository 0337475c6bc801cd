import Verif.Model.Potential

/-!
# Model of `full_potential` evaluated with a `full_data_mapper` (`jax_sgmc/potential.py`, `data/core.py`)
-/

namespace JaxSgmc

section
variable {K ρ S θ β : Type} [Field K]

/-- What a call of the mapper carries from batch to batch while it evaluates a potential: the sample (closed over by
`body_fn`), the iteration (which determines the mask) and the model state, or the exception which ends the call.
(potential.py:277-282, data/core.py:563-584) -/
structure PotentialCarry (S θ : Type) where
  sample : θ
  iteration : Nat
  state : Except PyErr (Option S)

/-- `batch_evaluation` mapped with `masking=True, information=True` over the batches of a mapper
(potential.py:264-282, data/core.py:563-584): one result per batch; after an exception nothing is evaluated any
more. -/
def mapperBody (lik : Likelihood K ρ S θ) (strategy : Strategy) (N bs : Nat) (rowsOf : β → List ρ)
    (infoMask : β → List Bool) (b : β) (c : PotentialCarry S θ) : List K × PotentialCarry S θ :=
  match c.state with
  | .error e => ([], ⟨c.sample, c.iteration + 1, .error e⟩)
  | .ok st =>
    match batchEvaluation lik strategy c.sample (rowsOf b) ⟨N, bs, infoMask b⟩ (iterMask N bs c.iteration) st with
    | .error e => ([], ⟨c.sample, c.iteration + 1, .error e⟩)
    | .ok (p, st') => ([p], ⟨c.sample, c.iteration + 1, .ok st'⟩)

/-- `sum_batched_evaluations` after the map with `data_state=None` (potential.py:280-291). -/
def mapperPotential (prior : θ → K) (temperature : K) (res : List K) (c : PotentialCarry S θ) :
    Except PyErr (K × Option S) :=
  c.state.bind (fun st => .ok ((res.sum - prior c.sample) / temperature, st))

end

end JaxSgmc
