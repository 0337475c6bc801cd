import Verif.Model.FullData
import Mathlib.Algebra.Field.Basic
import Mathlib.Algebra.BigOperators.Group.List.Basic

/-!
# Model of `jax_sgmc/potential.py`

* Floating point numbers are elements of a field `K` (exact arithmetic).
* A batch is the list of its observations (type `ρ`), a model state is an `Option`: `None` or a state.
* A likelihood of a single observation is modelled as returning a scalar (`jnp.squeeze`,
  potential.py:137), a batched likelihood as returning one value per observation.
-/

namespace JaxSgmc

section
variable {K ρ S θ : Type} [Field K]

/-- The user's log-likelihood function.
(potential.py:37-39) -/
inductive Likelihood (K ρ S θ : Type)
  /-- `has_state=False`: `likelihood(sample, observation)` -/
  | plain (f : θ → ρ → K)
  /-- `has_state=True`: `likelihood(state, sample, observation)` -/
  | stateful (f : Option S → θ → ρ → K × Option S)
  /-- `is_batched=True, has_state=False` -/
  | batched (f : θ → List ρ → List K)
  /-- `is_batched=True, has_state=True` -/
  | batchedStateful (f : Option S → θ → List ρ → List K × Option S)

/-- The `strategy` argument, potential.py:94-98, 143-157. -/
inductive Strategy | map | vmap
  deriving DecidableEq, Repr

/-- `lax.map(partial(stateful_likelihood, state, sample), batch)` (potential.py:143-148): a loop over
the observations. -/
def lmapLoop (f : ρ → K × Option S) : List ρ → List (K × Option S) → List (K × Option S)
  | [], acc => acc.reverse
  | r :: rs, acc => lmapLoop f rs (f r :: acc)

/-- `vmap(stateful_likelihood, in_axes=(None, None, 0))` (potential.py:152-154): result `i` is the
function of slice `i`. -/
def vmapRows (f : ρ → K × Option S) (rows : List ρ) : List (K × Option S) :=
  (List.range rows.length).filterMap (fun i => (rows[i]?).map f)

/-- The values and states of a batch evaluation.
(potential.py:144-157, 171-186) -/
inductive BatchEval (K S : Type)
  /-- the likelihoods and the states of all observations -/
  | each (liks : List K) (states : List (Option S))
  /-- batched evaluation: a single state -/
  | whole (liks : List K) (state : Option S)

/-- `batched_likelihood` (potential.py:141-156) of `stateful_likelihood` (potential.py:128-137): a likelihood without
state returns the state `None`. -/
def batchedLikelihood (lik : Likelihood K ρ S θ) (strategy : Strategy) (st : Option S) (x : θ)
    (rows : List ρ) : BatchEval K S :=
  match lik with
  | .batched f => .whole (f x rows) none
  | .batchedStateful f => let r := f st x rows; .whole r.1 r.2
  | .plain f =>
    let g : ρ → K × Option S := fun r => (f x r, none)
    let rs := match strategy with | .map => lmapLoop g rows [] | .vmap => vmapRows g rows
    .each (rs.map (·.1)) (rs.map (·.2))
  | .stateful f =>
    let rs := match strategy with
      | .map => lmapLoop (f st x) rows []
      | .vmap => vmapRows (f st x) rows
    .each (rs.map (·.1)) (rs.map (·.2))

/-- `jnp.mean(likelihoods, axis=0)`.
(potential.py:183) -/
def meanOf (l : List K) : K := l.sum / (l.length : K)

/-- `jnp.dot(likelihoods, mask)`.
(potential.py:185) -/
def dotMask : List K → List Bool → K
  | a :: as, m :: ms => (if m then a else 0) + dotMask as ms
  | _, _ => 0

/-- `MiniBatchInformation` (data/core.py:49-66): the number of observations, the batch size and the mask. -/
structure BatchInfo where
  N : Nat
  n : Nat
  mask : List Bool
  deriving DecidableEq, Repr

/-- The new model state (potential.py:171-179): the state of the first observation.  A state which is
not `None` requires that the likelihood returned a state (the trees must match); the states of an empty
batch are not modelled (`IndexError`). -/
def newState (st : Option S) : BatchEval K S → Except PyErr (Option S)
  | .whole _ s => .ok s
  | .each _ states =>
    match st with
    | none => .ok none
    | some _ =>
      match states with
      | [] => .error .indexError
      | none :: _ => .error .valueError
      | some s :: _ => .ok (some s)

/-- `batch_potential` (potential.py:159-186).  A batched likelihood of a batch with one observation is
squeezed to a scalar, for which `mean(axis=0)` raises. -/
def batchPotential (lik : Likelihood K ρ S θ) (strategy : Strategy) (st : Option S) (x : θ)
    (rows : List ρ) (info : BatchInfo) (mask : Option (List Bool)) :
    Except PyErr (K × List K × Option S) :=
  let ev := batchedLikelihood lik strategy st x rows
  match newState st ev with
  | .error e => .error e
  | .ok st' =>
    let liks := match ev with | .each l _ => l | .whole l _ => l
    match mask with
    | none =>
      match ev with
      | .whole [_] _ => .error .valueError
      | _ => .ok (-(info.N : K) * meanOf liks, liks, st')
    | some m => .ok (-(info.N : K) / (info.n : K) * dotMask liks m, liks, st')

/-- `minibatch_potential` (potential.py:94-216): the potential, the likelihoods of the observations
(returned if `likelihoods=True`) and the model state. -/
def minibatchPotential (prior : θ → K) (lik : Likelihood K ρ S θ) (strategy : Strategy)
    (temperature : K) (x : θ) (rows : List ρ) (info : BatchInfo) (st : Option S)
    (mask : Option (List Bool)) : Except PyErr (K × List K × Option S) :=
  match batchPotential lik strategy st x rows info mask with
  | .error e => .error e
  | .ok (p, liks, st') => .ok ((p - prior x) / temperature, liks, st')

/-- `batch_evaluation` of `full_potential` (potential.py:264-271): the minibatch potential without
prior (and temperature 1), its scaling undone. -/
def batchEvaluation (lik : Likelihood K ρ S θ) (strategy : Strategy) (x : θ) (rows : List ρ)
    (info : BatchInfo) (mask : List Bool) (st : Option S) : Except PyErr (K × Option S) :=
  match minibatchPotential (fun _ => 0) lik strategy 1 x rows info st (some mask) with
  | .error e => .error e
  | .ok (p, _, st') => .ok (p * (info.n : K) / (info.N : K), st')

/-- `full_potential` (potential.py:219-293) with `full_data_map_fn` a masked map over a data source
delivering `(observations, mask of the batch information)`; the map is `mapMasked` with a function which
may raise. -/
def fullPotential {Z β : Type} (prior : θ → K) (lik : Likelihood K ρ S θ) (strategy : Strategy)
    (temperature : K) (src : Z → Except PyErr β × Z) (rowsOf : β → List ρ) (infoMask : β → List Bool)
    (N bs : Nat) (x : θ) (s : Z) (st : Option S) : Except PyErr (K × Option S) × Z :=
  match numIterations N bs with
  | .error e => (.error e, s)
  | .ok q =>
    match scanBatches src (fun it b c => batchEvaluation lik strategy x (rowsOf b)
        ⟨N, bs, infoMask b⟩ (iterMask N bs it) c) q 0 s st with
    | (.error e, s') => (.error e, s')
    | (.ok (rs, st'), s') => (.ok ((rs.sum - prior x) / temperature, st'), s')

end

end JaxSgmc
