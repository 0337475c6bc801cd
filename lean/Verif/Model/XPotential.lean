import Verif.Model.FullData
import Verif.Model.Solver

/-!
# Model of the full potential with infinite log-likelihoods

`full_potential` (potential.py:219-293) once more, for likelihoods of single observations without model state,
but with values in the extended numbers `XF`: a log-likelihood is `-inf` where the density of an observation
is zero (for example outside of the support of a uniform distribution).
-/

namespace JaxSgmc

/-- `jnp.sum(results)` (potential.py:290). -/
noncomputable def xsum (l : List XF) : XF := l.foldr XF.add (.fin 0)

/-- The mask as number (data/core.py:571-572, a boolean array which `jnp.dot` converts to 0 and 1). -/
noncomputable def maskNum (m : Bool) : XF := .fin (if m then 1 else 0)

/-- `jnp.dot(batch_likelihoods, mask)` (potential.py:185). -/
noncomputable def xdot (liks : List XF) (mask : List Bool) : XF :=
  xsum (liks.zipWith (fun a m => XF.mul a (maskNum m)) mask)

/-- `batch_evaluation` of `full_potential` (potential.py:264-271) with the mask branch of `batch_potential`
(potential.py:185) and the prior `lambda _: jnp.array(0.0)` (potential.py:258, 205-214). -/
noncomputable def xBatchEvaluation {θ ρ : Type} (lik : θ → ρ → XF) (x : θ) (rows : List ρ) (N n : Nat)
    (mask : List Bool) : XF :=
  let stochastic := XF.mul (XF.div (.fin (-(N : ℝ))) (.fin n)) (xdot (rows.map (lik x)) mask)
  let potential := XF.div (XF.sub stochastic (.fin 0)) (.fin 1)
  XF.div (XF.mul potential (.fin n)) (.fin N)

/-- `full_potential` (potential.py:219-293). -/
noncomputable def xFullPotential {θ ρ Z β : Type} (prior : θ → XF) (lik : θ → ρ → XF) (temperature : ℝ)
    (src : Z → Except PyErr β × Z) (rowsOf : β → List ρ) (N bs : Nat) (x : θ) (s : Z) :
    Except PyErr XF × Z :=
  match numIterations N bs with
  | .error e => (.error e, s)
  | .ok q =>
    match scanBatches src (fun it b (_ : Unit) =>
        .ok (xBatchEvaluation lik x (rowsOf b) N bs (iterMask N bs it), ())) q 0 s () with
    | (.error e, s') => (.error e, s')
    | (.ok (rs, _), s') => (.ok (XF.div (XF.sub (xsum rs) (prior x)) (.fin temperature)), s')

end JaxSgmc
