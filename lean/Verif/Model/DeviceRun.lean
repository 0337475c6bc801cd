import Verif.Model.DeviceLoader
import Verif.Model.Gradient
import Verif.Model.Potential
import Verif.Model.Solver

/-!
# The random data of `DeviceNumpyDataLoader` as seen by the integrators
-/

namespace JaxSgmc

variable {κ ρ : Type}

/-- The observations of a mini-batch as the likelihood sees them: observation `i` consists of the rows `i` of all arrays.
(mapping over the leading axis of all arrays of the batch by `vmap`, `list_vmap` or `lax.map`, potential.py:98-135) -/
def batchObservations (arrays : List (String × List ρ)) (n : ℕ) : List (List (String × ρ)) :=
  (List.range n).map fun i => arrays.filterMap fun c => c.2[i]?.map fun r => (c.1, r)

/-- `batch_get(data_state, information=True)` (integrator.py:873) with the random data of a `DeviceNumpyDataLoader`
(data/core.py:847-858, data/numpy_loader.py:128-141): the new state, the observations and the information about the batch.
If the loader raised an exception the run would end; the model returns a dummy. -/
def deviceGetData (P : Prng κ) (I : Randint κ) (data : List (String × List ρ)) (N mb : ℕ) (state : κ) :
    κ × (List (List (String × ρ)) × BatchInfo) :=
  let r := deviceRandomGet P I data N mb state
  (r.1, match r.2.2 with
    | .ok b => (batchObservations b.obs b.batchSize, ⟨b.observationCount, b.batchSize, b.mask⟩)
    | .error _ => ([], ⟨0, 0, []⟩))

/-- The full potential as used by `amagold` and `sggmc` (solver.py:337-348, 378-382, 468-480, 514-519; potential.py:273-291)
with the full data map of a `DeviceNumpyDataLoader` (data/core.py:912-961, batches of `bs` observations): value, data state
(the current line), model state.  If it raises an exception the run would end; the model continues with NaN. -/
noncomputable def deviceFullPot {ι ρ S : Type} (prior : (ι → ℝ) → ℝ) (lik : Likelihood ℝ (List (String × ρ)) S (ι → ℝ))
    (strategy : Strategy) (T : ℝ) (data : List (String × List ρ)) (N bs : ℕ) : FullPotFn ι ℕ (Option S) := fun x line ms =>
  match fullPotential prior lik strategy T (deviceSource (batchObservations data N) bs) id (fun _ => List.replicate bs true)
      N bs x line ms with
  | (.ok (p, st'), line') => (.fin p, (line', st'))
  | (.error _, line') => (.nan, (line', ms))

end JaxSgmc
