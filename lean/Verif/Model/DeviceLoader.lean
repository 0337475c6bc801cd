import Verif.Model.NumpyLoader
import Verif.Model.Integrator

/-!
# Random data on the device

Models `DeviceNumpyDataLoader` (data/numpy_loader.py:89-144) and `_random_reference_data_device`
(data/core.py:838-863).  `jax.random.randint` is a parameter.  An array is the list of its rows.
-/

namespace JaxSgmc

/-- `random.randint(key, shape=(n,), minval=0, maxval=N)` (numpy_loader.py:133-134). -/
structure Randint (κ : Type) where
  randint : κ → Nat → Nat → List Nat

/-- What the model assumes about `random.randint` (numpy_loader.py:133-134): `n` numbers below `N`. -/
structure Randint.Lawful {κ : Type} (I : Randint κ) : Prop where
  length : ∀ k n N, 0 < N → (I.randint k n N).length = n
  lt : ∀ k n N i, 0 < N → i ∈ I.randint k n N → i < N

/-- A batch of random data with its `MiniBatchInformation` (data/core.py:49-62). -/
structure DeviceBatch (ρ : Type) where
  obs : List (String × List ρ)
  observationCount : Nat
  batchSize : Nat
  mask : List Bool
  deriving DecidableEq, Repr

/-- `tree_index(self._reference_data, selection_indices)` (numpy_loader.py:136, core.py:642-660). -/
def indexAll {ρ : Type} (idxs : List Nat) :
    List (String × List ρ) → Except PyErr (List (String × List ρ))
  | [] => .ok []
  | (name, data) :: rest =>
    match npTake data idxs with
    | .error e => .error e
    | .ok b =>
      match indexAll idxs rest with
      | .error e => .error e
      | .ok bs => .ok ((name, b) :: bs)

/-- `init_random_data` (numpy_loader.py:122-125): `kwargs.get("key", random.PRNGKey(0))`. -/
def deviceRandomInit {κ : Type} (key0 : κ) (key : Option κ) : κ := key.getD key0

/-- `get_random_data` (numpy_loader.py:128-141): the new state, the batch and the key with which the indices
were drawn (ghost). -/
def deviceRandomGet {κ ρ : Type} (P : Prng κ) (I : Randint κ) (data : List (String × List ρ)) (N mb : Nat)
    (state : κ) : κ × κ × Except PyErr (DeviceBatch ρ) :=
  let key := P.split state 2 0
  let split := P.split state 2 1
  let idcs := I.randint split mb N
  (key, split, (indexAll idcs data).map fun obs => ⟨obs, N, mb, List.replicate mb true⟩)

/-- `n` successive calls of `batch_fn` (core.py:847-858) starting with the state `s`: the drawing keys and the
batches. -/
def deviceDraws {κ ρ : Type} (P : Prng κ) (I : Randint κ) (data : List (String × List ρ)) (N mb : Nat) :
    Nat → κ → List (κ × Except PyErr (DeviceBatch ρ))
  | 0, _ => []
  | n + 1, s =>
    let r := deviceRandomGet P I data N mb s
    r.2 :: deviceDraws P I data N mb n r.1

/-- A chain: `init_fn(**kwargs)` followed by `n` calls of `batch_fn` (core.py:844-858). -/
def deviceChain {κ ρ : Type} (P : Prng κ) (I : Randint κ) (key0 : κ) (data : List (String × List ρ))
    (N mb n : Nat) (key : Option κ) : List (κ × Except PyErr (DeviceBatch ρ)) :=
  deviceDraws P I data N mb n (deviceRandomInit key0 key)

end JaxSgmc
