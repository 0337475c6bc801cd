import Verif.Model.Hdf5
import Verif.Model.Requests

/-!
# `HDF5Loader` as a host data loader

`HDF5Loader` (`jax_sgmc/data/hdf5_loader.py`) behind the interface used by `jax_sgmc/data/core.py`.
-/

namespace JaxSgmc

variable {α : Type}

/-- The `i`-th line of the batches returned by the loader: one mini-batch per leaf and the mask
(`tree_index(cached_batches, i)` and `valid[i, :]`, data/core.py:767-768). -/
def h5Line (obs : Tree (List (List α))) (mask : List (List Bool)) (i : Nat) : Tree (List α) × List Bool :=
  (obs.map (fun col => col.getD i []), mask.getD i [])

/-- `HDF5Loader` behind the `HostDataLoader` interface (data/hdf5_loader.py:31-98; the registration is
inherited, data/numpy_loader.py:231-312). -/
def h5Host {σ : Type} (R : Rng σ) : HostLoader (H5Loader σ α) NumpyKw (Tree (List α) × List Bool) where
  obsCount L := L.obsCount
  register L cs mb kw :=
    let r := match kw with
      | .random ie sh seed => registerRandom R (h5Base L) cs mb ie sh seed
      | .ordered => registerOrdered (h5Base L) cs mb
    r.map fun x => (x.1, { L with chains := x.2.chains })
  getBatches L c := match h5GetBatches R L c with
    | (.ok b, L') => (.ok ((List.range b.2.length).map (h5Line b.1 b.2)), L')
    | (.error e, L') => (.error e, L')

/-- Observation `j` of a mini-batch of trees (`tree_index(batch, j)`, data/core.py:642-661; `vmap` over the
first axis of every leaf, data/core.py:1072-1103): the entry `j` of every leaf; `none` if there is no such
entry. -/
def rowTree (b : Tree (List α)) (j : Nat) : Tree (Option α) := b.map (fun col => col[j]?)

end JaxSgmc
