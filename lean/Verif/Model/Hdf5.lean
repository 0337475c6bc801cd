import Verif.Model.ListMap
import Verif.Model.NumpyLoader
import Verif.Model.Callbacks

/-!
# HDF5 files: writing samples and using them as reference data

Models `HDF5Collector` (`jax_sgmc/io.py:378-500`) and `HDF5Loader`
(`jax_sgmc/data/hdf5_loader.py`).  An HDF5 file is the list of its datasets: the path of the dataset
(the non-empty components of its name, `.` being dropped by HDF5) and its rows.  Groups without
datasets are left out.  Shapes and dtypes of rows are not checked.
-/

namespace JaxSgmc

variable {α : Type}

/-- The components of an HDF5 name: `/` separates components, empty components and `.` are
ignored.
(semantics of the h5py names used at io.py:446-457, data/hdf5_loader.py:54-90) -/
def h5Path (name : Key) : Path :=
  (name.splitOn '/').filter (fun c => c ≠ [] ∧ c ≠ ['.'])

/-- The datasets of a file.
(the h5py file of io.py:411-417) -/
abbrev H5File (α : Type) := List (Path × List α)

/-- Two different objects cannot have these paths if the second is to be a dataset: they are equal or
one is below the other.
(semantics of h5py `create_dataset` used at io.py:451-457) -/
def h5Conflict (p q : Path) : Bool := p.isPrefixOf q || q.isPrefixOf p

/-- `file.create_dataset(name, shape=(n, ...), dtype)` (io.py:452-455): filled with zeros.  Raises
`ValueError` if the name exists, a parent is a dataset, or a dimension is negative. -/
def h5Create (file : H5File α) (p : Path) (n : Int) (zero : α) : Except PyErr (H5File α) :=
  if n < 0 ∨ p = [] ∨ file.any (fun d => h5Conflict d.1 p) then .error .valueError
  else .ok (file ++ [(p, List.replicate n.toNat zero)])

/-- `file[name][i] = value` (io.py:470): `KeyError` if there is no such dataset, `IndexError` if the
row is out of range. -/
def h5Put (file : H5File α) (p : Path) (i : Nat) (v : α) : Except PyErr (H5File α) :=
  match file.lookup p with
  | none => .error .keyError
  | some rows =>
    if i < rows.length then
      .ok (file.map (fun d => if d.1 = p then (d.1, d.2.set i v) else d))
    else .error .indexError

/-- `HDF5Collector`: the file and, for every chain, the names of the datasets and the number of saved
samples.
(io.py:411-417) -/
structure H5Coll (α : Type) where
  file : H5File α
  names : List (List Key)
  counts : List Nat

/-- `HDF5Collector(file)` (io.py:411-417). -/
def h5New (file : H5File α) : H5Coll α := ⟨file, [], []⟩

/-- `f"/chain~{chain_id}"` (io.py:443). -/
def chainDir (c : Nat) : Key := ['/','c','h','a','i','n','~'] ++ Nat.toDigits 10 c

/-- `"/".join(itertools.chain([subdir], key_tuple))` (io.py:443, hdf5_loader.py:54). -/
def h5Name (subdir : Key) (p : Path) : Key := joinPath (subdir :: p)

/-- The loop creating the datasets (io.py:448-455). -/
def h5CreateAll (zero : α → α) (n : Int) : H5File α → List Key → List α → Except PyErr (H5File α)
  | file, nm :: nms, a :: as =>
    match h5Create file (h5Path nm) n (zero a) with
    | .error e => .error e
    | .ok file' => h5CreateAll zero n file' nms as
  | file, _, _ => .ok file

/-- `register_chain` (io.py:422-459).  (The checkpoint passed by `mcmc` is never `None`.) -/
def h5Register (zero : α → α) (C : H5Coll α) (sample : Tree α) (n : Int) :
    Except PyErr (H5Coll α × Nat) :=
  match sample with
  | .none => .error .assertionError
  | _ =>
    match dictKeys sample with
    | .error e => .error e
    | .ok keys =>
      let names := keys.map (h5Name (chainDir C.names.length))
      match h5CreateAll zero n C.file names sample.leaves with
      | .error e => .error e
      | .ok file => .ok (⟨file, C.names ++ [names], C.counts ++ [0]⟩, C.names.length)

/-- The loop writing the leaves (io.py:469-470). -/
def h5PutAll (i : Nat) : H5File α → List Key → List α → Except PyErr (H5File α)
  | file, nm :: nms, v :: vs =>
    match h5Put file (h5Path nm) i v with
    | .error e => .error e
    | .ok file' => h5PutAll i file' nms vs
  | file, _, _ => .ok file

/-- `save` (io.py:461-471). -/
def h5Save (C : H5Coll α) (c : Nat) (values : List α) : Except PyErr (H5Coll α) :=
  match C.names[c]?, C.counts[c]? with
  | some names, some count =>
    match h5PutAll count C.file names values with
    | .error e => .error e
    | .ok file => .ok { C with file := file, counts := C.counts.set c (count + 1) }
  | _, _ => .error .indexError

/-- Calls of the methods which change the file.
(test driver: histories of the calls of io.py:422-471) -/
inductive H5Op (α : Type) where
  | register : Tree α → Int → H5Op α
  | save : Nat → List α → H5Op α

/-- One call.
(io.py:422-471) -/
def h5Step (zero : α → α) (C : H5Coll α) : H5Op α → Except PyErr (H5Coll α)
  | .register sample n =>
    match h5Register zero C sample n with
    | .error e => .error e
    | .ok (C', _) => .ok C'
  | .save c values => h5Save C c values

/-- A sequence of calls; stops at the first exception.
(histories of io.py:422-471) -/
def h5Run (zero : α → α) (C : H5Coll α) : List (H5Op α) → Except PyErr (H5Coll α)
  | [] => .ok C
  | op :: ops =>
    match h5Step zero C op with
    | .error e => .error e
    | .ok C' => h5Run zero C' ops

/-- `HDF5Collector` with asynchronous callbacks: `finalize` and `finished` do nothing, the barriers are
commented out (io.py:473-481, 489-500). -/
def h5Async (zero : α → α) : AsyncCollector (H5Coll α) α where
  register := h5Register zero
  save := h5Save
  finalize := []
  ready _ _ := true

/-! ### Reading -/

/-- `onp.unique(idx)`: the sorted distinct indices.
(semantics of numpy used at data/hdf5_loader.py:82) -/
def npUnique (idx : List Nat) : List Nat := idx.dedup.insertionSort (· ≤ ·)

/-- `onp.unique(idx, return_inverse=True)[1]`.
(semantics of numpy used at data/hdf5_loader.py:82) -/
def npInverse (idx : List Nat) : List Nat := idx.map (fun i => (npUnique idx).idxOf i)

/-- `dataset[idx]` with an array of indices: h5py raises `TypeError` unless the indices are strictly
increasing and `IndexError` for an index out of range.
(semantics of h5py used at data/hdf5_loader.py:84-88) -/
def h5Fancy (rows : List α) (idx : List Nat) : Except PyErr (List α) :=
  if idx.Pairwise (· < ·) then npTake rows idx else .error .typeError

/-- The rows of one batch (hdf5_loader.py:82-92). -/
def h5TakeBatch (rows : List α) (idx : List Nat) : Except PyErr (List α) :=
  match h5Fancy rows (npUnique idx) with
  | .error e => .error e
  | .ok unique => mapExcept (jnpIndex unique) (npInverse idx)

/-- `HDF5Loader`: the file, the names of the datasets, the tree structure, the number of
observations, the chains of the superclass.
(data/hdf5_loader.py:46-63) -/
structure H5Loader (σ α : Type) where
  file : H5File α
  names : List Key
  structure_ : Tree Unit
  obsCount : Nat
  chains : List (Chain σ)

/-- `self._dataset[leaf_name]`.
(data/hdf5_loader.py:84-88) -/
def h5Get (file : H5File α) (name : Key) : Except PyErr (List α) :=
  match file.lookup (h5Path name) with
  | none => .error .keyError
  | some rows => .ok rows

/-- `HDF5Loader(file, subdir, sample)` (hdf5_loader.py:46-63, 106-120): `IndexError` for a sample without
leaves. -/
def h5Open {σ β : Type} (file : H5File α) (subdir : Key) (sample : Tree β) :
    Except PyErr (H5Loader σ α) :=
  match dictKeys sample with
  | .error e => .error e
  | .ok keys =>
    let names := keys.map (h5Name subdir)
    match mapExcept (h5Get file) names with
    | .error e => .error e
    | .ok datasets =>
      match datasets with
      | [] => .error .indexError
      | d :: _ => .ok ⟨file, names, sample.shape, d.length, []⟩

/-- Slices one dataset (hdf5_loader.py:87-92). -/
def h5TakeLeaf (file : H5File α) (sel : List (List Nat)) (name : Key) :
    Except PyErr (List (List α)) :=
  match h5Get file name with
  | .error e => .error e
  | .ok rows => mapExcept (h5TakeBatch rows) sel

/-- Slicing of all datasets and restoring of the tree structure (hdf5_loader.py:86-96). -/
def h5Slice {σ : Type} (L : H5Loader σ α) (sel : List (List Nat)) :
    Except PyErr (Tree (List (List α))) :=
  match mapExcept (h5TakeLeaf L.file sel) L.names with
  | .error e => .error e
  | .ok leaves => Tree.unflatten L.structure_ leaves

/-- `get_batches` (hdf5_loader.py:65-98).  The index selection is inherited from
`NumpyDataLoader`. -/
def h5GetBatches {σ : Type} (R : Rng σ) (L : H5Loader σ α) (cid : Nat) :
    Except PyErr (Tree (List (List α)) × List (List Bool)) × H5Loader σ α :=
  match L.chains[cid]? with
  | none => (.error .indexError, L)
  | some c =>
    match getIndices R L.obsCount c with
    | .error e => (.error e, L)
    | .ok (sel, c') =>
      let L' := { L with chains := L.chains.set cid c' }
      match h5Slice L (sel.map (·.1)) with
      | .error e => (.error e, L')
      | .ok obs => (.ok (obs, sel.map (·.2)), L')

/-- The part of the loader used by the inherited methods of `NumpyDataLoader`.
(data/hdf5_loader.py:31, 60-63: inheritance from `NumpyDataLoader`) -/
def h5Base {σ : Type} (L : H5Loader σ α) : Loader σ α :=
  { data := [], obsCount := L.obsCount, chains := L.chains }

/-- Observable outcome of an operation on an `HDF5Loader`.
(results of the methods at data/hdf5_loader.py:65-105) -/
inductive H5Out (α : Type)
  | registered (cid : Nat)
  | batches (obs : Tree (List (List α))) (mask : List (List Bool))
  | raised (e : PyErr)

/-- One operation on the loader: the registration of pipelines is inherited from `NumpyDataLoader`
(hdf5_loader.py:31, numpy_loader.py:231-312), saving and loading of the state is not implemented
(hdf5_loader.py:100-104). -/
def h5LStep {σ : Type} (R : Rng σ) (L : H5Loader σ α) : LOp → H5Loader σ α × H5Out α
  | .regRandom cs mb ie sh seed =>
    match registerRandom R (h5Base L) cs mb ie sh seed with
    | .error e => (L, .raised e)
    | .ok (cid, B) => ({ L with chains := B.chains }, .registered cid)
  | .regOrdered cs mb =>
    match registerOrdered (h5Base L) cs mb with
    | .error e => (L, .raised e)
    | .ok (cid, B) => ({ L with chains := B.chains }, .registered cid)
  | .get cid =>
    let r := h5GetBatches R L cid
    (r.2, match r.1 with | .ok b => .batches b.1 b.2 | .error e => .raised e)
  | .save _ _ => (L, .raised .notImplementedError)
  | .load _ _ => (L, .raised .notImplementedError)

/-- A history of operations, oldest first, with its outcomes.
(histories of data/hdf5_loader.py:65-105) -/
def h5LRun {σ : Type} (R : Rng σ) : H5Loader σ α → List LOp → H5Loader σ α × List (H5Out α)
  | L, [] => (L, [])
  | L, op :: ops =>
    let r := h5LStep R L op
    let rest := h5LRun R r.1 ops
    (rest.1, r.2 :: rest.2)

end JaxSgmc
