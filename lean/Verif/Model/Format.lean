import Verif.Model.DeviceLoader

/-!
# Formats of observations and batches

Models `_format` (data/numpy_loader.py:70-78), `initializer_batch` (data/core.py:86-109) and `batch_format`
(data/core.py:210-238).  Arrays with any number of dimensions are nested lists.  The conversion of data types
by `jnp.array` / `jnp.zeros` (e.g. float64 to float32) is a parameter.
-/

namespace JaxSgmc

/-- An array with any number of dimensions (e.g. the entries of `_reference_data`,
numpy_loader.py:46-52). -/
inductive Nd (α : Type)
  | cell (a : α)
  | arr (rows : List (Nd α))

/-- `jax.ShapeDtypeStruct` (core.py:230-233). -/
structure ShapeDtype (D : Type) where
  shape : List Nat
  dtype : D
  deriving DecidableEq, Repr

/-- An array with at least one dimension: its data type, the shape of a row and the rows
(numpy_loader.py:46-52). -/
structure NpArray (D α : Type) where
  dtype : D
  rowShape : List Nat
  rows : List (Nd α)

/-- `_format` (numpy_loader.py:70-78): `array.shape[1:]` of every array. -/
def numpyFormat {D α : Type} (data : List (String × NpArray D α)) : List (String × ShapeDtype D) :=
  data.map fun x => (x.1, ⟨x.2.rowShape, x.2.dtype⟩)

/-- The array of the given shape with the entry `z` everywhere (`jnp.zeros`, core.py:102-105). -/
def Nd.full {α : Type} (z : α) : List Nat → Nd α
  | [] => .cell z
  | n :: shape => .arr (List.replicate n (Nd.full z shape))

/-- `initializer_batch` (core.py:86-109): names, data types and arrays. -/
def initializerBatch {D α : Type} (canon : D → D) (zero : α) (fmt : List (String × ShapeDtype D))
    (mb : Option Nat) : List (String × D × Nd α) :=
  fmt.map fun x => (x.1, canon x.2.dtype,
    Nd.full zero (match mb with
      | none => x.2.shape
      | some m => m :: x.2.shape))

/-- `batch_format` (core.py:210-238): the format of the cached batches, the batch size and the mask of the
static information. -/
def batchFormat {D : Type} (fmt : List (String × ShapeDtype D)) (cs mb : Nat) :
    List (String × ShapeDtype D) :=
  fmt.map fun x => (x.1, ⟨cs :: mb :: x.2.shape, x.2.dtype⟩)

/-- The arrays of rows of the dataset (numpy_loader.py:46-52) as used by the model of the data loader. -/
def rowsData {D α : Type} (data : List (String × NpArray D α)) : List (String × List (Nd α)) :=
  data.map fun x => (x.1, x.2.rows)

/-- The cached batches returned by `get_batches` with their data types: `jnp.array(data[selections_idx])`
(numpy_loader.py:333-340). -/
def deliveredArrays {D α : Type} (canon : D → D) (data : List (String × NpArray D α))
    (obs : List (String × List (List (Nd α)))) : List (String × D × Nd α) :=
  (data.zip obs).map fun x => (x.2.1, canon x.1.2.dtype, .arr (x.2.2.map .arr))

/-- The format requested from the host callback (core.py:698-707): canonical data types. -/
def callbackFormat {D : Type} (canon : D → D) (fmt : List (String × ShapeDtype D)) (cs mb : Nat) :
    List (String × ShapeDtype D) :=
  (batchFormat fmt cs mb).map fun x => (x.1, ⟨x.2.shape, canon x.2.dtype⟩)

/-- A mini-batch taken from the cached batches: `tree_index(cached_batches, line)` (core.py:767, 642-660). -/
def cacheLine {D α : Type} (canon : D → D) (data : List (String × NpArray D α))
    (obs : List (String × List (List (Nd α)))) (line : Nat) : List (String × D × Nd α) :=
  (data.zip obs).map fun x => (x.2.1, canon x.1.2.dtype, .arr (x.2.2.getD line []))

/-- The arrays of a `DeviceNumpyDataLoader`: `jnp.array(array)` (numpy_loader.py:49-50) converts the data
type. -/
def onDevice {D α : Type} (canon : D → D) (data : List (String × NpArray D α)) : List (String × NpArray D α) :=
  data.map fun x => (x.1, { x.2 with dtype := canon x.2.dtype })

/-- A random mini-batch of a `DeviceNumpyDataLoader` (numpy_loader.py:136) with the data types. -/
def deviceArrays {D α : Type} (data : List (String × NpArray D α)) (obs : List (String × List (Nd α))) :
    List (String × D × Nd α) :=
  (data.zip obs).map fun x => (x.2.1, x.1.2.dtype, .arr x.2.2)

end JaxSgmc
