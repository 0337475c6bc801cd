import Verif.Model.Hdf5

/-!
# Interrupted saving to HDF5 files

Models `HDF5Collector.save` (`jax_sgmc/io.py:461-471`) stopped between two writes.  Simplification: the
file itself remains readable (it was flushed or is closed by the user after an exception).
-/

namespace JaxSgmc

variable {α : Type}

/-- `save` stopped by an exception or the end of the process after `k` leaves have been written: the
number of samples has not been increased (io.py:469-471). -/
def h5SaveStopped (C : H5Coll α) (c : Nat) (values : List α) (k : Nat) : Except PyErr (H5Coll α) :=
  match C.names[c]?, C.counts[c]? with
  | some names, some count =>
    match h5PutAll count C.file (names.take k) (values.take k) with
    | .error e => .error e
    | .ok file => .ok { C with file := file }
  | _, _ => .error .indexError

end JaxSgmc
