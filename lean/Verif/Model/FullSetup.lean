import Verif.Model.FullData

/-!
# Model of the argument checks of `full_reference_data` and of the construction of `full_data_mapper`
(`jax_sgmc/data/core.py`)
-/

namespace JaxSgmc

section
variable {Λ κ μ : Type} (H : HostLoader Λ κ μ)

/-- `full_reference_data` for a host data loader (core.py:522-561, 865-884).  `observation_count < None` is a
`TypeError`; the batch size is only compared to the number of observations; the data loader is registered before
the number of iterations is computed, and for `mb_size = 0` this computation raises `ZeroDivisionError`, so that
no function is returned.  Simplified: sizes are not negative; `mb_size` is `none` if it is not given. -/
def fullSetupFn (s : PSys Λ μ) (l : Nat) (cc : Nat) (mb : Option Nat) : PSys Λ μ × POut μ :=
  match mb with
  | none => (s, .raised .typeError)
  | some mb =>
    if H.obsCount (s.host.objs l) < mb then (s, .raised .valueError)
    else
      let cb := s.host.next
      let host := { s.host with next := cb + 1, loaders := upd s.host.loaders cb (some l) }
      match numIterations (H.obsCount (s.host.objs l)) mb with
      | .error e => ({ s with host := host }, .raised e)
      | .ok _ => ({ s with host := host, cfgs := upd s.cfgs cb (some ⟨l, cc, mb, true⟩) }, .ready cb)

end

/-- A leaf of a data state: a Python integer or an array with its dtype and shape.
(data/core.py:240-260) -/
inductive StateLeaf
  | pyInt (n : Nat)
  | array (dtype : String) (shape : List Nat)
  deriving DecidableEq, Repr

/-- `ShapeDtypeStruct(dtype=leaf.dtype, shape=leaf.shape)` (core.py:973-975): Python integers have no attribute
`dtype`. -/
def leafFormat : StateLeaf → Except PyErr (String × List Nat)
  | .pyInt _ => .error .attributeError
  | .array d s => .ok (d, s)

/-- The format of a data state: `tree_map` over its leaves (core.py:973-975). -/
def stateFormat : List StateLeaf → Except PyErr (List (String × List Nat))
  | [] => .ok []
  | x :: xs => (leafFormat x).bind (fun f => (stateFormat xs).bind (fun fs => .ok (f :: fs)))

/-- The leaves of the data state of a host data loader (core.py:897-904): the callback, the cached batches (`fmt`
is the format of an observation), their number, the current line, the chain, the mask, the token.  Entries which
are `None` are no leaves. -/
def hostStateLeaves (fmt : List (String × List Nat)) (cc mb : Nat) : List StateLeaf :=
  .array "uint32" [4] :: (fmt.map (fun f => .array f.1 (cc :: mb :: f.2)) ++
    [.array "int32" [], .array "int32" [], .array "int32" [], .array "bool" [cc, mb], .array "uint32" [4]])

/-- The leaves of the data state of a device data loader: `CacheState(current_line=offset)` (core.py:937). -/
def deviceStateLeaves (offset : StateLeaf) : List StateLeaf := [offset]

/-- `_FullDataHelper.__init__` for a device data loader (core.py:522-561, 912-938, 967-977): the checks of
`full_reference_data`, `init_fn()` with the default offset `0`, the format of the data state. -/
def deviceMapperFormat (N cc : Nat) (mb : Option Nat) : Except PyErr (List (String × List Nat)) :=
  match mb with
  | none => .error .typeError
  | some mb =>
    if N < mb then .error .valueError
    else (numIterations N (fullBatchSize .device cc mb)).bind (fun _ =>
      (deviceInit N 0).bind (fun offset => stateFormat (deviceStateLeaves (.pyInt offset))))

end JaxSgmc
