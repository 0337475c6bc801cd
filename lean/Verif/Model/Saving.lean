import Verif.Model.TreeUtil

/-!
# Saving of samples

Models `no_save`, `save` and the `MemoryCollector` of `jax_sgmc/io.py`.  A leaf of a sample (an
array) is an abstract value of type `α`; `zero a` is the array of zeros of the shape and dtype of
`a`.  Shapes and dtypes of leaves are not checked.  Callbacks (`host_callback.id_tap`) are executed
immediately in this file; `Verif/Model/Callbacks.lean` models their asynchronous execution.
-/

namespace JaxSgmc

variable {α : Type}

/-- The dictionary returned by `postprocess` (io.py:768-769, 876-877). -/
structure SaveResult (α : Type) where
  sampleCount : Nat
  samples : Tree (List α)

/-- A saving strategy: the functions `init`, `save` and `postprocess` together with the state `H` of
the host.  `saveVmap` is the effect of `jax.vmap` on `save`: all lanes are saved at once.
(io.py:245-252) -/
structure Saving (H σ ρ α : Type) where
  init : H → Tree α → Int → Except PyErr (H × σ)
  save : H → σ → Bool → Tree α → Except PyErr (H × σ)
  saveVmap : H → List (σ × Bool × Tree α) → Except PyErr (H × List σ)
  post : H → σ → Except PyErr (H × ρ)

/-! ### Saving on the device -/

/-- `saving_state` of `no_save` (the chain id is unused).
(io.py:812-836) -/
structure NoSaveState (α : Type) where
  saved : Nat
  data : Tree (List α)

/-- `init` (io.py:812-836): `jnp.zeros` rejects negative dimensions. -/
def noSaveInit (zero : α → α) (sample : Tree α) (n : Int) : Except PyErr (NoSaveState α) :=
  if n < 0 ∧ sample.leaves ≠ [] then .error .valueError
  else .ok ⟨0, sample.map (fun a => List.replicate n.toNat (zero a))⟩

/-- `_save_sample` (io.py:838-851): `data_leaf.at[idx].set(new_slice)` drops indices out of range. -/
noncomputable def noSaveSample (st : NoSaveState α) (sample : Tree α) :
    Except PyErr (NoSaveState α) :=
  match treeMap2 (fun (d : List α) x => .ok (d.set st.saved x)) st.data sample with
  | .error e => .error e
  | .ok d => .ok ⟨st.saved + 1, d⟩

/-- `save` (io.py:853-872).  Both branches of `lax.cond` are traced, therefore a sample of a
different structure is rejected even if it is not kept. -/
noncomputable def noSaveStep (st : NoSaveState α) (keep : Bool) (sample : Tree α) :
    Except PyErr (NoSaveState α) :=
  match noSaveSample st sample with
  | .error e => .error e
  | .ok st' => .ok (if keep then st' else st)

/-- `save` under `jax.vmap`: `stop_vmap` does nothing (stop_vmap.py:3-4), `lax.cond` with a batched
predicate evaluates both branches for all lanes and selects the result of each lane. -/
noncomputable def noSaveVmap : List (NoSaveState α × Bool × Tree α) →
    Except PyErr (List (NoSaveState α))
  | [] => .ok []
  | (st, keep, sample) :: lanes =>
    match noSaveSample st sample with
    | .error e => .error e
    | .ok st' =>
      match noSaveVmap lanes with
      | .error e => .error e
      | .ok sts => .ok ((bif keep then st' else st) :: sts)

/-- `io.no_save()` (io.py:775-879). -/
noncomputable def noSave (zero : α → α) : Saving Unit (NoSaveState α) (SaveResult α) α where
  init _ sample n := (noSaveInit zero sample n).map (fun s => ((), s))
  save _ st keep sample := (noSaveStep st keep sample).map (fun s => ((), s))
  saveVmap _ lanes := (noSaveVmap lanes).map (fun s => ((), s))
  post _ st := .ok ((), ⟨st.saved, st.data⟩)

/-! ### The memory collector -/

/-- The data of one chain in a `MemoryCollector` (io.py:514-520). -/
structure MemChain (α : Type) where
  buffers : List (List α)
  treedef : Tree Unit
  count : Nat
  locked : Bool
  names : List Key

/-- `MemoryCollector`.  `files` are the written npz files: the number of the chain and the arrays
by name.
(io.py:514-520) -/
structure MemCollector (α : Type) where
  saveDir : Bool
  chains : List (MemChain α)
  files : List (Nat × List (Key × List α))

/-- `MemoryCollector(save_dir)` (io.py:514-520). -/
def memNew (saveDir : Bool) : MemCollector α := ⟨saveDir, [], []⟩

/-- The names of the arrays (io.py:549-553, 560).  Without a directory the keys are strings instead
of tuples, hence `"/".join` inserts a separator after each character; these names are never used
and left out here. -/
def memNames (saveDir : Bool) (sample : Tree α) : Except PyErr (List Key) :=
  if saveDir then (dictKeys sample).map (List.map joinPath) else .ok []

/-- `register_chain` (io.py:525-561): `onp.zeros` rejects negative dimensions. -/
def memRegister (zero : α → α) (C : MemCollector α) (sample : Tree α) (n : Int) :
    Except PyErr (MemCollector α × Nat) :=
  match sample with
  | .none => .error .assertionError
  | _ =>
    if n < 0 ∧ sample.leaves ≠ [] then .error .valueError
    else
      match memNames C.saveDir sample with
      | .error e => .error e
      | .ok names =>
        .ok ({ C with chains := C.chains ++ [⟨sample.leaves.map
          (fun a => List.replicate n.toNat (zero a)), sample.shape, 0, true, names⟩] },
          C.chains.length)

/-- `leaf[count] = value` for all leaves (io.py:572-573): numpy raises `IndexError` for a row out of
range; `zip` stops at the shorter list. -/
def putRows (i : Nat) : List (List α) → List α → Except PyErr (List (List α))
  | b :: bs, v :: vs =>
    if i < b.length then
      match putRows i bs vs with
      | .error e => .error e
      | .ok r => .ok (b.set i v :: r)
    else .error .indexError
  | bs, _ => .ok bs

/-- `save` (io.py:563-574) on the chain. -/
def chSave (ch : MemChain α) (values : List α) : Except PyErr (MemChain α) :=
  match putRows ch.count ch.buffers values with
  | .error e => .error e
  | .ok b => .ok { ch with buffers := b, count := ch.count + 1 }

/-- `save` (io.py:563-574). -/
def memSave (C : MemCollector α) (id : Nat) (values : List α) : Except PyErr (MemCollector α) :=
  match C.chains[id]? with
  | none => .error .indexError
  | some ch =>
    match chSave ch values with
    | .error e => .error e
    | .ok ch' => .ok { C with chains := C.chains.set id ch' }

/-- First part of `finalize` (io.py:584): the lock is released (`RuntimeError` if it is not
locked). -/
def memRelease (C : MemCollector α) (id : Nat) : Except PyErr (MemCollector α) :=
  match C.chains[id]? with
  | none => .error .indexError
  | some ch =>
    if ch.locked then .ok { C with chains := C.chains.set id { ch with locked := false } }
    else .error .runtimeError

/-- Second part of `finalize` (io.py:585-591): the file is written.  The pairs of names and arrays are
kept; the dictionary built of them and `savez` are modelled by `npzFile` in `Verif.Model.Npz`. -/
def memWrite (C : MemCollector α) (id : Nat) : Except PyErr (MemCollector α) :=
  if C.saveDir then
    match C.chains[id]? with
    | none => .error .indexError
    | some ch => .ok { C with files := (id, ch.names.zip ch.buffers) :: C.files }
  else .ok C

/-- `finalize` (io.py:576-591). -/
def memFinalize (C : MemCollector α) (id : Nat) : Except PyErr (MemCollector α) :=
  match memRelease C id with
  | .error e => .error e
  | .ok C' => memWrite C' id

/-- The result of `finished` (io.py:593-613) after the lock has been acquired and released. -/
def memResult (C : MemCollector α) (id : Nat) : Except PyErr (Tree (List α)) :=
  match C.chains[id]? with
  | none => .error .indexError
  | some ch => Tree.unflatten ch.treedef ch.buffers

/-- `saving_state` of `save` (io.py:240-243). -/
structure HostState where
  chainId : Nat
  saved : Nat

/-- `save` (io.py:730-759): the callback is executed if the sample is kept; `id_tap` returns `1` and
the other branch `0`. -/
def hostSave (C : MemCollector α) (st : HostState) (keep : Bool) (sample : Tree α) :
    Except PyErr (MemCollector α × HostState) :=
  if keep then
    match memSave C st.chainId sample.leaves with
    | .error e => .error e
    | .ok C' => .ok (C', ⟨st.chainId, st.saved + 1⟩)
  else .ok (C, ⟨st.chainId, st.saved + 0⟩)

/-- The loop of the batched callback `_save` (io.py:692-694). -/
def hostSaveAll (C : MemCollector α) : List (HostState × Bool × Tree α) →
    Except PyErr (MemCollector α)
  | [] => .ok C
  | (st, _, sample) :: lanes =>
    match memSave C st.chainId sample.leaves with
    | .error e => .error e
    | .ok C' => hostSaveAll C' lanes

/-- `save` under `jax.vmap`: `lax.cond` with a batched predicate evaluates both branches, hence the
callback is executed with the samples of all lanes, whether they are kept or not
(`_save`, io.py:686-694); the counters are selected. -/
def hostSaveVmap (C : MemCollector α) (lanes : List (HostState × Bool × Tree α)) :
    Except PyErr (MemCollector α × List HostState) :=
  match hostSaveAll C lanes with
  | .error e => .error e
  | .ok C' => .ok (C', lanes.map (fun l => ⟨l.1.chainId, l.1.saved + bif l.2.1 then 1 else 0⟩))

/-- `io.save(MemoryCollector(...))` (io.py:626-771): in `postprocess` the callback `finalize` is
executed before `finished` returns. -/
def hostSaving (zero : α → α) : Saving (MemCollector α) HostState (SaveResult α) α where
  init C sample n :=
    match memRegister zero C sample n with
    | .error e => .error e
    | .ok (C', id) => .ok (C', ⟨id, 0⟩)
  save := hostSave
  saveVmap := hostSaveVmap
  post C st :=
    match memFinalize C st.chainId with
    | .error e => .error e
    | .ok C' =>
      match memResult C' st.chainId with
      | .error e => .error e
      | .ok samples => .ok (C', ⟨st.saved, samples⟩)

end JaxSgmc
