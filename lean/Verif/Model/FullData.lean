import Verif.Model.Requests

/-!
# Model of `full_reference_data` and `full_data_mapper` (`jax_sgmc/data/core.py`)

A data source is any `batch_fn`: a function from a state to a batch and a new state which may raise.
For a host data loader the state is the whole program (`PSys`, the data state is in a variable), for a
device data loader it is `CacheState.current_line`.
-/

namespace JaxSgmc

/-- `num_iterations = int(ceil(observation_count / batch_size))` (core.py:558-559);
`batch_size = 0` is a division by zero. -/
def numIterations (N bs : Nat) : Except PyErr Nat :=
  if bs = 0 then .error .zeroDivisionError else .ok (ceilDiv N bs)

/-- The mask of iteration `it` (core.py:571-572): `iteration * batch_size + arange(batch_size) < N`. -/
def iterMask (N bs it : Nat) : List Bool :=
  (List.range bs).map (fun i => decide (it * bs + i < N))

section
variable {S β σ γ : Type}

/-- `lax.scan(_body_fn, (data_state, carry), arange(num_iterations))` (core.py:563-584, 612-613).
`f` is called with the iteration (which determines the mask), the batch and the carry.  An error
leaves the source where it was when the error occurred. -/
def scanBatches (src : S → Except PyErr β × S) (f : Nat → β → σ → Except PyErr (γ × σ)) :
    (n it : Nat) → S → σ → Except PyErr (List γ × σ) × S
  | 0, _, s, c => (.ok ([], c), s)
  | n + 1, it, s, c =>
    match src s with
    | (.error e, s') => (.error e, s')
    | (.ok b, s') =>
      match f it b c with
      | .error e => (.error e, s')
      | .ok (res, c') =>
        match scanBatches src f n (it + 1) s' c' with
        | (.error e, s'') => (.error e, s'')
        | (.ok (rs, c''), s'') => (.ok (res :: rs, c''), s'')

/-- `batch_scan` with `masking=True` (core.py:586-627): the stacked results and the final carry. -/
def mapMasked (src : S → Except PyErr β × S) (N bs : Nat) (fn : β → List Bool → σ → γ × σ)
    (s : S) (carry : σ) : Except PyErr (List γ × σ) × S :=
  match numIterations N bs with
  | .error e => (.error e, s)
  | .ok q => scanBatches src (fun it b c => .ok (fn b (iterMask N bs it) c)) q 0 s carry

/-- `batch_scan` with `masking=False`: `fn` returns one result per observation of the batch, the
results are concatenated and cut to the number of observations (core.py:615-627). -/
def mapUnmasked (src : S → Except PyErr β × S) (N bs : Nat)
    (fn : β → σ → Except PyErr (List γ × σ)) (s : S) (carry : σ) :
    Except PyErr (List γ × σ) × S :=
  match numIterations N bs with
  | .error e => (.error e, s)
  | .ok q =>
    match scanBatches src (fun _ b c => fn b c) q 0 s carry with
    | (.error e, s') => (.error e, s')
    | (.ok (rs, c), s') => (.ok (rs.flatten.take N, c), s')

end

/-! ### Sources -/

/-- Drawing from the data state in variable `v` (host data loader): `batch_fn` of `_hcb_wrapper`.
(data/core.py:736-787) -/
def hostSource {Λ κ μ : Type} (H : HostLoader Λ κ μ) (devices v dc : Nat) (s : PSys Λ μ) :
    Except PyErr μ × PSys Λ μ :=
  match pstep H devices s (.draw v dc) with
  | (s', .batch b) => (.ok b, s')
  | (s', .raised e) => (.error e, s')
  | (s', _) => (.error .runtimeError, s')

/-- `batch_fn` of `_full_reference_data_device` (core.py:940-956).  The dataset is a list of
observations.  `indices[-1]` of an empty array and the remainder by zero raise. -/
def deviceSource {ρ : Type} (data : List ρ) (bs : Nat) (line : Nat) : Except PyErr (List ρ) × Nat :=
  let idcs := (List.range bs).map (fun i => (i + line) % data.length)
  match idcs.getLast? with
  | none => (.error .indexError, line)
  | some last =>
    match npTake data idcs with
    | .error e => (.error e, line)
    | .ok rows => (.ok rows, (last + 1) % data.length)

/-- `init_fn` of `_full_reference_data_device` (core.py:931-938). -/
def deviceInit (N offset : Nat) : Except PyErr Nat :=
  if offset ≥ N then .error .valueError else .ok offset

/-- The batch size used by `full_reference_data` (core.py:522-566, 912-929): a host data loader gets
`mb_size`, a device data loader gets `cached_batches_count` in the place of the batch size. -/
inductive LoaderKind | host | device
  deriving DecidableEq, Repr

/-- data/core.py:586-612. -/
def fullBatchSize (kind : LoaderKind) (cachedBatchesCount mbSize : Nat) : Nat :=
  match kind with
  | .host => mbSize
  | .device => cachedBatchesCount

/-! ### `full_data_mapper` -/

/-- The row `j` of a mini-batch (all arrays).
(data/core.py:1083-1092: slices of a batch under `lax.scan`) -/
def batchRow {ρ : Type} (b : List (String × List ρ)) (j : Nat) : List (String × Option ρ) :=
  b.map (fun x => (x.1, x.2[j]?))

/-- `batched_fun` for `batched=False` (core.py:1072-1103).  Rows are the single observations.
`mb_size = 1`: the function is applied to the squeezed batch and its state is passed on.
Otherwise it is vectorised with the same state for all rows; if it returns a state,
`take_along_axis(indices=0)` raises (the index is not an array of the right rank). -/
def unbatched {ρ σ γ : Type} (mb : Nat) (rowOf : Nat → ρ) (fn : ρ → Option σ → γ × Option σ)
    (c : Option σ) : Except PyErr (List γ × Option σ) :=
  if mb = 1 then
    let r := fn (rowOf 0) c
    .ok ([r.1], r.2)
  else
    let rs := (List.range mb).map (fun j => fn (rowOf j) c)
    if rs.all (fun r => r.2.isNone) then .ok (rs.map (·.1), none) else .error .valueError

/-- A running call of the mapper: the slot (data state) it holds, the iterations done, the carry and
the results so far.
(data/core.py:1064-1109) -/
structure Call (σ γ : Type) where
  slot : Nat
  iter : Nat
  carry : σ
  results : List (List γ)

/-- `_FullDataHelper` (core.py:964-1018) together with the running calls.  Data states are
identified by the program variable (slot) which holds them: a data state is either in the pool or
held by exactly one call.  `created` counts the calls of `_new_cache_state`. -/
structure Mapper (Λ μ σ γ : Type) where
  sys : PSys Λ μ
  cb : Nat
  pool : List Nat
  created : Nat
  calls : Nat → Option (Call σ γ)
  finished : Nat → Option (List γ × σ)

/-- Operations: `start c carry` begins call `c` (`_get_state`), `iter c` is one iteration of its
scan, `finish c` ends it (`_free_cache_state`), `env op` is any other operation of the program.
(data/core.py:1047-1109, one operation per host call) -/
inductive MOp (κ σ : Type)
  | start (c : Nat) (carry : σ)
  | iter (c : Nat)
  | finish (c : Nat)
  | env (op : POp κ)

section
variable {Λ κ μ σ γ : Type} (H : HostLoader Λ κ μ)

/-- The variable used for the `k`-th data state created by the mapper.
(data/core.py:987-1005) -/
def slotVar (base k : Nat) : Nat := base + k

/-- `_new_cache_state` (core.py:1002-1005) into the next slot; `false` if it raises. -/
def newSlot (devices base : Nat) (kw : κ) (m : Mapper Λ μ σ γ) : Bool × Mapper Λ μ σ γ :=
  match pstep H devices m.sys (.init m.cb kw (slotVar base m.created)) with
  | (s', .done) => (true, { m with sys := s', created := m.created + 1 })
  | (s', _) => (false, { m with sys := s' })

/-- Construction of the helper (core.py:967-977, called by `full_data_mapper`, core.py:1021-1062, 1109-1114): registers the loader and creates the first data
state. -/
def mkMapper (devices base : Nat) (kw : κ) (s : PSys Λ μ) (l : Nat) (cc mb : Int) :
    Option (Mapper Λ μ σ γ) :=
  match pstep H devices s (.setup l cc mb true) with
  | (s', .ready cb) =>
    match newSlot H devices base kw
        ({ sys := s', cb := cb, pool := [], created := 0, calls := fun _ => none,
           finished := fun _ => none } : Mapper Λ μ σ γ) with
    | (true, m) => some { m with pool := [slotVar base 0] }
    | (false, _) => none
  | _ => none

/-- One operation of the mapper.  `fn` is the mapped function, `q` the number of iterations, `N` the
number of observations.  `pop()` takes the last unused data state (core.py:987-994). -/
def mstep (devices base : Nat) (kw : κ) (N q : Nat) (fn : μ → σ → List γ × σ) (m : Mapper Λ μ σ γ) :
    MOp κ σ → Mapper Λ μ σ γ
  | .start c carry =>
    match m.calls c with
    | some _ => m
    | none =>
      match m.pool.getLast? with
      | some slot =>
        { m with pool := m.pool.dropLast, calls := upd m.calls c (some ⟨slot, 0, carry, []⟩) }
      | none =>
        match newSlot H devices base kw m with
        | (true, m') =>
          { m' with calls := upd m'.calls c (some ⟨slotVar base m.created, 0, carry, []⟩) }
        | (false, m') => m'
  | .iter c =>
    match m.calls c with
    | none => m
    | some call =>
      if call.iter < q then
        match hostSource H devices call.slot 1 m.sys with
        | (.ok b, s') =>
          let r := fn b call.carry
          { m with sys := s', calls := upd m.calls c (some
              ⟨call.slot, call.iter + 1, r.2, call.results ++ [r.1]⟩) }
        | (.error _, s') => { m with sys := s' }
      else m
  | .finish c =>
    match m.calls c with
    | none => m
    | some call =>
      if call.iter = q then
        { m with pool := m.pool ++ [call.slot], calls := upd m.calls c none,
                 finished := upd m.finished c (some (call.results.flatten.take N, call.carry)) }
      else m
  | .env op => { m with sys := (pstep H devices m.sys op).1 }

/-- A history of the mapper.
(histories of data/core.py:1047-1109) -/
def mrun (devices base : Nat) (kw : κ) (N q : Nat) (fn : μ → σ → List γ × σ) :
    Mapper Λ μ σ γ → List (MOp κ σ) → Mapper Λ μ σ γ
  | m, [] => m
  | m, op :: ops => mrun devices base kw N q fn (mstep H devices base kw N q fn m op) ops

end

end JaxSgmc
