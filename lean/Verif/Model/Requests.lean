import Verif.Model.NumpyLoader

/-!
# Model of the data request protocol and of `random_reference_data` (`jax_sgmc/data/core.py`)

* `HostLoader` is the interface of `HostDataLoader` (core.py:138-238) used by this code.
* UUIDs (`JaxUUID()`, util/uuid.py) are natural numbers drawn from the supply `next`: every call of
  `JaxUUID()` returns a value never returned before.
* A mini-batch together with its mask is an element of the abstract type `μ`; a cache is a list of
  them (`cached_batches` and `valid` have the same first axis).
* The dictionaries are functions to `Option`.  `_requests[uuid]` is created as an empty dictionary
  before it is read (core.py:422-423), which is indistinguishable from a missing one.
* `objs` holds the mutable data loader objects; `fetches` is a ghost log of the calls of
  `get_batches` (it is never read).
-/

namespace JaxSgmc

/-- The part of the `HostDataLoader` interface used here; `κ` are the keyword arguments of the
registration.
(data/core.py:138-208) -/
structure HostLoader (Λ κ μ : Type) where
  obsCount : Λ → Nat
  register : Λ → (cacheSize mbSize : Nat) → κ → Except PyErr (Nat × Λ)
  getBatches : Λ → Nat → Except PyErr (List μ) × Λ

/-- `_Requests` (core.py:406-413) together with the loader objects. -/
structure Host (Λ μ : Type) where
  objs : Nat → Λ
  loaders : Nat → Option Nat                    -- `_host_data_loaders`
  requests : Nat → Nat → Option Nat             -- `_requests[callback][chain]`
  cached : Nat → Option (Int × List μ × Nat)    -- `_cached_requests[token]`
  next : Nat
  fetches : List (Nat × Nat)

/-- `CacheState` (core.py:240-260) of a host data loader. -/
structure CacheState (μ : Type) where
  cb : Nat
  batches : List μ
  count : Nat
  line : Nat
  chain : Nat
  token : Nat
  deriving DecidableEq, Repr

/-- Function update.
(dictionary assignment as in data/core.py:408-463) -/
def upd {α : Type} (f : Nat → α) (k : Nat) (v : α) : Nat → α := fun i => if i = k then v else f i

section
variable {Λ κ μ : Type} (H : HostLoader Λ κ μ)

/-- The last branch of `_Requests.__call__` (core.py:451-461): issue a token and request data. -/
def fetch (s : Host Λ μ) (chain tok cb dc : Nat) :
    Except PyErr (List μ × Nat) × Host Λ μ :=
  let newTok := s.next
  let s := { s with next := s.next + 1 }
  match s.loaders cb with
  | none => (.error .keyError, s)
  | some l =>
    let r := H.getBatches (s.objs l) chain
    let s := { s with objs := upd s.objs l r.2, fetches := s.fetches ++ [(l, chain)] }
    match r.1 with
    | .error e => (.error e, s)
    | .ok resp =>
      let s := { s with requests := upd s.requests cb (upd (s.requests cb) chain (some newTok)) }
      let s := if dc ≠ 1 then
          { s with cached := upd s.cached tok (some ((dc : Int) - 1, resp, newTok)) } else s
      (.ok (resp, newTok), s)

/-- `_Requests.__call__` (core.py:415-463).  In the non-strict branch of an invalid request only a
warning is emitted and the function proceeds to `return callback_response, new_token`, both of which
are unbound: `UnboundLocalError`. -/
def request (s : Host Λ μ) (chain tok cb dc : Nat) (strict : Bool) :
    Except PyErr (List μ × Nat) × Host Λ μ :=
  match s.cached tok with
  | some (counter, resp, newTok) =>
    if counter = 1 then (.ok (resp, newTok), { s with cached := upd s.cached tok none })
    else (.ok (resp, newTok),
      { s with cached := upd s.cached tok (some (counter - 1, resp, newTok)) })
  | none =>
    if s.requests cb chain ≠ some tok ∧ s.requests cb chain ≠ none then
      if strict then (.error .runtimeError, s) else (.error .unboundLocalError, s)
    else fetch H s chain tok cb dc

/-- `batch_fn` of `_hcb_wrapper` (core.py:736-790).  `devices` is `jax.device_count()`.  Under `jit`
the mini-batch is read with a clamping index; the index is always inside the cache (proved), the
out-of-range case is `IndexError` here. -/
def batchFn (devices : Nat) (s : Host Λ μ) (st : CacheState μ) (dc : Nat) (verify : Bool) :
    Except PyErr (CacheState μ × μ) × Host Λ μ :=
  if dc > devices then (.error .valueError, s) else
  -- `_data_state_helper`: refresh if all cached batches have been used (core.py:730-734, 761-763)
  let r : Except PyErr (CacheState μ) × Host Λ μ :=
    if st.line = st.count then
      match request H s st.chain st.token st.cb dc verify with
      | (.error e, s') => (.error e, s')
      | (.ok (resp, tok), s') => (.ok { st with batches := resp, line := 0, token := tok }, s')
    else (.ok st, s)
  match r with
  | (.error e, s') => (.error e, s')
  | (.ok st', s') =>
    let line := st'.line % st'.count
    match st'.batches[line]? with
    | none => (.error .indexError, s')
    | some b => (.ok ({ st' with line := line + 1 }, b), s')

/-- What `_random_reference_data_host` closes over (core.py:794-830). -/
structure Cfg where
  loader : Nat
  cacheCount : Nat
  mbSize : Nat
  verify : Bool

/-- The program: the host and the data states held in variables (on any device).
(the program calling data/core.py:477-519, 664-835) -/
structure PSys (Λ μ : Type) where
  host : Host Λ μ
  cfgs : Nat → Option Cfg
  vars : Nat → Option (CacheState μ)

/-- Operations of the program.
* `setup`: `random_reference_data(data_loader, cached_batches_count, mb_size, verify_calls)`
* `init cb kw h`: `h = init_fn(**kw)`
* `copy h h'`: `h' = h` (also: replicate a data state to another device)
* `draw h dc`: `h, batch = batch_fn(h, device_count=dc)`
* `release cb`: `release()`
(test driver for data/core.py:477-519, 664-835) -/
inductive POp (κ : Type)
  | setup (loader : Nat) (cacheCount mbSize : Int) (verify : Bool)
  | init (cb : Nat) (kw : κ) (h : Nat)
  | copy (h h' : Nat)
  | draw (h : Nat) (dc : Nat)
  | release (cb : Nat)

/-- Outcomes.
(results of data/core.py:736-787) -/
inductive POut (μ : Type)
  | ready (cb : Nat)
  | done
  | batch (b : μ)
  | raised (e : PyErr)
  deriving DecidableEq, Repr

/-- `random_reference_data` for a host data loader (core.py:477-520, 794-830), and, with `verify = true`,
`_full_reference_data_host` (core.py:522-566, 865-884): argument checks, a new
callback uuid, registration of the loader.  Simplified: `full_reference_data` checks only the first
condition; for `mb_size ≤ 0` it raises later (division by zero, core.py:567-568) and for a cache without
lines there is no batch to return, so non-positive sizes are rejected here for both functions. -/
def setupFn (s : PSys Λ μ) (l : Nat) (cc mb : Int) (verify : Bool) : PSys Λ μ × POut μ :=
  if (H.obsCount (s.host.objs l) : Int) < mb then (s, .raised .valueError)
  else if cc ≤ 0 ∨ mb ≤ 0 then (s, .raised .valueError)
  else
    let cb := s.host.next
    ({ s with
        host := { s.host with next := cb + 1, loaders := upd s.host.loaders cb (some l) }
        cfgs := upd s.cfgs cb (some ⟨l, cc.toNat, mb.toNat, verify⟩) }, .ready cb)

/-- `init_fn` of `_random_reference_data_host` (core.py:812-830) and of `_full_reference_data_host`
(core.py:886-909), which differ only in the pipeline they register: register a chain with the loader,
load the first cache through the registered loader (`KeyError` after `release`), create a token. -/
def initFn (s : PSys Λ μ) (cb : Nat) (kw : κ) (h : Nat) : PSys Λ μ × POut μ :=
  match s.cfgs cb with
  | none => (s, .raised .nameError)    -- no such init function
  | some cfg =>
    match H.register (s.host.objs cfg.loader) cfg.cacheCount cfg.mbSize kw with
    | .error e => (s, .raised e)
    | .ok (chain, obj) =>
      let host := { s.host with objs := upd s.host.objs cfg.loader obj }
      match host.loaders cb with
      | none => ({ s with host := host }, .raised .keyError)
      | some l =>
        let r := H.getBatches (host.objs l) chain
        let host := { host with objs := upd host.objs l r.2,
                                fetches := host.fetches ++ [(l, chain)] }
        match r.1 with
        | .error e => ({ s with host := host }, .raised e)
        | .ok resp =>
          ({ s with
              host := { host with next := host.next + 1 }
              vars := upd s.vars h (some
                { cb := cb, batches := resp, count := cfg.cacheCount, line := 0, chain := chain,
                  token := host.next }) }, .done)

/-- One operation of the program.
(data/core.py:477-519, 664-835) -/
def pstep (devices : Nat) (s : PSys Λ μ) : POp κ → PSys Λ μ × POut μ
  | .setup l cc mb v => setupFn H s l cc mb v
  | .init cb kw h => initFn H s cb kw h
  | .copy h h' =>
    match s.vars h with
    | none => (s, .raised .nameError)
    | some st => ({ s with vars := upd s.vars h' (some st) }, .done)
  | .draw h dc =>
    match s.vars h with
    | none => (s, .raised .nameError)
    | some st =>
      match batchFn H devices s.host st dc ((s.cfgs st.cb).elim false (·.verify)) with
      | (.error e, host) => ({ s with host := host }, .raised e)
      | (.ok (st', b), host) =>
        ({ s with host := host, vars := upd s.vars h (some st') }, .batch b)
  | .release cb =>
    match s.host.loaders cb with
    | none => (s, .raised .keyError)
    | some _ => ({ s with host := { s.host with loaders := upd s.host.loaders cb none } }, .done)

/-- A history of operations with outcomes.
(histories of data/core.py:477-519, 664-835) -/
def prun (devices : Nat) : PSys Λ μ → List (POp κ) → PSys Λ μ × List (POp κ × POut μ)
  | s, [] => (s, [])
  | s, op :: ops =>
    let r := pstep H devices s op
    let rest := prun devices r.1 ops
    (rest.1, (op, r.2) :: rest.2)

/-- The state at import of the library (`_data_requests = _Requests()`, core.py:475) with given
loader objects. -/
def pinit (objs : Nat → Λ) : PSys Λ μ :=
  { host := { objs := objs, loaders := fun _ => none, requests := fun _ _ => none,
              cached := fun _ => none, next := 0, fetches := [] }
    cfgs := fun _ => none
    vars := fun _ => none }

end

/-! ### The numpy loader as a host data loader -/

/-- Registration options of the numpy loader.
(data/numpy_loader.py:231-239, 284-288) -/
inductive NumpyKw
  | random (inEpochs shuffle : Bool) (seed : Option Nat)
  | ordered
  deriving DecidableEq, Repr

/-- The `i`-th line of the batches returned by the loader: one mini-batch per array and the mask
(`tree_index(cached_batches, i)` and `valid[i, :]`, core.py:767-768). -/
def Batches.line {ρ : Type} (b : Batches ρ) (i : Nat) : List (String × List ρ) × List Bool :=
  (b.obs.map (fun x => (x.1, x.2.getD i [])), b.mask.getD i [])

/-- All lines.
(data/core.py:642-661) -/
def Batches.lines {ρ : Type} (b : Batches ρ) : List (List (String × List ρ) × List Bool) :=
  (List.range b.mask.length).map b.line

/-- `NumpyDataLoader` behind the `HostDataLoader` interface.
(data/numpy_loader.py:147-340) -/
def numpyHost {σ ρ : Type} (R : Rng σ) :
    HostLoader (Loader σ ρ) NumpyKw (List (String × List ρ) × List Bool) where
  obsCount L := L.obsCount
  register L cs mb kw := match kw with
    | .random ie sh seed => registerRandom R L cs mb ie sh seed
    | .ordered => registerOrdered L cs mb
  getBatches L c := match getBatches R L c with
    | (.ok b, L') => (.ok b.lines, L')
    | (.error e, L') => (.error e, L')

end JaxSgmc
