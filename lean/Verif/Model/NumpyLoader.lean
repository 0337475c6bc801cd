import Verif.Model.Prelude

/-!
# Model of `jax_sgmc/data/numpy_loader.py` (`NumpyDataLoader`)

Simplifications (apply to the whole file):
* the numpy bit generator is a parameter `Rng` (its laws are collected in `Rng.Lawful`);
* `math.ceil(a / b)` and `math.floor(a / b)` on Python ints go through a float division; they are
  modelled by exact natural number division (identical below 2^53);
* an array is the list of its rows (first axis), the row type is abstract;
* sizes are natural numbers (negative sizes are outside the model of this file).
-/

namespace JaxSgmc

/-- The numpy random generator.  `seed s` is `default_rng(SeedSequence(s).spawn(1)[0])`
(numpy_loader.py:261-262), `choiceRepl g n m` is `choice(arange(n), size=m, replace=True)`
(384-387), `choicePerm g n` is `choice(arange(n), size=n, replace=False)` (399-402, 438-441). -/
structure Rng (σ : Type) where
  seed : Nat → σ
  choiceRepl : σ → Nat → Nat → List Nat × σ
  choicePerm : σ → Nat → List Nat × σ

/-- What the model assumes about numpy's `Generator.choice`.
(numpy semantics used at data/numpy_loader.py:382-460) -/
structure Rng.Lawful {σ : Type} (R : Rng σ) : Prop where
  replLength : ∀ g n m, 0 < n → (R.choiceRepl g n m).1.length = m
  replLt : ∀ g n m i, 0 < n → i ∈ (R.choiceRepl g n m).1 → i < n
  perm : ∀ g n, (R.choicePerm g n).1.Perm (List.range n)

/-- The dictionary of a chain of type `random` (numpy_loader.py:267-276).
`remaining_samples` is a Python int; it never becomes negative (proved:
`JaxSgmc.shuffle_no_truncation`), hence `Nat`. -/
structure RandomChain (σ : Type) where
  rng : σ
  idxOffset : Option Nat
  inEpochs : Bool
  shuffle : Bool
  remainingSamples : Nat
  draws : Nat
  randomIndices : Option (List Nat)
  mbSize : Nat
  cacheSize : Nat
  deriving DecidableEq, Repr

/-- The dictionary of a chain of type `ordered` (numpy_loader.py:304-308). -/
structure OrderedChain where
  idxOffset : Nat
  mbSize : Nat
  cacheSize : Nat
  deriving DecidableEq, Repr

/-- An entry of `self._chains`.
(data/numpy_loader.py:262-282, 303-312) -/
inductive Chain (σ : Type)
  | random (c : RandomChain σ)
  | ordered (c : OrderedChain)
  deriving DecidableEq, Repr

/-- `math.ceil(n / m)` for `m > 0`.
(data/numpy_loader.py:277, 433) -/
def ceilDiv (n m : Nat) : Nat := (n + m - 1) / m

/-- `_ordered_indices` (numpy_loader.py:357-370). -/
def orderedIndices (N : Nat) (c : OrderedChain) : (List Nat × List Bool) × OrderedChain :=
  let idcs := (List.range c.mbSize).map (fun i => i + c.idxOffset)
  let mask := (List.range c.mbSize).map (fun i => decide (i + c.idxOffset < N))
  let c' := if c.idxOffset + c.mbSize ≥ N then { c with idxOffset := 0 }
            else { c with idxOffset := c.idxOffset + c.mbSize }
  ((idcs.map (fun i => i % N), mask), c')

/-- `_draw_indices` (numpy_loader.py:382-389). -/
def drawIndices {σ : Type} (R : Rng σ) (N : Nat) (c : RandomChain σ) :
    (List Nat × List Bool) × RandomChain σ :=
  let r := R.choiceRepl c.rng N c.mbSize
  ((r.1, List.replicate c.mbSize true), { c with rng := r.2 })

/-- The refresh of the random indices in `_shuffle_indices` (numpy_loader.py:396-418): the first
call allocates the zero buffer and resets `draws`; then the new permutation is written behind the
remaining samples of the ring buffer. -/
def shuffleRefresh {σ : Type} (R : Rng σ) (N : Nat) (ceilDraws : Nat) (c : RandomChain σ) :
    Except PyErr (RandomChain σ) :=
  let new := R.choicePerm c.rng N
  let c1 := { c with rng := new.2 }
  let (buf, draws) := match c1.randomIndices with
    | none => (List.replicate (ceilDraws * c1.mbSize) 0, 0)
    | some b => (b, c1.draws)
  let updateIdxs := (List.range N).map
    (fun i => (i + draws * c1.mbSize + c1.remainingSamples) % (ceilDraws * c1.mbSize))
  match npPut buf updateIdxs new.1 with
  | .error e => .error e
  | .ok buf' => .ok { c1 with draws := draws, randomIndices := some buf',
                              remainingSamples := c1.remainingSamples + N }

/-- `_shuffle_indices` (numpy_loader.py:391-430).  `random_indices is None` when taking the
selection (only possible without a refresh, i.e. never) would be a `TypeError`. -/
def shuffleIndices {σ : Type} (R : Rng σ) (N : Nat) (c : RandomChain σ) :
    Except PyErr ((List Nat × List Bool) × RandomChain σ) :=
  if c.mbSize = 0 then .error .zeroDivisionError else
  let ceilDraws := N / c.mbSize + 2
  let refreshed := if c.remainingSamples < c.mbSize then shuffleRefresh R N ceilDraws c else .ok c
  match refreshed with
  | .error e => .error e
  | .ok c =>
    let mask := List.replicate c.mbSize true
    let selIdxs := (List.range c.mbSize).map
      (fun i => (i + c.draws * c.mbSize) % (c.mbSize * ceilDraws))
    match c.randomIndices with
    | none => .error .typeError
    | some buf =>
      match npTake buf selIdxs with
      | .error e => .error e
      | .ok sel => .ok ((sel, mask), { c with draws := (c.draws + 1) % ceilDraws,
                                              remainingSamples := c.remainingSamples - c.mbSize })

/-- `_shuffle_in_epochs` (numpy_loader.py:432-460).  Slicing `random_indices[a:b]` clips, slice
assignment `random_indices[0:N] = new` requires equal lengths. -/
def shuffleInEpochs {σ : Type} (R : Rng σ) (N : Nat) (c : RandomChain σ) :
    Except PyErr ((List Nat × List Bool) × RandomChain σ) :=
  if c.mbSize = 0 then .error .zeroDivisionError else
  let ceilDraws := ceilDiv N c.mbSize
  let refreshed : Except PyErr (RandomChain σ) :=
    if c.draws = ceilDraws then
      let new := R.choicePerm c.rng N
      let buf := match c.randomIndices with
        | none => List.replicate (ceilDraws * c.mbSize) 0
        | some b => b
      if (buf.take N).length = new.1.length then
        .ok { c with rng := new.2, randomIndices := some (new.1 ++ buf.drop N), draws := 0 }
      else .error .valueError
    else .ok c
  match refreshed with
  | .error e => .error e
  | .ok c =>
    let startIdx := c.mbSize * c.draws
    let endIdx := c.mbSize * (c.draws + 1)
    let mask := (List.range (endIdx - startIdx)).map (fun i => decide (startIdx + i < N))
    match c.randomIndices with
    | none => .error .typeError
    | some buf =>
      .ok (((buf.drop startIdx).take (endIdx - startIdx), mask), { c with draws := c.draws + 1 })

/-- The choice of the index function in `_get_indices` (numpy_loader.py:343-351) applied once. -/
def indexStep {σ : Type} (R : Rng σ) (N : Nat) :
    Chain σ → Except PyErr ((List Nat × List Bool) × Chain σ)
  | .ordered c => let r := orderedIndices N c; .ok (r.1, .ordered r.2)
  | .random c =>
    if c.inEpochs then
      match shuffleInEpochs R N c with
      | .error e => .error e
      | .ok r => .ok (r.1, .random r.2)
    else if c.shuffle then
      match shuffleIndices R N c with
      | .error e => .error e
      | .ok r => .ok (r.1, .random r.2)
    else
      let r := drawIndices R N c; .ok (r.1, .random r.2)

/-- The `map(..., repeat(chain_id, cache_size))` of `_get_indices` (numpy_loader.py:352-354). -/
def indexSteps {σ : Type} (R : Rng σ) (N : Nat) :
    Nat → Chain σ → Except PyErr (List (List Nat × List Bool) × Chain σ)
  | 0, c => .ok ([], c)
  | k + 1, c =>
    match indexStep R N c with
    | .error e => .error e
    | .ok (x, c') =>
      match indexSteps R N k c' with
      | .error e => .error e
      | .ok (xs, c'') => .ok (x :: xs, c'')

/-- `chain['cache_size']`.
(data/numpy_loader.py:349) -/
def Chain.cacheSize {σ : Type} : Chain σ → Nat
  | .random c => c.cacheSize
  | .ordered c => c.cacheSize

/-- `chain['mb_size']`.
(data/numpy_loader.py:357-460) -/
def Chain.mbSize {σ : Type} : Chain σ → Nat
  | .random c => c.mbSize
  | .ordered c => c.mbSize

/-- `_get_indices` (numpy_loader.py:342-355): with `cache_size = 0` unpacking the empty `zip`
raises a `ValueError`. -/
def getIndices {σ : Type} (R : Rng σ) (N : Nat) (c : Chain σ) :
    Except PyErr (List (List Nat × List Bool) × Chain σ) :=
  if c.cacheSize = 0 then .error .valueError else indexSteps R N c.cacheSize c

/-- The result of `get_batches`: for every name the `cache_size` batches of `mb_size` rows, and the
mask of shape `(cache_size, mb_size)`.
(data/numpy_loader.py:328-340) -/
structure Batches (ρ : Type) where
  obs : List (String × List (List ρ))
  mask : List (List Bool)
  deriving DecidableEq, Repr

/-- Slices one array with the index array of shape `(cache_size, mb_size)`
(numpy_loader.py:334-338). -/
def takeRows {ρ : Type} (data : List ρ) : List (List Nat) → Except PyErr (List (List ρ))
  | [] => .ok []
  | idxs :: rest =>
    match npTake data idxs with
    | .error e => .error e
    | .ok b =>
      match takeRows data rest with
      | .error e => .error e
      | .ok bs => .ok (b :: bs)

/-- The loop over the reference data in `get_batches` (numpy_loader.py:333-339). -/
def sliceAll {ρ : Type} (idxs : List (List Nat)) :
    List (String × List ρ) → Except PyErr (List (String × List (List ρ)))
  | [] => .ok []
  | (name, data) :: rest =>
    match takeRows data idxs with
    | .error e => .error e
    | .ok b =>
      match sliceAll idxs rest with
      | .error e => .error e
      | .ok bs => .ok ((name, b) :: bs)

/-- A `NumpyDataLoader`: `_reference_data`, `_observation_count`, `_chains`.
(data/numpy_loader.py:41-63, 177-184) -/
structure Loader (σ ρ : Type) where
  data : List (String × List ρ)
  obsCount : Nat
  chains : List (Chain σ)
  deriving DecidableEq, Repr

/-- `NumpyBase.__init__` and `NumpyDataLoader.__init__` (numpy_loader.py:41-62, 177-184); `obsCount` is
`static_information` (numpy_loader.py:65-69, 80-86). -/
def mkLoader {σ ρ : Type} (data : List (String × List ρ)) : Except PyErr (Loader σ ρ) :=
  match data with
  | [] => .ok { data := [], obsCount := 0, chains := [] }
  | d :: ds =>
    if (d :: ds).any (fun x => x.2.length != d.2.length) then .error .valueError
    else .ok { data := d :: ds, obsCount := d.2.length, chains := [] }

/-- `get_batches` (numpy_loader.py:314-340).  An unknown chain id is an `IndexError`.  The chain is
advanced even if slicing fails (the indices are computed first). -/
def getBatches {σ ρ : Type} (R : Rng σ) (L : Loader σ ρ) (cid : Nat) :
    Except PyErr (Batches ρ) × Loader σ ρ :=
  match L.chains[cid]? with
  | none => (.error .indexError, L)
  | some c =>
    match getIndices R L.obsCount c with
    | .error e => (.error e, L)
    | .ok (sel, c') =>
      let L' := { L with chains := L.chains.set cid c' }
      match sliceAll (sel.map (·.1)) L.data with
      | .error e => (.error e, L')
      | .ok obs => (.ok { obs := obs, mask := sel.map (·.2) }, L')

/-- `register_random_pipeline` (numpy_loader.py:231-282).  `seed = none` models a missing keyword,
the chain id is then used (260).  `mb_size = 0` makes `observation_count / mb_size` raise (273). -/
def registerRandom {σ ρ : Type} (R : Rng σ) (L : Loader σ ρ) (cacheSize mbSize : Nat)
    (inEpochs shuffle : Bool) (seed : Option Nat) : Except PyErr (Nat × Loader σ ρ) :=
  if mbSize > L.obsCount then .error .valueError
  else if !shuffle && inEpochs then .error .valueError
  else if mbSize = 0 then .error .zeroDivisionError
  else
    let chainId := L.chains.length
    let c : RandomChain σ :=
      { rng := R.seed (seed.getD chainId), idxOffset := none, inEpochs := inEpochs,
        shuffle := shuffle, remainingSamples := 0, draws := ceilDiv L.obsCount mbSize,
        randomIndices := none, mbSize := mbSize, cacheSize := cacheSize }
    .ok (chainId, { L with chains := L.chains ++ [.random c] })

/-- `register_ordered_pipeline` (numpy_loader.py:284-312). -/
def registerOrdered {σ ρ : Type} (L : Loader σ ρ) (cacheSize mbSize : Nat) :
    Except PyErr (Nat × Loader σ ρ) :=
  if mbSize ≤ L.obsCount then
    .ok (L.chains.length,
      { L with chains := L.chains ++ [.ordered { idxOffset := 0, mbSize := mbSize,
                                                 cacheSize := cacheSize }] })
  else .error .assertionError

/-- One item of the dictionary returned by `save_state`: the generator state together with all
other entries of a random chain, or the offset of an ordered one.
(data/numpy_loader.py:186-208) -/
inductive CkptItem (σ : Type)
  | random (c : RandomChain σ)
  | ordered (idxOffset : Nat)
  deriving DecidableEq, Repr

/-- A checkpoint object as held by the user: a Python dictionary (list of items, last item
last), which `load_state` mutates.
(data/numpy_loader.py:186-229) -/
abbrev Ckpt (σ : Type) := List (CkptItem σ)

/-- `save_state` (numpy_loader.py:186-208). -/
def saveState {σ ρ : Type} (L : Loader σ ρ) (cid : Nat) : Except PyErr (Ckpt σ) :=
  match L.chains[cid]? with
  | none => .error .indexError
  | some (.random c) => .ok [.random c]
  | some (.ordered c) => .ok [.ordered c.idxOffset]

/-- `load_state` (numpy_loader.py:210-229): `popitem` removes the item from the user's checkpoint
(`KeyError` if it is empty).  A random checkpoint overwrites all entries of a random chain; on an
ordered chain `None.bit_generator` raises an `AttributeError`.  An ordered checkpoint sets
`idx_offset`, which a random chain never reads.
Returns the outcome, the loader and the mutated checkpoint. -/
def loadState {σ ρ : Type} (L : Loader σ ρ) (cid : Nat) (data : Ckpt σ) :
    Except PyErr Unit × Loader σ ρ × Ckpt σ :=
  match data.getLast? with
  | none => (.error .keyError, L, data)
  | some item =>
    let data' := data.dropLast
    match L.chains[cid]? with
    | none => (.error .indexError, L, data')
    | some chain =>
      match item, chain with
      | .random c, .random _ => (.ok (), { L with chains := L.chains.set cid (.random c) }, data')
      | .random _, .ordered _ => (.error .attributeError, L, data')
      | .ordered o, .random c =>
        (.ok (), { L with chains := L.chains.set cid (.random { c with idxOffset := some o }) },
          data')
      | .ordered o, .ordered c =>
        (.ok (), { L with chains := L.chains.set cid (.ordered { c with idxOffset := o }) }, data')

/-! ### The loader together with the checkpoints held by the user, as a state machine -/

/-- A user operation on the loader.  `save cid h` assigns the checkpoint returned by
`save_state(cid)` to the user's variable `h`, `load cid h` passes the object in variable `h` to
`load_state(cid, ·)`.
(test driver: histories of the calls of data/numpy_loader.py:186-340) -/
inductive LOp
  | regRandom (cacheSize mbSize : Nat) (inEpochs shuffle : Bool) (seed : Option Nat)
  | regOrdered (cacheSize mbSize : Nat)
  | get (cid : Nat)
  | save (cid : Nat) (h : Nat)
  | load (cid : Nat) (h : Nat)
  deriving DecidableEq, Repr

/-- Observable outcome of an operation.
(results of data/numpy_loader.py:186-340) -/
inductive LOut (ρ : Type)
  | registered (cid : Nat)
  | batches (b : Batches ρ)
  | saved
  | loaded
  | raised (e : PyErr)
  deriving DecidableEq, Repr

/-- Loader and the user's checkpoint variables.
(the loader of data/numpy_loader.py:147-184) -/
structure LSys (σ ρ : Type) where
  loader : Loader σ ρ
  ckpts : Nat → Option (Ckpt σ)

/-- Assignment to a checkpoint variable.
(test driver: variable of the user holding the result of data/numpy_loader.py:186-208) -/
def setCkpt {σ : Type} (m : Nat → Option (Ckpt σ)) (h : Nat) (ck : Ckpt σ) :
    Nat → Option (Ckpt σ) :=
  fun k => if k = h then some ck else m k

/-- One operation.
(data/numpy_loader.py:186-340) -/
def lstep {σ ρ : Type} (R : Rng σ) (s : LSys σ ρ) : LOp → LSys σ ρ × LOut ρ
  | .regRandom cs mb ie sh seed =>
    match registerRandom R s.loader cs mb ie sh seed with
    | .error e => (s, .raised e)
    | .ok (cid, L) => ({ s with loader := L }, .registered cid)
  | .regOrdered cs mb =>
    match registerOrdered s.loader cs mb with
    | .error e => (s, .raised e)
    | .ok (cid, L) => ({ s with loader := L }, .registered cid)
  | .get cid =>
    let r := getBatches R s.loader cid
    ({ s with loader := r.2 }, match r.1 with | .ok b => .batches b | .error e => .raised e)
  | .save cid h =>
    match saveState s.loader cid with
    | .error e => (s, .raised e)
    | .ok ck => ({ s with ckpts := setCkpt s.ckpts h ck }, .saved)
  | .load cid h =>
    match s.ckpts h with
    | none => (s, .raised .nameError)   -- the variable is not defined
    | some ck =>
      let r := loadState s.loader cid ck
      ({ loader := r.2.1, ckpts := setCkpt s.ckpts h r.2.2 },
        match r.1 with | .ok () => .loaded | .error e => .raised e)

/-- A history of operations, oldest first, with its outcomes.
(histories of data/numpy_loader.py:186-340) -/
def lrun {σ ρ : Type} (R : Rng σ) : LSys σ ρ → List LOp → LSys σ ρ × List (LOp × LOut ρ)
  | s, [] => (s, [])
  | s, op :: ops =>
    let r := lstep R s op
    let rest := lrun R r.1 ops
    (rest.1, (op, r.2) :: rest.2)

end JaxSgmc
