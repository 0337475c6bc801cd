import Verif.Model.NumpyLoader

/-!
# The mutable index buffers of `NumpyDataLoader`

`Model/NumpyLoader.lean` treats the entry `random_indices` of a chain as a value.  In the program it is a
numpy array, which is changed in place (data/numpy_loader.py:417, 448), copied by `save_state`
(`deepcopy`, 201-202) and *not* copied by `load_state` (223-224).  Here arrays live in a heap, chains and
checkpoints hold addresses, and the user may copy checkpoints, either shallowly (`dict(checkpoint)`) or deeply
(`copy.deepcopy`).

The generator needs no heap: every chain has its own generator object, whose state is read and assigned by
value (203, 222).  If an index function raises, the heap is left unchanged in this model; property C03 shows that
no index function of a registered chain raises.
-/

namespace JaxSgmc

/-- The index arrays in memory; an address is a position in this list.
(arrays allocated at data/numpy_loader.py:407-408, 445-446 and by `deepcopy` at 201-202) -/
abbrev IdxHeap := List (List Nat)

/-- The dictionary of a random chain (data/numpy_loader.py:267-276); `buffer` is the address of the array
`random_indices`. -/
structure HRandom (σ : Type) where
  rng : σ
  idxOffset : Option Nat
  inEpochs : Bool
  shuffle : Bool
  remainingSamples : Nat
  draws : Nat
  buffer : Option Nat
  mbSize : Nat
  cacheSize : Nat

/-- An entry of `self._chains` (data/numpy_loader.py:262-282, 303-312). -/
inductive HChain (σ : Type)
  | random (c : HRandom σ)
  | ordered (c : OrderedChain)

/-- The refresh in `_shuffle_indices` (data/numpy_loader.py:396-418): allocates the array in the first run, then
writes into it. -/
def heapShuffleRefresh {σ : Type} (R : Rng σ) (N ceilDraws : Nat) (heap : IdxHeap) (c : HRandom σ) :
    Except PyErr (HRandom σ × IdxHeap) :=
  let new := R.choicePerm c.rng N
  let addr := match c.buffer with | none => heap.length | some r => r
  let heap1 := match c.buffer with
    | none => heap ++ [List.replicate (ceilDraws * c.mbSize) 0]
    | some _ => heap
  let draws := match c.buffer with | none => 0 | some _ => c.draws
  let updateIdxs := (List.range N).map
    (fun i => (i + draws * c.mbSize + c.remainingSamples) % (ceilDraws * c.mbSize))
  match npPut (heap1.getD addr []) updateIdxs new.1 with
  | .error e => .error e
  | .ok buf => .ok ({ c with rng := new.2, draws := draws, buffer := some addr,
                             remainingSamples := c.remainingSamples + N }, heap1.set addr buf)

/-- `_shuffle_indices` (data/numpy_loader.py:391-430). -/
def heapShuffle {σ : Type} (R : Rng σ) (N : Nat) (heap : IdxHeap) (c : HRandom σ) :
    Except PyErr ((List Nat × List Bool) × HRandom σ × IdxHeap) :=
  if c.mbSize = 0 then .error .zeroDivisionError else
  let ceilDraws := N / c.mbSize + 2
  let refreshed := if c.remainingSamples < c.mbSize then heapShuffleRefresh R N ceilDraws heap c
    else .ok (c, heap)
  match refreshed with
  | .error e => .error e
  | .ok (c, heap) =>
    let mask := List.replicate c.mbSize true
    let selIdxs := (List.range c.mbSize).map
      (fun i => (i + c.draws * c.mbSize) % (c.mbSize * ceilDraws))
    match c.buffer with
    | none => .error .typeError
    | some addr =>
      match npTake (heap.getD addr []) selIdxs with
      | .error e => .error e
      | .ok sel => .ok ((sel, mask), { c with draws := (c.draws + 1) % ceilDraws,
                                              remainingSamples := c.remainingSamples - c.mbSize }, heap)

/-- The refresh in `_shuffle_in_epochs` (data/numpy_loader.py:435-449). -/
def heapEpochsRefresh {σ : Type} (R : Rng σ) (N ceilDraws : Nat) (heap : IdxHeap) (c : HRandom σ) :
    Except PyErr (HRandom σ × IdxHeap) :=
  let new := R.choicePerm c.rng N
  let addr := match c.buffer with | none => heap.length | some r => r
  let heap1 := match c.buffer with
    | none => heap ++ [List.replicate (ceilDraws * c.mbSize) 0]
    | some _ => heap
  let buf := heap1.getD addr []
  if (buf.take N).length = new.1.length then
    .ok ({ c with rng := new.2, buffer := some addr, draws := 0 },
      heap1.set addr (new.1 ++ buf.drop N))
  else .error .valueError

/-- `_shuffle_in_epochs` (data/numpy_loader.py:432-460). -/
def heapEpochs {σ : Type} (R : Rng σ) (N : Nat) (heap : IdxHeap) (c : HRandom σ) :
    Except PyErr ((List Nat × List Bool) × HRandom σ × IdxHeap) :=
  if c.mbSize = 0 then .error .zeroDivisionError else
  let ceilDraws := ceilDiv N c.mbSize
  let refreshed := if c.draws = ceilDraws then heapEpochsRefresh R N ceilDraws heap c else .ok (c, heap)
  match refreshed with
  | .error e => .error e
  | .ok (c, heap) =>
    let startIdx := c.mbSize * c.draws
    let endIdx := c.mbSize * (c.draws + 1)
    let mask := (List.range (endIdx - startIdx)).map (fun i => decide (startIdx + i < N))
    match c.buffer with
    | none => .error .typeError
    | some addr =>
      .ok ((((heap.getD addr []).drop startIdx).take (endIdx - startIdx), mask),
        { c with draws := c.draws + 1 }, heap)

/-- One call of the index function (data/numpy_loader.py:343-351, 382-389). -/
def heapIndexStep {σ : Type} (R : Rng σ) (N : Nat) (heap : IdxHeap) :
    HChain σ → Except PyErr ((List Nat × List Bool) × HChain σ × IdxHeap)
  | .ordered c => let r := orderedIndices N c; .ok (r.1, .ordered r.2, heap)
  | .random c =>
    if c.inEpochs then
      match heapEpochs R N heap c with
      | .error e => .error e
      | .ok r => .ok (r.1, .random r.2.1, r.2.2)
    else if c.shuffle then
      match heapShuffle R N heap c with
      | .error e => .error e
      | .ok r => .ok (r.1, .random r.2.1, r.2.2)
    else
      let r := R.choiceRepl c.rng N c.mbSize
      .ok ((r.1, List.replicate c.mbSize true), .random { c with rng := r.2 }, heap)

/-- The `map(..., repeat(chain_id, cache_size))` of `_get_indices` (data/numpy_loader.py:352-354). -/
def heapIndexSteps {σ : Type} (R : Rng σ) (N : Nat) :
    Nat → IdxHeap → HChain σ → Except PyErr (List (List Nat × List Bool) × HChain σ × IdxHeap)
  | 0, heap, c => .ok ([], c, heap)
  | k + 1, heap, c =>
    match heapIndexStep R N heap c with
    | .error e => .error e
    | .ok (x, c', heap') =>
      match heapIndexSteps R N k heap' c' with
      | .error e => .error e
      | .ok (xs, c'', heap'') => .ok (x :: xs, c'', heap'')

/-- `chain['cache_size']` (data/numpy_loader.py:354). -/
def HChain.cacheSize {σ : Type} : HChain σ → Nat
  | .random c => c.cacheSize
  | .ordered c => c.cacheSize

/-- The item of the dictionary returned by `save_state` (data/numpy_loader.py:200-206). -/
inductive HItem (σ : Type)
  | random (c : HRandom σ)
  | ordered (idxOffset : Nat)

/-- The loader (data/numpy_loader.py:41-63, 177-184), the arrays in memory, and the user's variables for
checkpoints: undefined, or a dictionary with at most one item (`popitem` empties it). -/
structure HSys (σ ρ : Type) where
  data : List (String × List ρ)
  obsCount : Nat
  chains : List (HChain σ)
  heap : IdxHeap
  ckpts : Nat → Option (Option (HItem σ))

/-- A deep copy of the item of a checkpoint: the array is copied to a new address.
(`deepcopy(value)` at data/numpy_loader.py:201-202; `copy.deepcopy` by the user) -/
def deepItem {σ : Type} (heap : IdxHeap) : HItem σ → HItem σ × IdxHeap
  | .ordered o => (.ordered o, heap)
  | .random c =>
    match c.buffer with
    | none => (.random c, heap)
    | some r => (.random { c with buffer := some heap.length }, heap ++ [heap.getD r []])

/-- `save_state` (data/numpy_loader.py:186-208). -/
def heapSave {σ ρ : Type} (s : HSys σ ρ) (cid : Nat) : Except PyErr (HItem σ × IdxHeap) :=
  match s.chains[cid]? with
  | none => .error .indexError
  | some (.random c) => .ok (deepItem s.heap (.random c))
  | some (.ordered c) => .ok (.ordered c.idxOffset, s.heap)

/-- `load_state` (data/numpy_loader.py:210-229): the chain takes over the array of the checkpoint without copying
it. -/
def heapLoad {σ : Type} (chains : List (HChain σ)) (cid : Nat) :
    Option (HItem σ) → Except PyErr Unit × List (HChain σ)
  | none => (.error .keyError, chains)
  | some item =>
    match chains[cid]? with
    | none => (.error .indexError, chains)
    | some chain =>
      match item, chain with
      | .random c, .random _ => (.ok (), chains.set cid (.random c))
      | .random _, .ordered _ => (.error .attributeError, chains)
      | .ordered o, .random c => (.ok (), chains.set cid (.random { c with idxOffset := some o }))
      | .ordered o, .ordered c => (.ok (), chains.set cid (.ordered { c with idxOffset := o }))

/-- The user's operations: those of the loader, `h' = dict(h)` and `h' = copy.deepcopy(h)`.
(test driver for data/numpy_loader.py:186-340) -/
inductive HOp
  | base (op : LOp)
  | shallow (h h' : Nat)
  | deep (h h' : Nat)

/-- `get_batches` (data/numpy_loader.py:314-340). -/
def heapGet {σ ρ : Type} (R : Rng σ) (s : HSys σ ρ) (cid : Nat) : HSys σ ρ × LOut ρ :=
  match s.chains[cid]? with
  | none => (s, .raised .indexError)
  | some c =>
    if c.cacheSize = 0 then (s, .raised .valueError) else
    match heapIndexSteps R s.obsCount c.cacheSize s.heap c with
    | .error e => (s, .raised e)
    | .ok (sel, c', heap') =>
      ({ s with chains := s.chains.set cid c', heap := heap' },
        match sliceAll (sel.map (·.1)) s.data with
        | .error e => .raised e
        | .ok obs => .batches { obs := obs, mask := sel.map (·.2) })

/-- `register_random_pipeline` (data/numpy_loader.py:231-282). -/
def heapRegister {σ ρ : Type} (R : Rng σ) (s : HSys σ ρ) (cacheSize mbSize : Nat) (inEpochs shuffle : Bool)
    (seed : Option Nat) : HSys σ ρ × LOut ρ :=
  if mbSize > s.obsCount then (s, .raised .valueError)
  else if !shuffle && inEpochs then (s, .raised .valueError)
  else if mbSize = 0 then (s, .raised .zeroDivisionError)
  else
    let c : HRandom σ :=
      { rng := R.seed (seed.getD s.chains.length), idxOffset := none, inEpochs := inEpochs,
        shuffle := shuffle, remainingSamples := 0, draws := ceilDiv s.obsCount mbSize,
        buffer := none, mbSize := mbSize, cacheSize := cacheSize }
    ({ s with chains := s.chains ++ [.random c] }, .registered s.chains.length)

/-- Assignment to a variable of the user.
(test driver: variable holding the result of data/numpy_loader.py:186-208) -/
def setHCkpt {σ : Type} (m : Nat → Option (Option (HItem σ))) (h : Nat) (ck : Option (HItem σ)) :
    Nat → Option (Option (HItem σ)) :=
  fun k => if k = h then some ck else m k

/-- One operation (data/numpy_loader.py:186-340). -/
def hstep {σ ρ : Type} (R : Rng σ) (s : HSys σ ρ) : HOp → HSys σ ρ × LOut ρ
  | .base (.regRandom cs mb ie sh seed) => heapRegister R s cs mb ie sh seed
  | .base (.regOrdered cs mb) =>
    if mb ≤ s.obsCount then
      ({ s with chains := s.chains ++ [.ordered { idxOffset := 0, mbSize := mb, cacheSize := cs }] },
        .registered s.chains.length)
    else (s, .raised .assertionError)
  | .base (.get cid) => heapGet R s cid
  | .base (.save cid h) =>
    match heapSave s cid with
    | .error e => (s, .raised e)
    | .ok (item, heap) => ({ s with heap := heap, ckpts := setHCkpt s.ckpts h (some item) }, .saved)
  | .base (.load cid h) =>
    match s.ckpts h with
    | none => (s, .raised .nameError)
    | some ck =>
      let r := heapLoad s.chains cid ck
      ({ s with chains := r.2, ckpts := setHCkpt s.ckpts h none },
        match r.1 with | .ok () => .loaded | .error e => .raised e)
  | .shallow h h' =>
    match s.ckpts h with
    | none => (s, .raised .nameError)
    | some ck => ({ s with ckpts := setHCkpt s.ckpts h' ck }, .saved)
  | .deep h h' =>
    match s.ckpts h with
    | none => (s, .raised .nameError)
    | some none => ({ s with ckpts := setHCkpt s.ckpts h' none }, .saved)
    | some (some item) =>
      let r := deepItem s.heap item
      ({ s with heap := r.2, ckpts := setHCkpt s.ckpts h' (some r.1) }, .saved)

/-- A history of operations, oldest first, with its outcomes (histories of data/numpy_loader.py:186-340). -/
def hrun {σ ρ : Type} (R : Rng σ) : HSys σ ρ → List HOp → HSys σ ρ × List (HOp × LOut ρ)
  | s, [] => (s, [])
  | s, op :: ops =>
    let r := hstep R s op
    let rest := hrun R r.1 ops
    (rest.1, (op, r.2) :: rest.2)

/-- A new loader (data/numpy_loader.py:41-63, 177-184). -/
def hinit {σ ρ : Type} (data : List (String × List ρ)) : Except PyErr (HSys σ ρ) :=
  (mkLoader (σ := σ) data).map fun L => ⟨L.data, L.obsCount, [], [], fun _ => none⟩

end JaxSgmc
