import Verif.Model.NumpyLoader

/-!
# Model of `TensorflowDataLoader` (data/tensorflow_loader.py)

A dataset is given by the values of its elements per key (as in `NumpyDataLoader`), all with `N` entries; the
pipeline then moves indices.  `tf.data` is modelled by its documented semantics: `repeat()` is the infinite
repetition, `shuffle(B)` keeps a buffer of `B` elements, returns a randomly chosen one and replaces it by the
next element, `batch` collects successive elements.  The choices are a parameter.  `B` and the batch sizes are
positive numbers (TensorFlow rejects others), as is `N` (an empty dataset yields no elements).
-/

namespace JaxSgmc

/-- The random choices of `shuffle` (tensorflow_loader.py:108): the position in a buffer of `B` elements. -/
structure TfRng (σ : Type) where
  seed : Nat → σ
  pick : σ → Nat → Nat × σ

/-- A position in the buffer is chosen.
(tf.data semantics used at tensorflow_loader.py:108) -/
structure TfRng.Lawful {σ : Type} (R : TfRng σ) : Prop where
  lt : ∀ g B, 0 < B → (R.pick g B).1 < B

/-- The iterator of a pipeline `repeat → shuffle → batch → batch` (tensorflow_loader.py:107-115): the number
of elements taken from the repeated dataset, the buffer of `shuffle` and the generator.  (The buffer is
filled when the iterator is created instead of with the first element.) -/
structure TfChain (σ : Type) where
  pulled : Nat
  buffer : List Nat
  rng : σ
  cacheSize : Nat
  mbSize : Nat

/-- The loader (tensorflow_loader.py:63-82). -/
structure TfLoader (σ ρ : Type) where
  data : List (String × List ρ)
  obsCount : Nat
  exclude : List String
  shuffleCache : Nat
  chains : List (TfChain σ)

/-- `__init__` (tensorflow_loader.py:63-82) with `static_information` (tensorflow_loader.py:179-185). -/
def tfMk {σ ρ : Type} (data : List (String × List ρ)) (obsCount : Nat) (exclude : Option (List String))
    (shuffleCache : Nat) : TfLoader σ ρ :=
  ⟨data, obsCount, exclude.getD [], shuffleCache, []⟩

/-- `register_random_pipeline` (tensorflow_loader.py:84-119). -/
def tfRegister {σ ρ : Type} (R : TfRng σ) (L : TfLoader σ ρ) (cs mb : Nat) : Nat × TfLoader σ ρ :=
  let cid := L.chains.length
  (cid, { L with chains := L.chains ++
    [⟨L.shuffleCache, (List.range L.shuffleCache).map (· % L.obsCount), R.seed cid, cs, mb⟩] })

/-- `register_ordered_pipeline` (tensorflow_loader.py:121-137). -/
def tfRegisterOrdered {σ ρ : Type} (_ : TfLoader σ ρ) (_ _ : Nat) : Except PyErr Nat :=
  .error .notImplementedError

/-- The next element of `repeat().shuffle(B)` (tensorflow_loader.py:107-108). -/
def tfNext {σ : Type} (R : TfRng σ) (N : Nat) (c : TfChain σ) : Nat × TfChain σ :=
  let p := R.pick c.rng c.buffer.length
  (c.buffer.getD p.1 0,
    { c with pulled := c.pulled + 1, buffer := c.buffer.set p.1 (c.pulled % N), rng := p.2 })

/-- The next `n` elements: a batch (tensorflow_loader.py:109). -/
def tfTake {σ : Type} (R : TfRng σ) (N : Nat) : Nat → TfChain σ → List Nat × TfChain σ
  | 0, c => ([], c)
  | n + 1, c =>
    let r := tfNext R N c
    let rs := tfTake R N n r.2
    (r.1 :: rs.1, rs.2)

/-- A batch of `cs` batches of `mb` elements (tensorflow_loader.py:109-110). -/
def tfTakeBatches {σ : Type} (R : TfRng σ) (N mb : Nat) : Nat → TfChain σ → List (List Nat) × TfChain σ
  | 0, c => ([], c)
  | n + 1, c =>
    let r := tfTake R N mb c
    let rs := tfTakeBatches R N mb n r.2
    (r.1 :: rs.1, rs.2)

/-- `del numpy_batch[key]` for all excluded keys (tensorflow_loader.py:155-157). -/
def tfDelete {β : Type} : List String → List (String × β) → Except PyErr (List (String × β))
  | [], b => .ok b
  | k :: ks, b =>
    if b.any (fun x => x.1 == k) then tfDelete ks (b.filter (fun x => x.1 != k))
    else .error .keyError

/-- `get_batches` (tensorflow_loader.py:139-159); the returned mask is `None`.  The iterator has been
advanced when a key is missing. -/
def tfGetBatches {σ ρ : Type} (R : TfRng σ) (L : TfLoader σ ρ) (cid : Nat) :
    Except PyErr (List (String × List (List ρ))) × TfLoader σ ρ :=
  match L.chains[cid]? with
  | none => (.error .indexError, L)
  | some c =>
    let r := tfTakeBatches R L.obsCount c.mbSize c.cacheSize c
    let L' := { L with chains := L.chains.set cid r.2 }
    match sliceAll r.1 L.data with
    | .error e => (.error e, L')
    | .ok obs => (tfDelete L.exclude obs, L')

/-- The keys of `_format` (tensorflow_loader.py:161-177): all which are not excluded. -/
def tfFormatKeys {σ ρ : Type} (L : TfLoader σ ρ) : List String :=
  (L.data.map Prod.fst).filter (fun k => !L.exclude.contains k)

/-- Operations of a program with the loader (calls of tensorflow_loader.py:84, 121, 139). -/
inductive TfOp
  | register (cs mb : Nat)
  | registerOrdered (cs mb : Nat)
  | get (cid : Nat)

/-- Their outcomes. (tensorflow_loader.py:84-159) -/
inductive TfOut (ρ : Type)
  | registered (cid : Nat)
  | batches (obs : List (String × List (List ρ)))
  | raised (e : PyErr)

/-- One operation. (tensorflow_loader.py:84-159) -/
def tfStep {σ ρ : Type} (R : TfRng σ) (L : TfLoader σ ρ) : TfOp → TfLoader σ ρ × TfOut ρ
  | .register cs mb => ((tfRegister R L cs mb).2, .registered (tfRegister R L cs mb).1)
  | .registerOrdered cs mb =>
    match tfRegisterOrdered L cs mb with
    | .error e => (L, .raised e)
    | .ok cid => (L, .registered cid)
  | .get cid =>
    match tfGetBatches R L cid with
    | (.error e, L') => (L', .raised e)
    | (.ok b, L') => (L', .batches b)

/-- A history of operations. (tensorflow_loader.py:84-159) -/
def tfRun {σ ρ : Type} (R : TfRng σ) : TfLoader σ ρ → List TfOp → TfLoader σ ρ × List (TfOp × TfOut ρ)
  | L, [] => (L, [])
  | L, op :: ops =>
    let r := tfStep R L op
    let rs := tfRun R r.1 ops
    (rs.1, (op, r.2) :: rs.2)

end JaxSgmc
