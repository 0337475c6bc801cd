import Verif.Model.LoaderHeap

/-!
# Checkpoints as snapshots

What a user expects of checkpoints: a checkpoint is a value, the state of the chain when `save_state` was called;
copying a checkpoint – shallowly or deeply – copies this value, and nothing but `load_state` (which empties the
object) changes it.  `snapStep` is the loader of `Model/NumpyLoader.lean`, in which checkpoints are values, extended by
the two ways of copying.
-/

namespace JaxSgmc.Spec

open JaxSgmc

variable {σ ρ : Type}

/-- One operation with checkpoints as values. -/
def snapStep (R : Rng σ) (s : LSys σ ρ) : HOp → LSys σ ρ × LOut ρ
  | .base op => lstep R s op
  | .shallow h h' | .deep h h' =>
    match s.ckpts h with
    | none => (s, .raised .nameError)
    | some ck => ({ s with ckpts := setCkpt s.ckpts h' ck }, .saved)

/-- A history of operations with its outcomes. -/
def snapRun (R : Rng σ) : LSys σ ρ → List HOp → LSys σ ρ × List (HOp × LOut ρ)
  | s, [] => (s, [])
  | s, op :: ops =>
    let r := snapStep R s op
    let rest := snapRun R r.1 ops
    (rest.1, (op, r.2) :: rest.2)

/-- Is the operation a shallow copy of a checkpoint? -/
def isShallow : HOp → Bool
  | .shallow _ _ => true
  | _ => false

/-- The variables in which an operation stores or empties a checkpoint. -/
def writes : HOp → List Nat
  | .base (.save _ h) => [h]
  | .base (.load _ h) => [h]
  | .shallow _ h' => [h']
  | .deep _ h' => [h']
  | .base _ => []

/-- Does the operation restore chain `cid`? -/
def restores (cid : Nat) : HOp → Bool
  | .base (.load c _) => c == cid
  | _ => false

/-- The outcomes of all `get_batches(cid)` calls of a history. -/
def gets (cid : Nat) : List (HOp × LOut ρ) → List (LOut ρ)
  | [] => []
  | (.base (.get c), o) :: h => if c = cid then o :: gets cid h else gets cid h
  | _ :: h => gets cid h

/-- The state of a chain, the array `random_indices` looked up in memory (used in proofs only). -/
def chainState (heap : IdxHeap) : HChain σ → Chain σ
  | .ordered c => .ordered c
  | .random c => .random
    { rng := c.rng, idxOffset := c.idxOffset, inEpochs := c.inEpochs, shuffle := c.shuffle,
      remainingSamples := c.remainingSamples, draws := c.draws,
      randomIndices := c.buffer.map (fun r => heap.getD r []), mbSize := c.mbSize,
      cacheSize := c.cacheSize }

end JaxSgmc.Spec
