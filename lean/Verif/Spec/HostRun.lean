import Verif.Model.HostRun
import Verif.Spec.Requests

/-!
# Vocabulary for runs which draw from the host
-/

namespace JaxSgmc.Spec

open JaxSgmc

/-- An operation of the rest of the program: it does not touch the variable `v` (neither reading nor
writing) and does not release the callback `cb`.  Everything else is allowed. -/
def Elsewhere {κ : Type} (v cb : Nat) : POp κ → Prop
  | .setup .. => True
  | .init _ _ h => h ≠ v
  | .copy h h' => h ≠ v ∧ h' ≠ v
  | .draw h _ => h ≠ v
  | .release cb' => cb' ≠ cb

/-- `d` is the data source of a chain which has just been initialised with a `NumpyDataLoader` in some
program, and `b 0, b 1, …` are the mini-batches this loader holds for the new chain: batch `k` is batch
`k % n` of the answer to the `(k / n)`-th request, where `n` is the cache size. -/
def StreamOf {σ ρ : Type} (R : Rng σ) (devices : Nat) (objs : Nat → Loader σ ρ)
    (d : HostData (Loader σ ρ) NumpyKw (List (String × List ρ) × List Bool))
    (b : Nat → List (String × List ρ) × List Bool) : Prop :=
  ∃ (s : PSys (Loader σ ρ) (List (String × List ρ) × List Bool)) (cb : Nat) (kw : NumpyKw) (cfg : Cfg)
    (chain : Nat) (L : Loader σ ρ),
    PReachable (numpyHost R) devices objs s ∧ s.cfgs cb = some cfg ∧
    (pstep (numpyHost R) devices s (.init cb kw d.var)).2 = .done ∧
    (numpyHost R).register (s.host.objs cfg.loader) cfg.cacheCount cfg.mbSize kw = .ok (chain, L) ∧
    d.sys = (pstep (numpyHost R) devices s (.init cb kw d.var)).1 ∧ d.calls = 0 ∧
    (∀ n, ∀ op ∈ d.env n, Elsewhere d.var cb op) ∧
    ∀ k, ∃ answer,
      (getBatches R (nthLoader (numpyHost R) L chain (k / cfg.cacheCount)) chain).1 = .ok answer ∧
      b k = answer.line (k % cfg.cacheCount)

/-- `d` is a data state of the full data map, just initialised for batches of size `mb` of the
`NumpyDataLoader` number `loader` in some program. -/
def FullStreamOf {σ ρ : Type} (R : Rng σ) (devices : Nat) (objs : Nat → Loader σ ρ) (loader mb : Nat)
    (d : HostData (Loader σ ρ) NumpyKw (List (String × List ρ) × List Bool)) : Prop :=
  ∃ (s : PSys (Loader σ ρ) (List (String × List ρ) × List Bool)) (cb : Nat) (cfg : Cfg),
    PReachable (numpyHost R) devices objs s ∧ s.cfgs cb = some cfg ∧ cfg.loader = loader ∧ cfg.mbSize = mb ∧
    (pstep (numpyHost R) devices s (.init cb .ordered d.var)).2 = .done ∧
    d.sys = (pstep (numpyHost R) devices s (.init cb .ordered d.var)).1 ∧ d.calls = 0 ∧
    ∀ n, ∀ op ∈ d.env n, Elsewhere d.var cb op

/-- A full potential given by an exact formula, which needs no data. -/
def exactFull {ι μ : Type} (U : (ι → ℝ) → ℝ) : FullPotFn ι Unit μ := fun x _ ms => (.fin (U x), ((), ms))

end JaxSgmc.Spec
