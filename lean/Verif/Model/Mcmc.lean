import Verif.Model.Saving
import Verif.Model.Scheduler

/-!
# Running a solver for several chains

Models `mcmc` (`jax_sgmc/solver.py:65-185`).  A solver is a pure function of its state and the
schedules (solvers drawing data through callbacks have state on the host and are not covered).
`list_vmap` over scheduler states is modelled as `map` (C55).  Printing is modelled in `ProgressVmap`.
The strategy `pmap` is modelled in `Verif.Model.Pmap`.
-/

namespace JaxSgmc

/-- The functions `update` and `get` of a solver; `update` returns the statistics passed to the
schedulers (`None` or the acceptance ratio).
(solver.py:65-93, 109-120; statistics: solver.py:211-212, 422-424) -/
structure Solver (S Vs Vt α : Type) where
  update : S → List (Schedule Vs Vt) → S × Stats
  get : S → Tree α

section
variable {Ks σs Vs Kt σt Vt Kb σb Kh σh S α H σ ρ : Type}

/-- `_uninitialized_update` (solver.py:94-122) without the saving: the new state, the flag `keep`
and the sample.  `schedules[0]` is the schedule of the main scheduler (there is always one). -/
def mcmcStep (solver : Solver S Vs Vt α) (sched : Scheduler Ks σs Vs Kt σt Vt Kb σb Kh σh)
    (x : S × List (SchedState σs σt σb σh)) :
    (S × List (SchedState σs σt σb σh)) × Bool × Tree α :=
  let schedules := x.2.map (schedGet sched)
  let r := solver.update x.1 schedules
  let keep := (schedules.head?.map Schedule.keep).getD false
  ((r.1, x.2.map (fun s => (schedUpdate sched s r.2).1)), keep, solver.get r.1)

/-- The scheduler states of a chain (solver.py:130-139): the main scheduler gets no overrides, the
helper schedulers get `schedulers`. -/
def mcmcSchedulers [Inhabited Ks] [Inhabited Kt] [Inhabited Kb] [Inhabited Kh]
    (sched : Scheduler Ks σs Vs Kt σt Vt Kb σb Kh σh) (iterations : Nat)
    (helpers : List (SchedKw Ks Kt Kb Kh)) :
    Except PyErr (List (SchedState σs σt σb σh) × Int) :=
  match schedInit sched iterations default with
  | .error e => .error e
  | .ok (main, n) =>
    match mapExcept (fun kw => (schedInit sched iterations kw).map Prod.fst) helpers with
    | .error e => .error e
    | .ok hs => .ok (main :: hs, n)

/-- `_init` (solver.py:130-150). -/
def mcmcInit [Inhabited Ks] [Inhabited Kt] [Inhabited Kb] [Inhabited Kh]
    (saving : Saving H σ ρ α) (solver : Solver S Vs Vt α)
    (sched : Scheduler Ks σs Vs Kt σt Vt Kb σb Kh σh) (helpers : List (SchedKw Ks Kt Kb Kh))
    (iterations : Nat) (h : H) (s : S) :
    Except PyErr (H × (S × List (SchedState σs σt σb σh)) × σ) :=
  match mcmcSchedulers sched iterations helpers with
  | .error e => .error e
  | .ok (scheds, n) =>
    match saving.init h (solver.get s) n with
    | .error e => .error e
    | .ok (h', sv) => .ok (h', (s, scheds), sv)

/-- `lax.scan` of the update (solver.py:153-160) for a single chain. -/
def mcmcScan (saving : Saving H σ ρ α) (solver : Solver S Vs Vt α)
    (sched : Scheduler Ks σs Vs Kt σt Vt Kb σb Kh σh) :
    Nat → H → (S × List (SchedState σs σt σb σh)) → σ → Except PyErr (H × σ)
  | 0, h, _, sv => .ok (h, sv)
  | n + 1, h, x, sv =>
    let r := mcmcStep solver sched x
    match saving.save h sv r.2.1 r.2.2 with
    | .error e => .error e
    | .ok (h', sv') => mcmcScan saving solver sched n h' r.1 sv'

/-- `run` with `strategy="map"` (solver.py:165-171): one chain after the other. -/
def mcmcMap [Inhabited Ks] [Inhabited Kt] [Inhabited Kb] [Inhabited Kh]
    (saving : Saving H σ ρ α) (solver : Solver S Vs Vt α)
    (sched : Scheduler Ks σs Vs Kt σt Vt Kb σb Kh σh) (helpers : List (SchedKw Ks Kt Kb Kh))
    (iterations : Nat) : H → List S → Except PyErr (H × List ρ)
  | h, [] => .ok (h, [])
  | h, s :: states =>
    match mcmcInit saving solver sched helpers iterations h s with
    | .error e => .error e
    | .ok (h1, x, sv) =>
      match mcmcScan saving solver sched iterations h1 x sv with
      | .error e => .error e
      | .ok (h2, sv') =>
        match saving.post h2 sv' with
        | .error e => .error e
        | .ok (h3, r) =>
          match mcmcMap saving solver sched helpers iterations h3 states with
          | .error e => .error e
          | .ok (h4, rs) => .ok (h4, r :: rs)

/-- The sequential initialisation of all chains (solver.py:173-175). -/
def mcmcInitAll [Inhabited Ks] [Inhabited Kt] [Inhabited Kb] [Inhabited Kh]
    (saving : Saving H σ ρ α) (solver : Solver S Vs Vt α)
    (sched : Scheduler Ks σs Vs Kt σt Vt Kb σb Kh σh) (helpers : List (SchedKw Ks Kt Kb Kh))
    (iterations : Nat) : H → List S →
      Except PyErr (H × List ((S × List (SchedState σs σt σb σh)) × σ))
  | h, [] => .ok (h, [])
  | h, s :: states =>
    match mcmcInit saving solver sched helpers iterations h s with
    | .error e => .error e
    | .ok (h1, x, sv) =>
      match mcmcInitAll saving solver sched helpers iterations h1 states with
      | .error e => .error e
      | .ok (h2, r) => .ok (h2, (x, sv) :: r)

/-- `jax.vmap` of `lax.scan`: all lanes proceed in lock step.
(solver.py:153-160 under util/list_map.py:124-127) -/
def mcmcScanVmap (saving : Saving H σ ρ α) (solver : Solver S Vs Vt α)
    (sched : Scheduler Ks σs Vs Kt σt Vt Kb σb Kh σh) :
    Nat → H → List ((S × List (SchedState σs σt σb σh)) × σ) → Except PyErr (H × List σ)
  | 0, h, lanes => .ok (h, lanes.map Prod.snd)
  | n + 1, h, lanes =>
    let rs := lanes.map (fun l => (mcmcStep solver sched l.1, l.2))
    match saving.saveVmap h (rs.map (fun r => (r.2, r.1.2.1, r.1.2.2))) with
    | .error e => .error e
    | .ok (h', svs) =>
      mcmcScanVmap saving solver sched n h' ((rs.map (fun r => r.1.1)).zip svs)

/-- `map(postprocess_saving, saving_states, ...)` (solver.py:184). -/
def mcmcPostAll (saving : Saving H σ ρ α) : H → List σ → Except PyErr (H × List ρ)
  | h, [] => .ok (h, [])
  | h, sv :: svs =>
    match saving.post h sv with
    | .error e => .error e
    | .ok (h1, r) =>
      match mcmcPostAll saving h1 svs with
      | .error e => .error e
      | .ok (h2, rs) => .ok (h2, r :: rs)

/-- `run` with `strategy="vmap"` (solver.py:172-184).  Unpacking the
empty `zip` raises `ValueError` without chains. -/
def mcmcVmap [Inhabited Ks] [Inhabited Kt] [Inhabited Kb] [Inhabited Kh]
    (saving : Saving H σ ρ α) (solver : Solver S Vs Vt α)
    (sched : Scheduler Ks σs Vs Kt σt Vt Kb σb Kh σh) (helpers : List (SchedKw Ks Kt Kb Kh))
    (iterations : Nat) (h : H) (states : List S) : Except PyErr (H × List ρ) :=
  if states = [] then .error .valueError else
  match mcmcInitAll saving solver sched helpers iterations h states with
  | .error e => .error e
  | .ok (h1, lanes) =>
    match mcmcScanVmap saving solver sched iterations h1 lanes with
    | .error e => .error e
    | .ok (h2, svs) => mcmcPostAll saving h2 svs

end

end JaxSgmc
