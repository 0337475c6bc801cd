import Verif.Model.Mcmc

/-!
# Running chains on several devices

Models the strategy `pmap` of `mcmc` (`jax_sgmc/solver.py`) with `list_pmap`
(`jax_sgmc/util/list_map.py`).  Every device executes the scan of one chain; the devices proceed
independently, and the calls of the saving function (which reach one data collector on the host) are
executed in any order which respects the order of each chain.  Unlike `vmap`, `pmap` keeps
`lax.cond`: a device saves its own sample only.  Simplification: the callback of an iteration is
executed in the step of this iteration (delayed callbacks are covered by `Verif.Model.Callbacks`).
-/

namespace JaxSgmc

section
variable {Ks σs Vs Kt σt Vt Kb σb Kh σh S α H σ ρ : Type}

/-- The next iteration on device `i` (solver.py:94-122, 153-160); devices without a chain are idle. -/
def pmapStep (saving : Saving H σ ρ α) (solver : Solver S Vs Vt α)
    (sched : Scheduler Ks σs Vs Kt σt Vt Kb σb Kh σh)
    (st : H × List ((S × List (SchedState σs σt σb σh)) × σ)) (i : Nat) :
    Except PyErr (H × List ((S × List (SchedState σs σt σb σh)) × σ)) :=
  match st.2[i]? with
  | none => .ok st
  | some lane =>
    let r := mcmcStep solver sched lane.1
    match saving.save st.1 lane.2 r.2.1 r.2.2 with
    | .error e => .error e
    | .ok (h', sv') => .ok (h', st.2.set i (r.1, sv'))

/-- The scans of all devices (solver.py:153-160 under util/list_map.py:140-146): `order` are the
devices which execute their next iteration, one after the other. -/
def mcmcScanPmap (saving : Saving H σ ρ α) (solver : Solver S Vs Vt α)
    (sched : Scheduler Ks σs Vs Kt σt Vt Kb σb Kh σh) :
    List Nat → H × List ((S × List (SchedState σs σt σb σh)) × σ) →
      Except PyErr (H × List ((S × List (SchedState σs σt σb σh)) × σ))
  | [], st => .ok st
  | i :: order, st =>
    match pmapStep saving solver sched st i with
    | .error e => .error e
    | .ok st' => mcmcScanPmap saving solver sched order st'

/-- `run` with `strategy="pmap"` (solver.py:172-184).  `pmap` raises `ValueError` if there are more
chains than devices; unpacking the empty `zip` raises `ValueError` without chains. -/
def mcmcPmap [Inhabited Ks] [Inhabited Kt] [Inhabited Kb] [Inhabited Kh] (devices : Nat)
    (saving : Saving H σ ρ α) (solver : Solver S Vs Vt α)
    (sched : Scheduler Ks σs Vs Kt σt Vt Kb σb Kh σh) (helpers : List (SchedKw Ks Kt Kb Kh))
    (iterations : Nat) (order : List Nat) (h : H) (states : List S) : Except PyErr (H × List ρ) :=
  if states = [] then .error .valueError else
  match mcmcInitAll saving solver sched helpers iterations h states with
  | .error e => .error e
  | .ok (h1, lanes) =>
    if devices < lanes.length then .error .valueError else
    match mcmcScanPmap saving solver sched order (h1, lanes) with
    | .error e => .error e
    | .ok (h2, lanes') => mcmcPostAll saving h2 (lanes'.map Prod.snd)

end

end JaxSgmc
