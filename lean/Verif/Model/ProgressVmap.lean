import Verif.Model.Mcmc

/-!
# The progress bar of a run with additional schedulers

With additional schedulers the update of the schedulers is vectorized (`jax_sgmc/solver.py:118-122`).  `lax.cond` with a
vectorized condition becomes a select: both branches are executed, and the callback of `id_tap` is called in every iteration
with stacked values (compare C45).
-/

namespace JaxSgmc

/-- `_print_fn` (scheduler.py:310-321) with the values of all lanes: `int` of an array with more than one entry raises
TypeError, otherwise the line is printed. -/
def printLanes : List Report → Except PyErr Report
  | [r] => .ok r
  | _ => .error .typeError

section
variable {Ks σs Vs Kt σt Vt Kb σb Kh σh : Type}

/-- `info` of the progress bar (scheduler.py:346-352), which is passed to the callback, for one scheduler state. -/
def schedInfo (S : Scheduler Ks σs Vs Kt σt Vt Kb σb Kh σh) (stats : Stats) (st : SchedState σs σt σb σh) :
    Option Report :=
  st.bar.map fun b =>
    let saved := if S.burnIn.get (S.burnIn.update st.burnIn st.iteration stats) st.iteration &&
      S.thinning.get (S.thinning.update st.thinning st.iteration stats) st.iteration then 1 else 0
    ⟨st.iteration, b.iterations, b.collected + saved, b.totSamples⟩

/-- The update of the scheduler states in one iteration and the results of the calls of the callback (solver.py:117-122,
scheduler.py:186-194, 354-363). -/
def updateAll (S : Scheduler Ks σs Vs Kt σt Vt Kb σb Kh σh) (scheds : List (SchedState σs σt σb σh)) (stats : Stats) :
    List (SchedState σs σt σb σh) × List (Except PyErr Report) :=
  match scheds with
  | [s] => ([(schedUpdate S s stats).1], (schedUpdate S s stats).2.toList.map .ok)
  | _ => (scheds.map fun s => (schedUpdate S s stats).1,
      if S.progressBar then [printLanes (scheds.filterMap (schedInfo S stats))] else [])

/-- The scheduler states before iteration `i` (solver.py:153-160). -/
def allAfter (S : Scheduler Ks σs Vs Kt σt Vt Kb σb Kh σh) (scheds : List (SchedState σs σt σb σh)) (fb : Nat → Stats) :
    Nat → List (SchedState σs σt σb σh)
  | 0 => scheds
  | i + 1 => (updateAll S (allAfter S scheds fb i) (fb i)).1

/-- The calls of the callback in iteration `i` (solver.py:153-160). -/
def barCalls (S : Scheduler Ks σs Vs Kt σt Vt Kb σb Kh σh) (scheds : List (SchedState σs σt σb σh)) (fb : Nat → Stats)
    (i : Nat) : List (Except PyErr Report) :=
  (updateAll S (allAfter S scheds fb i) (fb i)).2

/-- The calls of the callback in iteration `i` with `strategy="vmap"` (solver.py:172-184, scheduler.py:354-363): the chains
`scheds`, of which each has one scheduler, are vectorized, and both branches of `lax.cond` are executed. -/
def barCallsVmap (S : Scheduler Ks σs Vs Kt σt Vt Kb σb Kh σh) (scheds : List (SchedState σs σt σb σh))
    (fb : Nat → Stats) (i : Nat) : List (Except PyErr Report) :=
  if S.progressBar then
    [printLanes ((scheds.map fun st => schedAfter S st fb i).filterMap (schedInfo S (fb i)))]
  else []

end

end JaxSgmc
