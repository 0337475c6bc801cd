import Verif.Model.Requests
import Verif.Model.Potential
import Verif.Model.Solver

/-!
# A program which draws its mini-batches from the host

The solvers carry a data state and call `batch_fn` with it (integrator.py:225, 243, 423, 621, 872).  For a
host data loader the call changes the global state of the host as well.  Here the data state of a chain is
taken together with the program state (`PSys`), of which the data state is one variable.  Between two calls
the rest of the program (other chains, other data loaders) may do anything: this is described by `env`.
-/

namespace JaxSgmc

variable {Λ κ μ : Type}

/-- What a running chain needs to draw a mini-batch: the state of the program, the variable with its data
state, what the rest of the program does before the `n`-th call and the number of calls so far.
(data/core.py:406-413, 736-790; the callers are integrator.py:225, 243, 423, 621, 872) -/
structure HostData (Λ κ μ : Type) where
  sys : PSys Λ μ
  var : Nat
  env : Nat → List (POp κ)
  calls : Nat

/-- One call of `batch_fn` in a running chain (data/core.py:736-790).  If the call raises an exception the
program would stop; here it continues with the value `junk`, and theorems hold for every such value. -/
def hostDataSource (H : HostLoader Λ κ μ) (devices : Nat) (junk : μ) (d : HostData Λ κ μ) :
    HostData Λ κ μ × μ :=
  let s := (prun H devices d.sys (d.env d.calls)).1
  let r := pstep H devices s (.draw d.var 1)
  ({ d with sys := r.1, calls := d.calls + 1 },
    match r.2 with
    | .batch b => b
    | _ => junk)

/-- The same call from the full data map (data/core.py:563-584, 736-790), where an exception is a value. -/
def hostFullSource (H : HostLoader Λ κ μ) (devices : Nat) (d : HostData Λ κ μ) :
    Except PyErr μ × HostData Λ κ μ :=
  let s := (prun H devices d.sys (d.env d.calls)).1
  let r := pstep H devices s (.draw d.var 1)
  (match r.2 with
    | .batch b => .ok b
    | .raised e => .error e
    | _ => .error .runtimeError,
   { d with sys := r.1, calls := d.calls + 1 })

/-- The full potential as used by `amagold` and `sggmc` (solver.py:337-348, 378-382, 468-480, 514-519;
potential.py:273-291) with the full data map of a host data loader (alias.py:280, 403): value, data state, model
state.  If it raises an exception the run would end; the model continues with NaN. -/
noncomputable def hostFullPot {ι ρ S : Type} {σ : Type} (R : Rng σ) (prior : (ι → ℝ) → ℝ)
    (lik : Likelihood ℝ (List (String × Option ρ)) S (ι → ℝ)) (strategy : Strategy) (T : ℝ) (devices N mb : Nat) :
    FullPotFn ι (HostData (Loader σ ρ) NumpyKw (List (String × List ρ) × List Bool)) (Option S) :=
  fun x d ms =>
    match fullPotential prior lik strategy T (hostFullSource (numpyHost R) devices)
        (fun b => (List.range mb).map (batchRow b.1)) (fun b => b.2) N mb x d ms with
    | (.ok (p, st'), d') => (.fin p, (d', st'))
    | (.error _, d') => (.nan, (d', ms))

end JaxSgmc
