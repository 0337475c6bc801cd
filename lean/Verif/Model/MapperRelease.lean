import Verif.Model.FullData

/-!
# Model of `release` of `full_data_mapper` (`jax_sgmc/data/core.py`)

The mapper of `Verif.Model.FullData` with the second function returned by `full_data_mapper`, the outcome of
every operation, and calls which end with an exception.
-/

namespace JaxSgmc

/-- Outcome of an operation of a mapper: nothing to report, the result of a mapping call, or an exception.
(data/core.py:1064-1114) -/
inductive MOut (σ γ : Type)
  | done
  | result (res : List γ) (carry : σ)
  | raised (e : PyErr)
  deriving DecidableEq, Repr

/-- `_FullDataHelper` together with the running calls; `released` means `_unused_states is None`
(core.py:964-1009). -/
structure RMapper (Λ μ σ γ : Type) where
  m : Mapper Λ μ σ γ
  released : Bool

/-- Operations of a mapper and its `release` function.
(data/core.py:1064-1114) -/
inductive ROp (κ σ : Type)
  | op (o : MOp κ σ)
  | release

section
variable {Λ κ μ σ γ : Type} (H : HostLoader Λ κ μ)

/-- One operation.
* `release`: `_cleanup_fn()` deletes the data loader from the registry (`KeyError` if it is not there), then
  `_unused_states = None` (core.py:1007-1009, 1111-1112).
* `start`: `get_cache_state` (core.py:987-994); `len(None)` is a `TypeError`.
* `iter`: one iteration of the scan; an exception ends the call, its data state is not given back
  (core.py:1105-1109).
* `finish`: `free_cache_state` (core.py:996-1000); `None.append` is an `AttributeError`.
Simplified: the kind of the exception of a failing registration of a new data state is not kept; starting a
call under a name in use and operations on calls which do not run do nothing. -/
def rstep (devices base : Nat) (kw : κ) (N q : Nat) (fn : μ → σ → List γ × σ) (r : RMapper Λ μ σ γ) :
    ROp κ σ → RMapper Λ μ σ γ × MOut σ γ
  | .release =>
    match pstep H devices r.m.sys (.release r.m.cb) with
    | (s', .done) => ({ m := { r.m with sys := s', pool := [] }, released := true }, .done)
    | (s', .raised e) => ({ r with m := { r.m with sys := s' } }, .raised e)
    | (s', _) => ({ r with m := { r.m with sys := s' } }, .raised .runtimeError)
  | .op (.start c carry) =>
    if r.released then (r, .raised .typeError) else
    match r.m.calls c with
    | some _ => (r, .done)
    | none =>
      let m' := mstep H devices base kw N q fn r.m (.start c carry)
      match m'.calls c with
      | some _ => ({ r with m := m' }, .done)
      | none => ({ r with m := m' }, .raised .runtimeError)
  | .op (.iter c) =>
    match r.m.calls c with
    | none => (r, .done)
    | some call =>
      if call.iter < q then
        match hostSource H devices call.slot 1 r.m.sys with
        | (.ok _, _) => ({ r with m := mstep H devices base kw N q fn r.m (.iter c) }, .done)
        | (.error e, s') =>
          ({ r with m := { r.m with sys := s', calls := upd r.m.calls c none } }, .raised e)
      else (r, .done)
  | .op (.finish c) =>
    match r.m.calls c with
    | none => (r, .done)
    | some call =>
      if call.iter = q then
        if r.released then
          ({ r with m := { r.m with calls := upd r.m.calls c none } }, .raised .attributeError)
        else ({ r with m := mstep H devices base kw N q fn r.m (.finish c) },
          .result (call.results.flatten.take N) call.carry)
      else (r, .done)
  | .op (.env op) => ({ r with m := mstep H devices base kw N q fn r.m (.env op) }, .done)

/-- A history with outcomes.
(histories of data/core.py:1047-1114) -/
def rrun (devices base : Nat) (kw : κ) (N q : Nat) (fn : μ → σ → List γ × σ) :
    RMapper Λ μ σ γ → List (ROp κ σ) → RMapper Λ μ σ γ × List (ROp κ σ × MOut σ γ)
  | r, [] => (r, [])
  | r, op :: ops =>
    let x := rstep H devices base kw N q fn r op
    let rest := rrun devices base kw N q fn x.1 ops
    (rest.1, (op, x.2) :: rest.2)

end

end JaxSgmc
