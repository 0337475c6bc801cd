import Verif.Model.Mcmc
import Verif.Model.Tree

/-!
# The overrides of the schedulers as dictionaries

`init_fn(iterations, **scheduler_kwargs)` (`jax_sgmc/scheduler.py:134-171`) and the argument `schedulers` of `run`
(`jax_sgmc/solver.py:130-139, 161-175`).  `SchedKw` holds the overrides after their names have been resolved; here the names
are modelled.
-/

namespace JaxSgmc

/-- The keyword parameters of an init function besides `iterations`: their names and the overrides built from the arguments
given by name.  Simplified: a value of a wrong type counts as not given.
(scheduler.py:256-258, 403-409, 469-473, 521-525, 578, 621-626) -/
structure KwSig (V K : Type) where
  names : List Key
  build : (Key → Option V) → K

/-- The call `init(iterations, **d)`: a name which is not a keyword parameter (also `iterations`, which is given already)
raises TypeError.
(scheduler.py:140-145, 158-163) -/
def callKw {V K : Type} (sig : KwSig V K) (d : List (Key × V)) : Except PyErr K :=
  if d.all (fun e => sig.names.contains e.1) then .ok (sig.build fun k => d.lookup k) else .error .typeError

/-- A value of `scheduler_kwargs`: the overrides of a specific scheduler or a value (scheduler.py:134-163). -/
inductive OverArg (V : Type)
  | dict (d : List (Key × V))
  | value (v : V)

/-- `**scheduler_kwargs.get(name, {})` (scheduler.py:142, 145, 160, 163); unpacking a value which is not a dictionary raises
TypeError. -/
def subKw {V K : Type} (sig : KwSig V K) (o : List (Key × OverArg V)) (name : Key) : Except PyErr K :=
  match o.lookup name with
  | none => callKw sig []
  | some (.dict d) => callKw sig d
  | some (.value _) => .error .typeError

/-- The signatures of the four specific schedulers and the values of the progress bar's arguments (scheduler.py:140-163). -/
structure KwSigs (V Ks Kt Kb Kh : Type) where
  stepSize : KwSig V Ks
  temperature : KwSig V Kt
  burnIn : KwSig V Kb
  thinning : KwSig V Kh
  barSteps : OverArg V → Option Nat
  enabled : OverArg V → Option Bool

/-- `init_fn(iterations, **o)` (scheduler.py:134-171): the names are resolved in the order of the calls.  The parameter
`iterations` is given already, so that this name raises TypeError; other unknown names are in `scheduler_kwargs`, too. -/
def schedInitDict {V Ks σs Vs Kt σt Vt Kb σb Kh σh : Type} (S : Scheduler Ks σs Vs Kt σt Vt Kb σb Kh σh)
    (sigs : KwSigs V Ks Kt Kb Kh) (iterations : Nat) (o : List (Key × OverArg V)) :
    Except PyErr (SchedState σs σt σb σh × Int) :=
  if o.any (fun e => e.1 == "iterations".toList) then .error .typeError else
  match subKw sigs.thinning o "thinning".toList with
  | .error e => .error e
  | .ok kh =>
    match S.thinning.init iterations kh with
    | .error e => .error e
    | .ok (thin, total) =>
      match subKw sigs.burnIn o "burn_in".toList with
      | .error e => .error e
      | .ok kb =>
        match S.burnIn.init iterations kb with
        | .error e => .error e
        | .ok (burn, collected) =>
          let totalSamples := min total collected
          let bar := if S.progressBar then
              some ⟨iterations, totalSamples, 0,
                ((o.lookup "progress_bar_steps".toList).bind sigs.barSteps).getD S.barSteps,
                ((o.lookup "enabled".toList).bind sigs.enabled).getD S.progressBar⟩
            else none
          match subKw sigs.stepSize o "step_size".toList with
          | .error e => .error e
          | .ok ks =>
            match S.stepSize.init iterations ks with
            | .error e => .error e
            | .ok ss =>
              match subKw sigs.temperature o "temperature".toList with
              | .error e => .error e
              | .ok kt =>
                match S.temperature.init iterations kt with
                | .error e => .error e
                | .ok ts => .ok (⟨0, iterations, ss, ts, burn, thin, bar⟩, totalSamples)

/-- The argument `schedulers` of `run`, a dictionary or a sequence of dictionaries (solver.py:163). -/
inductive SchedulersArg (V : Type)
  | none
  | single (o : List (Key × OverArg V))
  | many (os : List (List (Key × OverArg V)))

/-- The states of the additional schedulers (solver.py:134-139): the argument is iterated.  The elements of a dictionary are
its keys, and unpacking a string raises TypeError. -/
def helperStates {V Ks σs Vs Kt σt Vt Kb σb Kh σh : Type} (S : Scheduler Ks σs Vs Kt σt Vt Kb σb Kh σh)
    (sigs : KwSigs V Ks Kt Kb Kh) (iterations : Nat) :
    SchedulersArg V → Except PyErr (List (SchedState σs σt σb σh))
  | .none => .ok []
  | .single [] => .ok []
  | .single (_ :: _) => .error .typeError
  | .many os => mapExcept (fun o => (schedInitDict S sigs iterations o).map Prod.fst) os

/-- The values of overrides: numbers, integers, keys. -/
inductive OverVal (κ : Type)
  | real (x : ℝ)
  | int (n : Int)
  | key (k : κ)

/-- A number. -/
def OverVal.toReal {κ : Type} : OverVal κ → Option ℝ
  | .real x => some x
  | .int n => some n
  | .key _ => none

/-- An integer. -/
def OverVal.toInt {κ : Type} : OverVal κ → Option Int
  | .int n => some n
  | _ => none

/-- A key. -/
def OverVal.toKey {κ : Type} : OverVal κ → Option κ
  | .key k => some k
  | _ => none

/-- `init_fn` of `constant_temperature` (scheduler.py:256-258). -/
def temperatureSig (κ : Type) : KwSig (OverVal κ) (Option ℝ) :=
  ⟨["tau".toList], fun get => (get "tau".toList).bind OverVal.toReal⟩

/-- `init_fn` of `polynomial_step_size` (scheduler.py:469-473). -/
noncomputable def polySig (κ : Type) : KwSig (OverVal κ) PolyKw :=
  ⟨["a".toList, "b".toList, "gamma".toList], fun get =>
    ⟨((get "a".toList).bind OverVal.toReal).map XF.fin, ((get "b".toList).bind OverVal.toReal).map XF.fin,
      (get "gamma".toList).bind OverVal.toReal⟩⟩

/-- `init_fn` of `polynomial_step_size_first_last` (scheduler.py:521-525). -/
def firstLastSig (κ : Type) : KwSig (OverVal κ) FirstLastKw :=
  ⟨["first".toList, "last".toList, "gamma".toList], fun get =>
    ⟨(get "first".toList).bind OverVal.toReal, (get "last".toList).bind OverVal.toReal,
      (get "gamma".toList).bind OverVal.toReal⟩⟩

/-- `init_fn` of `initial_burn_in` (scheduler.py:578). -/
def burnInSig (κ : Type) : KwSig (OverVal κ) (Option Int) :=
  ⟨["n".toList], fun get => (get "n".toList).bind OverVal.toInt⟩

/-- `init_fn` of `random_thinning` (scheduler.py:621-626); replacing the schedules is modelled in `ThinningOverride`. -/
def thinningSig (κ : Type) : KwSig (OverVal κ) (ThinKw κ) :=
  ⟨["selections".toList, "key".toList], fun get =>
    ⟨((get "selections".toList).bind OverVal.toInt).map Int.toNat, (get "key".toList).bind OverVal.toKey⟩⟩

/-- The default thinning: `lambda iterations: (None, iterations)` (scheduler.py:125-128). -/
def noThinningSig (κ : Type) : KwSig (OverVal κ) Unit := ⟨[], fun _ => ()⟩

end JaxSgmc
