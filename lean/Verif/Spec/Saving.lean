import Verif.Model.Mcmc

/-!
# Vocabulary for stating properties of saving and of `mcmc`
-/

namespace JaxSgmc.Spec

open JaxSgmc

variable {α : Type}

/-- The stacked samples `data` (with `n` rows) consist of the samples `kept` in order, followed by
zeros. -/
structure Holds (zero : α → α) (init : Tree α) (n : Nat) (kept : List (Tree α))
    (data : Tree (List α)) : Prop where
  structure_eq : data.shape = init.shape
  rows : ∀ l ∈ data.leaves, l.length = n
  row : ∀ i < n, data.map (fun l => l[i]?) =
    match kept[i]? with
    | some s => s.map some
    | none => init.map (fun a => some (zero a))

/-- The samples which are kept. -/
def keptSamples (events : List (Bool × Tree α)) : List (Tree α) :=
  (events.filter (fun e => e.1)).map Prod.snd

section
variable {Ks σs Vs Kt σt Vt Kb σb Kh σh S H σ ρ : Type}

/-- Saves a sequence of samples with their flags. -/
def saveAll (saving : Saving H σ ρ α) : H → σ → List (Bool × Tree α) → Except PyErr (H × σ)
  | h, sv, [] => .ok (h, sv)
  | h, sv, e :: es =>
    match saving.save h sv e.1 e.2 with
    | .error err => .error err
    | .ok (h', sv') => saveAll saving h' sv' es

/-- Solver state and scheduler states after `i` iterations of a chain on its own, ignoring saving. -/
def trajectory (solver : Solver S Vs Vt α) (sched : Scheduler Ks σs Vs Kt σt Vt Kb σb Kh σh)
    (x : S × List (SchedState σs σt σb σh)) : Nat → S × List (SchedState σs σt σb σh)
  | 0 => x
  | i + 1 =>
    let y := trajectory solver sched x i
    let r := solver.update y.1 (y.2.map (schedGet sched))
    (r.1, y.2.map (fun s => (schedUpdate sched s r.2).1))

/-- Iteration `i` is kept: it is not subject to burn in and accepted by the main (first)
scheduler. -/
def isKept (solver : Solver S Vs Vt α) (sched : Scheduler Ks σs Vs Kt σt Vt Kb σb Kh σh)
    (x : S × List (SchedState σs σt σb σh)) (i : Nat) : Bool :=
  match (trajectory solver sched x i).2 with
  | [] => false
  | main :: _ => (schedGet sched main).burnIn && (schedGet sched main).accept

/-- The samples of the states reached after the kept iterations `< n`, in order. -/
def keptOfRun (solver : Solver S Vs Vt α) (sched : Scheduler Ks σs Vs Kt σt Vt Kb σb Kh σh)
    (x : S × List (SchedState σs σt σb σh)) (n : Nat) : List (Tree α) :=
  ((List.range n).filter (isKept solver sched x)).map
    (fun i => solver.get (trajectory solver sched x (i + 1)).1)

/-- The solver does not change the structure of the samples. -/
def PreservesStructure (solver : Solver S Vs Vt α) : Prop :=
  ∀ s schedules, (solver.get (solver.update s schedules).1).shape = (solver.get s).shape

end

end JaxSgmc.Spec

namespace JaxSgmc.Spec

open JaxSgmc

/-- The life of one chain: `init`, a sequence of `save`, `postprocess`. -/
def runSaving {α H σ ρ : Type} (saving : Saving H σ ρ α) (h : H) (init : Tree α) (n : Int)
    (events : List (Bool × Tree α)) : Except PyErr (H × ρ) :=
  match saving.init h init n with
  | .error e => .error e
  | .ok (h1, sv) =>
    match saveAll saving h1 sv events with
    | .error e => .error e
    | .ok (h2, sv') => saving.post h2 sv'

/-- The names needed to write a file exist (trivial without a directory). -/
def Nameable {α : Type} (saveDir : Bool) (init : Tree α) : Prop :=
  init ≠ .none ∧ ∃ names, memNames saveDir init = .ok names

end JaxSgmc.Spec
