import Verif.Model.Requests

/-!
# Vocabulary for stating properties of the data request protocol
-/

namespace JaxSgmc.Spec

open JaxSgmc

/-- The contract of a host data loader used by the protocol theorems: every chain id has (or has
not) a state; `get_batches(c)` answers as a function of the state of chain `c` alone and changes the
state of chain `c` alone; an unknown chain is an error; registration returns an unknown id and leaves
all other chains alone. -/
structure Contract {Λ κ μ : Type} (H : HostLoader Λ κ μ) (χ : Type) where
  view : Λ → Nat → Option χ
  step : χ → Except PyErr (List μ) × χ
  get_answer : ∀ L c x, view L c = some x → (H.getBatches L c).1 = (step x).1
  get_self : ∀ L c x, view L c = some x → view (H.getBatches L c).2 c = some (step x).2
  get_other : ∀ L c c', c' ≠ c → view (H.getBatches L c).2 c' = view L c'
  get_unknown : ∀ L c, view L c = none →
    (∃ e, (H.getBatches L c).1 = .error e) ∧ view (H.getBatches L c).2 c = none
  reg_new : ∀ L cs mb kw c L', H.register L cs mb kw = .ok (c, L') → view L c = none
  reg_known : ∀ L cs mb kw c L', H.register L cs mb kw = .ok (c, L') → ∃ x, view L' c = some x
  reg_other : ∀ L cs mb kw c L', H.register L cs mb kw = .ok (c, L') →
    ∀ c', c' ≠ c → view L' c' = view L c'

/-- The data loader after `k` consecutive calls of `get_batches(c)`. -/
def nthLoader {Λ κ μ : Type} (H : HostLoader Λ κ μ) (L : Λ) (c : Nat) : Nat → Λ
  | 0 => L
  | k + 1 => (H.getBatches (nthLoader H L c k) c).2

/-- The answer of the data loader to the `k`-th consecutive call of `get_batches(c)`. -/
def nthAnswer {Λ κ μ : Type} (H : HostLoader Λ κ μ) (L : Λ) (c k : Nat) : Except PyErr (List μ) :=
  (H.getBatches (nthLoader H L c k) c).1

/-- A state a program can reach: given loader objects, any operations. -/
def PReachable {Λ κ μ : Type} (H : HostLoader Λ κ μ) (devices : Nat) (objs : Nat → Λ)
    (s : PSys Λ μ) : Prop :=
  ∃ ops, s = (prun H devices (pinit objs) ops).1

/-- The outcomes of the `batch_fn` calls on variable `v` in a history. -/
def drawOutcomes {κ μ : Type} (v : Nat) : List (POp κ × POut μ) → List (POut μ)
  | [] => []
  | (.draw h _, o) :: t => if h = v then o :: drawOutcomes v t else drawOutcomes v t
  | _ :: t => drawOutcomes v t

/-- The number of `batch_fn` calls on variable `v`. -/
def numDraws {κ : Type} (v : Nat) : List (POp κ) → Nat
  | [] => 0
  | .draw h _ :: t => (if h = v then 1 else 0) + numDraws v t
  | _ :: t => numDraws v t

/-- The operation treats the variables `vs` (replicas of a data state of `cb`) as announced: they are
only passed to `batch_fn` with `device_count = d`, and `cb` is not released.  Everything else is
arbitrary: other data states, initialisations, loaders and releases. -/
def Respects {κ : Type} (vs : List Nat) (cb d : Nat) : POp κ → Prop
  | .setup .. => True
  | .init _ _ h => h ∉ vs
  | .copy h h' => h ∉ vs ∧ h' ∉ vs
  | .draw h dc => h ∈ vs → dc = d
  | .release cb' => cb' ≠ cb

/-- How often the loader `l` was asked for chain `c`. -/
def asked {Λ μ : Type} (s : PSys Λ μ) (l c : Nat) : Nat := s.host.fetches.count (l, c)

/-- Largest value of `f` on a list. -/
def maxOver (f : Nat → Nat) : List Nat → Nat
  | [] => 0
  | v :: vs => max (f v) (maxOver f vs)

end JaxSgmc.Spec
