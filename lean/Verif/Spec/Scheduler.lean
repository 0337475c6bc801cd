import Verif.Model.Scheduler

/-!
# Vocabulary for stating properties of the scheduler
-/

namespace JaxSgmc.Spec

open JaxSgmc

section
variable {Ks σs Vs Kt σt Vt Kb σb Kh σh : Type}

/-- The state of a specific scheduler on its own, after the updates of iterations `0, …, i - 1`. -/
def ParamAfter {Kw σ V : Type} (P : ParamSched Kw σ V) (s : σ) (fb : Nat → Stats) : Nat → σ
  | 0 => s
  | i + 1 => P.update (ParamAfter P s fb i) i (fb i)

def SelectAfter {Kw σ : Type} (P : SelectSched Kw σ) (s : σ) (fb : Nat → Stats) : Nat → σ
  | 0 => s
  | i + 1 => P.update (SelectAfter P s fb i) i (fb i)

/-- The iterations below `n` in which a sample is kept (not subject to burn in and accepted), if the
solver reports the statistics `fb`. -/
def keptIterations (S : Scheduler Ks σs Vs Kt σt Vt Kb σb Kh σh) (st : SchedState σs σt σb σh)
    (fb : Nat → Stats) (n : Nat) : List Nat :=
  (List.range n).filter (fun i => (schedGet S (schedAfter S st fb i)).keep)

end

/-- The iterations below `n` which are not subject to burn in, for a burn in schedule which gets no
statistics. -/
def availableIterations {Kb σb : Type} (burnIn : SelectSched Kb σb) (bs : σb) (n : Nat) : List Nat :=
  (List.range n).filter (fun i => burnIn.get (SelectAfter burnIn bs (fun _ => none) i) i)

/-- All step sizes of the first `n` iterations are positive numbers. -/
def PositiveSteps {Ks σs : Type} (P : ParamSched Ks σs XF) (s : σs) (n : Nat) : Prop :=
  ∀ i < n, ∃ r : ℝ, 0 < r ∧ P.get (ParamAfter P s (fun _ => none) i) i = .fin r

end JaxSgmc.Spec
