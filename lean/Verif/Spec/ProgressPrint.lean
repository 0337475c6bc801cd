import Verif.Spec.Scheduler

/-!
# Specification: the reports of a run
-/

namespace JaxSgmc.Spec

/-- The reports printed in a run of `n` iterations, in their order, if the solver reports the statistics `fb`. -/
def runReports {Ks σs Vs Kt σt Vt Kb σb Kh σh : Type} (S : Scheduler Ks σs Vs Kt σt Vt Kb σb Kh σh)
    (st : SchedState σs σt σb σh) (fb : Nat → Stats) (n : Nat) : List Report :=
  (List.range n).filterMap fun i => (schedUpdate S (schedAfter S st fb i) (fb i)).2

end JaxSgmc.Spec
