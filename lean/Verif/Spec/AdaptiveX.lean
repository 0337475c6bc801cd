import Verif.Model.AdaptiveX

/-!
# Specification: adaptive step sizes and undefined proposals
-/

namespace JaxSgmc.Spec

/-- A positive number. -/
def IsPositive (x : XF) : Prop := ∃ h : ℝ, 0 < h ∧ x = .fin h

/-- `r` is reported as acceptance ratio by an update of `amagold` (with `reversible_leapfrog`) from a state with finite
potential. -/
def AmagoldReports (r : XF) : Prop :=
  ∃ (P : Prng (List ℕ)) (sg : StochGrad (Fin 1) Unit Unit) (fullPot : FullPotFn (Fin 1) Unit Unit)
    (s : AmagoldState (Fin 1) (List ℕ) Unit Unit Unit Unit) (prm : Params),
    (∃ u, s.potential = .fin u) ∧ 0 < prm.stepSize ∧
    r = (amagoldUpdate P (none : Option (MassAdaption (Fin 1) Unit))
      (revForAmagold P (Layout.mk 1 (fun _ => 0) (fun i => i) (fun _ => 1)) 1 none 1 (fun _ => ((), ())) sg) fullPot s prm).2

end JaxSgmc.Spec
