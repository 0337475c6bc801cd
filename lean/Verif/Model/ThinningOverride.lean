import Verif.Model.Scheduler

/-!
# Random thinning with overridden schedules

`init` of `random_thinning` (`jax_sgmc/scheduler.py:621-626`) accepts other schedules for the chain.
-/

namespace JaxSgmc

section
variable {Ks Kb σs σb : Type} [Inhabited Ks] [Inhabited Kb]

/-- Overrides of `random_thinning` including the schedules.  Simplified: the states and keyword arguments of the given
schedules have the types of the global ones.
(scheduler.py:621-626) -/
structure ThinSchedKw (κ Ks σs Kb σb : Type) where
  stepSize : Option (ParamSched Ks σs XF) := none
  burnIn : Option (SelectSched Kb σb) := none
  thin : ThinKw κ := {}

/-- Default: no override (empty keyword arguments, scheduler.py:138-160). -/
instance {κ Ks σs Kb σb : Type} : Inhabited (ThinSchedKw κ Ks σs Kb σb) := ⟨{}⟩

/-- `random_thinning` with all keyword arguments of its init function (scheduler.py:599-666). -/
noncomputable def randomThinningKw {κ : Type} (gumbel : κ → Nat → ℝ) (stepSize : ParamSched Ks σs XF)
    (burnIn : SelectSched Kb σb) (selections : Nat) (key : κ) :
    SelectSched (ThinSchedKw κ Ks σs Kb σb) (List Nat) where
  init its kw := (randomThinning gumbel (kw.stepSize.getD stepSize) (kw.burnIn.getD burnIn) selections key).init its kw.thin
  update s _ _ := s
  get s i := s.any (fun j => i == j)

end

end JaxSgmc
