import Verif.Model.Scheduler
import Verif.Model.Solver

/-!
# `adaptive_step_size` with the special values of floating point numbers

`Model/Scheduler.lean` models the adaptive step size with real numbers.  Here the statistics may be infinite or not a
number, as they are if a solver reports them for a proposal with undefined potential.
-/

namespace JaxSgmc

/-- The state tuple of `adaptive_step_size` (scheduler.py:414-416); the entry `target_acceptance_rate`, which is never
read, is left out. -/
structure AdaptiveStateX where
  burnIn : Int
  xBar : XF
  hBar : XF
  t0 : ℝ
  kappa : ℝ
  gamma : ℝ
  mu : XF

/-- `init` of `adaptive_step_size` (scheduler.py:402-417), without overrides. -/
noncomputable def adaptiveInitX (p : AdaptiveParams) : AdaptiveStateX :=
  ⟨p.burnIn, XF.logOf p.initialStepSize, .fin 0, p.stabilizationConstant, p.decayConstant, p.speedConstant,
    XF.logOf (10 * p.initialStepSize)⟩

open Classical in
/-- `update` of `adaptive_step_size` (scheduler.py:419-438). -/
noncomputable def adaptiveUpdateX (p : AdaptiveParams) (s : AdaptiveStateX) (iteration : Nat) (acceptanceRatio : XF) :
    AdaptiveStateX :=
  let m : ℝ := iteration + 1
  let weight := XF.div (.fin 1) (.fin (m + s.t0))
  let hBar := XF.mul s.hBar (XF.sub (.fin 1) weight)
  let hBar := XF.add hBar (XF.mul weight (XF.sub (.fin p.targetAcceptanceRate) acceptanceRatio))
  let x := XF.sub s.mu (XF.mul (XF.div (.fin (Real.sqrt m)) (.fin s.gamma)) hBar)
  let lr := XF.pow (.fin m) (-s.kappa)
  let xBar := XF.add (XF.mul s.xBar (XF.sub (.fin 1) lr)) (XF.mul lr x)
  { s with hBar := hBar, xBar := if (iteration : Int) < s.burnIn then xBar else s.xBar }

/-- `get` of `adaptive_step_size` (scheduler.py:440-442). -/
noncomputable def adaptiveGetX (s : AdaptiveStateX) : XF := XF.exp s.xBar

/-- The state after the iterations `0, …, i - 1` with the given acceptance ratios (histories of
scheduler.py:419-438). -/
noncomputable def adaptiveAfterX (p : AdaptiveParams) (ratios : Nat → XF) : Nat → AdaptiveStateX
  | 0 => adaptiveInitX p
  | i + 1 => adaptiveUpdateX p (adaptiveAfterX p ratios i) i (ratios i)

end JaxSgmc
