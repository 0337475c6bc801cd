import Verif.Model.XFloat

/-!
# Model of `jax_sgmc/scheduler.py`

* `iteration` arguments are natural numbers; the keyword arguments passed to the `init` functions of
  the specific schedulers ("overrides") are records of `Option`s, `default` is the empty dictionary.
* The keyword arguments passed to the `update` functions are the statistics of the solver.  All
  schedulers of the package ignore every statistic but `acceptance_ratio`, hence statistics are an
  `Option ℝ` (`none`: the solver returned no statistics).
* `get` functions get no keyword arguments (`mcmc` passes none, the progress bar passes the statistics,
  which are deleted by all schedulers of the package).
* The burn in value `1.0`/`0.0` is a `Bool`.
-/

namespace JaxSgmc

/-- The keyword statistics passed to the schedulers, scheduler.py:173-180, 419. -/
abbrev Stats := Option ℝ

/-- A specific scheduler of a parameter (step size, temperature).
(scheduler.py:35-46, e.g. 245-276) -/
structure ParamSched (Kw σ V : Type) where
  init : Nat → Kw → Except PyErr σ
  update : σ → Nat → Stats → σ
  get : σ → Nat → V

/-- A specific scheduler selecting samples (burn in, thinning): `init` returns also the number of
samples.
(scheduler.py:35-46, 567-596, 599-666) -/
structure SelectSched (Kw σ : Type) where
  init : Nat → Kw → Except PyErr (σ × Int)
  update : σ → Nat → Stats → σ
  get : σ → Nat → Bool

/-! ### Temperature -/

/-- `constant_temperature` (scheduler.py:245-276). -/
def constantTemperature {V : Type} (tau : V) : ParamSched (Option V) V V where
  init _ kw := .ok (kw.getD tau)
  update s _ _ := s
  get s _ := s

/-! ### Step size -/

/-- Overrides of `polynomial_step_size`.
(scheduler.py:469-473) -/
structure PolyKw where
  a : Option XF := none
  b : Option XF := none
  gamma : Option ℝ := none

/-- Default: no override (empty keyword arguments, scheduler.py:138-160). -/
instance : Inhabited PolyKw := ⟨{}⟩

open Classical in
/-- The array of step sizes (scheduler.py:469-481); `a` and `b` may be the results of `find_ab`. -/
noncomputable def polySteps (iterations : Nat) (a b : XF) (gamma : ℝ) : Except PyErr (List XF) :=
  if gamma < 0 then .error .assertionError
  else if ¬ a.Pos then .error .assertionError
  else if ¬ b.Pos then .error .assertionError
  else .ok ((List.range iterations).map (fun n : Nat => a.mul ((b.add (.fin n)).pow (-gamma))))

/-- `state[iteration]` of an array: indices out of range are clamped to the last entry.
(JAX indexing used at scheduler.py:489, 540) -/
noncomputable def jnpGet (s : List XF) (i : Nat) : XF := (s[min i (s.length - 1)]?).getD .nan

/-- `polynomial_step_size` (scheduler.py:447-491). -/
noncomputable def polynomialStepSize (a b : XF) (gamma : ℝ) : ParamSched PolyKw (List XF) XF where
  init its kw := polySteps its (kw.a.getD a) (kw.b.getD b) (kw.gamma.getD gamma)
  update s _ _ := s
  get s i := jnpGet s i

/-- `find_ab` (scheduler.py:512-519). -/
noncomputable def findAb (its : Nat) (gamma : ℝ) (first last : XF) : XF × XF :=
  let ginv := gamma⁻¹
  let fpow := first.pow (-ginv)
  let lpow := last.pow (-ginv)
  let apow := (lpow.add fpow.neg).div (.fin ((its : ℝ) - 1))
  let a := apow.pow (-gamma)
  let b := (first.div a).pow (-ginv)
  (a, b)

/-- Overrides of `polynomial_step_size_first_last`.
(scheduler.py:521-525) -/
structure FirstLastKw where
  first : Option ℝ := none
  last : Option ℝ := none
  gamma : Option ℝ := none

/-- Default: no override (empty keyword arguments, scheduler.py:138-160). -/
instance : Inhabited FirstLastKw := ⟨{}⟩

open Classical in
/-- `polynomial_step_size_first_last` (scheduler.py:494-542).  The parameters are finite numbers. -/
noncomputable def polynomialFirstLast (first last gamma : ℝ) : ParamSched FirstLastKw (List XF) XF where
  init its kw :=
    let first := kw.first.getD first
    let last := kw.last.getD last
    let gamma := kw.gamma.getD gamma
    if ¬ 0 < gamma then .error .assertionError
    else if ¬ first ≥ last then .error .assertionError
    else
      let ab := findAb its gamma (.fin first) (.fin last)
      (polynomialStepSize ab.1 ab.2 gamma).init its default
  update s _ _ := s
  get s i := jnpGet s i

/-- Parameters of `adaptive_step_size`.
(scheduler.py:376-381) -/
structure AdaptiveParams where
  burnIn : Int := 0
  initialStepSize : ℝ := 0.05
  stabilizationConstant : ℝ := 100
  decayConstant : ℝ := 0.75
  speedConstant : ℝ := 0.05
  targetAcceptanceRate : ℝ := 0.02

/-- Overrides of `adaptive_step_size`.
(scheduler.py:403-409) -/
structure AdaptiveKw where
  burnIn : Option Int := none
  initialStepSize : Option ℝ := none
  stabilizationConstant : Option ℝ := none
  decayConstant : Option ℝ := none
  speedConstant : Option ℝ := none
  targetAcceptanceRate : Option ℝ := none

/-- Default: no override (empty keyword arguments, scheduler.py:138-160). -/
instance : Inhabited AdaptiveKw := ⟨{}⟩

/-- The state tuple of `adaptive_step_size` (scheduler.py:414-416). -/
structure AdaptiveState where
  burnIn : Int
  xBar : ℝ
  hBar : ℝ
  alpha : ℝ
  t0 : ℝ
  kappa : ℝ
  gamma : ℝ
  mu : ℝ

open Classical in
/-- `adaptive_step_size` (scheduler.py:376-444).  Line 425 uses the *global*
`target_acceptance_rate`, not the `alpha` of the state.  Real arithmetic: a division by zero (e.g.
`speed_constant = 0`) is not modelled. -/
noncomputable def adaptiveStepSize (p : AdaptiveParams) : ParamSched AdaptiveKw AdaptiveState ℝ where
  init _ kw :=
    let i := kw.initialStepSize.getD p.initialStepSize
    .ok ⟨kw.burnIn.getD p.burnIn, Real.log i, 0, kw.targetAcceptanceRate.getD p.targetAcceptanceRate,
      kw.stabilizationConstant.getD p.stabilizationConstant, kw.decayConstant.getD p.decayConstant,
      kw.speedConstant.getD p.speedConstant, Real.log (10 * i)⟩
  update s iteration stats :=
    let acceptanceRatio := stats.getD 0
    let m : ℝ := iteration + 1
    let hBar := s.hBar * (1 - 1 / (m + s.t0))
    let hBar := hBar + 1 / (m + s.t0) * (p.targetAcceptanceRate - acceptanceRatio)
    let x := s.mu - Real.sqrt m / s.gamma * hBar
    let lr := m ^ (-s.kappa)
    let xBar := s.xBar * (1 - lr) + lr * x
    { s with hBar := hBar, xBar := if (iteration : Int) < s.burnIn then xBar else s.xBar }
  get s _ := Real.exp s.xBar

/-! ### Burn in and thinning -/

/-- `initial_burn_in` (scheduler.py:567-589). -/
def initialBurnIn (n : Int) : SelectSched (Option Int) Int where
  init its kw := .ok (kw.getD n, its - kw.getD n)
  update s _ _ := s
  get s i := decide (s ≤ i)

/-- The default thinning (scheduler.py:124-129): accepts and saves all samples. -/
def noThinning : SelectSched Unit Unit where
  init its _ := .ok ((), its)
  update s _ _ := s
  get _ _ := true

section
variable {Ks Kb σs σb : Type} [Inhabited Ks] [Inhabited Kb]

/-- The probabilities computed by the scan of `random_thinning` (scheduler.py:630-644): step size
times burn in of iterations `it, …, it + n - 1`; the schedules are updated without statistics. -/
noncomputable def thinningProbs (stepSize : ParamSched Ks σs XF) (burnIn : SelectSched Kb σb) :
    (n it : Nat) → σs → σb → List XF
  | 0, _, _, _ => []
  | n + 1, it, ss, bs =>
    (stepSize.get ss it).mul (.fin (if burnIn.get bs it then 1 else 0)) ::
      thinningProbs stepSize burnIn n (it + 1) (stepSize.update ss it none) (burnIn.update bs it none)

open Classical in
/-- The sort key of `random.choice(…, replace=False, p)`: `-gumbel - log p`.  NaN is sorted to the
end, like the infinite key of probability zero.
(semantics of JAX used at scheduler.py:650) -/
noncomputable def choiceScore (noise : ℝ) : XF → EReal
  | .fin p => if 0 < p then ((-noise - Real.log p : ℝ) : EReal) else ⊤
  | .pinf => ⊥
  | _ => ⊤

open Classical in
/-- `random.choice(key, arange(n), shape=(k,), replace=False, p=probs)` of JAX: the first `k` indices of
`argsort(-gumbel(key) - log p)`.  `gumbel key i` is an arbitrary real number.
(used at scheduler.py:650-654) -/
noncomputable def choiceNoReplace {κ : Type} (gumbel : κ → Nat → ℝ) (key : κ) (probs : List XF) (k : Nat) :
    List Nat :=
  ((List.range probs.length).mergeSort (fun i j =>
    decide (choiceScore (gumbel key i) ((probs[i]?).getD .nan) ≤
      choiceScore (gumbel key j) ((probs[j]?).getD .nan)))).take k

open Classical in
/-- `jnp.count_nonzero(probs)`; NaN is not zero.
(scheduler.py:647) -/
noncomputable def countNonzero (probs : List XF) : Nat :=
  (probs.filter (fun p => decide (p ≠ .fin 0))).length

/-- Overrides of `random_thinning` (`selections` and `key`; replacing the schedules is modelled in `ThinningOverride`).
(scheduler.py:621-626) -/
structure ThinKw (κ : Type) where
  selections : Option Nat := none
  key : Option κ := none

/-- Default: no override (empty keyword arguments, scheduler.py:138-160). -/
instance {κ : Type} : Inhabited (ThinKw κ) := ⟨{}⟩

/-- `random_thinning` (scheduler.py:599-666).  `key` is the given key or `PRNGKey(0)`. -/
noncomputable def randomThinning {κ : Type} (gumbel : κ → Nat → ℝ) (stepSize : ParamSched Ks σs XF)
    (burnIn : SelectSched Kb σb) (selections : Nat) (key : κ) : SelectSched (ThinKw κ) (List Nat) where
  init its kw :=
    match stepSize.init its default with
    | .error e => .error e
    | .ok ss =>
      match burnIn.init its default with
      | .error e => .error e
      | .ok (bs, _) =>
        let probs := thinningProbs stepSize burnIn its 0 ss bs
        let k := kw.selections.getD selections
        if countNonzero probs < k then .error .assertionError
        else .ok (choiceNoReplace gumbel (kw.key.getD key) probs k, (k : Int))
  update s _ _ := s
  get s i := s.any (fun j => i == j)

end

/-! ### The scheduler -/

/-- The state of the progress bar (scheduler.py:330): iterations, number of samples, collected
samples, steps and the switch. -/
structure BarState where
  iterations : Nat
  totSamples : Int
  collected : Nat
  steps : Nat
  enabled : Bool
  deriving DecidableEq, Repr

/-- A line printed by the progress bar (scheduler.py:311-321). -/
structure Report where
  currentIteration : Nat
  totalIterations : Nat
  collectedSamples : Nat
  totalSamples : Int
  deriving DecidableEq, Repr

/-- `scheduler_state` (scheduler.py:63-79). -/
structure SchedState (σs σt σb σh : Type) where
  iteration : Nat
  total : Nat
  stepSize : σs
  temperature : σt
  burnIn : σb
  thinning : σh
  bar : Option BarState

/-- `schedule` (scheduler.py:48-61). -/
structure Schedule (Vs Vt : Type) where
  stepSize : Vs
  temperature : Vt
  burnIn : Bool
  accept : Bool

/-- The arguments of `init_scheduler` (scheduler.py:93-99), defaults filled in. -/
structure Scheduler (Ks σs Vs Kt σt Vt Kb σb Kh σh : Type) where
  stepSize : ParamSched Ks σs Vs
  temperature : ParamSched Kt σt Vt
  burnIn : SelectSched Kb σb
  thinning : SelectSched Kh σh
  progressBar : Bool
  barSteps : Nat

/-- `scheduler_kwargs` of the init function.
(scheduler.py:134-140) -/
structure SchedKw (Ks Kt Kb Kh : Type) where
  stepSize : Ks
  temperature : Kt
  burnIn : Kb
  thinning : Kh
  barSteps : Option Nat := none
  enabled : Option Bool := none

/-- Default: no override (empty keyword arguments, scheduler.py:138-160). -/
instance {Ks Kt Kb Kh : Type} [Inhabited Ks] [Inhabited Kt] [Inhabited Kb] [Inhabited Kh] :
    Inhabited (SchedKw Ks Kt Kb Kh) := ⟨⟨default, default, default, default, none, none⟩⟩

section
variable {Ks σs Vs Kt σt Vt Kb σb Kh σh : Type}

/-- `init_fn` (scheduler.py:134-171): the initial state and `samples_collected`. -/
def schedInit (S : Scheduler Ks σs Vs Kt σt Vt Kb σb Kh σh) (iterations : Nat)
    (kw : SchedKw Ks Kt Kb Kh) : Except PyErr (SchedState σs σt σb σh × Int) :=
  match S.thinning.init iterations kw.thinning with
  | .error e => .error e
  | .ok (thin, total) =>
    match S.burnIn.init iterations kw.burnIn with
    | .error e => .error e
    | .ok (burn, collected) =>
      let totalSamples := min total collected
      let bar := if S.progressBar then
          some ⟨iterations, totalSamples, 0, kw.barSteps.getD S.barSteps,
            kw.enabled.getD S.progressBar⟩
        else none
      match S.stepSize.init iterations kw.stepSize with
      | .error e => .error e
      | .ok ss =>
        match S.temperature.init iterations kw.temperature with
        | .error e => .error e
        | .ok ts => .ok (⟨0, iterations, ss, ts, burn, thin, bar⟩, totalSamples)

/-- `step_fn` of the progress bar (scheduler.py:332-366): the new state and the printed report.
`lax.cond` executes one branch only (not vectorised; vectorised: `ProgressVmap`).  `mod` by zero returns the
dividend. -/
def barStep (S : Scheduler Ks σs Vs Kt σt Vt Kb σb Kh σh) (b : BarState) (iteration : Nat) (bs : σb)
    (hs : σh) : BarState × Option Report :=
  let saved := if S.burnIn.get bs iteration && S.thinning.get hs iteration then 1 else 0
  let collected := b.collected + saved
  let numIts := b.iterations / b.steps
  ({ b with collected := collected },
   if iteration % numIts = 0 ∧ b.enabled = true then
     some ⟨iteration, b.iterations, collected, b.totSamples⟩ else none)

/-- `update_fn` (scheduler.py:173-212) and what is printed. -/
def schedUpdate (S : Scheduler Ks σs Vs Kt σt Vt Kb σb Kh σh) (st : SchedState σs σt σb σh)
    (stats : Stats) : SchedState σs σt σb σh × Option Report :=
  let burn := S.burnIn.update st.burnIn st.iteration stats
  let thin := S.thinning.update st.thinning st.iteration stats
  let bar := st.bar.map (fun b => barStep S b st.iteration burn thin)
  ({ iteration := st.iteration + 1
     total := st.total
     stepSize := S.stepSize.update st.stepSize st.iteration stats
     temperature := S.temperature.update st.temperature st.iteration stats
     burnIn := burn
     thinning := thin
     bar := bar.map (·.1) },
   bar.bind (·.2))

/-- `get_fn` (scheduler.py:214-237). -/
def schedGet (S : Scheduler Ks σs Vs Kt σt Vt Kb σb Kh σh) (st : SchedState σs σt σb σh) :
    Schedule Vs Vt :=
  ⟨S.stepSize.get st.stepSize st.iteration, S.temperature.get st.temperature st.iteration,
   S.burnIn.get st.burnIn st.iteration, S.thinning.get st.thinning st.iteration⟩

/-- `keep` of `mcmc` (solver.py:104). -/
def Schedule.keep (s : Schedule Vs Vt) : Bool := s.burnIn && s.accept

/-- The state after the updates of iterations `0, …, i - 1` with the statistics `fb`.
(histories of scheduler.py:173-212) -/
def schedAfter (S : Scheduler Ks σs Vs Kt σt Vt Kb σb Kh σh) (st : SchedState σs σt σb σh)
    (fb : Nat → Stats) : Nat → SchedState σs σt σb σh
  | 0 => st
  | i + 1 => (schedUpdate S (schedAfter S st fb i) (fb i)).1

end

/-- `init_scheduler()` with all defaults (scheduler.py:117-129). -/
noncomputable def defaultScheduler (progressBar : Bool) (barSteps : Nat) :
    Scheduler PolyKw (List XF) XF (Option ℝ) ℝ ℝ (Option Int) Int Unit Unit where
  stepSize := polynomialStepSize (.fin 1) (.fin 1) 0
  temperature := constantTemperature 1
  burnIn := initialBurnIn 0
  thinning := noThinning
  progressBar := progressBar
  barSteps := barSteps

end JaxSgmc
