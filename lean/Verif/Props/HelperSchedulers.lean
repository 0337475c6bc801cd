import Verif.Props.Saving
import Verif.Props.ThinningOverride

/-!
# C165: additional schedulers do not influence which samples are kept
-/

namespace JaxSgmc

open Spec

/-- A schedule which ignores the statistics of the solver. -/
def Spec.IgnoresStats {Kw σ : Type} (P : SelectSched Kw σ) : Prop := ∀ s i fb fb', P.update s i fb = P.update s i fb'

/-- The same for step sizes and temperatures. -/
def Spec.ParamIgnoresStats {Kw σ V : Type} (P : ParamSched Kw σ V) : Prop :=
  ∀ s i fb fb', P.update s i fb = P.update s i fb'

theorem selectAfter_ignores {Kw σ : Type} {P : SelectSched Kw σ} (hP : IgnoresStats P) (s : σ) (fb fb' : Nat → Stats) :
    ∀ i, SelectAfter P s fb i = SelectAfter P s fb' i
  | 0 => rfl
  | i + 1 => by rw [SelectAfter, SelectAfter, selectAfter_ignores hP s fb fb' i, hP _ _ (fb i) (fb' i)]

theorem paramAfter_ignores {Kw σ V : Type} {P : ParamSched Kw σ V} (hP : ParamIgnoresStats P) (s : σ)
    (fb fb' : Nat → Stats) : ∀ i, ParamAfter P s fb i = ParamAfter P s fb' i
  | 0 => rfl
  | i + 1 => by rw [ParamAfter, ParamAfter, paramAfter_ignores hP s fb fb' i, hP _ _ (fb i) (fb' i)]

/-- **C165** (the schedules of the package).  Burn in and thinning ignore the statistics of the solver; of the step sizes
and temperatures all but the adaptive step size do. -/
theorem c165_package {κ Ks σs Kb σb V : Type} [Inhabited Ks] [Inhabited Kb] :
    (∀ n, IgnoresStats (initialBurnIn n)) ∧ IgnoresStats noThinning ∧
    (∀ (g : κ → Nat → ℝ) (ss : ParamSched Ks σs XF) (bi : SelectSched Kb σb) n key,
      IgnoresStats (randomThinning g ss bi n key) ∧ IgnoresStats (randomThinningKw g ss bi n key)) ∧
    (∀ a b g, ParamIgnoresStats (polynomialStepSize a b g)) ∧ (∀ f l g, ParamIgnoresStats (polynomialFirstLast f l g)) ∧
    (∀ tau : V, ParamIgnoresStats (constantTemperature tau)) :=
  ⟨fun _ _ _ _ _ => rfl, fun _ _ _ _ => rfl, fun _ _ _ _ _ => ⟨fun _ _ _ _ => rfl, fun _ _ _ _ => rfl⟩,
    fun _ _ _ _ _ _ _ => rfl, fun _ _ _ _ _ _ _ => rfl, fun _ _ _ _ _ => rfl⟩

section
variable {Ks σs Vs Kt σt Vt Kb σb Kh σh S S' α α' : Type} [Inhabited Ks] [Inhabited Kt] [Inhabited Kb] [Inhabited Kh]

/-- **C165.**  Two runs with the same scheduler, but with other solvers, initial states and additional schedulers, announce
the same number of samples and keep the samples of the same iterations. -/
theorem c165_kept (solver : Solver S Vs Vt α) (solver' : Solver S' Vs Vt α')
    (sched : Scheduler Ks σs Vs Kt σt Vt Kb σb Kh σh) (hb : IgnoresStats sched.burnIn) (ht : IgnoresStats sched.thinning)
    (helpers helpers' : List (SchedKw Ks Kt Kb Kh)) (its : Nat) (scheds scheds' : List (SchedState σs σt σb σh))
    (n n' : Int) (h : mcmcSchedulers sched its helpers = .ok (scheds, n))
    (h' : mcmcSchedulers sched its helpers' = .ok (scheds', n')) (s : S) (s' : S') :
    n = n' ∧ ∀ i, isKept solver sched (s, scheds) i = isKept solver' sched (s', scheds') i := by
  obtain ⟨main, hs, h1, rfl, -⟩ := c42_schedulers sched helpers its scheds n h
  obtain ⟨main', hs', h1', rfl, -⟩ := c42_schedulers sched helpers' its scheds' n' h'
  rw [h1] at h1'
  obtain ⟨rfl, rfl⟩ : main = main' ∧ n = n' := by simpa using h1'
  refine ⟨rfl, fun i => ?_⟩
  obtain ⟨h0, -⟩ := schedInit_spec _ _ _ _ _ h1
  rw [isKept, isKept, trajectory_scheds, trajectory_scheds]
  simp only [List.map_cons, schedGet]
  obtain ⟨a1, -, -, a2, a3⟩ := schedAfter_spec sched main (runStats solver sched (s, main :: hs)) h0 i
  obtain ⟨b1, -, -, b2, b3⟩ := schedAfter_spec sched main (runStats solver' sched (s', main :: hs')) h0 i
  rw [a1, a2, a3, b1, b2, b3, selectAfter_ignores hb _ _ (runStats solver' sched (s', main :: hs')),
    selectAfter_ignores ht _ _ (runStats solver' sched (s', main :: hs'))]

/-- **C165** (schedule of the main chain).  If the step size and the temperature ignore the statistics too, the main chain
gets the same schedule in every iteration. -/
theorem c165_schedule (solver : Solver S Vs Vt α) (solver' : Solver S' Vs Vt α')
    (sched : Scheduler Ks σs Vs Kt σt Vt Kb σb Kh σh) (hb : IgnoresStats sched.burnIn) (ht : IgnoresStats sched.thinning)
    (hs : ParamIgnoresStats sched.stepSize) (hT : ParamIgnoresStats sched.temperature)
    (helpers helpers' : List (SchedKw Ks Kt Kb Kh)) (its : Nat) (scheds scheds' : List (SchedState σs σt σb σh))
    (n n' : Int) (h : mcmcSchedulers sched its helpers = .ok (scheds, n))
    (h' : mcmcSchedulers sched its helpers' = .ok (scheds', n')) (s : S) (s' : S') (i : Nat) :
    ∃ p rest rest', (trajectory solver sched (s, scheds) i).2.map (schedGet sched) = p :: rest ∧
      (trajectory solver' sched (s', scheds') i).2.map (schedGet sched) = p :: rest' ∧
      rest.length = helpers.length ∧ rest'.length = helpers'.length := by
  obtain ⟨main, hs1, h1, rfl, l1⟩ := c42_schedulers sched helpers its scheds n h
  obtain ⟨main', hs2, h1', rfl, l2⟩ := c42_schedulers sched helpers' its scheds' n' h'
  rw [h1] at h1'
  obtain ⟨rfl, rfl⟩ : main = main' ∧ n = n' := by simpa using h1'
  obtain ⟨h0, -⟩ := schedInit_spec _ _ _ _ _ h1
  rw [trajectory_scheds, trajectory_scheds]
  simp only [List.map_cons]
  refine ⟨_, _, _, rfl, List.cons_eq_cons.2 ⟨?_, rfl⟩, by simp only [List.length_map]; exact l1.length_eq.symm,
    by simp only [List.length_map]; exact l2.length_eq.symm⟩
  obtain ⟨a1, a4, a5, a2, a3⟩ := schedAfter_spec sched main (runStats solver sched (s, main :: hs1)) h0 i
  obtain ⟨b1, b4, b5, b2, b3⟩ := schedAfter_spec sched main (runStats solver' sched (s', main :: hs2)) h0 i
  simp only [schedGet]
  rw [a1, a2, a3, a4, a5, b1, b2, b3, b4, b5, selectAfter_ignores hb _ (runStats solver sched (s, main :: hs1)) (runStats solver' sched (s', main :: hs2)),
    selectAfter_ignores ht _ (runStats solver sched (s, main :: hs1)) (runStats solver' sched (s', main :: hs2)),
    paramAfter_ignores hs _ (runStats solver sched (s, main :: hs1)) (runStats solver' sched (s', main :: hs2)),
    paramAfter_ignores hT _ (runStats solver sched (s, main :: hs1)) (runStats solver' sched (s', main :: hs2))]

/-- **C165** (results).  The results of both runs contain the same number of samples, also in the lengths of the arrays. -/
theorem c165_counts (zero : α → α) (zero' : α' → α') (solver : Solver S Vs Vt α) (solver' : Solver S' Vs Vt α')
    (hp : PreservesStructure solver) (hp' : PreservesStructure solver')
    (sched : Scheduler Ks σs Vs Kt σt Vt Kb σb Kh σh) (hb : IgnoresStats sched.burnIn) (ht : IgnoresStats sched.thinning)
    (helpers helpers' : List (SchedKw Ks Kt Kb Kh)) (its : Nat) (scheds scheds' : List (SchedState σs σt σb σh))
    (n n' : Int) (h : mcmcSchedulers sched its helpers = .ok (scheds, n))
    (h' : mcmcSchedulers sched its helpers' = .ok (scheds', n')) (hn : 0 ≤ n) (states : List S) (states' : List S') :
    ∃ rs rs', mcmcMap (noSave zero) solver sched helpers its () states = .ok ((), rs) ∧
      mcmcMap (noSave zero') solver' sched helpers' its () states' = .ok ((), rs') ∧
      rs.length = states.length ∧ rs'.length = states'.length ∧
      ∀ r ∈ rs, ∀ r' ∈ rs', r.sampleCount = r'.sampleCount := by
  have hnn : n = n' := by
    obtain ⟨main, hs1, h1, rfl, l1⟩ := c42_schedulers sched helpers its scheds n h
    obtain ⟨main', hs2, h1', rfl, l2⟩ := c42_schedulers sched helpers' its scheds' n' h'
    rw [h1] at h1'
    simp only [Except.ok.injEq, Prod.mk.injEq] at h1'
    exact h1'.2
  obtain ⟨rs, a1, a2, a3⟩ := c42_run zero solver hp sched helpers its scheds n h hn states
  obtain ⟨rs', b1, b2, b3⟩ := c42_run zero' solver' hp' sched helpers' its scheds' n' h' (hnn ▸ hn) states'
  refine ⟨rs, rs', a1, b1, a2, b2, ?_⟩
  intro r hr r' hr'
  obtain ⟨k, hk, rfl⟩ := List.getElem_of_mem hr
  obtain ⟨k', hk', rfl⟩ := List.getElem_of_mem hr'
  rw [(a3 k _ _ (List.getElem?_eq_getElem (a2 ▸ hk)) (List.getElem?_eq_getElem hk)).1,
    (b3 k' _ _ (List.getElem?_eq_getElem (b2 ▸ hk')) (List.getElem?_eq_getElem hk')).1]
  simp only [keptOfRun, List.length_map]
  congr 1
  apply List.filter_congr
  intro i _
  exact (c165_kept solver solver' sched hb ht helpers helpers' its scheds scheds' n n' h h' _ _).2 i

end

/-- The hypotheses are met by the default scheduler with a helper of temperature two, and without helper. -/
example (its : Nat) : ∃ scheds scheds' n n',
    mcmcSchedulers (defaultScheduler false 20) its [{ (default : SchedKw PolyKw (Option ℝ) (Option Int) Unit) with
      temperature := some 2, burnIn := some 5 }] = .ok (scheds, n) ∧ scheds.length = 2 ∧
    mcmcSchedulers (defaultScheduler false 20) its [] = .ok (scheds', n') ∧ scheds'.length = 1 ∧ n' = its := by
  have hs := polySteps_ok its 1 1 0 one_pos one_pos le_rfl
  have h3 : (defaultScheduler false 20).stepSize.init its default = .ok _ := hs
  obtain ⟨st, h1, -⟩ := schedInit_mk (defaultScheduler false 20) its default (thin := ()) (total := its) rfl
    (burn := 0) (collected := its - 0) rfl h3 (ts := 1) rfl
  obtain ⟨st', h2, -⟩ := schedInit_mk (defaultScheduler false 20) its
    { (default : SchedKw PolyKw (Option ℝ) (Option Int) Unit) with temperature := some 2, burnIn := some 5 }
    (thin := ()) (total := its) rfl (burn := 5) (collected := its - 5) rfl h3 (ts := 2) rfl
  have e : min (its : Int) (its - 0) = its := by omega
  rw [e] at h1
  exact ⟨[st, st'], [st], its, its, by simp only [mcmcSchedulers, h1, mapExcept, h2, Except.map], rfl,
    by simp only [mcmcSchedulers, h1, mapExcept], rfl, rfl⟩

end JaxSgmc
