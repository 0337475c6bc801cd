import Verif.Model.SchedulerDict
import Verif.Props.Scheduler

/-!
# C168: misspelled overrides of the schedulers
-/

namespace JaxSgmc

open Spec

section
variable {V Ks σs Vs Kt σt Vt Kb σb Kh σh : Type}

/-- The names of the overrides of a scheduler (scheduler.py:134-163). -/
def Spec.overrideNames : List Key :=
  ["step_size".toList, "temperature".toList, "burn_in".toList, "thinning".toList, "progress_bar_steps".toList,
    "enabled".toList]

/-- All names in the overrides are known: those of the schedulers and the parameters of each of them. -/
def Spec.WellSpelled (sigs : KwSigs V Ks Kt Kb Kh) (o : List (Key × OverArg V)) : Prop :=
  (∀ e ∈ o, e.1 ∈ overrideNames) ∧
  ∀ d, (o.lookup "step_size".toList = some (.dict d) → ∀ e ∈ d, e.1 ∈ sigs.stepSize.names) ∧
    (o.lookup "temperature".toList = some (.dict d) → ∀ e ∈ d, e.1 ∈ sigs.temperature.names) ∧
    (o.lookup "burn_in".toList = some (.dict d) → ∀ e ∈ d, e.1 ∈ sigs.burnIn.names) ∧
    (o.lookup "thinning".toList = some (.dict d) → ∀ e ∈ d, e.1 ∈ sigs.thinning.names)

/-- The full statement of C168: only overrides with known names are accepted. -/
def C168Statement : Prop :=
  ∀ (S : Scheduler PolyKw (List XF) XF (Option ℝ) ℝ ℝ (Option Int) Int Unit Unit)
    (sigs : KwSigs (OverVal Unit) PolyKw (Option ℝ) (Option Int) Unit) (its : Nat) o r,
    schedInitDict S sigs its o = .ok r → WellSpelled sigs o

theorem callKw_ok {K : Type} (sig : KwSig V K) (d : List (Key × V)) (k : K) (h : callKw sig d = .ok k) :
    (∀ e ∈ d, e.1 ∈ sig.names) ∧ k = sig.build fun n => d.lookup n := by
  unfold callKw at h
  split_ifs at h with h1
  simp only [Except.ok.injEq] at h
  exact ⟨by simpa using h1, h.symm⟩

theorem subKw_ok {K : Type} (sig : KwSig V K) (o : List (Key × OverArg V)) (name : Key) (k : K)
    (h : subKw sig o name = .ok k) : ∀ d, o.lookup name = some (.dict d) → ∀ e ∈ d, e.1 ∈ sig.names := by
  intro d hd
  rw [subKw, hd] at h
  exact (callKw_ok sig d k h).1

/-- What a successful initialisation says: all dictionaries are well spelled, and the result is that of the resolved
overrides. -/
theorem schedInitDict_ok (S : Scheduler Ks σs Vs Kt σt Vt Kb σb Kh σh) (sigs : KwSigs V Ks Kt Kb Kh) (its : Nat)
    (o : List (Key × OverArg V)) (r : SchedState σs σt σb σh × Int) (h : schedInitDict S sigs its o = .ok r) :
    (∀ e ∈ o, e.1 ≠ "iterations".toList) ∧ ∃ ks kt kb kh,
      subKw sigs.stepSize o "step_size".toList = .ok ks ∧ subKw sigs.temperature o "temperature".toList = .ok kt ∧
      subKw sigs.burnIn o "burn_in".toList = .ok kb ∧ subKw sigs.thinning o "thinning".toList = .ok kh ∧
      schedInit S its ⟨ks, kt, kb, kh, (o.lookup "progress_bar_steps".toList).bind sigs.barSteps,
        (o.lookup "enabled".toList).bind sigs.enabled⟩ = .ok r := by
  unfold schedInitDict at h
  by_cases h0 : (o.any fun e => e.1 == "iterations".toList) = true
  · rw [if_pos h0] at h
    exact absurd h (by simp)
  rw [if_neg h0] at h
  refine ⟨fun e he hc => h0 (List.any_eq_true.2 ⟨e, he, by simpa using hc⟩), ?_⟩
  clear h0
  generalize "thinning".toList = k1 at h ⊢
  generalize "burn_in".toList = k2 at h ⊢
  generalize "step_size".toList = k3 at h ⊢
  generalize "temperature".toList = k4 at h ⊢
  generalize "progress_bar_steps".toList = k5 at h ⊢
  generalize "enabled".toList = k6 at h ⊢
  rcases hkh : subKw sigs.thinning o k1 with e | kh
  · rw [hkh] at h
    exact absurd h (by simp)
  rw [hkh] at h
  dsimp only at h
  rcases hth : S.thinning.init its kh with e | a
  · rw [hth] at h
    exact absurd h (by simp)
  rw [hth] at h
  dsimp only at h
  rcases hkb : subKw sigs.burnIn o k2 with e | kb
  · rw [hkb] at h
    exact absurd h (by simp)
  rw [hkb] at h
  dsimp only at h
  rcases hbu : S.burnIn.init its kb with e | b
  · rw [hbu] at h
    exact absurd h (by simp)
  rw [hbu] at h
  dsimp only at h
  rcases hks : subKw sigs.stepSize o k3 with e | ks
  · rw [hks] at h
    exact absurd h (by simp)
  rw [hks] at h
  dsimp only at h
  rcases hss : S.stepSize.init its ks with e | ss
  · rw [hss] at h
    exact absurd h (by simp)
  rw [hss] at h
  dsimp only at h
  rcases hkt : subKw sigs.temperature o k4 with e | kt
  · rw [hkt] at h
    exact absurd h (by simp)
  rw [hkt] at h
  dsimp only at h
  rcases hts : S.temperature.init its kt with e | ts
  · rw [hts] at h
    exact absurd h (by simp)
  rw [hts] at h
  dsimp only at h
  refine ⟨ks, kt, kb, kh, rfl, rfl, rfl, rfl, ?_⟩
  unfold schedInit
  simp only [hth, hbu, hss, hts]
  exact h

/-- **C168** (partial, parameters).  If the overrides are accepted, every parameter given for one of the four schedulers is a
parameter of this scheduler. -/
theorem c168_parameters_partial (S : Scheduler Ks σs Vs Kt σt Vt Kb σb Kh σh) (sigs : KwSigs V Ks Kt Kb Kh) (its : Nat)
    (o : List (Key × OverArg V)) (r : SchedState σs σt σb σh × Int) (h : schedInitDict S sigs its o = .ok r) (d) :
    (o.lookup "step_size".toList = some (.dict d) → ∀ e ∈ d, e.1 ∈ sigs.stepSize.names) ∧
    (o.lookup "temperature".toList = some (.dict d) → ∀ e ∈ d, e.1 ∈ sigs.temperature.names) ∧
    (o.lookup "burn_in".toList = some (.dict d) → ∀ e ∈ d, e.1 ∈ sigs.burnIn.names) ∧
    (o.lookup "thinning".toList = some (.dict d) → ∀ e ∈ d, e.1 ∈ sigs.thinning.names) := by
  obtain ⟨-, ks, kt, kb, kh, h1, h2, h3, h4, -⟩ := schedInitDict_ok S sigs its o r h
  exact ⟨subKw_ok _ _ _ _ h1 d, subKw_ok _ _ _ _ h2 d, subKw_ok _ _ _ _ h3 d, subKw_ok _ _ _ _ h4 d⟩

/-- **C168** (partial, accepted overrides).  Overrides which are well spelled have the effect of the resolved parameters
(`schedInit`, of which the other properties speak): the same states, numbers of samples and errors. -/
theorem c168_resolved_partial (S : Scheduler Ks σs Vs Kt σt Vt Kb σb Kh σh) (sigs : KwSigs V Ks Kt Kb Kh) (its : Nat)
    (o : List (Key × OverArg V)) (h0 : ∀ e ∈ o, e.1 ≠ "iterations".toList) (ds dt db dh : List (Key × V))
    (hs : (o.lookup "step_size".toList).getD (.dict []) = .dict ds) (ht : (o.lookup "temperature".toList).getD (.dict []) = .dict dt)
    (hb : (o.lookup "burn_in".toList).getD (.dict []) = .dict db) (hh : (o.lookup "thinning".toList).getD (.dict []) = .dict dh)
    (ns : ∀ e ∈ ds, e.1 ∈ sigs.stepSize.names) (nt : ∀ e ∈ dt, e.1 ∈ sigs.temperature.names)
    (nb : ∀ e ∈ db, e.1 ∈ sigs.burnIn.names) (nh : ∀ e ∈ dh, e.1 ∈ sigs.thinning.names) :
    schedInitDict S sigs its o = schedInit S its
      ⟨sigs.stepSize.build fun n => ds.lookup n, sigs.temperature.build fun n => dt.lookup n,
        sigs.burnIn.build fun n => db.lookup n, sigs.thinning.build fun n => dh.lookup n,
        (o.lookup "progress_bar_steps".toList).bind sigs.barSteps, (o.lookup "enabled".toList).bind sigs.enabled⟩ := by
  have hc : ∀ {K : Type} (sig : KwSig V K) (d : List (Key × V)), (∀ e ∈ d, e.1 ∈ sig.names) →
      callKw sig d = .ok (sig.build fun n => d.lookup n) := by
    intro K sig d hd
    rw [callKw, if_pos (by simpa using hd)]
  have hi : o.any (fun e => e.1 == "iterations".toList) = false := by
    rw [List.any_eq_false]
    intro e he
    simpa using h0 e he
  have hk : ∀ {K : Type} (sig : KwSig V K) (name : Key) (d : List (Key × V)),
      (o.lookup name).getD (.dict []) = .dict d → (∀ e ∈ d, e.1 ∈ sig.names) →
      subKw sig o name = .ok (sig.build fun n => d.lookup n) := by
    intro K sig name d h1 h2
    rw [subKw]
    cases hl : o.lookup name with
    | none =>
      rw [hl] at h1
      cases h1
      exact hc _ _ h2
    | some a =>
      rw [hl] at h1
      cases h1
      exact hc _ _ h2
  unfold schedInitDict schedInit
  rw [hi, hk _ _ _ hs ns, hk _ _ _ ht nt, hk _ _ _ hb nb, hk _ _ _ hh nh]
  simp only [Bool.false_eq_true, if_false]
  cases S.thinning.init its (sigs.thinning.build fun n => List.lookup n dh) with
  | error e => rfl
  | ok a =>
  cases S.burnIn.init its (sigs.burnIn.build fun n => List.lookup n db) with
  | error e => rfl
  | ok b =>
  cases S.stepSize.init its (sigs.stepSize.build fun n => List.lookup n ds) with
  | error e => rfl
  | ok ss =>
  cases S.temperature.init its (sigs.temperature.build fun n => List.lookup n dt) with
  | error e => rfl
  | ok ts => rfl

/-- **C168** (partial, ignored names).  Entries with other names than the six of the schedulers are ignored. -/
theorem c168_ignored_partial (S : Scheduler Ks σs Vs Kt σt Vt Kb σb Kh σh) (sigs : KwSigs V Ks Kt Kb Kh) (its : Nat)
    (o o' : List (Key × OverArg V)) (h0 : ∀ e ∈ o, e.1 ≠ "iterations".toList) (h0' : ∀ e ∈ o', e.1 ≠ "iterations".toList)
    (h : ∀ name ∈ overrideNames, o.lookup name = o'.lookup name) :
    schedInitDict S sigs its o = schedInitDict S sigs its o' := by
  have hi : ∀ o : List (Key × OverArg V), (∀ e ∈ o, e.1 ≠ "iterations".toList) →
      o.any (fun e => e.1 == "iterations".toList) = false := by
    intro o h0
    rw [List.any_eq_false]
    intro e he
    simpa using h0 e he
  unfold schedInitDict subKw
  rw [hi o h0, hi o' h0', h _ (by simp [overrideNames]), h "burn_in".toList (by simp [overrideNames]),
    h "step_size".toList (by simp [overrideNames]), h "temperature".toList (by simp [overrideNames]),
    h "progress_bar_steps".toList (by simp [overrideNames]), h "enabled".toList (by simp [overrideNames])]

/-- **C168** (partial, single dictionary).  The signature of `run` allows a dictionary for `schedulers`; it is rejected
unless it is empty, a sequence of dictionaries gives one state for each of them. -/
theorem c168_single_partial (S : Scheduler Ks σs Vs Kt σt Vt Kb σb Kh σh) (sigs : KwSigs V Ks Kt Kb Kh) (its : Nat) :
    (∀ e o, helperStates S sigs its (.single (e :: o)) = .error .typeError) ∧
    ∀ os states, helperStates S sigs its (.many os) = .ok states →
      List.Forall₂ (fun o st => ∃ n, schedInitDict S sigs its o = .ok (st, n)) os states := by
  refine ⟨fun _ _ => rfl, ?_⟩
  intro os
  induction os with
  | nil =>
    intro states h
    simp only [helperStates, mapExcept, Except.ok.injEq] at h
    rw [← h]
    exact .nil
  | cons o os ih =>
    intro states h
    simp only [helperStates, mapExcept] at h ih
    cases h1 : schedInitDict S sigs its o with
    | error e => simp [h1, Except.map] at h
    | ok a =>
      obtain ⟨st, n⟩ := a
      simp only [h1, Except.map] at h
      split at h
      · simp at h
      · rename_i l hl
        simp only [Except.ok.injEq] at h
        rw [← h]
        exact .cons ⟨n, h1⟩ (ih l hl)

end

theorem two_args {κ : Type} (k1 k2 : Key) (hne : k2 ≠ k1) (x : Option Nat) (k : Option κ) :
    callKw (⟨[k1, k2], fun get => ⟨((get k1).bind OverVal.toInt).map Int.toNat, (get k2).bind OverVal.toKey⟩⟩ :
        KwSig (OverVal κ) (ThinKw κ))
      ((x.map fun n => (k1, OverVal.int (n : Int))).toList ++ (k.map fun v => (k2, OverVal.key v)).toList) =
      .ok ⟨x, k⟩ := by
  have h1 : (k1 == k2) = false := by simpa using fun h => hne h.symm
  have h2 : (k2 == k1) = false := by simpa using hne
  cases x <;> cases k <;> simp [callKw, List.lookup, h1, h2, OverVal.toInt, OverVal.toKey]

/-- The dictionary with the given parameters. -/
def Spec.givenArgs {W V : Type} (l : List (String × Option W)) (f : W → V) : List (Key × V) :=
  l.filterMap fun e => e.2.map fun v => (e.1.toList, f v)

/-- **C168** (partial, schedules of the package).  Whichever parameters are overridden, the init function accepts them, and
the result is that of the schedule which was constructed with these parameters. -/
theorem c168_package_partial (κ : Type) (its : Nat) :
    (∀ (a b g : ℝ) (x y z : Option ℝ), ∃ kw,
      callKw (polySig κ) (givenArgs [("a", x), ("b", y), ("gamma", z)] OverVal.real) = .ok kw ∧
      (polynomialStepSize (.fin a) (.fin b) g).init its kw =
        (polynomialStepSize (.fin (x.getD a)) (.fin (y.getD b)) (z.getD g)).init its default) ∧
    (∀ (first last g : ℝ) (x y z : Option ℝ), ∃ kw,
      callKw (firstLastSig κ) (givenArgs [("first", x), ("last", y), ("gamma", z)] OverVal.real) = .ok kw ∧
      (polynomialFirstLast first last g).init its kw =
        (polynomialFirstLast (x.getD first) (y.getD last) (z.getD g)).init its default) ∧
    (∀ (tau : ℝ) (x : Option ℝ), ∃ kw,
      callKw (temperatureSig κ) (givenArgs [("tau", x)] OverVal.real) = .ok kw ∧
      (constantTemperature tau).init its kw = (constantTemperature (x.getD tau)).init its default) ∧
    (∀ (n : Int) (x : Option Int), ∃ kw,
      callKw (burnInSig κ) (givenArgs [("n", x)] OverVal.int) = .ok kw ∧
      (initialBurnIn n).init its kw = (initialBurnIn (x.getD n)).init its default) ∧
    (∀ {Ks σs Kb σb : Type} [Inhabited Ks] [Inhabited Kb] (gumbel : κ → Nat → ℝ) (ss : ParamSched Ks σs XF)
      (bi : SelectSched Kb σb) (sel : Nat) (key : κ) (x : Option Nat) (k : Option κ), ∃ kw,
      callKw (thinningSig κ) (givenArgs [("selections", x)] (fun n => OverVal.int n) ++
        givenArgs [("key", k)] OverVal.key) = .ok kw ∧
      (randomThinning gumbel ss bi sel key).init its kw =
        (randomThinning gumbel ss bi (x.getD sel) (k.getD key)).init its default) := by
  refine ⟨?_, ?_, ?_, ?_, ?_⟩
  · intro a b g x y z
    refine ⟨⟨x.map .fin, y.map .fin, z⟩, ?_, ?_⟩
    · cases x <;> cases y <;> cases z <;> simp [callKw, polySig, givenArgs, List.lookup, OverVal.toReal]
    · cases x <;> cases y <;> cases z <;> rfl
  · intro a b g x y z
    refine ⟨⟨x, y, z⟩, ?_, ?_⟩
    · cases x <;> cases y <;> cases z <;> simp [callKw, firstLastSig, givenArgs, List.lookup, OverVal.toReal]
    · cases x <;> cases y <;> cases z <;> rfl
  · intro tau x
    refine ⟨x, ?_, by cases x <;> rfl⟩
    cases x <;> simp [callKw, temperatureSig, givenArgs, List.lookup, OverVal.toReal]
  · intro n x
    refine ⟨x, ?_, by cases x <;> rfl⟩
    cases x <;> simp [callKw, burnInSig, givenArgs, List.lookup, OverVal.toInt]
  · intro _ _ _ _ _ _ gumbel ss bi sel key x k
    refine ⟨⟨x, k⟩, ?_, by cases x <;> cases k <;> rfl⟩
    have hne : "key".toList ≠ "selections".toList := by decide
    have := two_args _ _ hne x k
    cases x <;> cases k <;> exact this

/-! ### Non-vacuity and the counterexample -/

/-- The signatures of a scheduler with polynomial step size, constant temperature and initial burn in, without thinning. -/
noncomputable def plainSigs : KwSigs (OverVal Unit) PolyKw (Option ℝ) (Option Int) Unit where
  stepSize := polySig Unit
  temperature := temperatureSig Unit
  burnIn := burnInSig Unit
  thinning := noThinningSig Unit
  barSteps := fun _ => none
  enabled := fun _ => none

/-- The scheduler. -/
noncomputable def plainScheduler : Scheduler PolyKw (List XF) XF (Option ℝ) ℝ ℝ (Option Int) Int Unit Unit where
  stepSize := polynomialStepSize (.fin 1) (.fin 1) 0
  temperature := constantTemperature 1
  burnIn := initialBurnIn 0
  thinning := noThinning
  progressBar := false
  barSteps := 20

theorem plain_init : ∃ st n, schedInit plainScheduler 5 (default : SchedKw PolyKw (Option ℝ) (Option Int) Unit) = .ok (st, n) := by
  have h3 : plainScheduler.stepSize.init 5 (default : SchedKw PolyKw (Option ℝ) (Option Int) Unit).stepSize = .ok _ :=
    polySteps_ok 5 1 1 0 one_pos one_pos le_rfl
  simp only [schedInit, h3]
  exact ⟨_, _, rfl⟩

/-- Overrides with the misspelled name `temprature`. -/
noncomputable def misspelled : List (Key × OverArg (OverVal Unit)) :=
  [("temprature".toList, .dict [("tau".toList, .real 2)])]

/-- The misspelled overrides are accepted and have no effect. -/
theorem misspelled_accepted : ∃ r, schedInitDict plainScheduler plainSigs 5 misspelled = .ok r ∧
    schedInitDict plainScheduler plainSigs 5 [] = .ok r := by
  obtain ⟨st, n, h⟩ := plain_init
  have h1 : schedInitDict plainScheduler plainSigs 5 misspelled = schedInitDict plainScheduler plainSigs 5 [] := by
    apply c168_ignored_partial
    · decide
    · simp
    · intro name hn
      fin_cases hn <;> rfl
  have h2 : schedInitDict plainScheduler plainSigs 5 [] = .ok (st, n) := by
    rw [← h]
    rfl
  exact ⟨_, h1.trans h2, h2⟩

/-- C168 is false of the code. -/
theorem c168_false : ¬ C168Statement := by
  intro h
  obtain ⟨r, h1, -⟩ := misspelled_accepted
  have := (h _ _ _ _ _ h1).1 _ (List.mem_singleton_self _)
  revert this
  decide

/-- A misspelled parameter is rejected. -/
example : schedInitDict plainScheduler plainSigs 5
    [("thinning".toList, .dict [("selections".toList, .int 1)])] = .error .typeError := rfl

/-- The override of `alias.re_sgld` is accepted and sets the temperature. -/
example : ∃ r, schedInitDict plainScheduler plainSigs 5
    [("temperature".toList, .dict [("tau".toList, .real 2)])] = .ok r ∧ r.1.temperature = 2 := by
  rw [c168_resolved_partial plainScheduler plainSigs 5 _ (by decide) [] [("tau".toList, .real 2)] [] []
    rfl rfl rfl rfl (by simp) (by simp [plainSigs, temperatureSig]) (by simp) (by simp)]
  have h3 : plainScheduler.stepSize.init 5 ((polySig Unit).build fun _ => none) = .ok _ :=
    polySteps_ok 5 1 1 0 one_pos one_pos le_rfl
  have h3 : plainScheduler.stepSize.init 5 (plainSigs.stepSize.build fun n =>
    List.lookup n ([] : List (Key × OverVal Unit))) = .ok _ := h3
  simp only [schedInit, h3]
  exact ⟨_, rfl, rfl⟩

end JaxSgmc
