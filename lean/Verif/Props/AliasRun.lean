import Verif.Spec.Alias
import Verif.Props.Saving
import Verif.Props.Alias
import Verif.Props.DualAverage

/-!
# Complete runs of the ready to use solvers: C92–C94
-/

namespace JaxSgmc

open Spec

variable {ι κ δ β μ φ A S α : Type}

/-- The overrides of a helper scheduler with another temperature. -/
abbrev helperKw (κ : Type) (τ : ℝ) : SchedKw FirstLastKw (Option ℝ) (Option Int) (ThinKw κ) :=
  ⟨default, some τ, default, default, none, none⟩

section
variable (gumbel : κ → Nat → ℝ) (key : κ) (first last : ℝ) (burnIn accepted : Nat) (bar : Bool)

theorem aliasThinned_init (hl : 0 < last) (hfl : last < first) (its : Nat) (hits : 2 ≤ its)
    (hfit : burnIn + accepted ≤ its) :
    ∃ (step : Nat → ℝ) (ss : List XF) (t : List Nat), DecreasingSteps first last its step ∧
      (∀ i < its, jnpGet ss i = .fin (step i)) ∧
      ((List.range its).filter (fun i : Nat => t.any (fun j => i == j))).length = accepted ∧
      (∀ i : Nat, t.any (fun j => i == j) = true → i < its ∧ burnIn ≤ i) ∧
      ∀ kw : SchedKw FirstLastKw (Option ℝ) (Option Int) (ThinKw κ), kw.stepSize = default →
        kw.burnIn = default → kw.thinning = default →
        ∃ b, schedInit (aliasThinned gumbel key first last burnIn accepted bar) its kw =
          .ok (⟨0, its, ss, kw.temperature.getD 1, (burnIn : Int), t, b⟩, (accepted : Int)) := by
  obtain ⟨ss, h1, h2, h3, step, h4, h5, h6⟩ := c35_first_last_partial first last 0.33 hl hfl (by norm_num)
    its hits
  have hpos : PositiveSteps (polynomialFirstLast first last 0.33) ss its := by
    intro i hi
    rw [paramAfter_static _ (fun _ _ _ => rfl)]
    exact ⟨step i, h5 i, h4 i hi⟩
  obtain ⟨hA, -⟩ := c33_random_thinning gumbel (polynomialFirstLast first last 0.33)
    (initialBurnIn (burnIn : Int)) accepted key its default ss h1 (burnIn : Int) (its - burnIn) rfl hpos
  have hav : (availableIterations (initialBurnIn (burnIn : Int)) (burnIn : Int) its).length
      = its - burnIn := by
    have := count_burnIn (burnIn : Int) its
    simp only [Int.toNat_natCast] at this
    rw [← this]
    apply congrArg List.length
    apply List.filter_congr
    intro i _
    rw [selectAfter_static _ (fun _ _ _ => rfl)]
    rfl
  obtain ⟨t, g1, g2, g3⟩ := hA (by rw [hav]; show accepted ≤ _; omega)
  have hs : step 0 = first := by
    have := h4 0 (by omega)
    rw [h2] at this
    exact (XF.fin.inj this).symm
  have hf : step (its - 1) = last := by
    have := h4 (its - 1) (by omega)
    rw [h3] at this
    exact (XF.fin.inj this).symm
  refine ⟨step, ss, t, ⟨hs, hf, h5, h6⟩, h4, g2, ?_, ?_⟩
  · intro i hi
    obtain ⟨k1, k2⟩ := g3 i hi
    rw [selectAfter_static _ (fun _ _ _ => rfl)] at k2
    have k3 : ((burnIn : Int) ≤ i) := by simpa [initialBurnIn] using k2
    exact ⟨k1, by omega⟩
  · intro kw e1 e2 e3
    have hth : (aliasThinned gumbel key first last burnIn accepted bar).thinning.init its kw.thinning
        = .ok (t, (accepted : Int)) := by rw [e3]; exact g1
    have hss : (aliasThinned gumbel key first last burnIn accepted bar).stepSize.init its kw.stepSize
        = .ok ss := by rw [e1]; exact h1
    have hbi : (aliasThinned gumbel key first last burnIn accepted bar).burnIn.init its kw.burnIn
        = .ok ((burnIn : Int), (its : Int) - burnIn) := by rw [e2]; rfl
    have hte : (aliasThinned gumbel key first last burnIn accepted bar).temperature.init its
        kw.temperature = .ok (kw.temperature.getD 1) := rfl
    have hmin : min (accepted : Int) ((its : Int) - burnIn) = accepted := by omega
    simp only [schedInit, hth, hss, hbi, hte, hmin]
    exact ⟨_, rfl⟩

/-- A run with schedulers which ignore the statistics of the solver. -/
theorem static_run {Ks σs Kt σt Kb σb Kh σh : Type} [Inhabited Ks] [Inhabited Kt] [Inhabited Kb] [Inhabited Kh]
    (zero : α → α) (solver : Solver S XF ℝ α)
    (hp : PreservesStructure solver) (hne : ∀ s, solver.get s ≠ .none)
    (sched : Scheduler Ks σs XF Kt σt ℝ Kb σb Kh σh)
    (helpers : List (SchedKw Ks Kt Kb Kh)) (its count : Nat)
    (main : SchedState σs σt σb σh) (hs : List (SchedState σs σt σb σh))
    (hms : mcmcSchedulers sched its helpers = .ok (main :: hs, (count : Int)))
    (vals : SchedState σs σt σb σh → Nat → Schedule XF ℝ)
    (hget : ∀ st ∈ main :: hs, ∀ fb i, schedGet sched (schedAfter sched st fb i) = vals st i)
    (kept : List Nat) (hkept' : (List.range its).filter (fun i => (vals main i).keep) = kept)
    (hcount : kept.length = count) (states : List S) :
    ∃ rs : List (SaveResult α),
      mcmcMap (noSave zero) solver sched helpers its () states = .ok ((), rs) ∧
      (∀ C : MemCollector α, C.saveDir = false → ∃ C',
        mcmcMap (hostSaving zero) solver sched helpers its C states = .ok (C', rs)) ∧
      List.Forall₂ (fun s r => ReturnedSamples (kept.map fun i =>
        solver.get (drive solver (fun i => (main :: hs).map (fun st => vals st i)) s (i + 1))) r)
        states rs := by
  have hkept : ∀ fb, keptIterations sched main fb its = kept := by
    intro fb
    rw [← hkept']
    apply List.filter_congr
    intro i _
    rw [hget main (by simp) fb i]
  set scheds : Nat → List (Schedule XF ℝ) := fun i => (main :: hs).map (fun st => vals st i) with hscheds
  have hsch : ∀ fb i, (main :: hs).map (fun st => schedGet sched (schedAfter sched st fb i)) = scheds i := by
    intro fb i
    apply List.map_congr_left
    intro st hst
    exact hget st hst fb i
  have htraj : ∀ s i, (trajectory solver sched (s, main :: hs) i).1 = drive solver scheds s i := by
    intro s i
    induction i with
    | zero => rfl
    | succ i ih =>
      rw [trajectory, drive]
      dsimp only
      rw [trajectory_scheds, List.map_map, ← hsch (runStats solver sched (s, main :: hs)) i, ih]
      rfl
  have hkr : ∀ s, keptOfRun solver sched (s, main :: hs) its
      = kept.map fun i => solver.get (drive solver scheds s (i + 1)) := by
    intro s
    rw [c42_kept_iterations, hkept]
    simp only [htraj]
  have hlen : ∀ s, (keptOfRun solver sched (s, main :: hs) its).length = count := by
    intro s
    rw [hkr, List.length_map]
    exact hcount
  obtain ⟨rs, h1, h2⟩ := mcmcMap_noSave zero solver hp sched _ its _ _ hms (by omega) states
  refine ⟨rs, h1, ?_, ?_⟩
  · intro C hC
    obtain ⟨C', rs', g1, g2⟩ := c41_runs zero solver hp sched _ its _ _ hms (by omega) C states
      (by
        intro s _
        exact ⟨hne s, by simp [memNames, hC]⟩)
      (by intro s _; rw [hlen])
    rw [h1] at g2
    simp only [Except.ok.injEq, Prod.mk.injEq, true_and] at g2
    exact ⟨C', by rw [g1, g2]⟩
  · refine h2.imp ?_
    intro s r hr
    rw [hkr] at hr
    have hl' : (kept.map fun i => solver.get (drive solver scheds s (i + 1))).length = count := by
      rw [List.length_map]; exact hcount
    refine ⟨hr.1, ?_, ?_⟩
    · intro l hl
      rw [hr.2.rows l hl, hl']
      simp
    · intro j x hx
      have hj : j < count := by
        have := (List.getElem?_eq_some_iff.1 hx).1
        omega
      have := hr.2.row j (by simpa using hj)
      rw [this, hx]

/-- Runs with the schedule of `sgld`, `re_sgld`, `sghmc`, `obabo`: the schedule is the same for all solvers. -/
theorem thinned_runs (hl : 0 < last) (hfl : last < first)
    (its : Nat) (hits : 2 ≤ its) (hfit : burnIn + accepted ≤ its) :
    ∃ (step : Nat → ℝ) (kept : List Nat),
      DecreasingSteps first last its step ∧ Thinned burnIn its accepted kept ∧
      ∀ {α S : Type} (zero : α → α) (solver : Solver S XF ℝ α) (_ : PreservesStructure solver)
        (_ : ∀ s, solver.get s ≠ .none) (temps : List ℝ), ∃ scheds : Nat → List (Schedule XF ℝ),
      (∀ i < its, (scheds i).map toParams = ⟨step i, 1⟩ :: temps.map fun τ => ⟨step i, τ⟩) ∧
      ∀ states : List S, ∃ rs : List (SaveResult α),
      mcmcMap (noSave zero) solver (aliasThinned gumbel key first last burnIn accepted bar)
        (temps.map (helperKw κ)) its () states = .ok ((), rs) ∧
      (∀ C : MemCollector α, C.saveDir = false → ∃ C', mcmcMap (hostSaving zero) solver
        (aliasThinned gumbel key first last burnIn accepted bar)
        (temps.map (helperKw κ)) its C states = .ok (C', rs)) ∧
      List.Forall₂ (fun s r => ReturnedSamples (kept.map fun i => solver.get (drive solver scheds s (i + 1))) r)
        states rs := by
  obtain ⟨step, ss, t, hD, hstep, hcount, hrange, hinit⟩ := aliasThinned_init gumbel key first last burnIn
    accepted bar hl hfl its hits hfit
  let kept := (List.range its).filter (fun i : Nat => t.any (fun j => i == j))
  refine ⟨step, kept, hD, ⟨hcount, List.Pairwise.filter _ List.pairwise_lt_range, ?_⟩, ?_⟩
  · intro i hi
    have := hrange i (List.mem_filter.1 hi).2
    omega
  intro α S zero solver hp hne temps
  set sched := aliasThinned gumbel key first last burnIn accepted bar with hsched
  obtain ⟨b0, hmain⟩ := hinit default rfl rfl rfl
  have hmain' : (default : SchedKw FirstLastKw (Option ℝ) (Option Int) (ThinKw κ)).temperature.getD 1
      = (1 : ℝ) := rfl
  rw [hmain'] at hmain
  -- the helper schedulers
  have hhelp : ∃ hs, mapExcept (fun kw => (schedInit sched its kw).map Prod.fst) (temps.map (helperKw κ))
      = .ok hs ∧ List.Forall₂ (fun (τ : ℝ) (st : SchedState (List XF) ℝ Int (List Nat)) =>
        ∃ b, st = ⟨0, its, ss, τ, (burnIn : Int), t, b⟩) temps hs := by
    clear hmain
    induction temps with
    | nil => exact ⟨[], rfl, .nil⟩
    | cons τ temps ih =>
      obtain ⟨hs, i1, i2⟩ := ih
      obtain ⟨b, hb⟩ := hinit (helperKw κ τ) rfl rfl rfl
      refine ⟨_ :: hs, ?_, .cons ⟨b, rfl⟩ i2⟩
      rw [List.map_cons, mapExcept, hb, i1]
      rfl
  obtain ⟨hs, hh1, hh2⟩ := hhelp
  have hms : mcmcSchedulers sched its (temps.map (helperKw κ))
      = .ok (⟨0, its, ss, 1, (burnIn : Int), t, b0⟩ :: hs, (accepted : Int)) := by
    simp only [mcmcSchedulers, hmain, hh1]
  set main : SchedState (List XF) ℝ Int (List Nat) := ⟨0, its, ss, 1, (burnIn : Int), t, b0⟩ with hm
  -- schedules do not depend on the statistics
  have hget : ∀ (st : SchedState (List XF) ℝ Int (List Nat)) (b : Option BarState) (τ : ℝ),
      st = ⟨0, its, ss, τ, (burnIn : Int), t, b⟩ → ∀ fb i, schedGet sched (schedAfter sched st fb i) =
        ⟨jnpGet ss i, τ, decide ((burnIn : Int) ≤ i), t.any (fun j => i == j)⟩ := by
    rintro st b τ rfl fb i
    obtain ⟨e1, e2, e3, e4, e5⟩ := schedAfter_spec sched ⟨0, its, ss, τ, (burnIn : Int), t, b⟩ fb rfl i
    simp only [schedGet, e1, e2, e3, e4, e5]
    rw [paramAfter_static _ (fun _ _ _ => rfl), paramAfter_static _ (fun _ _ _ => rfl),
      selectAfter_static _ (fun _ _ _ => rfl), selectAfter_static _ (fun _ _ _ => rfl)]
    rfl
  let vals : SchedState (List XF) ℝ Int (List Nat) → Nat → Schedule XF ℝ := fun st i =>
    ⟨jnpGet ss i, st.temperature, decide ((burnIn : Int) ≤ i), t.any (fun j => i == j)⟩
  have hform : ∀ st ∈ main :: hs, ∃ b, st = ⟨0, its, ss, st.temperature, (burnIn : Int), t, b⟩ := by
    intro st hst
    rcases List.mem_cons.1 hst with rfl | hst
    · exact ⟨b0, rfl⟩
    · clear hms hh1
      induction hh2 with
      | nil => simp at hst
      | cons h _ ih =>
        rcases List.mem_cons.1 hst with rfl | hst
        · obtain ⟨b, rfl⟩ := h; exact ⟨b, rfl⟩
        · exact ih (List.mem_cons_of_mem _ hst) hst
  have hkept : (List.range its).filter (fun i => (vals main i).keep) = kept := by
    apply List.filter_congr
    intro i _
    show (decide ((burnIn : Int) ≤ i) && t.any (fun j => i == j)) = _
    cases hi : t.any (fun j => i == j) with
    | false => simp
    | true =>
      have := (hrange i hi).2
      have h' : (burnIn : Int) ≤ i := by omega
      simp [h']
  refine ⟨fun i => (main :: hs).map (fun st => vals st i), ?_, ?_⟩
  · intro i hi
    have h1 : ∀ st (τ : ℝ) b, st = (⟨0, its, ss, τ, (burnIn : Int), t, b⟩ :
        SchedState (List XF) ℝ Int (List Nat)) →
        toParams (vals st i) = ⟨step i, τ⟩ := by
      rintro st τ b rfl
      show (⟨(jnpGet ss i).toReal, τ⟩ : Params) = _
      rw [hstep i hi]
      rfl
    show ((main :: hs).map _).map toParams = _
    rw [List.map_map, List.map_cons]
    congr 1
    · exact h1 main 1 b0 rfl
    · clear hms hh1 hform
      induction hh2 with
      | nil => rfl
      | cons h _ ih =>
        obtain ⟨b, hb⟩ := h
        rw [List.map_cons, List.map_cons, ih]
        congr 1
        exact h1 _ _ b hb
  · intro states
    refine static_run zero solver hp hne sched _ its accepted main hs hms vals ?_ kept hkept hcount states
    intro st hst fb i
    obtain ⟨b, hb⟩ := hform st hst
    exact hget st b st.temperature hb fb i

/-- Runs of one solver. -/
theorem thinned_run (zero : α → α) (solver : Solver S XF ℝ α) (hp : PreservesStructure solver)
    (hne : ∀ s, solver.get s ≠ .none) (temps : List ℝ) (hl : 0 < last) (hfl : last < first)
    (its : Nat) (hits : 2 ≤ its) (hfit : burnIn + accepted ≤ its) :
    ∃ (step : Nat → ℝ) (kept : List Nat) (scheds : Nat → List (Schedule XF ℝ)),
      DecreasingSteps first last its step ∧ Thinned burnIn its accepted kept ∧
      (∀ i < its, (scheds i).map toParams = ⟨step i, 1⟩ :: temps.map fun τ => ⟨step i, τ⟩) ∧
      ∀ states : List S, ∃ rs : List (SaveResult α),
      mcmcMap (noSave zero) solver (aliasThinned gumbel key first last burnIn accepted bar)
        (temps.map (helperKw κ)) its () states = .ok ((), rs) ∧
      (∀ C : MemCollector α, C.saveDir = false → ∃ C', mcmcMap (hostSaving zero) solver
        (aliasThinned gumbel key first last burnIn accepted bar)
        (temps.map (helperKw κ)) its C states = .ok (C', rs)) ∧
      List.Forall₂ (fun s r => ReturnedSamples (kept.map fun i => solver.get (drive solver scheds s (i + 1))) r)
        states rs := by
  obtain ⟨step, kept, hD, hT, h⟩ := thinned_runs gumbel key first last burnIn accepted bar hl hfl its hits hfit
  obtain ⟨scheds, hS, hrun⟩ := h zero solver hp hne temps
  exact ⟨step, kept, scheds, hD, hT, hS, hrun⟩

end

/-- Runs with the schedule of `amagold` and `sggmc` without `accepted_samples`: the schedule is the same for all solvers. -/
theorem all_runs (first last : ℝ) (burnIn : Nat) (bar : Bool)
    (hl : 0 < last) (hfl : last < first) (its : Nat) (hits : 2 ≤ its) (hfit : burnIn ≤ its) :
    ∃ (step : Nat → ℝ) (kept : List Nat) (scheds : Nat → List (Schedule XF ℝ)),
      DecreasingSteps first last its step ∧ Thinned burnIn its (its - burnIn) kept ∧
      (∀ i < its, (scheds i).map toParams = [⟨step i, 1⟩]) ∧
      ∀ {α S : Type} (zero : α → α) (solver : Solver S XF ℝ α) (_ : PreservesStructure solver)
        (_ : ∀ s, solver.get s ≠ .none) (states : List S), ∃ rs : List (SaveResult α),
      mcmcMap (noSave zero) solver (aliasAll first last burnIn bar) [] its () states = .ok ((), rs) ∧
      (∀ C : MemCollector α, C.saveDir = false → ∃ C', mcmcMap (hostSaving zero) solver
        (aliasAll first last burnIn bar) [] its C states = .ok (C', rs)) ∧
      List.Forall₂ (fun s r => ReturnedSamples (kept.map fun i => solver.get (drive solver scheds s (i + 1))) r)
        states rs := by
  obtain ⟨ss, h1, h2, h3, step, h4, h5, h6⟩ := c35_first_last_partial first last 0.33 hl hfl (by norm_num)
    its hits
  have hs : step 0 = first := by
    have := h4 0 (by omega)
    rw [h2] at this
    exact (XF.fin.inj this).symm
  have hf : step (its - 1) = last := by
    have := h4 (its - 1) (by omega)
    rw [h3] at this
    exact (XF.fin.inj this).symm
  set sched := aliasAll first last burnIn bar with hsched
  have hinit : ∃ b, schedInit sched its default
      = .ok (⟨0, its, ss, 1, (burnIn : Int), (), b⟩, ((its - burnIn : Nat) : Int)) := by
    have hth : sched.thinning.init its
        (default : SchedKw FirstLastKw (Option ℝ) (Option Int) Unit).thinning
        = .ok ((), (its : Int)) := rfl
    have hss : sched.stepSize.init its
        (default : SchedKw FirstLastKw (Option ℝ) (Option Int) Unit).stepSize = .ok ss := h1
    have hbi : sched.burnIn.init its
        (default : SchedKw FirstLastKw (Option ℝ) (Option Int) Unit).burnIn
        = .ok ((burnIn : Int), (its : Int) - burnIn) := rfl
    have hte : sched.temperature.init its
        (default : SchedKw FirstLastKw (Option ℝ) (Option Int) Unit).temperature = .ok 1 := rfl
    have hmin : min (its : Int) ((its : Int) - burnIn) = ((its - burnIn : Nat) : Int) := by omega
    simp only [schedInit, hth, hss, hbi, hte, hmin]
    exact ⟨_, rfl⟩
  obtain ⟨b0, hmain⟩ := hinit
  set main : SchedState (List XF) ℝ Int Unit := ⟨0, its, ss, 1, (burnIn : Int), (), b0⟩ with hm
  have hms : mcmcSchedulers sched its [] = .ok ([main], ((its - burnIn : Nat) : Int)) := by
    simp only [mcmcSchedulers, hmain, mapExcept]
  let vals : SchedState (List XF) ℝ Int Unit → Nat → Schedule XF ℝ := fun _ i =>
    ⟨jnpGet ss i, 1, decide ((burnIn : Int) ≤ i), true⟩
  let kept := (List.range its).filter (fun i : Nat => decide ((burnIn : Int) ≤ i))
  have hkept : (List.range its).filter (fun i => (vals main i).keep) = kept := by
    apply List.filter_congr
    intro i _
    show (decide ((burnIn : Int) ≤ i) && true) = _
    simp
  have hcount : kept.length = its - burnIn := by
    have := count_burnIn (burnIn : Int) its
    simpa only [Int.toNat_natCast] using this
  refine ⟨step, kept, fun i => [main].map (fun st => vals st i), ⟨hs, hf, h5, h6⟩, ⟨hcount, ?_, ?_⟩, ?_, ?_⟩
  · exact List.Pairwise.filter _ List.pairwise_lt_range
  · intro i hi
    have := (List.mem_filter.1 hi)
    have h' := of_decide_eq_true this.2
    have := List.mem_range.1 this.1
    omega
  · intro i hi
    show [(⟨(jnpGet ss i).toReal, 1⟩ : Params)] = _
    have : jnpGet ss i = .fin (step i) := h4 i hi
    rw [this]
    rfl
  · intro α S zero solver hp hne states
    refine static_run zero solver hp hne sched [] its (its - burnIn) main [] hms vals ?_ kept hkept hcount
      states
    intro st hst fb i
    obtain rfl := List.mem_singleton.1 hst
    obtain ⟨e1, e2, e3, e4, e5⟩ := schedAfter_spec sched ⟨0, its, ss, 1, (burnIn : Int), (), b0⟩ fb rfl i
    simp only [schedGet, e1, e2, e3, e4, e5, hm]
    rw [paramAfter_static _ (fun _ _ _ => rfl), paramAfter_static _ (fun _ _ _ => rfl),
      selectAfter_static _ (fun _ _ _ => rfl), selectAfter_static _ (fun _ _ _ => rfl)]
    rfl

/-- Runs of one solver. -/
theorem all_run (zero : α → α) (solver : Solver S XF ℝ α) (hp : PreservesStructure solver)
    (hne : ∀ s, solver.get s ≠ .none) (first last : ℝ) (burnIn : Nat) (bar : Bool)
    (hl : 0 < last) (hfl : last < first) (its : Nat) (hits : 2 ≤ its) (hfit : burnIn ≤ its) :
    ∃ (step : Nat → ℝ) (kept : List Nat) (scheds : Nat → List (Schedule XF ℝ)),
      DecreasingSteps first last its step ∧ Thinned burnIn its (its - burnIn) kept ∧
      (∀ i < its, (scheds i).map toParams = [⟨step i, 1⟩]) ∧
      ∀ states : List S, ∃ rs : List (SaveResult α),
      mcmcMap (noSave zero) solver (aliasAll first last burnIn bar) [] its () states = .ok ((), rs) ∧
      (∀ C : MemCollector α, C.saveDir = false → ∃ C', mcmcMap (hostSaving zero) solver
        (aliasAll first last burnIn bar) [] its C states = .ok (C', rs)) ∧
      List.Forall₂ (fun s r => ReturnedSamples (kept.map fun i => solver.get (drive solver scheds s (i + 1))) r)
        states rs := by
  obtain ⟨step, kept, scheds, hD, hT, hS, h⟩ := all_runs first last burnIn bar hl hfl its hits hfit
  exact ⟨step, kept, scheds, hD, hT, hS, h zero solver hp hne⟩

/-! ### The solvers -/

theorem paramsUpTo_succ (step : Nat → ℝ) (τ : ℝ) (n : Nat) :
    paramsUpTo step τ (n + 1) = paramsUpTo step τ n ++ [⟨step n, τ⟩] := by
  rw [paramsUpTo, List.range_succ, List.map_append]
  rfl

theorem sgmc_drive (update : S → Params → S) (get : S → Tree α) (scheds : Nat → List (Schedule XF ℝ))
    (step : Nat → ℝ) (its : Nat)
    (h : ∀ i < its, (scheds i).map toParams = [⟨step i, 1⟩]) (s : S) (n : Nat) (hn : n ≤ its) :
    drive (sgmcSolver update get) scheds s n = (paramsUpTo step 1 n).foldl update s := by
  induction n with
  | zero => rfl
  | succ n ih =>
    have h1 := h n (by omega)
    rw [drive, ih (by omega), paramsUpTo_succ, List.foldl_append]
    cases hs : scheds n with
    | nil => simp [hs] at h1
    | cons m ms =>
      rw [hs] at h1
      simp only [List.map_cons, List.cons.injEq] at h1
      show update _ (toParams m) = _
      rw [h1.1]
      rfl

theorem mh_drive (update : S → Params → S × XF) (get : S → Tree α)
    (scheds : Nat → List (Schedule XF ℝ)) (step : Nat → ℝ) (its : Nat)
    (h : ∀ i < its, (scheds i).map toParams = [⟨step i, 1⟩]) (s : S) (n : Nat) (hn : n ≤ its) :
    drive (mhSolver update get) scheds s n
      = (paramsUpTo step 1 n).foldl (fun s p => (update s p).1) s := by
  induction n with
  | zero => rfl
  | succ n ih =>
    have h1 := h n (by omega)
    rw [drive, ih (by omega), paramsUpTo_succ, List.foldl_append]
    cases hs : scheds n with
    | nil => simp [hs] at h1
    | cons m ms =>
      rw [hs] at h1
      simp only [List.map_cons, List.cons.injEq] at h1
      show (update _ (toParams m)).1 = _
      rw [h1.1]
      rfl

theorem pt_drive (update : S → Params → Params → S) (get : S → Tree α)
    (scheds : Nat → List (Schedule XF ℝ)) (step : Nat → ℝ) (τ : ℝ) (its : Nat)
    (h : ∀ i < its, (scheds i).map toParams = [⟨step i, 1⟩, ⟨step i, τ⟩]) (s : S) (n : Nat) (hn : n ≤ its) :
    drive (ptSolver update get) scheds s n
      = ((paramsUpTo step 1 n).zip (paramsUpTo step τ n)).foldl (fun s p => update s p.1 p.2) s := by
  have hz : ∀ n, (paramsUpTo step 1 n).zip (paramsUpTo step τ n)
      = (List.range n).map fun t => ((⟨step t, 1⟩, ⟨step t, τ⟩) : Params × Params) := by
    intro n
    rw [paramsUpTo, paramsUpTo, List.zip_map']
  rw [hz]
  induction n with
  | zero => rfl
  | succ n ih =>
    have h1 := h n (by omega)
    rw [drive, ih (by omega), List.range_succ, List.map_append, List.foldl_append]
    cases hs : scheds n with
    | nil => simp [hs] at h1
    | cons m ms =>
      cases ms with
      | nil => simp [hs] at h1
      | cons m' ms =>
        rw [hs] at h1
        simp only [List.map_cons, List.cons.injEq] at h1
        show update _ (toParams m) (toParams m') = _
        rw [h1.1, h1.2.1]
        rfl

theorem forall₂_map_left' {γ : Type} {ρ : Type} (f : γ → S) (R : S → ρ → Prop) (cs : List γ) (rs : List ρ)
    (h : List.Forall₂ R (cs.map f) rs) : List.Forall₂ (fun c r => R (f c) r) cs rs :=
  List.forall₂_map_left_iff.1 h

section
variable [Fintype ι]

/-- **C92** (`alias.sgld`).  For `first_step_size > last_step_size > 0`, at least two iterations and
`accepted_samples ≤ iterations - burn_in`: every chain follows the Langevin integrator, the step sizes
decrease from `first_step_size` to `last_step_size`, the temperature is 1, and exactly `accepted_samples`
samples are returned per chain, in the order of the chains: those after iterations chosen after the burn in,
the same for all chains.  It makes no difference whether they are saved on the device or the host.  The step sizes and
the chosen iterations do not depend on the random numbers of the integrator, the data, the potential or the adaption. -/
theorem c92_sgld_schedule {κ : Type} (key0 : κ) (gumbel : κ → Nat → ℝ) (first last : ℝ)
    (burnIn accepted : Nat) (bar : Bool) (its : Nat) (hl : 0 < last) (hfl : last < first)
    (hits : 2 ≤ its) (hfit : burnIn + accepted ≤ its) :
    ∃ (step : Nat → ℝ) (kept : List Nat),
      DecreasingSteps first last its step ∧ Thinned burnIn its accepted kept ∧
      ∀ {ι μ A δ β : Type} [Fintype ι] (zero : OutLeaf ι μ → OutLeaf ι μ) (P : Prng κ) (lay : Layout ι)
        (ad : Option (AdaptStrategy ι β A)) (getData : δ → δ × β) (sg : StochGradLik ι β μ)
        (adaptInit : (ι → ℝ) → Option A) (ms : μ)
        (chains : List ((ι → ℝ) × δ)), ∃ rs : List (SaveResult (OutLeaf ι μ)),
        runSgld (noSave zero) P key0 lay ad getData sg adaptInit ms gumbel first last burnIn accepted bar
          its () chains = .ok ((), rs) ∧
        (∀ C : MemCollector (OutLeaf ι μ), C.saveDir = false → ∃ C',
          runSgld (hostSaving zero) P key0 lay ad getData sg adaptInit ms gumbel first last burnIn accepted
            bar its C chains = .ok (C', rs)) ∧
        List.Forall₂ (fun c r => ReturnedSamples (kept.map fun i => reportedLangevin
          (langevinRun P lay ad getData sg (langevinInit c.2 c.1 key0 (adaptInit c.1) ms)
            (paramsUpTo step 1 (i + 1)))) r) chains rs := by
  obtain ⟨step, kept, hD, hT, hruns⟩ := thinned_runs gumbel key0 first last burnIn accepted bar hl hfl its hits hfit
  refine ⟨step, kept, hD, hT, ?_⟩
  intro ι μ A δ β _ zero P lay ad getData sg adaptInit ms chains
  obtain ⟨scheds, hS, hrun⟩ := hruns zero (sgmcSolver (langevinUpdate P lay ad getData sg) langevinTree)
    (by intro s sc; cases sc <;> rfl) (by intro s; simp [sgmcSolver, langevinTree]) []
  obtain ⟨rs, h1, h2, h3⟩ := hrun (chains.map fun c => langevinInit c.2 c.1 key0 (adaptInit c.1) ms)
  refine ⟨rs, h1, h2, ?_⟩
  refine (forall₂_map_left' _ _ _ _ h3).imp ?_
  intro c r hr
  have e : (kept.map fun i => (sgmcSolver (langevinUpdate P lay ad getData sg) langevinTree).get
      (drive (sgmcSolver (langevinUpdate P lay ad getData sg) langevinTree) scheds
        (langevinInit c.2 c.1 key0 (adaptInit c.1) ms) (i + 1))) = kept.map fun i => reportedLangevin
          (langevinRun P lay ad getData sg (langevinInit c.2 c.1 key0 (adaptInit c.1) ms)
            (paramsUpTo step 1 (i + 1))) := by
    apply List.map_congr_left
    intro i hi
    rw [sgmc_drive _ _ scheds step its hS _ _ (by have := (hT.range i hi).2; omega)]
    rfl
  rw [← e]
  exact hr

/-- **C92** (`alias.sgld`), for one solver. -/
theorem c92_sgld (zero : OutLeaf ι μ → OutLeaf ι μ) (P : Prng κ) (key0 : κ) (lay : Layout ι)
    (ad : Option (AdaptStrategy ι β A)) (getData : δ → δ × β) (sg : StochGradLik ι β μ)
    (adaptInit : (ι → ℝ) → Option A) (ms : μ) (gumbel : κ → Nat → ℝ) (first last : ℝ)
    (burnIn accepted : Nat) (bar : Bool) (its : Nat) (hl : 0 < last) (hfl : last < first)
    (hits : 2 ≤ its) (hfit : burnIn + accepted ≤ its) :
    ∃ (step : Nat → ℝ) (kept : List Nat),
      DecreasingSteps first last its step ∧ Thinned burnIn its accepted kept ∧
      ∀ chains : List ((ι → ℝ) × δ), ∃ rs : List (SaveResult (OutLeaf ι μ)),
        runSgld (noSave zero) P key0 lay ad getData sg adaptInit ms gumbel first last burnIn accepted bar
          its () chains = .ok ((), rs) ∧
        (∀ C : MemCollector (OutLeaf ι μ), C.saveDir = false → ∃ C',
          runSgld (hostSaving zero) P key0 lay ad getData sg adaptInit ms gumbel first last burnIn accepted
            bar its C chains = .ok (C', rs)) ∧
        List.Forall₂ (fun c r => ReturnedSamples (kept.map fun i => reportedLangevin
          (langevinRun P lay ad getData sg (langevinInit c.2 c.1 key0 (adaptInit c.1) ms)
            (paramsUpTo step 1 (i + 1)))) r) chains rs := by
  obtain ⟨step, kept, hD, hT, h⟩ := c92_sgld_schedule key0 gumbel first last burnIn accepted bar its hl hfl hits hfit
  exact ⟨step, kept, hD, hT, h zero P lay ad getData sg adaptInit ms⟩

/-- **C92** (`alias.re_sgld`).  As for `sgld`; the second chain of every pair has the temperature
`temperature`, and the samples are those of the first one. -/
theorem c92_re_sgld (zero : OutLeaf ι μ → OutLeaf ι μ) (P : Prng κ) (key0 : κ) (lay : Layout ι)
    (getData : δ → δ × β) (sg : StochGradLik ι β μ) (ms : μ) (gumbel : κ → Nat → ℝ)
    (temperature first last : ℝ) (burnIn accepted : Nat) (its : Nat) (hl : 0 < last) (hfl : last < first)
    (hits : 2 ≤ its) (hfit : burnIn + accepted ≤ its) :
    ∃ (step : Nat → ℝ) (kept : List Nat),
      DecreasingSteps first last its step ∧ Thinned burnIn its accepted kept ∧
      ∀ chains : List (((ι → ℝ) × δ) × ((ι → ℝ) × δ)), ∃ rs : List (SaveResult (OutLeaf ι μ)),
        runReSgld (noSave zero) P key0 lay getData sg ms gumbel temperature first last burnIn accepted
          its () chains = .ok ((), rs) ∧
        (∀ C : MemCollector (OutLeaf ι μ), C.saveDir = false → ∃ C',
          runReSgld (hostSaving zero) P key0 lay getData sg ms gumbel temperature first last burnIn accepted
            its C chains = .ok (C', rs)) ∧
        List.Forall₂ (fun c r => ReturnedSamples (kept.map fun i => reportedLangevin
          (ptRun P (fun n => 1 / n)
            (langevinUpdate P lay (none : Option (AdaptStrategy ι β Unit)) getData sg)
            { normal := langevinInit c.1.2 c.1.1 (P.split key0 3 1) none ms
              hot := langevinInit c.2.2 c.2.1 (P.split key0 3 2) none ms
              ssq := 0, F := 1, step := 0, key := P.split key0 3 0, drawn := [] }
            ((paramsUpTo step 1 (i + 1)).zip (paramsUpTo step temperature (i + 1)))).normal) r)
          chains rs := by
  obtain ⟨step, kept, scheds, hD, hT, hS, hrun⟩ := thinned_run gumbel key0 first last burnIn accepted false
    zero (ptSolver (ptUpdate P (fun n => 1 / n)
      (langevinUpdate P lay (none : Option (AdaptStrategy ι β Unit)) getData sg)) (ptGet langevinTree))
    (by intro s sc; rcases sc with _ | ⟨a, _ | ⟨b, sc⟩⟩ <;> rfl)
    (by intro s; simp [ptSolver, ptGet, langevinTree]) [temperature] hl hfl its hits hfit
  refine ⟨step, kept, hD, hT, ?_⟩
  intro chains
  obtain ⟨rs, h1, h2, h3⟩ := hrun (chains.map fun c =>
      { normal := langevinInit c.1.2 c.1.1 (P.split key0 3 1) none ms
        hot := langevinInit c.2.2 c.2.1 (P.split key0 3 2) none ms
        ssq := 0, F := 1, step := 0, key := P.split key0 3 0, drawn := [] })
  refine ⟨rs, h1, h2, ?_⟩
  refine (forall₂_map_left' _ _ _ _ h3).imp ?_
  intro c r hr
  convert hr using 1
  apply List.map_congr_left
  intro i hi
  rw [pt_drive _ _ scheds step temperature its hS _ _ (by have := (hT.range i hi).2; omega)]
  rfl

/-- **C92** (`alias.sghmc`). -/
theorem c92_sghmc (zero : OutLeaf ι μ → OutLeaf ι μ) (P : Prng κ) (key0 : κ)
    (lay : Layout ι) (nm : Option (NoiseFn ι β μ)) (friction : ℝ ⊕ (ι → ℝ)) (mass : Option (ι → ℝ))
    (steps : ℕ) (getData : δ → δ × β) (sg : StochGrad ι β μ) (ms : μ) (gumbel : κ → Nat → ℝ)
    (first last : ℝ) (burnIn accepted : Nat) (bar : Bool) (its : Nat) (hl : 0 < last) (hfl : last < first)
    (hits : 2 ≤ its) (hfit : burnIn + accepted ≤ its) :
    ∃ (step : Nat → ℝ) (kept : List Nat),
      DecreasingSteps first last its step ∧ Thinned burnIn its accepted kept ∧
      ∀ chains : List ((ι → ℝ) × δ), ∃ rs : List (SaveResult (OutLeaf ι μ)),
        runSghmc (noSave zero) P key0 lay nm friction mass steps getData sg ms gumbel first last burnIn
          accepted bar its () chains = .ok ((), rs) ∧
        (∀ C : MemCollector (OutLeaf ι μ), C.saveDir = false → ∃ C',
          runSghmc (hostSaving zero) P key0 lay nm friction mass steps getData sg ms gumbel first last burnIn
            accepted bar its C chains = .ok (C', rs)) ∧
        List.Forall₂ (fun c r => ReturnedSamples (kept.map fun i => reportedLeapfrog
          ((paramsUpTo step 1 (i + 1)).foldl
            (fun s p => fricIntegrate P lay nm friction mass steps getData sg s p none)
            (fricInit c.2 c.1 key0 ms))) r) chains rs := by
  obtain ⟨step, kept, scheds, hD, hT, hS, hrun⟩ := thinned_run gumbel key0 first last burnIn accepted bar
    zero (sgmcSolver (fun s p => fricIntegrate P lay nm friction mass steps getData sg s p none)
      leapfrogTree)
    (by intro s sc; cases sc <;> rfl) (by intro s; simp [sgmcSolver, leapfrogTree]) [] hl hfl its hits hfit
  refine ⟨step, kept, hD, hT, ?_⟩
  intro chains
  obtain ⟨rs, h1, h2, h3⟩ := hrun (chains.map fun c => fricInit c.2 c.1 key0 ms)
  refine ⟨rs, h1, h2, ?_⟩
  refine (forall₂_map_left' _ _ _ _ h3).imp ?_
  intro c r hr
  convert hr using 1
  apply List.map_congr_left
  intro i hi
  rw [sgmc_drive _ _ scheds step its hS _ _ (by have := (hT.range i hi).2; omega)]
  rfl

/-- **C92** (`alias.obabo`). -/
theorem c92_obabo (zero : OutLeaf ι μ → OutLeaf ι μ) (P : Prng κ) (key0 : κ)
    (lay : Layout ι) (friction : ℝ) (mass : Option (ι → ℝ))
    (steps : ℕ) (getData : δ → δ × β) (sg : StochGrad ι β μ) (ms : μ) (gumbel : κ → Nat → ℝ)
    (first last : ℝ) (burnIn accepted : Nat) (bar : Bool) (its : Nat) (hl : 0 < last) (hfl : last < first)
    (hits : 2 ≤ its) (hfit : burnIn + accepted ≤ its) :
    ∃ (step : Nat → ℝ) (kept : List Nat),
      DecreasingSteps first last its step ∧ Thinned burnIn its accepted kept ∧
      ∀ chains : List ((ι → ℝ) × δ), ∃ rs : List (SaveResult (OutLeaf ι μ)),
        runObabo (noSave zero) P key0 lay friction mass steps getData sg ms gumbel first last burnIn
          accepted bar its () chains = .ok ((), rs) ∧
        (∀ C : MemCollector (OutLeaf ι μ), C.saveDir = false → ∃ C',
          runObabo (hostSaving zero) P key0 lay friction mass steps getData sg ms gumbel first last burnIn
            accepted bar its C chains = .ok (C', rs)) ∧
        List.Forall₂ (fun c r => ReturnedSamples (kept.map fun i => reportedObabo
          ((paramsUpTo step 1 (i + 1)).foldl
            (fun s p => obaboIntegrate P lay friction mass steps getData sg s p none)
            (obaboInit c.2 c.1 key0 ms))) r) chains rs := by
  obtain ⟨step, kept, scheds, hD, hT, hS, hrun⟩ := thinned_run gumbel key0 first last burnIn accepted bar
    zero (sgmcSolver (fun s p => obaboIntegrate P lay friction mass steps getData sg s p none)
      obaboTree)
    (by intro s sc; cases sc <;> rfl) (by intro s; simp [sgmcSolver, obaboTree]) [] hl hfl its hits hfit
  refine ⟨step, kept, hD, hT, ?_⟩
  intro chains
  obtain ⟨rs, h1, h2, h3⟩ := hrun (chains.map fun c => obaboInit c.2 c.1 key0 ms)
  refine ⟨rs, h1, h2, ?_⟩
  refine (forall₂_map_left' _ _ _ _ h3).imp ?_
  intro c r hr
  convert hr using 1
  apply List.map_congr_left
  intro i hi
  rw [sgmc_drive _ _ scheds step its hS _ _ (by have := (hT.range i hi).2; omega)]
  rfl

/-- **C92** (`alias.amagold`).  Without `accepted_samples`, all samples after the burn in are returned.  The step sizes and
the chosen iterations do not depend on the random numbers of the solver, the data or the potential. -/
theorem c92_amagold_schedule {κ : Type} (key0 : κ) (gumbel : κ → Nat → ℝ) (first last : ℝ) (burnIn : Nat)
    (accepted : Option Nat) (bar : Bool) (its : Nat)
    (hl : 0 < last) (hfl : last < first) (hits : 2 ≤ its) (hbi : burnIn ≤ its)
    (hfit : burnIn + accepted.getD (its - burnIn) ≤ its) :
    ∃ (step : Nat → ℝ) (kept : List Nat),
      DecreasingSteps first last its step ∧ Thinned burnIn its (accepted.getD (its - burnIn)) kept ∧
      ∀ {ι μ δ β φ : Type} [Fintype ι] (zero : OutLeaf ι μ → OutLeaf ι μ) (P : Prng κ)
        (lay : Layout ι) (friction : ℝ) (mass : Option (ι → ℝ)) (steps : ℕ) (getData : δ → δ × β)
        (sg : StochGrad ι β μ) (fullPot : FullPotFn ι φ μ) (ms : μ)
        (chains : List ((ι → ℝ) × δ × φ)), ∃ rs : List (SaveResult (OutLeaf ι μ)),
        runAmagold (noSave zero) P key0 lay friction mass steps getData sg fullPot ms gumbel first last
          burnIn accepted bar its () chains = .ok ((), rs) ∧
        (∀ C : MemCollector (OutLeaf ι μ), C.saveDir = false → ∃ C',
          runAmagold (hostSaving zero) P key0 lay friction mass steps getData sg fullPot ms gumbel first last
            burnIn accepted bar its C chains = .ok (C', rs)) ∧
        List.Forall₂ (fun c r => ReturnedSamples (kept.map fun i => reportedAmagold
          (amagoldRun P (none : Option (MassAdaption ι Unit))
            (revForAmagold P lay friction mass steps getData sg) fullPot
            (amagoldInit P none (revInitForAmagold P lay mass c.2.1) fullPot c.2.2 c.1 key0 ms)
            (paramsUpTo step 1 (i + 1)))) r) chains rs := by
  have fin : ∀ {ι μ δ β φ : Type} [Fintype ι] (P : Prng κ)
      (lay : Layout ι) (friction : ℝ) (mass : Option (ι → ℝ)) (steps : ℕ) (getData : δ → δ × β)
      (sg : StochGrad ι β μ) (fullPot : FullPotFn ι φ μ) (ms : μ) (step : Nat → ℝ) (kept : List Nat)
      (scheds : Nat → List (Schedule XF ℝ))
      (_ : ∀ i < its, (scheds i).map toParams = [⟨step i, 1⟩]) (_ : ∀ i ∈ kept, i < its)
      (chains : List ((ι → ℝ) × δ × φ)) (rs : List (SaveResult (OutLeaf ι μ))),
      List.Forall₂ (fun s r => ReturnedSamples (kept.map fun i => (mhSolver (amagoldUpdate P
        (none : Option (MassAdaption ι Unit)) (revForAmagold P lay friction mass steps getData sg) fullPot)
        amagoldTree).get (drive (mhSolver (amagoldUpdate P (none : Option (MassAdaption ι Unit))
        (revForAmagold P lay friction mass steps getData sg) fullPot) amagoldTree) scheds s (i + 1))) r)
        (chains.map fun c =>
          amagoldInit P none (revInitForAmagold P lay mass c.2.1) fullPot c.2.2 c.1 key0 ms) rs →
      List.Forall₂ (fun c r => ReturnedSamples (kept.map fun i => reportedAmagold
          (amagoldRun P (none : Option (MassAdaption ι Unit))
            (revForAmagold P lay friction mass steps getData sg) fullPot
            (amagoldInit P none (revInitForAmagold P lay mass c.2.1) fullPot c.2.2 c.1 key0 ms)
            (paramsUpTo step 1 (i + 1)))) r) chains rs := by
    intro ι μ δ β φ _ P lay friction mass steps getData sg fullPot ms step kept scheds hS hk chains rs h3
    refine (forall₂_map_left' _ _ _ _ h3).imp ?_
    intro c r hr
    convert hr using 1
    apply List.map_congr_left
    intro i hi
    rw [mh_drive _ _ scheds step its hS _ _ (by have := hk i hi; omega)]
    rfl
  cases accepted with
  | none =>
    obtain ⟨step, kept, scheds, hD, hT, hS, hrun⟩ := all_runs first last burnIn bar hl hfl its hits hbi
    refine ⟨step, kept, hD, hT, fun zero P lay friction mass steps getData sg fullPot ms chains => ?_⟩
    obtain ⟨rs, h1, h2, h3⟩ := hrun zero (mhSolver (amagoldUpdate P (none : Option (MassAdaption _ Unit))
      (revForAmagold P lay friction mass steps getData sg) fullPot) amagoldTree) (by intro s sc; cases sc <;> rfl)
      (by intro s; simp [mhSolver, amagoldTree]) (chains.map fun c =>
      amagoldInit P none (revInitForAmagold P lay mass c.2.1) fullPot c.2.2 c.1 key0 ms)
    exact ⟨rs, h1, h2, fin P lay friction mass steps getData sg fullPot ms step kept scheds hS
      (fun i hi => (hT.range i hi).2) chains rs h3⟩
  | some k =>
    obtain ⟨step, kept, hD, hT, hruns⟩ := thinned_runs gumbel key0 first last burnIn k bar hl hfl its hits hfit
    refine ⟨step, kept, hD, hT, fun zero P lay friction mass steps getData sg fullPot ms chains => ?_⟩
    obtain ⟨scheds, hS, hrun⟩ := hruns zero (mhSolver (amagoldUpdate P (none : Option (MassAdaption _ Unit))
      (revForAmagold P lay friction mass steps getData sg) fullPot) amagoldTree) (by intro s sc; cases sc <;> rfl)
      (by intro s; simp [mhSolver, amagoldTree]) []
    obtain ⟨rs, h1, h2, h3⟩ := hrun (chains.map fun c =>
      amagoldInit P none (revInitForAmagold P lay mass c.2.1) fullPot c.2.2 c.1 key0 ms)
    exact ⟨rs, h1, h2, fin P lay friction mass steps getData sg fullPot ms step kept scheds hS
      (fun i hi => (hT.range i hi).2) chains rs h3⟩

/-- **C92** (`alias.amagold`), for one solver. -/
theorem c92_amagold (zero : OutLeaf ι μ → OutLeaf ι μ) (P : Prng κ) (key0 : κ)
    (lay : Layout ι) (friction : ℝ) (mass : Option (ι → ℝ)) (steps : ℕ) (getData : δ → δ × β)
    (sg : StochGrad ι β μ) (fullPot : FullPotFn ι φ μ) (ms : μ) (gumbel : κ → Nat → ℝ)
    (first last : ℝ) (burnIn : Nat) (accepted : Option Nat) (bar : Bool) (its : Nat)
    (hl : 0 < last) (hfl : last < first) (hits : 2 ≤ its) (hbi : burnIn ≤ its)
    (hfit : burnIn + accepted.getD (its - burnIn) ≤ its) :
    ∃ (step : Nat → ℝ) (kept : List Nat),
      DecreasingSteps first last its step ∧ Thinned burnIn its (accepted.getD (its - burnIn)) kept ∧
      ∀ chains : List ((ι → ℝ) × δ × φ), ∃ rs : List (SaveResult (OutLeaf ι μ)),
        runAmagold (noSave zero) P key0 lay friction mass steps getData sg fullPot ms gumbel first last
          burnIn accepted bar its () chains = .ok ((), rs) ∧
        (∀ C : MemCollector (OutLeaf ι μ), C.saveDir = false → ∃ C',
          runAmagold (hostSaving zero) P key0 lay friction mass steps getData sg fullPot ms gumbel first last
            burnIn accepted bar its C chains = .ok (C', rs)) ∧
        List.Forall₂ (fun c r => ReturnedSamples (kept.map fun i => reportedAmagold
          (amagoldRun P (none : Option (MassAdaption ι Unit))
            (revForAmagold P lay friction mass steps getData sg) fullPot
            (amagoldInit P none (revInitForAmagold P lay mass c.2.1) fullPot c.2.2 c.1 key0 ms)
            (paramsUpTo step 1 (i + 1)))) r) chains rs := by
  obtain ⟨step, kept, hD, hT, h⟩ := c92_amagold_schedule key0 gumbel first last burnIn accepted bar its hl hfl hits hbi hfit
  exact ⟨step, kept, hD, hT, h zero P lay friction mass steps getData sg fullPot ms⟩

/-- **C92** (`alias.sggmc`). -/
theorem c92_sggmc (zero : OutLeaf ι μ → OutLeaf ι μ) (P : Prng κ) (key0 : κ)
    (lay : Layout ι) (friction : ℝ) (mass : Option (ι → ℝ)) (steps : ℕ) (getData : δ → δ × β)
    (sg : StochGrad ι β μ) (fullPot : FullPotFn ι φ μ) (ms : μ) (gumbel : κ → Nat → ℝ)
    (first last : ℝ) (burnIn : Nat) (accepted : Option Nat) (bar : Bool) (its : Nat)
    (hl : 0 < last) (hfl : last < first) (hits : 2 ≤ its) (hbi : burnIn ≤ its)
    (hfit : burnIn + accepted.getD (its - burnIn) ≤ its) :
    ∃ (step : Nat → ℝ) (kept : List Nat),
      DecreasingSteps first last its step ∧ Thinned burnIn its (accepted.getD (its - burnIn)) kept ∧
      ∀ chains : List ((ι → ℝ) × δ × φ), ∃ rs : List (SaveResult (OutLeaf ι μ)),
        runSggmc (noSave zero) P key0 lay friction mass steps getData sg fullPot ms gumbel first last
          burnIn accepted bar its () chains = .ok ((), rs) ∧
        (∀ C : MemCollector (OutLeaf ι μ), C.saveDir = false → ∃ C',
          runSggmc (hostSaving zero) P key0 lay friction mass steps getData sg fullPot ms gumbel first last
            burnIn accepted bar its C chains = .ok (C', rs)) ∧
        List.Forall₂ (fun c r => ReturnedSamples (kept.map fun i => reportedSggmc
          (sggmcRun P (none : Option (MassAdaption ι Unit))
            (obaboForSggmc P lay friction mass steps getData sg) fullPot
            (sggmcInit P none (obaboInitForSggmc c.2.1) fullPot c.2.2 c.1 key0 ms)
            (paramsUpTo step 1 (i + 1)))) r) chains rs := by
  have hp : PreservesStructure (mhSolver (sggmcUpdate P (none : Option (MassAdaption ι Unit))
      (obaboForSggmc P lay friction mass steps getData sg) fullPot) sggmcTree) := by
    intro s sc; cases sc <;> rfl
  have hne : ∀ s, (mhSolver (sggmcUpdate P (none : Option (MassAdaption ι Unit))
      (obaboForSggmc P lay friction mass steps getData sg) fullPot) sggmcTree).get s ≠ .none := by
    intro s; simp [mhSolver, sggmcTree]
  have fin : ∀ (step : Nat → ℝ) (kept : List Nat) (scheds : Nat → List (Schedule XF ℝ))
      (_ : ∀ i < its, (scheds i).map toParams = [⟨step i, 1⟩]) (_ : ∀ i ∈ kept, i < its)
      (chains : List ((ι → ℝ) × δ × φ)) (rs : List (SaveResult (OutLeaf ι μ))),
      List.Forall₂ (fun s r => ReturnedSamples (kept.map fun i => (mhSolver (sggmcUpdate P
        (none : Option (MassAdaption ι Unit)) (obaboForSggmc P lay friction mass steps getData sg) fullPot)
        sggmcTree).get (drive (mhSolver (sggmcUpdate P (none : Option (MassAdaption ι Unit))
        (obaboForSggmc P lay friction mass steps getData sg) fullPot) sggmcTree) scheds s (i + 1))) r)
        (chains.map fun c =>
          sggmcInit P none (obaboInitForSggmc c.2.1) fullPot c.2.2 c.1 key0 ms) rs →
      List.Forall₂ (fun c r => ReturnedSamples (kept.map fun i => reportedSggmc
          (sggmcRun P (none : Option (MassAdaption ι Unit))
            (obaboForSggmc P lay friction mass steps getData sg) fullPot
            (sggmcInit P none (obaboInitForSggmc c.2.1) fullPot c.2.2 c.1 key0 ms)
            (paramsUpTo step 1 (i + 1)))) r) chains rs := by
    intro step kept scheds hS hk chains rs h3
    refine (forall₂_map_left' _ _ _ _ h3).imp ?_
    intro c r hr
    convert hr using 1
    apply List.map_congr_left
    intro i hi
    rw [mh_drive _ _ scheds step its hS _ _ (by have := hk i hi; omega)]
    rfl
  cases accepted with
  | none =>
    obtain ⟨step, kept, scheds, hD, hT, hS, hrun⟩ := all_run zero _ hp hne first last burnIn bar hl hfl its
      hits hbi
    refine ⟨step, kept, hD, hT, fun chains => ?_⟩
    obtain ⟨rs, h1, h2, h3⟩ := hrun (chains.map fun c =>
      sggmcInit P none (obaboInitForSggmc c.2.1) fullPot c.2.2 c.1 key0 ms)
    exact ⟨rs, h1, h2, fin step kept scheds hS (fun i hi => (hT.range i hi).2) chains rs h3⟩
  | some k =>
    obtain ⟨step, kept, scheds, hD, hT, hS, hrun⟩ := thinned_run gumbel key0 first last burnIn k bar zero _
      hp hne [] hl hfl its hits hfit
    refine ⟨step, kept, hD, hT, fun chains => ?_⟩
    obtain ⟨rs, h1, h2, h3⟩ := hrun (chains.map fun c =>
      sggmcInit P none (obaboInitForSggmc c.2.1) fullPot c.2.2 c.1 key0 ms)
    exact ⟨rs, h1, h2, fin step kept scheds hS (fun i hi => (hT.range i hi).2) chains rs h3⟩

end

/-! ### C93: more samples than iterations -/

theorem mcmcMap_error {Ks σs Vs Kt σt Vt Kb σb Kh σh H σ ρ : Type} [Inhabited Ks] [Inhabited Kt]
    [Inhabited Kb] [Inhabited Kh] (saving : Saving H σ ρ α) (solver : Solver S Vs Vt α)
    (sched : Scheduler Ks σs Vs Kt σt Vt Kb σb Kh σh) (helpers : List (SchedKw Ks Kt Kb Kh)) (its : Nat)
    (e : PyErr) (he : schedInit sched its default = .error e) (h : H) (states : List S)
    (hs : states ≠ []) : mcmcMap saving solver sched helpers its h states = .error e := by
  cases states with
  | nil => exact absurd rfl hs
  | cons s states => simp only [mcmcMap, mcmcInit, mcmcSchedulers, he]

theorem aliasThinned_too_many (gumbel : κ → Nat → ℝ) (key : κ) (first last : ℝ) (burnIn accepted : Nat)
    (bar : Bool) (hl : 0 < last) (hfl : last < first) (its : Nat) (hits : 2 ≤ its)
    (hmany : its < burnIn + accepted) (hacc : 0 < accepted) :
    schedInit (aliasThinned gumbel key first last burnIn accepted bar) its default
      = .error .assertionError := by
  obtain ⟨ss, h1, h2, h3, step, h4, h5, h6⟩ := c35_first_last_partial first last 0.33 hl hfl (by norm_num)
    its hits
  have hpos : PositiveSteps (polynomialFirstLast first last 0.33) ss its := by
    intro i hi
    rw [paramAfter_static _ (fun _ _ _ => rfl)]
    exact ⟨step i, h5 i, h4 i hi⟩
  obtain ⟨-, hB⟩ := c33_random_thinning gumbel (polynomialFirstLast first last 0.33)
    (initialBurnIn (burnIn : Int)) accepted key its default ss h1 (burnIn : Int) (its - burnIn) rfl hpos
  have hav : (availableIterations (initialBurnIn (burnIn : Int)) (burnIn : Int) its).length
      = its - burnIn := by
    have := count_burnIn (burnIn : Int) its
    simp only [Int.toNat_natCast] at this
    rw [← this]
    apply congrArg List.length
    apply List.filter_congr
    intro i _
    rw [selectAfter_static _ (fun _ _ _ => rfl)]
    rfl
  have := hB (by rw [hav]; show _ < accepted; omega)
  have hth : (aliasThinned gumbel key first last burnIn accepted bar).thinning.init its
      (default : SchedKw FirstLastKw (Option ℝ) (Option Int) (ThinKw κ)).thinning
      = .error .assertionError := this
  simp only [schedInit, hth]

/-- The full claim C93 (docstring: "will be determined by random thinning if accepted samples < iterations -
burn_in"): if `accepted_samples` exceeds the number of iterations after the burn in, all these samples are
returned. -/
def C93Statement : Prop :=
  ∀ (n : ℕ) (P : Prng (List ℕ)) (lay : Layout (Fin n)) (getData : ℕ → ℕ × ℕ)
    (sg : StochGradLik (Fin n) ℕ Unit) (gumbel : List ℕ → Nat → ℝ) (first last : ℝ)
    (burnIn accepted its : Nat) (zero : OutLeaf (Fin n) Unit → OutLeaf (Fin n) Unit)
    (chains : List ((Fin n → ℝ) × ℕ)), 0 < last → last < first → 2 ≤ its → burnIn ≤ its →
    its - burnIn < accepted →
    ∃ rs, runSgld (noSave zero) P [] lay (none : Option (AdaptStrategy (Fin n) ℕ Unit)) getData sg
        (fun _ => none) () gumbel first last burnIn accepted false its () chains = .ok ((), rs) ∧
      rs.length = chains.length ∧ ∀ r ∈ rs, r.sampleCount = its - burnIn

section
variable [Fintype ι] {H σ ρ : Type}

/-- What the code does instead: the run fails. -/
theorem c93_false_sgld (saving : Saving H σ ρ (OutLeaf ι μ)) (P : Prng κ) (key0 : κ) (lay : Layout ι)
    (ad : Option (AdaptStrategy ι β A)) (getData : δ → δ × β) (sg : StochGradLik ι β μ)
    (adaptInit : (ι → ℝ) → Option A) (ms : μ) (gumbel : κ → Nat → ℝ) (first last : ℝ)
    (burnIn accepted : Nat) (bar : Bool) (its : Nat) (h : H) (chains : List ((ι → ℝ) × δ))
    (hl : 0 < last) (hfl : last < first) (hits : 2 ≤ its) (hmany : its < burnIn + accepted)
    (hacc : 0 < accepted) (hc : chains ≠ []) :
    runSgld saving P key0 lay ad getData sg adaptInit ms gumbel first last burnIn accepted bar its h chains
      = .error .assertionError :=
  mcmcMap_error _ _ _ _ _ _ (aliasThinned_too_many gumbel key0 first last burnIn accepted bar hl hfl its
    hits hmany hacc) _ _ (by simpa using hc)

/-- `sghmc` fails as well. -/
theorem c93_false_sghmc (saving : Saving H σ ρ (OutLeaf ι μ)) (P : Prng κ) (key0 : κ)
    (lay : Layout ι) (nm : Option (NoiseFn ι β μ)) (friction : ℝ ⊕ (ι → ℝ)) (mass : Option (ι → ℝ))
    (steps : ℕ) (getData : δ → δ × β) (sg : StochGrad ι β μ) (ms : μ) (gumbel : κ → Nat → ℝ)
    (first last : ℝ) (burnIn accepted : Nat) (bar : Bool) (its : Nat) (h : H) (chains : List ((ι → ℝ) × δ))
    (hl : 0 < last) (hfl : last < first) (hits : 2 ≤ its) (hmany : its < burnIn + accepted)
    (hacc : 0 < accepted) (hc : chains ≠ []) :
    runSghmc saving P key0 lay nm friction mass steps getData sg ms gumbel first last burnIn accepted bar
      its h chains = .error .assertionError :=
  mcmcMap_error _ _ _ _ _ _ (aliasThinned_too_many gumbel key0 first last burnIn accepted bar hl hfl its
    hits hmany hacc) _ _ (by simpa using hc)

/-- `re_sgld` fails as well. -/
theorem c93_false_re_sgld (saving : Saving H σ ρ (OutLeaf ι μ)) (P : Prng κ) (key0 : κ) (lay : Layout ι)
    (getData : δ → δ × β) (sg : StochGradLik ι β μ) (ms : μ) (gumbel : κ → Nat → ℝ)
    (temperature first last : ℝ) (burnIn accepted its : Nat) (h : H)
    (chains : List (((ι → ℝ) × δ) × ((ι → ℝ) × δ)))
    (hl : 0 < last) (hfl : last < first) (hits : 2 ≤ its) (hmany : its < burnIn + accepted)
    (hacc : 0 < accepted) (hc : chains ≠ []) :
    runReSgld saving P key0 lay getData sg ms gumbel temperature first last burnIn accepted its h chains
      = .error .assertionError :=
  mcmcMap_error _ _ _ _ _ _ (aliasThinned_too_many gumbel key0 first last burnIn accepted false hl hfl its
    hits hmany hacc) _ _ (by simpa using hc)

/-- `obabo` fails as well. -/
theorem c93_false_obabo (saving : Saving H σ ρ (OutLeaf ι μ)) (P : Prng κ) (key0 : κ)
    (lay : Layout ι) (friction : ℝ) (mass : Option (ι → ℝ)) (steps : ℕ) (getData : δ → δ × β)
    (sg : StochGrad ι β μ) (ms : μ) (gumbel : κ → Nat → ℝ) (first last : ℝ) (burnIn accepted : Nat)
    (bar : Bool) (its : Nat) (h : H) (chains : List ((ι → ℝ) × δ))
    (hl : 0 < last) (hfl : last < first) (hits : 2 ≤ its) (hmany : its < burnIn + accepted)
    (hacc : 0 < accepted) (hc : chains ≠ []) :
    runObabo saving P key0 lay friction mass steps getData sg ms gumbel first last burnIn accepted bar
      its h chains = .error .assertionError :=
  mcmcMap_error _ _ _ _ _ _ (aliasThinned_too_many gumbel key0 first last burnIn accepted bar hl hfl its
    hits hmany hacc) _ _ (by simpa using hc)

/-- `amagold` and `sggmc` fail as well. -/
theorem c93_false_metropolis (saving : Saving H σ ρ (OutLeaf ι μ)) (P : Prng κ) (key0 : κ)
    (lay : Layout ι) (friction : ℝ) (mass : Option (ι → ℝ)) (steps : ℕ) (getData : δ → δ × β)
    (sg : StochGrad ι β μ) (fullPot : FullPotFn ι φ μ) (ms : μ) (gumbel : κ → Nat → ℝ)
    (first last : ℝ) (burnIn accepted : Nat) (bar : Bool) (its : Nat) (h : H)
    (chains : List ((ι → ℝ) × δ × φ))
    (hl : 0 < last) (hfl : last < first) (hits : 2 ≤ its) (hmany : its < burnIn + accepted)
    (hacc : 0 < accepted) (hc : chains ≠ []) :
    runAmagold saving P key0 lay friction mass steps getData sg fullPot ms gumbel first last burnIn
        (some accepted) bar its h chains = .error .assertionError ∧
      runSggmc saving P key0 lay friction mass steps getData sg fullPot ms gumbel first last burnIn
        (some accepted) bar its h chains = .error .assertionError :=
  ⟨mcmcMap_error _ _ _ _ _ _ (aliasThinned_too_many gumbel key0 first last burnIn accepted bar hl hfl its
      hits hmany hacc) _ _ (by simpa using hc),
    mcmcMap_error _ _ _ _ _ _ (aliasThinned_too_many gumbel key0 first last burnIn accepted bar hl hfl its
      hits hmany hacc) _ _ (by simpa using hc)⟩

theorem c93_false : ¬ C93Statement := by
  intro hst
  obtain ⟨rs, h1, -⟩ := hst 0 (Spec.pathPrng (fun _ _ _ => 0) (fun _ => 0)) (Spec.vectorLayout 0)
    (Spec.batchSource fun i => i) (fun _ _ _ => ((0, ([], ())), fun _ => 0)) (fun _ _ => 0) 2 1 0 3 2
    id [(0, 0)] (by norm_num) (by norm_num) (by norm_num) (by norm_num) (by norm_num)
  rw [c93_false_sgld _ _ _ _ _ _ _ _ _ _ _ _ _ _ _ _ _ _ (by norm_num) (by norm_num) (by norm_num)
    (by norm_num) (by norm_num) (by simp)] at h1
  simp at h1

/-- What holds: if exactly as many samples are requested as there are iterations after the burn in, all of
them are returned. -/
theorem c93_all_partial (zero : OutLeaf ι μ → OutLeaf ι μ) (P : Prng κ) (key0 : κ) (lay : Layout ι)
    (ad : Option (AdaptStrategy ι β A)) (getData : δ → δ × β) (sg : StochGradLik ι β μ)
    (adaptInit : (ι → ℝ) → Option A) (ms : μ) (gumbel : κ → Nat → ℝ) (first last : ℝ)
    (burnIn : Nat) (bar : Bool) (its : Nat) (hl : 0 < last) (hfl : last < first)
    (hits : 2 ≤ its) (hbi : burnIn ≤ its) :
    ∃ step, DecreasingSteps first last its step ∧
      ∀ chains : List ((ι → ℝ) × δ), ∃ rs : List (SaveResult (OutLeaf ι μ)),
        runSgld (noSave zero) P key0 lay ad getData sg adaptInit ms gumbel first last burnIn (its - burnIn)
          bar its () chains = .ok ((), rs) ∧
        List.Forall₂ (fun c r => ReturnedSamples ((List.range (its - burnIn)).map fun j => reportedLangevin
          (langevinRun P lay ad getData sg (langevinInit c.2 c.1 key0 (adaptInit c.1) ms)
            (paramsUpTo step 1 (burnIn + j + 1)))) r) chains rs := by
  obtain ⟨step, kept, hD, hT, hrun⟩ := c92_sgld zero P key0 lay ad getData sg adaptInit ms gumbel first last
    burnIn (its - burnIn) bar its hl hfl hits (by omega)
  refine ⟨step, hD, fun chains => ?_⟩
  obtain ⟨rs, h1, -, h3⟩ := hrun chains
  refine ⟨rs, h1, ?_⟩
  have hk : kept = (List.range (its - burnIn)).map (fun j => burnIn + j) := by
    have hsub : kept ⊆ (List.range (its - burnIn)).map (fun j => burnIn + j) := by
      intro i hi
      obtain ⟨a, b⟩ := hT.range i hi
      exact List.mem_map.2 ⟨i - burnIn, List.mem_range.2 (by omega), by omega⟩
    have hnd : kept.Nodup := hT.increasing.imp (fun h => Nat.ne_of_lt h)
    have hperm : kept.Perm ((List.range (its - burnIn)).map (fun j => burnIn + j)) :=
      (hnd.subperm hsub).perm_of_length_le (by rw [hT.count]; simp)
    refine hperm.eq_of_pairwise (le := (· < ·)) ?_ hT.increasing ?_
    · intro a b _ _ h1 h2
      omega
    · rw [List.pairwise_map]
      exact List.pairwise_lt_range.imp (fun h => by omega)
  rw [hk] at h3
  simpa only [List.map_map, Function.comp_def] using h3

end

/-! ### C94: the default step sizes of `amagold` and `sggmc` -/

/-- The full claim C94: with equal first and last step size (the default 0.001 of `amagold` and `sggmc`) the
schedule has this step size in every iteration. -/
def C94Statement : Prop :=
  ∀ (x : ℝ) (burnIn its : Nat) (bar : Bool), 0 < x → 2 ≤ its → burnIn ≤ its →
    ∃ st n, schedInit (aliasAll x x burnIn bar) its default = .ok (st, n) ∧
      ∀ fb, ∀ i < its, (schedGet (aliasAll x x burnIn bar)
        (schedAfter (aliasAll x x burnIn bar) st fb i)).stepSize = .fin x

/-- What the code does: the run is not rejected, and the step size is NaN in every iteration. -/
theorem c94_false_nan (x : ℝ) (hx : 0 < x) (burnIn its : Nat) (bar : Bool) (hits : 2 ≤ its) :
    ∃ st n, schedInit (aliasAll x x burnIn bar) its default = .ok (st, n) ∧
      ∀ fb i, (schedGet (aliasAll x x burnIn bar)
        (schedAfter (aliasAll x x burnIn bar) st fb i)).stepSize = .nan := by
  obtain ⟨ss, h1, h2⟩ := c35_false_equal x 0.33 hx (by norm_num) its hits
  have hss : (aliasAll x x burnIn bar).stepSize.init its
      (default : SchedKw FirstLastKw (Option ℝ) (Option Int) Unit).stepSize = .ok ss := h1
  have hth : (aliasAll x x burnIn bar).thinning.init its
      (default : SchedKw FirstLastKw (Option ℝ) (Option Int) Unit).thinning = .ok ((), (its : Int)) := rfl
  have hbi : (aliasAll x x burnIn bar).burnIn.init its
      (default : SchedKw FirstLastKw (Option ℝ) (Option Int) Unit).burnIn
      = .ok ((burnIn : Int), (its : Int) - burnIn) := rfl
  have hte : (aliasAll x x burnIn bar).temperature.init its
      (default : SchedKw FirstLastKw (Option ℝ) (Option Int) Unit).temperature = .ok 1 := rfl
  have hi : ∃ b n, schedInit (aliasAll x x burnIn bar) its default
      = .ok (⟨0, its, ss, 1, (burnIn : Int), (), b⟩, n) := by
    simp only [schedInit, hth, hss, hbi, hte]
    exact ⟨_, _, rfl⟩
  obtain ⟨b, n, hb⟩ := hi
  refine ⟨_, n, hb, ?_⟩
  intro fb i
  obtain ⟨e1, e2, -⟩ := schedAfter_spec (aliasAll x x burnIn bar)
    ⟨0, its, ss, 1, (burnIn : Int), (), b⟩ fb rfl i
  simp only [schedGet, e1, e2]
  rw [paramAfter_static _ (fun _ _ _ => rfl)]
  exact h2 i

theorem c94_false : ¬ C94Statement := by
  intro h
  obtain ⟨st, n, h1, h2⟩ := h 0.001 0 2 true (by norm_num) le_rfl (by omega)
  obtain ⟨st', n', h1', h2'⟩ := c94_false_nan 0.001 (by norm_num) 0 2 true le_rfl
  rw [h1] at h1'
  simp only [Except.ok.injEq, Prod.mk.injEq] at h1'
  obtain ⟨rfl, rfl⟩ := h1'
  have a := h2 (fun _ => none) 0 (by omega)
  rw [h2'] at a
  exact absurd a (by simp)

/-- What holds: for different step sizes the schedule is as announced. -/
theorem c94_different_partial (first last : ℝ) (hl : 0 < last) (hfl : last < first) (burnIn its : Nat)
    (bar : Bool) (hits : 2 ≤ its) :
    ∃ st n step, schedInit (aliasAll first last burnIn bar) its default = .ok (st, n) ∧
      DecreasingSteps first last its step ∧
      ∀ fb, ∀ i < its, (schedGet (aliasAll first last burnIn bar)
        (schedAfter (aliasAll first last burnIn bar) st fb i)).stepSize = .fin (step i) := by
  obtain ⟨ss, h1, h2, h3, step, h4, h5, h6⟩ := c35_first_last_partial first last 0.33 hl hfl (by norm_num)
    its hits
  have hs : step 0 = first := by
    have := h4 0 (by omega)
    rw [h2] at this
    exact (XF.fin.inj this).symm
  have hf : step (its - 1) = last := by
    have := h4 (its - 1) (by omega)
    rw [h3] at this
    exact (XF.fin.inj this).symm
  have hss : (aliasAll first last burnIn bar).stepSize.init its
      (default : SchedKw FirstLastKw (Option ℝ) (Option Int) Unit).stepSize = .ok ss := h1
  have hth : (aliasAll first last burnIn bar).thinning.init its
      (default : SchedKw FirstLastKw (Option ℝ) (Option Int) Unit).thinning = .ok ((), (its : Int)) := rfl
  have hbi : (aliasAll first last burnIn bar).burnIn.init its
      (default : SchedKw FirstLastKw (Option ℝ) (Option Int) Unit).burnIn
      = .ok ((burnIn : Int), (its : Int) - burnIn) := rfl
  have hte : (aliasAll first last burnIn bar).temperature.init its
      (default : SchedKw FirstLastKw (Option ℝ) (Option Int) Unit).temperature = .ok 1 := rfl
  have hi : ∃ b n, schedInit (aliasAll first last burnIn bar) its default
      = .ok (⟨0, its, ss, 1, (burnIn : Int), (), b⟩, n) := by
    simp only [schedInit, hth, hss, hbi, hte]
    exact ⟨_, _, rfl⟩
  obtain ⟨b, n, hb⟩ := hi
  refine ⟨_, n, step, hb, ⟨hs, hf, h5, h6⟩, ?_⟩
  intro fb i hi
  obtain ⟨e1, e2, -⟩ := schedAfter_spec (aliasAll first last burnIn bar)
    ⟨0, its, ss, 1, (burnIn : Int), (), b⟩ fb rfl i
  simp only [schedGet, e1, e2]
  rw [paramAfter_static _ (fun _ _ _ => rfl)]
  exact h4 i hi

/-! ### C95: adaptive step sizes -/

/-- Runs with adaptive step size. -/
theorem adaptive_run (zero : α → α) (update : S → Params → S × XF) (get : S → Tree α)
    (hp : ∀ s p, (get (update s p).1).shape = (get s).shape) (hne : ∀ s, get s ≠ .none)
    (first stab decay speed target : ℝ) (burnIn : Nat) (bar : Bool) (hf : 0 < first) (hst : 0 ≤ stab)
    (its : Nat) (hfit : burnIn ≤ its) (states : List S) :
    ∃ rs : List (SaveResult α),
      mcmcMap (noSave zero) (mhSolverReal update get)
        (aliasAdaptive first stab decay speed target burnIn bar) [] its () states = .ok ((), rs) ∧
      (∀ C : MemCollector α, C.saveDir = false → ∃ C', mcmcMap (hostSaving zero) (mhSolverReal update get)
        (aliasAdaptive first stab decay speed target burnIn bar) [] its C states = .ok (C', rs)) ∧
      List.Forall₂ (fun s r => ∃ step : Nat → ℝ, FrozenSteps first burnIn step ∧
        (∀ i ≤ burnIn, step i = Real.exp (dualAverage first stab decay speed target (fun k =>
          (update ((paramsUpTo step 1 k).foldl (fun s p => (update s p).1) s) ⟨step k, 1⟩).2.toReal) i)) ∧
        ReturnedSamples ((List.range (its - burnIn)).map fun j =>
          get ((paramsUpTo step 1 (burnIn + j + 1)).foldl (fun s p => (update s p).1) s)) r) states rs := by
  set sched := aliasAdaptive first stab decay speed target burnIn bar with hsched
  have hpS : PreservesStructure (mhSolverReal update get) := by
    intro s sc
    cases sc with
    | nil => rfl
    | cons m ms => exact hp s _
  obtain ⟨ss, h1, h2, h3⟩ := c36_adaptive ⟨burnIn, first, stab, decay, speed, target⟩ {} its hf
  have hss : sched.stepSize.init its
      (default : SchedKw AdaptiveKw (Option ℝ) (Option Int) Unit).stepSize = .ok ss := h1
  have hth : sched.thinning.init its
      (default : SchedKw AdaptiveKw (Option ℝ) (Option Int) Unit).thinning = .ok ((), (its : Int)) := rfl
  have hbi : sched.burnIn.init its
      (default : SchedKw AdaptiveKw (Option ℝ) (Option Int) Unit).burnIn
      = .ok ((burnIn : Int), (its : Int) - burnIn) := rfl
  have hte : sched.temperature.init its
      (default : SchedKw AdaptiveKw (Option ℝ) (Option Int) Unit).temperature = .ok 1 := rfl
  have hmin : min (its : Int) ((its : Int) - burnIn) = ((its - burnIn : Nat) : Int) := by omega
  have hi : ∃ b, schedInit sched its default
      = .ok (⟨0, its, ss, 1, (burnIn : Int), (), b⟩, ((its - burnIn : Nat) : Int)) := by
    simp only [schedInit, hth, hss, hbi, hte, hmin]
    exact ⟨_, rfl⟩
  obtain ⟨b0, hmain⟩ := hi
  set main : SchedState AdaptiveState ℝ Int Unit := ⟨0, its, ss, 1, (burnIn : Int), (), b0⟩ with hm
  have hms : mcmcSchedulers sched its [] = .ok ([main], ((its - burnIn : Nat) : Int)) := by
    simp only [mcmcSchedulers, hmain, mapExcept]
  obtain ⟨rs, g1, g2, g3⟩ := c42_burn_in zero (mhSolverReal update get) hpS sched burnIn rfl rfl its hfit
    main _ hms states
  refine ⟨rs, g1, ?_, ?_⟩
  · intro C hC
    obtain ⟨C', rs', k1, k2⟩ := c41_runs zero (mhSolverReal update get) hpS sched [] its _ _ hms (by omega) C
      states (by
          intro s _
          exact ⟨hne s, by simp [memNames, hC]⟩)
      (by
        intro s _
        rw [c42_kept_iterations, List.length_map,
          (c31_no_thinning sched burnIn rfl rfl its hfit default rfl main _ hmain _).1])
    rw [g1] at k2
    simp only [Except.ok.injEq, Prod.mk.injEq, true_and] at k2
    exact ⟨C', by rw [k1, k2]⟩
  · refine List.forall₂_iff_get.2 ⟨g2.symm, ?_⟩
    intro k hk1 hk2
    set s := states.get ⟨k, hk1⟩ with hs
    obtain ⟨c1, c2, c3⟩ := g3 k s (rs.get ⟨k, hk2⟩) (by simp [hs]) (by simp)
    set fb := runStats (mhSolverReal update get) sched (s, [main]) with hfb
    let step : Nat → ℝ := fun i => (adaptiveStepSize ⟨burnIn, first, stab, decay, speed, target⟩).get
      (ParamAfter (adaptiveStepSize ⟨burnIn, first, stab, decay, speed, target⟩) ss fb i) i
    have hval : ∀ i, (schedGet sched (schedAfter sched main fb i)).stepSize = step i ∧
        (schedGet sched (schedAfter sched main fb i)).temperature = 1 := by
      intro i
      obtain ⟨e1, e2, e3, -⟩ := schedAfter_spec sched main fb rfl i
      simp only [schedGet, e1, e2, e3]
      refine ⟨rfl, ?_⟩
      rw [paramAfter_static _ (fun _ _ _ => rfl)]
      rfl
    have htraj : ∀ i, (trajectory (mhSolverReal update get) sched (s, [main]) i).1
        = (paramsUpTo step 1 i).foldl (fun s p => (update s p).1) s := by
      intro i
      induction i with
      | zero => rfl
      | succ i ih =>
        rw [trajectory, paramsUpTo_succ, List.foldl_append, ← ih]
        dsimp only
        rw [trajectory_scheds, ← hfb]
        show (update _ ⟨(schedGet sched (schedAfter sched main fb i)).stepSize,
          (schedGet sched (schedAfter sched main fb i)).temperature⟩).1 = _
        rw [(hval i).1, (hval i).2]
        rfl
    have hlen : ((List.range (its - burnIn)).map fun j =>
          get ((paramsUpTo step 1 (burnIn + j + 1)).foldl (fun s p => (update s p).1) s)).length
          = its - burnIn := by simp
    have hstats : ∀ k, fb k = some
        (update ((paramsUpTo step 1 k).foldl (fun s p => (update s p).1) s) ⟨step k, 1⟩).2.toReal := by
      intro k
      rw [hfb, runStats, htraj, trajectory_scheds, ← hfb]
      show some (update _ ⟨(schedGet sched (schedAfter sched main fb k)).stepSize,
          (schedGet sched (schedAfter sched main fb k)).temperature⟩).2.toReal = _
      rw [(hval k).1, (hval k).2]
    refine ⟨step, ⟨h2, (h3 fb).1, ?_⟩, ?_, ?_, ?_, ?_⟩
    · intro i hi
      exact (h3 fb).2 burnIn i (by show (burnIn : Int) ≤ burnIn; omega) hi
    · intro i hi
      obtain ⟨ss', d1, d2⟩ := c103_dual_averaging ⟨burnIn, first, stab, decay, speed, target⟩ its hf hst
      have e : ss' = ss := Except.ok.inj (d1.symm.trans h1)
      subst e
      have := d2 fb i
      rw [Nat.min_eq_left (by simpa using hi)] at this
      show (adaptiveStepSize ⟨burnIn, first, stab, decay, speed, target⟩).get _ i = _
      rw [this]
      congr 2
      funext k
      rw [hstats k]
      rfl
    · rw [c1, hlen]
    · intro l hl
      rw [c2 l hl, hlen]
    · intro j x hx
      rw [List.getElem?_map] at hx
      cases hj : (List.range (its - burnIn))[j]? with
      | none => simp [hj] at hx
      | some j' =>
        obtain ⟨hj1, hj2⟩ := List.getElem?_eq_some_iff.1 hj
        simp only [List.getElem_range] at hj2
        simp only [List.length_range] at hj1
        subst hj2
        rw [hj] at hx
        simp only [Option.map_some, Option.some.injEq] at hx
        rw [c3 j hj1, ← hx, htraj]
        rfl

section
variable [Fintype ι]

/-- The value of a finite number. -/
theorem XF.eq_fin_toReal {x : XF} (h : ∃ a, x = .fin a) : x = .fin x.toReal := by
  obtain ⟨a, rfl⟩ := h
  rfl

/-- If the potential is never undefined, AMAGOLD reports finite acceptance ratios and keeps finite potentials. -/
theorem amagold_finite_step (P : Prng κ) (lay : Layout ι) (friction : ℝ) (mass : Option (ι → ℝ)) (steps : ℕ)
    (getData : δ → δ × β) (sg : StochGrad ι β μ) (fullPot : FullPotFn ι φ μ)
    (hpot : ∀ x f m, (fullPot x f m).1 = .pinf ∨ ∃ u, (fullPot x f m).1 = .fin u)
    (s : AmagoldState ι κ δ μ φ Unit) (hs : ∃ u, s.potential = .fin u) (p : Params) :
    let r := amagoldUpdate P (none : Option (MassAdaption ι Unit)) (revForAmagold P lay friction mass steps getData sg)
      fullPot s p
    (∃ a, r.2 = .fin a) ∧ ∃ u, r.1.potential = .fin u := by
  obtain ⟨u, hu⟩ := hs
  set prop := revForAmagold P lay friction mass steps getData sg s.integratorState p
    (currentMass (none : Option (MassAdaption ι Unit)) s.massState) with hprop
  obtain ⟨e, he⟩ : ∃ e, prop.potential = .fin e := ⟨_, rfl⟩
  have hnew := hpot prop.positions s.fullDataState prop.modelState
  set la := amagoldLogAlpha s.potential (fullPot prop.positions s.fullDataState prop.modelState).1 prop.potential with hla
  have h2 : (amagoldUpdate P (none : Option (MassAdaption ι Unit)) (revForAmagold P lay friction mass steps getData sg)
      fullPot s p).2 = XF.exp la := rfl
  have h1 : (amagoldUpdate P (none : Option (MassAdaption ι Unit)) (revForAmagold P lay friction mass steps getData sg)
      fullPot s p).1.potential = (open Classical in if XF.Lt (XF.logOf (P.uniform (P.split s.key 2 1))) la
        then (fullPot prop.positions s.fullDataState prop.modelState).1 else s.potential) := by
    unfold amagoldUpdate
    dsimp only
    rw [apply_ite Prod.snd, apply_ite Prod.fst]
  dsimp only
  rw [h1, h2]
  rcases hnew with hn | ⟨v, hv⟩
  · have hla' : la = .ninf := by
      rw [hla, hn, hu, he]
      unfold amagoldLogAlpha
      simp [XF.sub, XF.add, XF.neg, XF.Lt]
    rw [hla', if_neg (by cases XF.logOf (P.uniform (P.split s.key 2 1)) <;> simp [XF.Lt])]
    exact ⟨⟨0, rfl⟩, u, hu⟩
  · have hla' : ∃ a, la = .fin a := by
      rw [hla, hv, hu, he]
      unfold amagoldLogAlpha
      dsimp only [XF.sub, XF.add, XF.neg]
      split
      · exact ⟨_, rfl⟩
      · exact ⟨_, rfl⟩
    obtain ⟨a, ha⟩ := hla'
    rw [ha, hv, hu]
    refine ⟨⟨_, rfl⟩, ?_⟩
    split
    · exact ⟨_, rfl⟩
    · exact ⟨_, rfl⟩

theorem amagold_finite_run (P : Prng κ) (lay : Layout ι) (friction : ℝ) (mass : Option (ι → ℝ)) (steps : ℕ)
    (getData : δ → δ × β) (sg : StochGrad ι β μ) (fullPot : FullPotFn ι φ μ)
    (hpot : ∀ x f m, (fullPot x f m).1 = .pinf ∨ ∃ u, (fullPot x f m).1 = .fin u) (prms : List Params) :
    ∀ s : AmagoldState ι κ δ μ φ Unit, (∃ u, s.potential = .fin u) →
      ∃ u, (amagoldRun P (none : Option (MassAdaption ι Unit)) (revForAmagold P lay friction mass steps getData sg)
        fullPot s prms).potential = .fin u := by
  induction prms with
  | nil => intro s hs; exact hs
  | cons p ps ih =>
    intro s hs
    exact ih _ (amagold_finite_step P lay friction mass steps getData sg fullPot hpot s hs p).2

/-- SGGMC always reports finite acceptance ratios (an undefined one counts as 1, see C78). -/
theorem sggmc_finite (P : Prng κ) (up : ObaboState ι XF κ δ μ → Params → Option (MassMatrix ι) → ObaboState ι XF κ δ μ)
    (fullPot : FullPotFn ι φ μ) (s : SggmcState ι κ δ μ φ Unit) (p : Params) :
    ∃ a, (sggmcUpdate P (none : Option (MassAdaption ι Unit)) up fullPot s p).2 = .fin a := by
  show ∃ a, XF.exp (sggmcLogAlpha _ _ _ _ _) = .fin a
  unfold sggmcLogAlpha
  dsimp only
  split
  · rename_i h
    generalize XF.mul _ _ = x at h ⊢
    cases x with
    | fin r => exact ⟨_, rfl⟩
    | ninf => exact ⟨_, rfl⟩
    | pinf => simp [XF.Le] at h
    | nan => simp [XF.Le] at h
  · exact ⟨_, rfl⟩

/-- **C95** (`alias.amagold` with `adaptive_step_size`).  The potential of every initial sample is finite and the
potential is never undefined (it may be `+inf`; see C132 for undefined potentials).  All `iterations - burn_in`
samples after the burn in are returned; the step sizes are positive, start with `first_step_size`, follow the dual
averaging of the acceptance ratios of the same chain during the burn in and are the same for all returned samples of a
chain. -/
theorem c95_amagold (zero : OutLeaf ι μ → OutLeaf ι μ) (P : Prng κ) (key0 : κ)
    (lay : Layout ι) (friction : ℝ) (mass : Option (ι → ℝ)) (steps : ℕ) (getData : δ → δ × β)
    (sg : StochGrad ι β μ) (fullPot : FullPotFn ι φ μ)
    (hpot : ∀ x f m, (fullPot x f m).1 = .pinf ∨ ∃ u, (fullPot x f m).1 = .fin u)
    (ms : μ) (first stab decay speed target : ℝ)
    (burnIn : Nat) (bar : Bool) (its : Nat) (hf : 0 < first) (hst : 0 ≤ stab) (hbi : burnIn ≤ its)
    (chains : List ((ι → ℝ) × δ × φ)) (hinit : ∀ c ∈ chains, ∃ u, (fullPot c.1 c.2.2 ms).1 = .fin u) :
    ∃ rs : List (SaveResult (OutLeaf ι μ)),
      runAmagoldAdaptive (noSave zero) P key0 lay friction mass steps getData sg fullPot ms first stab decay
        speed target burnIn none bar its () chains = .ok ((), rs) ∧
      (∀ C : MemCollector (OutLeaf ι μ), C.saveDir = false → ∃ C',
        runAmagoldAdaptive (hostSaving zero) P key0 lay friction mass steps getData sg fullPot ms first stab
          decay speed target burnIn none bar its C chains = .ok (C', rs)) ∧
      List.Forall₂ (fun c r => ∃ step ratio : Nat → ℝ, FrozenSteps first burnIn step ∧
        (∀ k, (amagoldUpdate P (none : Option (MassAdaption ι Unit)) (revForAmagold P lay friction mass steps getData sg)
            fullPot (amagoldRun P (none : Option (MassAdaption ι Unit))
              (revForAmagold P lay friction mass steps getData sg) fullPot
              (amagoldInit P none (revInitForAmagold P lay mass c.2.1) fullPot c.2.2 c.1 key0 ms)
              (paramsUpTo step 1 k)) ⟨step k, 1⟩).2 = .fin (ratio k)) ∧
        (∀ i ≤ burnIn, step i = Real.exp (dualAverage first stab decay speed target ratio i)) ∧
        ReturnedSamples ((List.range (its - burnIn)).map fun j => reportedAmagold
          (amagoldRun P (none : Option (MassAdaption ι Unit))
            (revForAmagold P lay friction mass steps getData sg) fullPot
            (amagoldInit P none (revInitForAmagold P lay mass c.2.1) fullPot c.2.2 c.1 key0 ms)
            (paramsUpTo step 1 (burnIn + j + 1)))) r) chains rs := by
  obtain ⟨rs, h1, h2, h3⟩ := adaptive_run zero (amagoldUpdate P (none : Option (MassAdaption ι Unit))
      (revForAmagold P lay friction mass steps getData sg) fullPot) amagoldTree (fun _ _ => rfl)
    (fun s => by simp [amagoldTree]) first stab decay speed target burnIn bar hf hst its hbi
    (chains.map fun c =>
      amagoldInit P none (revInitForAmagold P lay mass c.2.1) fullPot c.2.2 c.1 key0 ms)
  refine ⟨rs, h1, h2, ?_⟩
  have h4 := List.forall₂_iff_get.1 (forall₂_map_left' _ _ _ _ h3)
  refine List.forall₂_iff_get.2 ⟨h4.1, fun k hk1 hk2 => ?_⟩
  obtain ⟨step, a1, a2, a3⟩ := h4.2 k hk1 hk2
  refine ⟨step, _, a1, fun j => XF.eq_fin_toReal ?_, a2, a3⟩
  refine (amagold_finite_step P lay friction mass steps getData sg fullPot hpot _
    (amagold_finite_run P lay friction mass steps getData sg fullPot hpot _ _ ?_) _).1
  exact hinit _ (List.get_mem _ _)

/-- **C95** (`alias.sggmc` with `adaptive_step_size`). -/
theorem c95_sggmc (zero : OutLeaf ι μ → OutLeaf ι μ) (P : Prng κ) (key0 : κ)
    (lay : Layout ι) (friction : ℝ) (mass : Option (ι → ℝ)) (steps : ℕ) (getData : δ → δ × β)
    (sg : StochGrad ι β μ) (fullPot : FullPotFn ι φ μ) (ms : μ) (first stab decay speed target : ℝ)
    (burnIn : Nat) (bar : Bool) (its : Nat) (hf : 0 < first) (hst : 0 ≤ stab) (hbi : burnIn ≤ its)
    (chains : List ((ι → ℝ) × δ × φ)) :
    ∃ rs : List (SaveResult (OutLeaf ι μ)),
      runSggmcAdaptive (noSave zero) P key0 lay friction mass steps getData sg fullPot ms first stab decay
        speed target burnIn none bar its () chains = .ok ((), rs) ∧
      (∀ C : MemCollector (OutLeaf ι μ), C.saveDir = false → ∃ C',
        runSggmcAdaptive (hostSaving zero) P key0 lay friction mass steps getData sg fullPot ms first stab
          decay speed target burnIn none bar its C chains = .ok (C', rs)) ∧
      List.Forall₂ (fun c r => ∃ step ratio : Nat → ℝ, FrozenSteps first burnIn step ∧
        (∀ k, (sggmcUpdate P (none : Option (MassAdaption ι Unit)) (obaboForSggmc P lay friction mass steps getData sg)
            fullPot (sggmcRun P (none : Option (MassAdaption ι Unit))
              (obaboForSggmc P lay friction mass steps getData sg) fullPot
              (sggmcInit P none (obaboInitForSggmc c.2.1) fullPot c.2.2 c.1 key0 ms)
              (paramsUpTo step 1 k)) ⟨step k, 1⟩).2 = .fin (ratio k)) ∧
        (∀ i ≤ burnIn, step i = Real.exp (dualAverage first stab decay speed target ratio i)) ∧
        ReturnedSamples ((List.range (its - burnIn)).map fun j => reportedSggmc
          (sggmcRun P (none : Option (MassAdaption ι Unit))
            (obaboForSggmc P lay friction mass steps getData sg) fullPot
            (sggmcInit P none (obaboInitForSggmc c.2.1) fullPot c.2.2 c.1 key0 ms)
            (paramsUpTo step 1 (burnIn + j + 1)))) r) chains rs := by
  obtain ⟨rs, h1, h2, h3⟩ := adaptive_run zero (sggmcUpdate P (none : Option (MassAdaption ι Unit))
      (obaboForSggmc P lay friction mass steps getData sg) fullPot) sggmcTree (fun _ _ => rfl)
    (fun s => by simp [sggmcTree]) first stab decay speed target burnIn bar hf hst its hbi
    (chains.map fun c =>
      sggmcInit P none (obaboInitForSggmc c.2.1) fullPot c.2.2 c.1 key0 ms)
  refine ⟨rs, h1, h2, ?_⟩
  have h4 := List.forall₂_iff_get.1 (forall₂_map_left' _ _ _ _ h3)
  refine List.forall₂_iff_get.2 ⟨h4.1, fun k hk1 hk2 => ?_⟩
  obtain ⟨step, a1, a2, a3⟩ := h4.2 k hk1 hk2
  exact ⟨step, _, a1, fun j => XF.eq_fin_toReal (sggmc_finite P _ fullPot _ _), a2, a3⟩

/-- **C95** (thinning).  A number of accepted samples is rejected. -/
theorem c95_rejected {H σ ρ : Type} (saving : Saving H σ ρ (OutLeaf ι μ)) (P : Prng κ) (key0 : κ)
    (lay : Layout ι) (friction : ℝ) (mass : Option (ι → ℝ)) (steps : ℕ) (getData : δ → δ × β)
    (sg : StochGrad ι β μ) (fullPot : FullPotFn ι φ μ) (ms : μ) (first stab decay speed target : ℝ)
    (burnIn k : Nat) (bar : Bool) (its : Nat) (h : H) (chains : List ((ι → ℝ) × δ × φ)) :
    runAmagoldAdaptive saving P key0 lay friction mass steps getData sg fullPot ms first stab decay
        speed target burnIn (some k) bar its h chains = .error .assertionError ∧
    runSggmcAdaptive saving P key0 lay friction mass steps getData sg fullPot ms first stab decay
        speed target burnIn (some k) bar its h chains = .error .assertionError := ⟨rfl, rfl⟩

end

/-- The hypotheses of C92 are met by the arguments `first_step_size=0.05, last_step_size=0.001, burn_in=10,
accepted_samples=100` and 1000 iterations. -/
example : (0 : ℝ) < 0.001 ∧ (0.001 : ℝ) < 0.05 ∧ 2 ≤ 1000 ∧ 10 + 100 ≤ 1000 := by norm_num

/-- The conclusions of C92 exclude wrong results: of four iterations with a burn in of one, exactly these
three are kept. -/
example (kept : List Nat) (h : Thinned 1 4 3 kept) : kept = [1, 2, 3] := by
  have hsub : kept ⊆ [1, 2, 3] := by
    intro i hi
    obtain ⟨a, b⟩ := h.range i hi
    simp only [List.mem_cons, List.not_mem_nil, or_false]
    omega
  have hnd : kept.Nodup := h.increasing.imp (fun h => Nat.ne_of_lt h)
  have hperm : kept.Perm [1, 2, 3] := (hnd.subperm hsub).perm_of_length_le (by rw [h.count]; simp)
  exact hperm.eq_of_pairwise (le := (· < ·)) (fun a b _ _ h1 h2 => by omega) h.increasing (by simp)

end JaxSgmc
