import Verif.Props.Saving

/-!
# Vectorized runs (C44, C45)
-/

namespace JaxSgmc

open Spec

section
variable {Ks σs Vs Kt σt Vt Kb σb Kh σh S α : Type}

theorem noSaveVmap_iff (lanes : List (NoSaveState α × Bool × Tree α)) (svs : List (NoSaveState α)) :
    noSaveVmap lanes = .ok svs ↔
      List.Forall₂ (fun l sv => noSaveStep l.1 l.2.1 l.2.2 = .ok sv) lanes svs := by
  induction lanes generalizing svs with
  | nil =>
    simp only [noSaveVmap, Except.ok.injEq, List.forall₂_nil_left_iff]
    exact eq_comm
  | cons l lanes ih =>
    obtain ⟨st, keep, sample⟩ := l
    rw [List.forall₂_cons_left_iff]
    simp only [noSaveVmap, noSaveStep]
    cases h1 : noSaveSample st sample with
    | error e => simp
    | ok st' =>
      cases h2 : noSaveVmap lanes with
      | error e =>
        simp only [reduceCtorEq, false_iff, not_exists, not_and]
        intro b u hb hu
        have := (ih u).2 hu
        rw [h2] at this
        simp at this
      | ok sts =>
        have hc : (bif keep then st' else st) = (if keep = true then st' else st) := by
          cases keep <;> rfl
        simp only [Except.ok.injEq, hc]
        constructor
        · rintro rfl
          exact ⟨_, sts, rfl, (ih sts).1 h2, rfl⟩
        · rintro ⟨b, u, rfl, hu, rfl⟩
          have := (ih u).2 hu
          rw [h2] at this
          simp only [Except.ok.injEq] at this
          rw [this]

theorem scanVmap_iff (zero : α → α) (solver : Solver S Vs Vt α)
    (sched : Scheduler Ks σs Vs Kt σt Vt Kb σb Kh σh) (n : Nat)
    (lanes : List ((S × List (SchedState σs σt σb σh)) × NoSaveState α))
    (svs : List (NoSaveState α)) :
    mcmcScanVmap (noSave zero) solver sched n () lanes = .ok ((), svs) ↔
      List.Forall₂ (fun l sv => mcmcScan (noSave zero) solver sched n () l.1 l.2 = .ok ((), sv))
        lanes svs := by
  induction n generalizing lanes svs with
  | zero =>
    simp only [mcmcScanVmap, mcmcScan, Except.ok.injEq, Prod.mk.injEq, true_and]
    induction lanes generalizing svs with
    | nil => simp [eq_comm]
    | cons l lanes ih => cases svs with
      | nil => simp
      | cons sv svs => simp [ih]
  | succ n ih =>
    have key : ∀ r : List (NoSaveState α),
        noSaveVmap ((lanes.map (fun l => (mcmcStep solver sched l.1, l.2))).map
          (fun r => (r.2, r.1.2.1, r.1.2.2))) = .ok r ↔
        List.Forall₂ (fun l sv => noSaveStep l.2 (mcmcStep solver sched l.1).2.1
          (mcmcStep solver sched l.1).2.2 = .ok sv) lanes r := by
      intro r
      rw [noSaveVmap_iff, List.map_map, List.forall₂_map_left_iff]
      rfl
    have hsave : ∀ (l : (S × List (SchedState σs σt σb σh)) × NoSaveState α),
        mcmcScan (noSave zero) solver sched (n + 1) () l.1 l.2 =
          match noSaveStep l.2 (mcmcStep solver sched l.1).2.1 (mcmcStep solver sched l.1).2.2 with
          | .error e => .error e
          | .ok sv => mcmcScan (noSave zero) solver sched n () (mcmcStep solver sched l.1).1 sv := by
      intro l
      rw [mcmcScan]
      simp only [noSave]
      cases noSaveStep l.2 (mcmcStep solver sched l.1).2.1 (mcmcStep solver sched l.1).2.2 <;> rfl
    rw [mcmcScanVmap]
    simp only [noSave]
    cases hv : noSaveVmap ((lanes.map (fun l => (mcmcStep solver sched l.1, l.2))).map
          (fun r => (r.2, r.1.2.1, r.1.2.2))) with
    | error e =>
      simp only [Except.map, reduceCtorEq, false_iff]
      intro hf
      -- all lanes can be saved
      have : ∃ r, List.Forall₂ (fun l sv => noSaveStep l.2 (mcmcStep solver sched l.1).2.1
          (mcmcStep solver sched l.1).2.2 = .ok sv) lanes r := by
        clear hv key
        induction hf with
        | nil => exact ⟨[], .nil⟩
        | @cons l sv lanes svs h1 h2 ih2 =>
          obtain ⟨r, hr⟩ := ih2
          have h1' : mcmcScan (noSave zero) solver sched (n + 1) () l.1 l.2 = .ok ((), sv) := h1
          rw [hsave] at h1'
          cases h3 : noSaveStep l.2 (mcmcStep solver sched l.1).2.1
              (mcmcStep solver sched l.1).2.2 with
          | error e => simp [h3] at h1'
          | ok q => exact ⟨q :: r, .cons h3 hr⟩
      obtain ⟨r, hr⟩ := this
      rw [(key r).2 hr] at hv
      simp at hv
    | ok r =>
      have hr := (key r).1 hv
      have hi := ih ((((lanes.map (fun l => (mcmcStep solver sched l.1, l.2)))).map
        (fun r => r.1.1)).zip r) svs
      simp only [Except.map]
      refine Iff.trans hi ?_
      clear hi hv key
      induction hr generalizing svs with
      | nil => simp
      | @cons l sv lanes r h1 h2 ih2 =>
        cases svs with
        | nil => simp
        | cons s svs =>
          simp only [List.map_cons, List.zip_cons_cons, List.forall₂_cons]
          refine and_congr ?_ (ih2 svs)
          have h3 := hsave l
          rw [h1] at h3
          dsimp only at h3
          exact (congrArg (fun z => z = Except.ok ((), s)) h3.symm).to_iff

variable [Inhabited Ks] [Inhabited Kt] [Inhabited Kb] [Inhabited Kh]

theorem initAll_iff (zero : α → α) (solver : Solver S Vs Vt α)
    (sched : Scheduler Ks σs Vs Kt σt Vt Kb σb Kh σh) (helpers : List (SchedKw Ks Kt Kb Kh))
    (its : Nat) (states : List S)
    (lanes : List ((S × List (SchedState σs σt σb σh)) × NoSaveState α)) :
    mcmcInitAll (noSave zero) solver sched helpers its () states = .ok ((), lanes) ↔
      List.Forall₂ (fun s l => mcmcInit (noSave zero) solver sched helpers its () s = .ok ((), l))
        states lanes := by
  induction states generalizing lanes with
  | nil => simp [mcmcInitAll, eq_comm]
  | cons s states ih =>
    rw [List.forall₂_cons_left_iff, mcmcInitAll]
    cases h1 : mcmcInit (noSave zero) solver sched helpers its () s with
    | error e => simp
    | ok p =>
      obtain ⟨u, x, sv⟩ := p
      dsimp only
      cases h2 : mcmcInitAll (noSave zero) solver sched helpers its () states with
      | error e =>
        simp only [reduceCtorEq, false_iff, not_exists, not_and]
        intro b u hb hu
        have := (ih u).2 hu
        rw [h2] at this
        simp at this
      | ok q =>
        obtain ⟨u', r⟩ := q
        simp only [Except.ok.injEq, Prod.mk.injEq, true_and]
        constructor
        · rintro rfl
          exact ⟨_, r, rfl, (ih r).1 h2, rfl⟩
        · rintro ⟨b, v, rfl, hv, rfl⟩
          have := (ih v).2 hv
          rw [h2] at this
          simp only [Except.ok.injEq, Prod.mk.injEq, true_and] at this
          rw [this]

omit [Inhabited Ks] [Inhabited Kt] [Inhabited Kb] [Inhabited Kh] in
theorem postAll_noSave (zero : α → α) (svs : List (NoSaveState α)) :
    mcmcPostAll (noSave zero) () svs = .ok ((), svs.map (fun st => ⟨st.saved, st.data⟩)) := by
  induction svs with
  | nil => rfl
  | cons sv svs ih =>
    rw [mcmcPostAll]
    simp only [noSave] at ih ⊢
    rw [ih]
    rfl

theorem map_iff (zero : α → α) (solver : Solver S Vs Vt α)
    (sched : Scheduler Ks σs Vs Kt σt Vt Kb σb Kh σh) (helpers : List (SchedKw Ks Kt Kb Kh))
    (its : Nat) (states : List S) (rs : List (SaveResult α)) :
    mcmcMap (noSave zero) solver sched helpers its () states = .ok ((), rs) ↔
      List.Forall₂ (fun s r => ∃ l sv,
        mcmcInit (noSave zero) solver sched helpers its () s = .ok ((), l) ∧
        mcmcScan (noSave zero) solver sched its () l.1 l.2 = .ok ((), sv) ∧
        r = ⟨sv.saved, sv.data⟩) states rs := by
  induction states generalizing rs with
  | nil => simp [mcmcMap, eq_comm]
  | cons s states ih =>
    rw [List.forall₂_cons_left_iff, mcmcMap]
    cases h1 : mcmcInit (noSave zero) solver sched helpers its () s with
    | error e => simp
    | ok p =>
      obtain ⟨u, x, sv⟩ := p
      dsimp only
      cases h2 : mcmcScan (noSave zero) solver sched its u x sv with
      | error e =>
        simp only [reduceCtorEq, false_iff]
        rintro ⟨b, v, ⟨l, sv', h3, h4, -⟩, -, -⟩
        simp only [Except.ok.injEq, Prod.mk.injEq, true_and] at h3
        rw [← h3] at h4
        rw [h2] at h4
        simp at h4
      | ok q =>
        obtain ⟨u', sv'⟩ := q
        have hpost : (noSave zero).post u' sv' = .ok ((), ⟨sv'.saved, sv'.data⟩) := rfl
        dsimp only
        rw [hpost]
        dsimp only
        cases h5 : mcmcMap (noSave zero) solver sched helpers its () states with
        | error e =>
          simp only [reduceCtorEq, false_iff]
          rintro ⟨b, v, -, hv, -⟩
          have := (ih v).2 hv
          rw [h5] at this
          simp at this
        | ok w =>
          obtain ⟨u3, rs'⟩ := w
          simp only [Except.ok.injEq, Prod.mk.injEq, true_and]
          constructor
          · rintro rfl
            exact ⟨_, rs', ⟨_, sv', rfl, h2, rfl⟩, (ih rs').1 h5, rfl⟩
          · rintro ⟨b, v, ⟨l, sv2, rfl, h4, rfl⟩, hv, rfl⟩
            have h6 := (ih v).2 hv
            rw [h5] at h6
            simp only [Except.ok.injEq, Prod.mk.injEq, true_and] at h6
            have h4' : mcmcScan (noSave zero) solver sched its u x sv = .ok ((), sv2) := h4
            rw [h2] at h4'
            simp only [Except.ok.injEq, Prod.mk.injEq, true_and] at h4'
            rw [h4', h6]

/-- **C44.** With saving on the device, the strategies `map` and `vmap` return the same results for
every solver, scheduler, set of helper schedulers and non-empty list of initial states (of one
structure, as required by `vmap`); one of them fails iff the other fails. -/
theorem c44_vmap_eq_map (zero : α → α) (solver : Solver S Vs Vt α)
    (sched : Scheduler Ks σs Vs Kt σt Vt Kb σb Kh σh) (helpers : List (SchedKw Ks Kt Kb Kh))
    (its : Nat) (states : List S) (hne : states ≠ []) (rs : List (SaveResult α)) :
    mcmcVmap (noSave zero) solver sched helpers its () states = .ok ((), rs) ↔
      mcmcMap (noSave zero) solver sched helpers its () states = .ok ((), rs) := by
  rw [map_iff, mcmcVmap, if_neg hne]
  have hfwd : ∀ lanes svs, mcmcInitAll (noSave zero) solver sched helpers its () states
      = .ok ((), lanes) → mcmcScanVmap (noSave zero) solver sched its () lanes = .ok ((), svs) →
      List.Forall₂ (fun s r => ∃ l sv,
        mcmcInit (noSave zero) solver sched helpers its () s = .ok ((), l) ∧
        mcmcScan (noSave zero) solver sched its () l.1 l.2 = .ok ((), sv) ∧
        r = ⟨sv.saved, sv.data⟩) states
        (svs.map (fun st => (⟨st.saved, st.data⟩ : SaveResult α))) := by
    intro lanes svs h1 h2
    rw [initAll_iff] at h1
    rw [scanVmap_iff] at h2
    clear hne
    induction h1 generalizing svs with
    | nil => cases h2; exact .nil
    | cons hx hxs ih =>
      cases h2 with
      | cons hy hys => exact .cons ⟨_, _, hx, hy, rfl⟩ (ih _ hys)
  have hbwd : List.Forall₂ (fun s r => ∃ l sv,
        mcmcInit (noSave zero) solver sched helpers its () s = .ok ((), l) ∧
        mcmcScan (noSave zero) solver sched its () l.1 l.2 = .ok ((), sv) ∧
        r = ⟨sv.saved, sv.data⟩) states rs → ∃ lanes svs,
      List.Forall₂ (fun s l => mcmcInit (noSave zero) solver sched helpers its () s = .ok ((), l))
        states lanes ∧
      List.Forall₂ (fun l sv => mcmcScan (noSave zero) solver sched its () l.1 l.2 = .ok ((), sv))
        lanes svs ∧ rs = svs.map (fun st => (⟨st.saved, st.data⟩ : SaveResult α)) := by
    intro h
    clear hne hfwd
    induction h with
    | nil => exact ⟨[], [], .nil, .nil, rfl⟩
    | cons hx hxs ih =>
      obtain ⟨lanes, svs, k1, k2, rfl⟩ := ih
      obtain ⟨l, sv, g1, g2, rfl⟩ := hx
      exact ⟨l :: lanes, sv :: svs, .cons g1 k1, .cons g2 k2, rfl⟩
  constructor
  · intro h
    cases h1 : mcmcInitAll (noSave zero) solver sched helpers its () states with
    | error e => simp [h1] at h
    | ok p =>
      obtain ⟨u, lanes⟩ := p
      rw [h1] at h
      dsimp only at h
      cases h2 : mcmcScanVmap (noSave zero) solver sched its u lanes with
      | error e => simp [h2] at h
      | ok q =>
        obtain ⟨u', svs⟩ := q
        rw [h2] at h
        dsimp only at h
        rw [postAll_noSave] at h
        simp only [Except.ok.injEq, Prod.mk.injEq, true_and] at h
        rw [← h]
        exact hfwd lanes svs h1 h2
  · intro h
    obtain ⟨lanes, svs, k1, k2, rfl⟩ := hbwd h
    rw [(initAll_iff zero solver sched helpers its states lanes).2 k1]
    dsimp only
    rw [(scanVmap_iff zero solver sched its lanes svs).2 k2]
    exact postAll_noSave zero svs

end

/-! ### C45 -/

/-- A sampler counting its iterations, no step size and temperature, a burn in of one iteration. -/
def countSolver : Solver Nat Unit Unit Nat where
  update s _ := (s + 1, none)
  get s := .leaf s

/-- Burn in of `b` iterations, no thinning. -/
def burnScheduler (b : Int) : Scheduler Unit Unit Unit Unit Unit Unit (Option Int) Int Unit Unit where
  stepSize := ⟨fun _ _ => .ok (), fun s _ _ => s, fun _ _ => ()⟩
  temperature := ⟨fun _ _ => .ok (), fun s _ _ => s, fun _ _ => ()⟩
  burnIn := initialBurnIn b
  thinning := noThinning
  progressBar := false
  barSteps := 20

/-- **C45** as stated: with saving to the host, whatever the strategy `map` returns is returned by
the strategy `vmap`. -/
def C45Statement : Prop :=
  ∀ {Ks σs Vs Kt σt Vt Kb σb Kh σh S α : Type} [Inhabited Ks] [Inhabited Kt] [Inhabited Kb]
    [Inhabited Kh] (zero : α → α) (solver : Solver S Vs Vt α)
    (sched : Scheduler Ks σs Vs Kt σt Vt Kb σb Kh σh) (helpers : List (SchedKw Ks Kt Kb Kh))
    (its : Nat) (C : MemCollector α) (states : List S), states ≠ [] → PreservesStructure solver →
    ∀ C' rs, mcmcMap (hostSaving zero) solver sched helpers its C states = .ok (C', rs) →
    ∃ C'', mcmcVmap (hostSaving zero) solver sched helpers its C states = .ok (C'', rs)

/-- **C45 is false of the code.**  With a burn in of one iteration and two iterations, the strategy
`map` returns the sample after the second iteration; the strategy `vmap` stores the sample subject to
burn in and fails when saving the second sample. -/
theorem c45_false : ¬ C45Statement := by
  intro h
  have h1 : ∃ C' rs, mcmcMap (hostSaving (fun _ => 0)) countSolver (burnScheduler 1) [] 2
      (memNew false) [0] = .ok (C', rs) := ⟨_, _, rfl⟩
  obtain ⟨C', rs, h1⟩ := h1
  obtain ⟨C'', h2⟩ := h (fun _ => 0) countSolver (burnScheduler 1) [] 2 (memNew false) [0] (by simp)
    (fun s _ => rfl) C' rs h1
  have h3 : mcmcVmap (hostSaving (fun _ => 0)) countSolver (burnScheduler 1) [] 2
      (memNew false) [0] = .error .indexError := rfl
  rw [h3] at h2
  cases h2

/-- The result of `map` in the example of `c45_false`. -/
example : (mcmcMap (hostSaving (fun _ => 0)) countSolver (burnScheduler 1) [] 2
    (memNew false) [0]).map (fun r => r.2.map (fun s => (s.sampleCount, s.samples.leaves)))
      = .ok [(1, [[2]])] := rfl

section
variable {Ks σs Vs Kt σt Vt Kb σb Kh σh S α : Type}

/-- The first `i` samples of the chain started at `s`. -/
def firstSamples (solver : Solver S Vs Vt α) (sched : Scheduler Ks σs Vs Kt σt Vt Kb σb Kh σh)
    (scheds : List (SchedState σs σt σb σh)) (s : S) (i : Nat) : List (Tree α) :=
  (List.range i).map (fun j => solver.get (trajectory solver sched (s, scheds) (j + 1)).1)

/-- The lanes after `i` iterations, if all samples were saved. -/
def lanesAt (solver : Solver S Vs Vt α) (sched : Scheduler Ks σs Vs Kt σt Vt Kb σb Kh σh)
    (scheds : List (SchedState σs σt σb σh)) (i : Nat) :
    Nat → List S → List ((S × List (SchedState σs σt σb σh)) × HostState)
  | _, [] => []
  | b, s :: ss =>
    (trajectory solver sched (s, scheds) i, ⟨b, i⟩) :: lanesAt solver sched scheds i (b + 1) ss

theorem firstSamples_shape (solver : Solver S Vs Vt α) (hp : PreservesStructure solver)
    (sched : Scheduler Ks σs Vs Kt σt Vt Kb σb Kh σh)
    (scheds : List (SchedState σs σt σb σh)) (s : S) (i : Nat) :
    ∀ t ∈ firstSamples solver sched scheds s i, t.shape = (solver.get s).shape := by
  intro t ht
  obtain ⟨j, -, rfl⟩ := List.mem_map.1 ht
  exact trajectory_shape solver hp sched (s, scheds) (j + 1)

theorem mcmcStep_trajectory (solver : Solver S Vs Vt α)
    (sched : Scheduler Ks σs Vs Kt σt Vt Kb σb Kh σh)
    (x : S × List (SchedState σs σt σb σh)) (i : Nat) :
    mcmcStep solver sched (trajectory solver sched x i)
      = (trajectory solver sched x (i + 1), isKept solver sched x i,
        solver.get (trajectory solver sched x (i + 1)).1) := by
  refine Prod.ext rfl (Prod.ext ?_ rfl)
  rw [mcmcStep_keep]
  simp only [isKept, trajectory]

/-- The state of the chains after `i` iterations. -/
def ChainsAt (zero : α → α) (solver : Solver S Vs Vt α)
    (sched : Scheduler Ks σs Vs Kt σt Vt Kb σb Kh σh)
    (scheds : List (SchedState σs σt σb σh)) (n i : Nat) (states : List S)
    (chs : List (MemChain α)) : Prop :=
  List.Forall₂ (fun s ch => ChainHolds zero (solver.get s) n (firstSamples solver sched scheds s i) ch
    ∧ ch.locked = true) states chs

theorem hostSaveAll_ok (zero : α → α) (solver : Solver S Vs Vt α) (hp : PreservesStructure solver)
    (sched : Scheduler Ks σs Vs Kt σt Vt Kb σb Kh σh)
    (scheds : List (SchedState σs σt σb σh)) (n i : Nat) (hi : i < n) (states : List S)
    (d : Bool) (files : List (Nat × List (Key × List α))) (pre chs : List (MemChain α))
    (h : ChainsAt zero solver sched scheds n i states chs) :
    ∃ chs', hostSaveAll ⟨d, pre ++ chs, files⟩
        (((lanesAt solver sched scheds i pre.length states).map
          (fun l => (mcmcStep solver sched l.1, l.2))).map (fun r => (r.2, r.1.2.1, r.1.2.2)))
        = .ok ⟨d, pre ++ chs', files⟩ ∧
      ChainsAt zero solver sched scheds n (i + 1) states chs' := by
  induction h generalizing pre with
  | nil => exact ⟨[], rfl, .nil⟩
  | @cons s ch states chs hs hrest ih =>
    obtain ⟨hc, hl⟩ := hs
    obtain ⟨ch', k1, k2, k3, -⟩ := chSave_ok zero (solver.get s) n _ ch hc
      (solver.get (trajectory solver sched (s, scheds) (i + 1)).1)
      (trajectory_shape solver hp sched (s, scheds) (i + 1))
      (by simpa [firstSamples] using hi)
    obtain ⟨chs', g1, g2⟩ := ih (pre ++ [ch'])
    refine ⟨ch' :: chs', ?_, .cons ⟨?_, k3.trans hl⟩ g2⟩
    · rw [List.length_append, List.length_singleton] at g1
      simp only [lanesAt, List.map_cons, hostSaveAll, mcmcStep_trajectory]
      have hget : (pre ++ ch :: chs)[pre.length]? = some ch := by simp
      have hset : (pre ++ ch :: chs).set pre.length ch' = pre ++ [ch'] ++ chs := by
        rw [List.set_append_right _ _ (le_refl _)]; simp
      simp only [memSave, hget, k1, hset]
      rw [g1]
      simp
    · rw [firstSamples, List.range_succ, List.map_append]
      exact k2

theorem hostScanVmap_ok (zero : α → α) (solver : Solver S Vs Vt α) (hp : PreservesStructure solver)
    (sched : Scheduler Ks σs Vs Kt σt Vt Kb σb Kh σh)
    (scheds : List (SchedState σs σt σb σh)) (n m i : Nat) (hi : i + m ≤ n) (states : List S)
    (d : Bool) (files : List (Nat × List (Key × List α))) (pre chs : List (MemChain α))
    (h : ChainsAt zero solver sched scheds n i states chs)
    (hkeep : ∀ s ∈ states, ∀ j < i + m, isKept solver sched (s, scheds) j = true) :
    ∃ chs', mcmcScanVmap (hostSaving zero) solver sched m ⟨d, pre ++ chs, files⟩
        (lanesAt solver sched scheds i pre.length states)
        = .ok (⟨d, pre ++ chs', files⟩,
          (lanesAt solver sched scheds (i + m) pre.length states).map Prod.snd) ∧
      ChainsAt zero solver sched scheds n (i + m) states chs' := by
  induction m generalizing i chs with
  | zero => exact ⟨chs, rfl, h⟩
  | succ m ih =>
    obtain ⟨chs1, g1, g2⟩ := hostSaveAll_ok zero solver hp sched scheds n i (by omega) states d files
      pre chs h
    obtain ⟨chs2, k1, k2⟩ := ih (i + 1) (by omega) chs1 g2
      (fun s hs j hj => hkeep s hs j (by omega))
    have hm : i + 1 + m = i + (m + 1) := by omega
    rw [hm] at k1 k2
    refine ⟨chs2, ?_, k2⟩
    rw [mcmcScanVmap]
    have hsv : (hostSaving zero).saveVmap ⟨d, pre ++ chs, files⟩
        (((lanesAt solver sched scheds i pre.length states).map
          (fun l => (mcmcStep solver sched l.1, l.2))).map (fun r => (r.2, r.1.2.1, r.1.2.2)))
        = .ok (⟨d, pre ++ chs1, files⟩,
          (lanesAt solver sched scheds (i + 1) pre.length states).map Prod.snd) := by
      simp only [hostSaving, hostSaveVmap, g1]
      congr 2
      have : ∀ (b : Nat), ∀ ss : List S, (∀ s ∈ ss, isKept solver sched (s, scheds) i = true) →
          (((lanesAt solver sched scheds i b ss).map
          (fun l => (mcmcStep solver sched l.1, l.2))).map (fun r => (r.2, r.1.2.1, r.1.2.2))).map
          (fun l => (⟨l.1.chainId, l.1.saved + bif l.2.1 then 1 else 0⟩ : HostState))
          = (lanesAt solver sched scheds (i + 1) b ss).map Prod.snd := by
        intro b ss
        induction ss generalizing b with
        | nil => intro _; rfl
        | cons s ss ih2 =>
          intro hk
          simp only [lanesAt, List.map_cons, mcmcStep_trajectory]
          rw [ih2 (b + 1) (fun s hs => hk s (by simp [hs])), hk s (by simp)]
          rfl
      exact this _ _ (fun s hs => hkeep s hs i (by omega))
    rw [hsv]
    dsimp only
    have hz : ∀ (b : Nat) (ss : List S), (((lanesAt solver sched scheds i b ss).map
          (fun l => (mcmcStep solver sched l.1, l.2))).map (fun r => r.1.1)).zip
          ((lanesAt solver sched scheds (i + 1) b ss).map Prod.snd)
        = lanesAt solver sched scheds (i + 1) b ss := by
      intro b ss
      induction ss generalizing b with
      | nil => rfl
      | cons s ss ih2 =>
        simp only [lanesAt, List.map_cons, List.zip_cons_cons, ih2, mcmcStep_trajectory]
    rw [hz]
    exact k1

theorem hostPostAll_ok (zero : α → α) (solver : Solver S Vs Vt α) (hp : PreservesStructure solver)
    (sched : Scheduler Ks σs Vs Kt σt Vt Kb σb Kh σh)
    (scheds : List (SchedState σs σt σb σh)) (n i : Nat) (states : List S)
    (d : Bool) (files : List (Nat × List (Key × List α))) (pre chs : List (MemChain α))
    (h : ChainsAt zero solver sched scheds n i states chs) :
    ∃ C' rs, mcmcPostAll (hostSaving zero) ⟨d, pre ++ chs, files⟩
        ((lanesAt solver sched scheds i pre.length states).map Prod.snd) = .ok (C', rs) ∧
      List.Forall₂ (fun s r => r.sampleCount = i ∧
        Holds zero (solver.get s) n (firstSamples solver sched scheds s i) r.samples) states rs := by
  induction h generalizing pre files with
  | nil => exact ⟨_, [], rfl, .nil⟩
  | @cons s ch states chs hs hrest ih =>
    obtain ⟨hc, hl⟩ := hs
    obtain ⟨files', h7, -⟩ := memFinalize_ok ⟨d, pre ++ ch :: chs, files⟩ pre.length ch (by simp) hl
    have hset : (pre ++ ch :: chs).set pre.length { ch with locked := false }
        = pre ++ [{ ch with locked := false }] ++ chs := by
      rw [List.set_append_right _ _ (le_refl _)]; simp
    dsimp only at h7
    rw [hset] at h7
    obtain ⟨D, h8, h9, -⟩ := memResult_ok zero (solver.get s) n _
      (firstSamples_shape solver hp sched scheds s i)
      ⟨d, pre ++ [{ ch with locked := false }] ++ chs, files'⟩ pre.length
      { ch with locked := false } (by simp) ⟨hc.treedef, hc.count, hc.bufs⟩
    obtain ⟨C', rs, g1, g2⟩ := ih files' (pre ++ [{ ch with locked := false }])
    rw [List.length_append, List.length_singleton] at g1
    have hpost : (hostSaving zero).post ⟨d, pre ++ ch :: chs, files⟩ ⟨pre.length, i⟩
        = .ok (⟨d, pre ++ [{ ch with locked := false }] ++ chs, files'⟩, ⟨i, D⟩) := by
      simp only [hostSaving, h7, h8]
    refine ⟨C', ⟨i, D⟩ :: rs, ?_, .cons ⟨rfl, h9⟩ g2⟩
    simp only [lanesAt, List.map_cons, mcmcPostAll, hpost, g1]

variable [Inhabited Ks] [Inhabited Kt] [Inhabited Kb] [Inhabited Kh]

theorem hostInitAll_ok (zero : α → α) (solver : Solver S Vs Vt α)
    (sched : Scheduler Ks σs Vs Kt σt Vt Kb σb Kh σh) (helpers : List (SchedKw Ks Kt Kb Kh))
    (its : Nat) (scheds : List (SchedState σs σt σb σh)) (n : Int)
    (hs : mcmcSchedulers sched its helpers = .ok (scheds, n)) (hn : 0 ≤ n) (states : List S)
    (C : MemCollector α) (hname : ∀ s ∈ states, Nameable C.saveDir (solver.get s)) :
    ∃ chs, mcmcInitAll (hostSaving zero) solver sched helpers its C states
        = .ok ({ C with chains := C.chains ++ chs },
          lanesAt solver sched scheds 0 C.chains.length states) ∧
      ChainsAt zero solver sched scheds n.toNat 0 states chs := by
  induction states generalizing C with
  | nil => exact ⟨[], by simp [mcmcInitAll, lanesAt], .nil⟩
  | cons s states ih =>
    obtain ⟨ch, h1, h2, h3, -⟩ := memRegister_ok zero C (solver.get s) n hn (hname s (by simp))
    obtain ⟨chs, g1, g2⟩ := ih { C with chains := C.chains ++ [ch] }
      (fun s hs => hname s (by simp [hs]))
    refine ⟨ch :: chs, ?_, .cons ⟨h2, h3⟩ g2⟩
    have hi : (hostSaving zero).init C (solver.get s) n
        = .ok ({ C with chains := C.chains ++ [ch] }, ⟨C.chains.length, 0⟩) := by
      simp [hostSaving, h1]
    simp only [mcmcInitAll, mcmcInit, hs, hi, g1]
    simp [lanesAt, trajectory]

/-- **C45**, proved part: if every sample of every chain is kept (and space for all samples is
announced), the strategies return the same results.  Missing: runs with burn in or thinning, for
which the statement is false. -/
theorem c45_all_kept_partial (zero : α → α) (solver : Solver S Vs Vt α)
    (hp : PreservesStructure solver)
    (sched : Scheduler Ks σs Vs Kt σt Vt Kb σb Kh σh) (helpers : List (SchedKw Ks Kt Kb Kh))
    (its : Nat) (scheds : List (SchedState σs σt σb σh)) (n : Int)
    (hs : mcmcSchedulers sched its helpers = .ok (scheds, n)) (hn : (its : Int) ≤ n)
    (C : MemCollector α) (states : List S) (hne : states ≠ [])
    (hname : ∀ s ∈ states, Nameable C.saveDir (solver.get s))
    (hkeep : ∀ s ∈ states, ∀ i < its, isKept solver sched (s, scheds) i = true) :
    ∃ C' C'' rs, mcmcVmap (hostSaving zero) solver sched helpers its C states = .ok (C', rs) ∧
      mcmcMap (hostSaving zero) solver sched helpers its C states = .ok (C'', rs) := by
  have hall : ∀ s ∈ states, keptOfRun solver sched (s, scheds) its
      = firstSamples solver sched scheds s its := by
    intro s hs'
    unfold keptOfRun firstSamples
    rw [List.filter_eq_self.2]
    intro i hi
    exact hkeep s hs' i (by simpa using hi)
  obtain ⟨C'', rs, g1, g2⟩ := mcmcMap_host zero solver hp sched helpers its scheds n hs (by omega) C
    states hname (fun s hs' => by rw [hall s hs']; simpa [firstSamples] using hn)
  obtain ⟨chs, h1, h2⟩ := hostInitAll_ok zero solver sched helpers its scheds n hs (by omega) states C
    hname
  obtain ⟨chs', h3, h4⟩ := hostScanVmap_ok zero solver hp sched scheds n.toNat its 0 (by omega) states
    C.saveDir C.files C.chains chs h2 (fun s hs' j hj => hkeep s hs' j (by omega))
  rw [Nat.zero_add] at h3 h4
  obtain ⟨C', rs', h5, h6⟩ := hostPostAll_ok zero solver hp sched scheds n.toNat its states C.saveDir
    C.files C.chains chs' h4
  refine ⟨C', C'', rs, ?_, g1⟩
  have hrs : rs' = rs := by
    clear g1 h1 h2 h3 h4 h5 hne hname hkeep
    induction g2 generalizing rs' with
    | nil => cases h6; rfl
    | @cons s r states rs hr hrs ih =>
      cases h6 with
      | @cons _ r' _ rs' hr' hrs' =>
        rw [ih (fun s hs => hall s (by simp [hs])) rs' hrs']
        rw [hall s (by simp)] at hr
        have hd := holds_unique zero (solver.get s) n.toNat _
          (firstSamples_shape solver hp sched scheds s its) _ _ hr.2 hr'.2
        obtain ⟨c, d⟩ := r
        obtain ⟨c', d'⟩ := r'
        have hc : c = its := by have := hr.1; simpa [firstSamples] using this
        have hc' : c' = its := hr'.1
        simp only at hd
        rw [hc, hc', hd]
  rw [mcmcVmap, if_neg hne, h1]
  dsimp only
  rw [h3]
  dsimp only
  rw [h5, hrs]

end

/-- Two chains, three iterations, no burn in: the hypotheses of C45 and C42–C44 hold. -/
example : ∃ scheds, mcmcSchedulers (burnScheduler 0) 3 [] = .ok (scheds, 3) ∧
    PreservesStructure countSolver ∧ ∀ s ∈ [0, 10], ∀ i < 3,
      isKept countSolver (burnScheduler 0) (s, scheds) i = true := by
  refine ⟨_, rfl, fun s _ => rfl, ?_⟩
  decide

/-- The results of this run. -/
example : (mcmcVmap (hostSaving (fun _ => 0)) countSolver (burnScheduler 0) [] 3 (memNew false)
    [0, 10]).map (fun r => r.2.map (fun s => (s.sampleCount, s.samples.leaves)))
      = .ok [(3, [[1, 2, 3]]), (3, [[11, 12, 13]])] := rfl

/-- The solver counts the schedules which are past burn in. -/
def helperSolver : Solver (List Bool) Unit Unit (List Bool) where
  update _ schedules := (schedules.map (fun s => s.burnIn), none)
  get s := .leaf s

/-- One additional scheduler with a burn in of two iterations instead of none: it is the second
schedule and does not affect which samples are kept. -/
example : (mcmcMap (hostSaving (fun _ => [])) helperSolver (burnScheduler 0)
      [⟨(), (), some 2, (), none, none⟩] 3 (memNew false) [[]]).map
        (fun r => r.2.map (fun s => (s.sampleCount, s.samples.leaves)))
      = .ok [(3, [[[true, false], [true, false], [true, true]]])] := rfl

end JaxSgmc
