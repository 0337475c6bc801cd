import Verif.Lemmas.Mcmc
import Verif.Props.Scheduler

/-!
# Saving and running chains (C40–C45)
-/

namespace JaxSgmc

open Spec

section
variable {Ks σs Vs Kt σt Vt Kb σb Kh σh S α H σ ρ : Type}

/-- **C40.** `no_save` returns the kept samples in order, followed by zeros, and their number. -/
theorem c40_no_save (zero : α → α) (init : Tree α) (n : Int) (hn : 0 ≤ n)
    (events : List (Bool × Tree α)) (he : ∀ e ∈ events, e.2.shape = init.shape) :
    ∃ r, runSaving (noSave zero) () init n events = .ok ((), r) ∧
      r.sampleCount = (keptSamples events).length ∧
      Holds zero init n.toNat (keptSamples events) r.samples :=
  noSave_run zero init n hn events he

/-- **C40** (negative number).  If a negative number of samples is announced (a burn in longer than the run), `no_save`
raises `ValueError` before the first iteration, for every sample which contains at least one array. -/
theorem c40_negative (zero : α → α) (init : Tree α) (n : Int) (hn : n < 0) (hne : init.leaves ≠ [])
    (events : List (Bool × Tree α)) : runSaving (noSave zero) () init n events = .error .valueError := by
  simp only [runSaving, noSave, noSaveInit, hn, hne, ne_eq, not_false_eq_true, and_self, if_true]
  rfl

/-- What C40 means for the samples: none is lost if not more than `n` samples are kept. -/
theorem c40_nothing_lost (zero : α → α) (init : Tree α) (n : Nat) (kept : List (Tree α))
    (d : Tree (List α)) (h : Holds zero init n kept d) (hfit : kept.length ≤ n) (i : Nat)
    (hi : i < kept.length) : d.map (fun l => l[i]?) = kept[i].map some := by
  have := h.row i (by omega)
  rwa [List.getElem?_eq_getElem hi] at this

/-- Three samples `{"a": x}` of which the first and the last are kept, with space for three. -/
example : ∃ r, runSaving (noSave (fun _ => 0)) () (.node (.dict [['a']]) [.leaf 7] : Tree Nat) 3
    [(true, .node (.dict [['a']]) [.leaf 1]), (false, .node (.dict [['a']]) [.leaf 2]),
      (true, .node (.dict [['a']]) [.leaf 3])] = .ok ((), r) ∧ r.sampleCount = 2 ∧
    r.samples = .node (.dict [['a']]) [.leaf [1, 3, 0]] := by
  obtain ⟨r, h1, h2, h3⟩ := c40_no_save (fun _ => 0) (.node (.dict [['a']]) [.leaf 7] : Tree Nat) 3
    (by decide) [(true, .node (.dict [['a']]) [.leaf 1]), (false, .node (.dict [['a']]) [.leaf 2]),
      (true, .node (.dict [['a']]) [.leaf 3])]
    (by simp [Tree.shape, Tree.map, Tree.mapL])
  refine ⟨r, h1, h2, ?_⟩
  refine holds_unique (fun _ => 0) _ 3 _ ?_ _ _ h3 ⟨rfl, ?_, ?_⟩
  · simp [keptSamples, Tree.shape, Tree.map, Tree.mapL]
  · simp [Tree.leaves, Tree.leavesL]
  · intro i hi
    match i, hi with
    | 0, _ => rfl
    | 1, _ => rfl
    | 2, _ => rfl

/-- **C41.** Saving to the host returns the same as saving on the device, whatever chains were saved
before with the same collector, as long as not more samples are kept than announced. -/
theorem c41_same_result (zero : α → α) (C : MemCollector α) (init : Tree α) (n : Int) (hn : 0 ≤ n)
    (hname : Nameable C.saveDir init)
    (events : List (Bool × Tree α)) (he : ∀ e ∈ events, e.2.shape = init.shape)
    (hfit : ((keptSamples events).length : Int) ≤ n) :
    ∃ C' r, runSaving (hostSaving zero) C init n events = .ok (C', r) ∧
      runSaving (noSave zero) () init n events = .ok ((), r) := by
  obtain ⟨C', r, h1, -, -, h2, h3, -⟩ := host_run zero C init n hn hname events he hfit
  obtain ⟨r', h1', h2', h3'⟩ := noSave_run zero init n hn events he
  refine ⟨C', r, h1, ?_⟩
  rw [h1']
  have hs := holds_unique zero init n.toNat _ (keptSamples_shape events _ he) _ _ h3 h3'
  obtain ⟨c, d⟩ := r
  obtain ⟨c', d'⟩ := r'
  simp_all

/-- Every sample can be saved without a directory. -/
example : Nameable false (.node (.dict [['a']]) [.leaf 7] : Tree Nat) := ⟨by simp, [], rfl⟩

/-- **C41** (file).  A collector with a directory writes one file for the chain when the run is finished; it pairs the
names of the arrays with the arrays of the returned samples, and the files of other chains are kept. -/
theorem c41_file (zero : α → α) (C : MemCollector α) (init : Tree α) (n : Int) (hn : 0 ≤ n) (hdir : C.saveDir = true)
    (hname : Nameable C.saveDir init) (events : List (Bool × Tree α)) (he : ∀ e ∈ events, e.2.shape = init.shape)
    (hfit : ((keptSamples events).length : Int) ≤ n) :
    ∃ C' r names, runSaving (hostSaving zero) C init n events = .ok (C', r) ∧ memNames true init = .ok names ∧
      C'.files.lookup C.chains.length = some (names.zip r.samples.leaves) ∧
      ∀ id, id ≠ C.chains.length → C'.files.lookup id = C.files.lookup id := by
  obtain ⟨C', r, h1, -, -, -, -, h2⟩ := host_run zero C init n hn hname events he hfit
  obtain ⟨names, h3, h4⟩ := h2 hdir
  refine ⟨C', r, names, h1, h3, by rw [h4, List.lookup_cons_self], fun id hid => ?_⟩
  rw [h4, List.lookup, beq_false_of_ne hid]

/-- A finished run of one chain: the file holds the kept samples. -/
example : ∃ C' r names, runSaving (hostSaving fun _ => 0) (memNew true) (.node (.dict [['a']]) [.leaf 7] : Tree Nat) 2
    [(true, .node (.dict [['a']]) [.leaf 1]), (true, .node (.dict [['a']]) [.leaf 3])] = .ok (C', r) ∧
    memNames true (.node (.dict [['a']]) [.leaf 7] : Tree Nat) = .ok names ∧
      C'.files.lookup 0 = some (names.zip r.samples.leaves) ∧ ∀ id, id ≠ 0 → C'.files.lookup id = none :=
  c41_file (fun _ => 0) (memNew true) (.node (.dict [['a']]) [.leaf 7]) 2 (by decide) rfl ⟨by simp, _, rfl⟩ _
    (by simp [Tree.shape, Tree.map, Tree.mapL]) (by decide)

/-- Otherwise (more samples than announced) saving to the host fails, it does not return wrong
samples. -/
theorem c41_overflow (zero : α → α) (C : MemCollector α) (init : Tree α) (n : Int) (hn : 0 ≤ n)
    (hname : Nameable C.saveDir init) (hleaf : init.leaves ≠ [])
    (events : List (Bool × Tree α)) (he : ∀ e ∈ events, e.2.shape = init.shape)
    (hover : n < ((keptSamples events).length : Int)) :
    runSaving (hostSaving zero) C init n events = .error .indexError := by
  obtain ⟨ch, h1, h2, h3, -⟩ := memRegister_ok zero C init n hn hname
  have key : ∀ (events : List (Bool × Tree α)), (∀ e ∈ events, e.2.shape = init.shape) →
      ∀ (kept : List (Tree α)) (C : MemCollector α) (id : Nat) (ch : MemChain α),
      C.chains[id]? = some ch → ChainHolds zero init n.toNat kept ch →
      kept.length ≤ n.toNat → n.toNat < (kept ++ keptSamples events).length → ∀ c,
      saveAll (hostSaving zero) C ⟨id, c⟩ events = .error .indexError := by
    intro events
    induction events with
    | nil =>
      intro _ kept C id ch _ _ hle hlt
      simp [keptSamples] at hlt
      omega
    | cons e es ih =>
      intro he kept C id ch hch hst hle hlt c
      have hes := he e (by simp)
      have hl : e.2.leaves.length = init.leaves.length := by
        rw [← Tree.leaves_length_shape e.2, ← Tree.leaves_length_shape init, hes]
      rw [keptSamples_cons] at hlt
      cases hkeep : e.1 with
      | false =>
        rw [hkeep] at hlt
        have hsv : (hostSaving zero).save C ⟨id, c⟩ e.1 e.2 = .ok (C, ⟨id, c⟩) := by
          simp [hostSaving, hostSave, hkeep]
        simp only [saveAll, hsv]
        exact ih (fun e he' => he e (by simp [he'])) kept C id ch hch hst hle (by simpa using hlt) c
      | true =>
        rw [hkeep] at hlt
        by_cases hfull : kept.length = n.toNat
        · have hsv : (hostSaving zero).save C ⟨id, c⟩ e.1 e.2 = .error .indexError := by
            have hb : ch.buffers ≠ [] := by
              intro e0
              have := hst.bufs.len
              rw [e0] at this
              exact hleaf (List.length_eq_zero_iff.1 (by simpa using this.symm))
            have hp := putRows_full kept.length n.toNat ch.buffers e.2.leaves hb
              (by rw [hst.bufs.len, hl]) hst.bufs.rows (by omega)
            simp [hostSaving, hostSave, hkeep, memSave, hch, chSave, hst.count, hp]
          simp only [saveAll, hsv]
        · obtain ⟨ch1, k1, k2, -, -⟩ := chSave_ok zero init n.toNat kept ch hst e.2 hes (by omega)
          obtain ⟨hlt', -⟩ := List.getElem?_eq_some_iff.1 hch
          have hsv : (hostSaving zero).save C ⟨id, c⟩ e.1 e.2
              = .ok ({ C with chains := C.chains.set id ch1 }, ⟨id, c + 1⟩) := by
            simp [hostSaving, hostSave, hkeep, memSave, hch, k1]
          simp only [saveAll, hsv]
          exact ih (fun e he' => he e (by simp [he'])) (kept ++ [e.2]) _ id ch1 (by simp [hlt']) k2
            (by simp; omega) (by simpa using hlt) (c + 1)
  have hi : (hostSaving zero).init C init n
      = .ok ({ C with chains := C.chains ++ [ch] }, ⟨C.chains.length, 0⟩) := by
    simp [hostSaving, h1]
  simp only [runSaving, hi]
  rw [key events he [] _ C.chains.length ch (by simp) h2 (by simp) (by simp; omega) 0]

/-! ### Runs -/

variable [Inhabited Ks] [Inhabited Kt] [Inhabited Kb] [Inhabited Kh]

/-- A run with saving on the device: the results of all chains. -/
theorem mcmcMap_noSave (zero : α → α) (solver : Solver S Vs Vt α) (hp : PreservesStructure solver)
    (sched : Scheduler Ks σs Vs Kt σt Vt Kb σb Kh σh) (helpers : List (SchedKw Ks Kt Kb Kh))
    (its : Nat) (scheds : List (SchedState σs σt σb σh)) (n : Int)
    (hs : mcmcSchedulers sched its helpers = .ok (scheds, n)) (hn : 0 ≤ n) (states : List S) :
    ∃ rs, mcmcMap (noSave zero) solver sched helpers its () states = .ok ((), rs) ∧
      List.Forall₂ (fun s r => r.sampleCount = (keptOfRun solver sched (s, scheds) its).length ∧
        Holds zero (solver.get s) n.toNat (keptOfRun solver sched (s, scheds) its) r.samples)
        states rs := by
  induction states with
  | nil => exact ⟨[], rfl, .nil⟩
  | cons s states ih =>
    obtain ⟨rs, h1, h2⟩ := ih
    obtain ⟨r, g1, g2, g3⟩ := noSave_run zero (solver.get s) n hn
      (runEvents solver sched (s, scheds) its)
      (runEvents_shape solver hp sched (s, scheds) its)
    rw [keptSamples_runEvents] at g2 g3
    refine ⟨r :: rs, ?_, .cons ⟨g2, g3⟩ h2⟩
    rw [mcmcMap_cons _ _ _ _ _ scheds n hs, g1]
    simp [h1]

/-- A run with saving to the host: the results of all chains. -/
theorem mcmcMap_host (zero : α → α) (solver : Solver S Vs Vt α) (hp : PreservesStructure solver)
    (sched : Scheduler Ks σs Vs Kt σt Vt Kb σb Kh σh) (helpers : List (SchedKw Ks Kt Kb Kh))
    (its : Nat) (scheds : List (SchedState σs σt σb σh)) (n : Int)
    (hs : mcmcSchedulers sched its helpers = .ok (scheds, n)) (hn : 0 ≤ n)
    (C : MemCollector α) (states : List S)
    (hname : ∀ s ∈ states, Nameable C.saveDir (solver.get s))
    (hfit : ∀ s ∈ states, ((keptOfRun solver sched (s, scheds) its).length : Int) ≤ n) :
    ∃ C' rs, mcmcMap (hostSaving zero) solver sched helpers its C states = .ok (C', rs) ∧
      List.Forall₂ (fun s r => r.sampleCount = (keptOfRun solver sched (s, scheds) its).length ∧
        Holds zero (solver.get s) n.toNat (keptOfRun solver sched (s, scheds) its) r.samples)
        states rs := by
  induction states generalizing C with
  | nil => exact ⟨C, [], rfl, .nil⟩
  | cons s states ih =>
    obtain ⟨C1, r, g1, gd, -, g2, g3, -⟩ := host_run zero C (solver.get s) n hn (hname s (by simp))
      (runEvents solver sched (s, scheds) its)
      (runEvents_shape solver hp sched (s, scheds) its)
      (by rw [keptSamples_runEvents]; exact hfit s (by simp))
    rw [keptSamples_runEvents] at g2 g3
    obtain ⟨C2, rs, h1, h2⟩ := ih C1
      (fun s' hs' => by rw [gd]; exact hname s' (by simp [hs'])) (fun s' hs' => hfit s' (by simp [hs']))
    refine ⟨C2, r :: rs, ?_, .cons ⟨g2, g3⟩ h2⟩
    rw [mcmcMap_cons _ _ _ _ _ scheds n hs, g1]
    simp [h1]

/-- **C42.** `mcmc(...)(states, iterations=its)` returns for every chain, in the order of the chains,
the samples of the solver states reached after the kept iterations, in order, and their number. -/
theorem c42_run (zero : α → α) (solver : Solver S Vs Vt α) (hp : PreservesStructure solver)
    (sched : Scheduler Ks σs Vs Kt σt Vt Kb σb Kh σh) (helpers : List (SchedKw Ks Kt Kb Kh))
    (its : Nat) (scheds : List (SchedState σs σt σb σh)) (n : Int)
    (hs : mcmcSchedulers sched its helpers = .ok (scheds, n)) (hn : 0 ≤ n) (states : List S) :
    ∃ rs, mcmcMap (noSave zero) solver sched helpers its () states = .ok ((), rs) ∧
      rs.length = states.length ∧
      ∀ (k : Nat) (s : S) (r : SaveResult α), states[k]? = some s → rs[k]? = some r →
        r.sampleCount = (keptOfRun solver sched (s, scheds) its).length ∧
        Holds zero (solver.get s) n.toNat (keptOfRun solver sched (s, scheds) its) r.samples := by
  obtain ⟨rs, h1, h2⟩ := mcmcMap_noSave zero solver hp sched helpers its scheds n hs hn states
  refine ⟨rs, h1, h2.length_eq.symm, ?_⟩
  intro k s r hk hr
  obtain ⟨hk1, rfl⟩ := List.getElem?_eq_some_iff.1 hk
  obtain ⟨hr1, rfl⟩ := List.getElem?_eq_some_iff.1 hr
  exact h2.get hk1 hr1

/-- The same run, saved to the host, returns the same results (C41 for runs over any number of
chains). -/
theorem c41_runs (zero : α → α) (solver : Solver S Vs Vt α) (hp : PreservesStructure solver)
    (sched : Scheduler Ks σs Vs Kt σt Vt Kb σb Kh σh) (helpers : List (SchedKw Ks Kt Kb Kh))
    (its : Nat) (scheds : List (SchedState σs σt σb σh)) (n : Int)
    (hs : mcmcSchedulers sched its helpers = .ok (scheds, n)) (hn : 0 ≤ n)
    (C : MemCollector α) (states : List S)
    (hname : ∀ s ∈ states, Nameable C.saveDir (solver.get s))
    (hfit : ∀ s ∈ states, ((keptOfRun solver sched (s, scheds) its).length : Int) ≤ n) :
    ∃ C' rs, mcmcMap (hostSaving zero) solver sched helpers its C states = .ok (C', rs) ∧
      mcmcMap (noSave zero) solver sched helpers its () states = .ok ((), rs) := by
  obtain ⟨C', rs, h1, h2⟩ := mcmcMap_host zero solver hp sched helpers its scheds n hs hn C states
    hname hfit
  obtain ⟨rs', h1', h2'⟩ := mcmcMap_noSave zero solver hp sched helpers its scheds n hs hn states
  refine ⟨C', rs, h1, ?_⟩
  rw [h1']
  congr 2
  clear h1 h1' hname hfit
  induction h2 generalizing rs' with
  | nil => cases h2'; rfl
  | @cons s r states rs hr hrs ih =>
    cases h2' with
    | @cons _ r' _ rs' hr' hrs' =>
      rw [ih rs' hrs']
      congr 1
      have hs := holds_unique zero (solver.get s) n.toNat _ (by
        intro t ht
        simp only [keptOfRun, List.mem_map] at ht
        obtain ⟨i, -, rfl⟩ := ht
        exact trajectory_shape solver hp sched (s, scheds) (i + 1)) _ _ hr'.2 hr.2
      obtain ⟨c, d⟩ := r
      obtain ⟨c', d'⟩ := r'
      have hc : c' = c := hr'.1.trans hr.1.symm
      simp only at hs
      rw [hc, hs]

/-- The statistics reported by the solver in every iteration of a chain. -/
def runStats (solver : Solver S Vs Vt α) (sched : Scheduler Ks σs Vs Kt σt Vt Kb σb Kh σh)
    (x : S × List (SchedState σs σt σb σh)) (i : Nat) : Stats :=
  (solver.update (trajectory solver sched x i).1
    ((trajectory solver sched x i).2.map (schedGet sched))).2

omit [Inhabited Ks] [Inhabited Kt] [Inhabited Kb] [Inhabited Kh] in
theorem trajectory_scheds (solver : Solver S Vs Vt α)
    (sched : Scheduler Ks σs Vs Kt σt Vt Kb σb Kh σh) (s : S)
    (scheds : List (SchedState σs σt σb σh)) (i : Nat) :
    (trajectory solver sched (s, scheds) i).2
      = scheds.map (fun st => schedAfter sched st (runStats solver sched (s, scheds)) i) := by
  induction i with
  | zero => simp [trajectory, schedAfter]
  | succ i ih =>
    rw [trajectory]
    simp only [schedAfter, runStats]
    rw [ih, List.map_map]
    rfl

/-- **C42** (kept iterations).  The kept iterations are those of the main scheduler, which observes
the statistics reported by the solver; the number of kept samples is the number announced by the
scheduler under the conditions of C30 and C31. -/
theorem c42_kept_iterations (solver : Solver S Vs Vt α)
    (sched : Scheduler Ks σs Vs Kt σt Vt Kb σb Kh σh) (s : S) (main : SchedState σs σt σb σh)
    (hs : List (SchedState σs σt σb σh)) (its : Nat) :
    keptOfRun solver sched (s, main :: hs) its
      = (keptIterations sched main (runStats solver sched (s, main :: hs)) its).map
        (fun i => solver.get (trajectory solver sched (s, main :: hs) (i + 1)).1) := by
  unfold keptOfRun keptIterations
  congr 2
  funext i
  rw [isKept, trajectory_scheds]
  rfl

omit [Inhabited Ks] [Inhabited Kt] [Inhabited Kb] [Inhabited Kh] in
theorem mapExcept_inv {β γ : Type} (f : β → Except PyErr γ) (xs : List β) (ys : List γ)
    (h : mapExcept f xs = .ok ys) : List.Forall₂ (fun x y => f x = .ok y) xs ys := by
  induction xs generalizing ys with
  | nil => simp only [mapExcept, Except.ok.injEq] at h; subst h; exact .nil
  | cons x xs ih =>
    simp only [mapExcept] at h
    cases hx : f x with
    | error e => simp [hx] at h
    | ok y =>
      rw [hx] at h
      dsimp only at h
      cases hxs : mapExcept f xs with
      | error e => simp [hxs] at h
      | ok ys' =>
        rw [hxs] at h
        simp only [Except.ok.injEq] at h
        subst h
        exact .cons hx (ih ys' hxs)

/-- **C42** (schedulers).  The scheduler states of a chain are the main scheduler, initialized without
overrides, followed by one state for every entry of `schedulers`, in order, initialized with the
overrides of this entry.  The announced number of samples is that of the main scheduler. -/
theorem c42_schedulers (sched : Scheduler Ks σs Vs Kt σt Vt Kb σb Kh σh)
    (helpers : List (SchedKw Ks Kt Kb Kh)) (its : Nat) (scheds : List (SchedState σs σt σb σh))
    (n : Int) (h : mcmcSchedulers sched its helpers = .ok (scheds, n)) :
    ∃ main hs, schedInit sched its default = .ok (main, n) ∧ scheds = main :: hs ∧
      List.Forall₂ (fun kw st => ∃ n', schedInit sched its kw = .ok (st, n')) helpers hs := by
  simp only [mcmcSchedulers] at h
  cases hi : schedInit sched its default with
  | error e => simp [hi] at h
  | ok p =>
    rw [hi] at h
    dsimp only at h
    cases hm : mapExcept (fun kw => (schedInit sched its kw).map Prod.fst) helpers with
    | error e => simp [hm] at h
    | ok hs =>
      rw [hm] at h
      simp only [Except.ok.injEq, Prod.mk.injEq] at h
      refine ⟨p.1, hs, by rw [← h.2], h.1.symm, ?_⟩
      refine (mapExcept_inv _ _ _ hm).imp ?_
      intro kw st hk
      cases hkw : schedInit sched its kw with
      | error e => simp [hkw, Except.map] at hk
      | ok q =>
        rw [hkw] at hk
        simp only [Except.map, Except.ok.injEq] at hk
        exact ⟨q.2, by rw [← hk]⟩

/-- **C42** (schedules).  In iteration `i` the solver receives the current schedule of the main
scheduler, followed by those of the additional schedulers in order; all of them observe the statistics
reported by the solver, and only the main scheduler decides which iterations are kept. -/
theorem c42_schedules (solver : Solver S Vs Vt α)
    (sched : Scheduler Ks σs Vs Kt σt Vt Kb σb Kh σh)
    (helpers : List (SchedKw Ks Kt Kb Kh)) (its : Nat) (scheds : List (SchedState σs σt σb σh))
    (n : Int) (h : mcmcSchedulers sched its helpers = .ok (scheds, n)) (s : S) :
    ∃ main hs, schedInit sched its default = .ok (main, n) ∧
      List.Forall₂ (fun kw st => ∃ n', schedInit sched its kw = .ok (st, n')) helpers hs ∧
      (∀ i, (trajectory solver sched (s, scheds) (i + 1)).1
        = (solver.update (trajectory solver sched (s, scheds) i).1
          ((main :: hs).map (fun st =>
            schedGet sched (schedAfter sched st (runStats solver sched (s, scheds)) i)))).1) ∧
      keptOfRun solver sched (s, scheds) its
        = (keptIterations sched main (runStats solver sched (s, scheds)) its).map
          (fun i => solver.get (trajectory solver sched (s, scheds) (i + 1)).1) := by
  obtain ⟨main, hs, h1, rfl, h3⟩ := c42_schedulers sched helpers its scheds n h
  refine ⟨main, hs, h1, h3, ?_, c42_kept_iterations solver sched s main hs its⟩
  intro i
  rw [trajectory]
  dsimp only
  rw [trajectory_scheds, List.map_map]
  rfl

omit [Inhabited Kb] [Inhabited Kh] in
/-- **C42** (complete runs).  With a burn in of `b` iterations and no thinning, the result of every
chain consists exactly of the samples after iterations `b + 1, …, its`. -/
theorem c42_burn_in (zero : α → α) (solver : Solver S Vs Vt α) (hp : PreservesStructure solver)
    (sched : Scheduler Ks σs Vs Kt σt Vt (Option Int) Int Unit Unit) (b : Nat)
    (hb : sched.burnIn = initialBurnIn b) (ht : sched.thinning = noThinning)
    (its : Nat) (hbi : b ≤ its) (main : SchedState σs σt Int Unit) (n : Int)
    (hs : mcmcSchedulers sched its [] = .ok ([main], n)) (states : List S) :
    ∃ rs, mcmcMap (noSave zero) solver sched [] its () states = .ok ((), rs) ∧
      rs.length = states.length ∧
      ∀ (k : Nat) (s : S) (r : SaveResult α), states[k]? = some s → rs[k]? = some r →
        r.sampleCount = its - b ∧ (∀ l ∈ r.samples.leaves, l.length = its - b) ∧
        ∀ i < its - b, r.samples.map (fun l => l[i]?) =
          (solver.get (trajectory solver sched (s, [main]) (b + i + 1)).1).map some := by
  have hmain : schedInit sched its default = .ok (main, n) := by
    simp only [mcmcSchedulers] at hs
    cases hi : schedInit sched its default with
    | error e => simp [hi] at hs
    | ok p => simp [hi, mapExcept] at hs; rw [← hs.1, ← hs.2]
  have hcount : ∀ fb, (keptIterations sched main fb its).length = its - b ∧
      n = ((its - b : Nat) : Int) := fun fb =>
    c31_no_thinning sched b hb ht its hbi default rfl main n hmain fb
  have hn : n = ((its - b : Nat) : Int) := (hcount (fun _ => none)).2
  obtain ⟨rs, h1, h2, h3⟩ := c42_run zero solver hp sched [] its [main] n hs (by omega) states
  refine ⟨rs, h1, h2, ?_⟩
  intro k s r hk hr
  obtain ⟨g1, g2⟩ := h3 k s r hk hr
  have hkept : keptIterations sched main (runStats solver sched (s, [main])) its
      = (List.range (its - b)).map (fun i => b + i) := by
    have hlt : ∀ i < b, (schedGet sched (schedAfter sched main
        (runStats solver sched (s, [main])) i)).keep = false := fun i hi =>
      c32_burn_in sched b hb its default main n hmain _ i (by show (i : Int) < (b : Int); omega)
    have hge : ∀ i, b ≤ i → (schedGet sched (schedAfter sched main
        (runStats solver sched (s, [main])) i)).keep = true := fun i hi =>
      c32_after_burn_in sched b hb ht its default main n hmain _ i
        (by show (b : Int) ≤ (i : Int); omega)
    unfold keptIterations
    have hr : its = b + (its - b) := by omega
    conv_lhs => rw [hr, List.range_add]
    rw [List.filter_append, List.filter_eq_nil_iff.2, List.nil_append, List.filter_eq_self.2]
    · intro i hi
      obtain ⟨j, -, rfl⟩ := List.mem_map.1 hi
      exact hge _ (by omega)
    · intro i hi
      rw [hlt i (by simpa using hi)]
      simp
  have hlen : (keptOfRun solver sched (s, [main]) its).length = its - b := by
    rw [c42_kept_iterations, hkept]; simp
  refine ⟨by rw [g1, hlen], ?_, ?_⟩
  · intro l hl
    rw [g2.rows l hl, hn]
    simp
  · intro i hi
    rw [g2.row i (by rw [hn]; simpa using hi), c42_kept_iterations, hkept]
    simp [hi]

/-- **C43.** The result of every chain is the result of a run with this chain alone, in the order of
the initial states (device saving). -/
theorem c43_independent (zero : α → α) (solver : Solver S Vs Vt α)
    (sched : Scheduler Ks σs Vs Kt σt Vt Kb σb Kh σh) (helpers : List (SchedKw Ks Kt Kb Kh))
    (its : Nat) (states : List S) (rs : List (SaveResult α))
    (h : mcmcMap (noSave zero) solver sched helpers its () states = .ok ((), rs)) :
    List.Forall₂ (fun s r => mcmcMap (noSave zero) solver sched helpers its () [s] = .ok ((), [r]))
      states rs := by
  induction states generalizing rs with
  | nil => simp [mcmcMap] at h; subst h; exact .nil
  | cons s states ih =>
    simp only [mcmcMap] at h
    cases h1 : mcmcInit (noSave zero) solver sched helpers its () s with
    | error e => simp [h1] at h
    | ok p =>
      obtain ⟨u, x, sv⟩ := p
      cases h2 : mcmcScan (noSave zero) solver sched its () x sv with
      | error e => simp [h1, h2] at h
      | ok q =>
        obtain ⟨u', sv'⟩ := q
        cases h3 : (noSave zero).post () sv' with
        | error e => simp [h1, h2, h3] at h
        | ok w =>
          obtain ⟨u'', r⟩ := w
          simp only [h1, h2, h3] at h
          cases h4 : mcmcMap (noSave zero) solver sched helpers its () states with
          | error e => simp [h4] at h
          | ok v =>
            obtain ⟨u3, rs'⟩ := v
            simp only [h4, Except.ok.injEq, Prod.mk.injEq, true_and] at h
            subst h
            refine .cons ?_ (ih rs' h4)
            simp [mcmcMap, h1, h2, h3]

/-- **C43** (saving to the host).  The results do not depend on the chains saved before or
afterwards with the same collector. -/
theorem c43_independent_host (zero : α → α) (solver : Solver S Vs Vt α)
    (hp : PreservesStructure solver)
    (sched : Scheduler Ks σs Vs Kt σt Vt Kb σb Kh σh) (helpers : List (SchedKw Ks Kt Kb Kh))
    (its : Nat) (scheds : List (SchedState σs σt σb σh)) (n : Int)
    (hs : mcmcSchedulers sched its helpers = .ok (scheds, n)) (hn : 0 ≤ n)
    (C : MemCollector α) (states : List S)
    (hname : ∀ s ∈ states, Nameable C.saveDir (solver.get s))
    (hfit : ∀ s ∈ states, ((keptOfRun solver sched (s, scheds) its).length : Int) ≤ n) :
    ∃ C' rs, mcmcMap (hostSaving zero) solver sched helpers its C states = .ok (C', rs) ∧
      List.Forall₂ (fun s r => ∃ D,
        mcmcMap (hostSaving zero) solver sched helpers its (memNew C.saveDir) [s] = .ok (D, [r]))
        states rs := by
  obtain ⟨C', rs, h1, h2⟩ := c41_runs zero solver hp sched helpers its scheds n hs hn C states
    hname hfit
  refine ⟨C', rs, h1, ?_⟩
  have h3 := c43_independent zero solver sched helpers its states rs h2
  clear h1 h2
  induction h3 with
  | nil => exact .nil
  | @cons s r states rs hr hrs ih =>
    refine .cons ?_ (ih (fun s hs => hname s (by simp [hs])) (fun s hs => hfit s (by simp [hs])))
    obtain ⟨D, rs', g1, g2⟩ := c41_runs zero solver hp sched helpers its scheds n hs hn
      (memNew C.saveDir) [s] (by simpa [memNew] using hname s (by simp))
      (by simpa using hfit s (by simp))
    rw [hr] at g2
    simp only [Except.ok.injEq, Prod.mk.injEq, true_and] at g2
    exact ⟨D, by rw [g1, ← g2]⟩

end

end JaxSgmc
