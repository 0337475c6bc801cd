import Verif.Lemmas.Saving

/-!
# Lemmas about `mcmc`
-/

namespace JaxSgmc

open Spec

section
variable {Ks σs Vs Kt σt Vt Kb σb Kh σh S α H σ ρ : Type}

theorem noSave_run (zero : α → α) (init : Tree α) (n : Int) (hn : 0 ≤ n)
    (events : List (Bool × Tree α)) (he : ∀ e ∈ events, e.2.shape = init.shape) :
    ∃ r, runSaving (noSave zero) () init n events = .ok ((), r) ∧
      r.sampleCount = (keptSamples events).length ∧
      Holds zero init n.toNat (keptSamples events) r.samples := by
  obtain ⟨h1, h2⟩ := noSaveInit_ok zero init n hn
  obtain ⟨d, h3, h4⟩ := noSave_saveAll zero init n.toNat events he [] (by simp)
    ⟨0, init.map (fun a => List.replicate n.toNat (zero a))⟩ h2 rfl
  refine ⟨⟨(keptSamples events).length, d⟩, ?_, rfl, by simpa using h4⟩
  have hi : (noSave zero).init () init n
      = .ok ((), ⟨0, init.map (fun a => List.replicate n.toNat (zero a))⟩) := by
    simp [noSave, h1, Except.map]
  simp only [runSaving, hi, h3]
  simp [noSave]

theorem memRegister_ok (zero : α → α) (C : MemCollector α) (init : Tree α) (n : Int) (hn : 0 ≤ n)
    (hname : Nameable C.saveDir init) :
    ∃ ch, memRegister zero C init n
        = .ok ({ C with chains := C.chains ++ [ch] }, C.chains.length) ∧
      ChainHolds zero init n.toNat [] ch ∧ ch.locked = true ∧ memNames C.saveDir init = .ok ch.names := by
  obtain ⟨hne, names, hnames⟩ := hname
  refine ⟨⟨init.leaves.map (fun a => List.replicate n.toNat (zero a)), init.shape, 0, true, names⟩,
    ?_, ⟨rfl, rfl, holdsL_init zero init.leaves n.toNat⟩, rfl, hnames⟩
  have hneg : ¬ (n < 0 ∧ init.leaves ≠ []) := fun h => by omega
  cases init with
  | none => exact absurd rfl hne
  | leaf a => rw [memRegister, if_neg hneg, hnames]; simp
  | node k ts => rw [memRegister, if_neg hneg, hnames]; simp

theorem memFinalize_ok (C : MemCollector α) (id : Nat) (ch : MemChain α)
    (hch : C.chains[id]? = some ch) (hl : ch.locked = true) :
    ∃ files, memFinalize C id
      = .ok ⟨C.saveDir, C.chains.set id { ch with locked := false }, files⟩ ∧
      (C.saveDir = true → files = (id, ch.names.zip ch.buffers) :: C.files) := by
  obtain ⟨hlt, hget⟩ := List.getElem?_eq_some_iff.1 hch
  simp only [memFinalize, memRelease, hch, hl, if_true, memWrite]
  by_cases hd : C.saveDir = true
  · simp [hd, hlt]
  · simp [hd]

theorem memResult_ok (zero : α → α) (init : Tree α) (n : Nat) (kept : List (Tree α))
    (hk : ∀ s ∈ kept, s.shape = init.shape) (C : MemCollector α) (id : Nat) (ch : MemChain α)
    (hch : C.chains[id]? = some ch) (h : ChainHolds zero init n kept ch) :
    ∃ d, memResult C id = .ok d ∧ Holds zero init n kept d ∧ d.leaves = ch.buffers := by
  obtain ⟨d, h1, h2, h3⟩ := Tree.unflatten_ok ch.treedef ch.buffers (by
    rw [h.bufs.len, h.treedef, Tree.leaves_length_shape])
  refine ⟨d, by simp [memResult, hch, h1], ?_, h2⟩
  rw [holds_iff zero init n kept hk, h2]
  refine ⟨?_, h.bufs⟩
  rw [h3, h.treedef, Tree.shape, Tree.shape, Tree.map_map]

theorem host_run (zero : α → α) (C : MemCollector α) (init : Tree α) (n : Int) (hn : 0 ≤ n)
    (hname : Nameable C.saveDir init)
    (events : List (Bool × Tree α)) (he : ∀ e ∈ events, e.2.shape = init.shape)
    (hfit : ((keptSamples events).length : Int) ≤ n) :
    ∃ C' r, runSaving (hostSaving zero) C init n events = .ok (C', r) ∧
      C'.saveDir = C.saveDir ∧ (∃ ch, C'.chains = C.chains ++ [ch]) ∧
      r.sampleCount = (keptSamples events).length ∧
      Holds zero init n.toNat (keptSamples events) r.samples ∧
      (C.saveDir = true → ∃ names, memNames true init = .ok names ∧
        C'.files = (C.chains.length, names.zip r.samples.leaves) :: C.files) := by
  obtain ⟨ch, h1, h2, h3, hnm⟩ := memRegister_ok zero C init n hn hname
  have hget : ({ C with chains := C.chains ++ [ch] } : MemCollector α).chains[C.chains.length]?
      = some ch := by simp
  obtain ⟨ch', h4, h5, h6, hnm'⟩ := host_saveAll zero init n.toNat events he [] _ C.chains.length ch hget
    h2 (by simp only [List.nil_append]; omega) 0
  have hset : (C.chains ++ [ch]).set C.chains.length ch' = C.chains ++ [ch'] := by
    rw [List.set_append_right _ _ (le_refl _)]; simp
  dsimp only at h4
  rw [hset] at h4
  obtain ⟨files, h7, hfiles⟩ := memFinalize_ok ⟨C.saveDir, C.chains ++ [ch'], C.files⟩ C.chains.length ch'
    (by simp) (h6.trans h3)
  have hset2 : (C.chains ++ [ch']).set C.chains.length { ch' with locked := false }
      = C.chains ++ [{ ch' with locked := false }] := by
    rw [List.set_append_right _ _ (le_refl _)]; simp
  dsimp only at h7
  rw [hset2] at h7
  have h5' : ChainHolds zero init n.toNat (keptSamples events) { ch' with locked := false } :=
    ⟨h5.treedef, by simpa using h5.count, by simpa using h5.bufs⟩
  obtain ⟨d, h8, h9, hd⟩ := memResult_ok zero init n.toNat (keptSamples events)
    (keptSamples_shape events _ he)
    ⟨C.saveDir, C.chains ++ [{ ch' with locked := false }], files⟩ C.chains.length
    { ch' with locked := false } (by simp) h5'
  refine ⟨⟨C.saveDir, C.chains ++ [{ ch' with locked := false }], files⟩,
    ⟨(keptSamples events).length, d⟩, ?_, rfl, ⟨_, rfl⟩, rfl, h9, fun hdir => ⟨ch.names, by rw [← hdir]; exact hnm, ?_⟩⟩
  swap
  · show files = (C.chains.length, ch.names.zip d.leaves) :: C.files
    rw [hd, ← hnm']
    exact hfiles hdir
  have hi : (hostSaving zero).init C init n
      = .ok ({ C with chains := C.chains ++ [ch] }, ⟨C.chains.length, 0⟩) := by
    simp [hostSaving, h1]
  simp only [runSaving, hi, h4]
  simp [hostSaving, h7, h8]

/-- The samples with their flags passed to `save` during a run. -/
def runEvents (solver : Solver S Vs Vt α) (sched : Scheduler Ks σs Vs Kt σt Vt Kb σb Kh σh)
    (x : S × List (SchedState σs σt σb σh)) (n : Nat) : List (Bool × Tree α) :=
  (List.range n).map (fun i =>
    (isKept solver sched x i, solver.get (trajectory solver sched x (i + 1)).1))

theorem trajectory_step (solver : Solver S Vs Vt α)
    (sched : Scheduler Ks σs Vs Kt σt Vt Kb σb Kh σh)
    (x : S × List (SchedState σs σt σb σh)) (i : Nat) :
    trajectory solver sched (mcmcStep solver sched x).1 i = trajectory solver sched x (i + 1) := by
  induction i with
  | zero => rfl
  | succ i ih =>
    rw [trajectory, ih]
    rfl

theorem mcmcStep_keep (solver : Solver S Vs Vt α)
    (sched : Scheduler Ks σs Vs Kt σt Vt Kb σb Kh σh)
    (x : S × List (SchedState σs σt σb σh)) :
    (mcmcStep solver sched x).2.1 = isKept solver sched x 0 := by
  obtain ⟨s, l⟩ := x
  cases l <;> simp [mcmcStep, isKept, trajectory, Schedule.keep]

theorem runEvents_succ (solver : Solver S Vs Vt α)
    (sched : Scheduler Ks σs Vs Kt σt Vt Kb σb Kh σh)
    (x : S × List (SchedState σs σt σb σh)) (n : Nat) :
    runEvents solver sched x (n + 1)
      = (mcmcStep solver sched x).2 :: runEvents solver sched (mcmcStep solver sched x).1 n := by
  simp only [runEvents]
  rw [List.range_succ_eq_map, List.map_cons, List.map_map]
  congr 1
  · rw [← mcmcStep_keep]
    rfl
  · apply List.map_congr_left
    intro i _
    simp only [Function.comp_apply, Nat.succ_eq_add_one, trajectory_step, isKept]

theorem mcmcScan_eq (saving : Saving H σ ρ α) (solver : Solver S Vs Vt α)
    (sched : Scheduler Ks σs Vs Kt σt Vt Kb σb Kh σh) (n : Nat) (h : H)
    (x : S × List (SchedState σs σt σb σh)) (sv : σ) :
    mcmcScan saving solver sched n h x sv = saveAll saving h sv (runEvents solver sched x n) := by
  induction n generalizing h x sv with
  | zero => simp [mcmcScan, runEvents, saveAll]
  | succ n ih =>
    rw [runEvents_succ, saveAll, mcmcScan]
    cases saving.save h sv (mcmcStep solver sched x).2.1 (mcmcStep solver sched x).2.2 with
    | error e => rfl
    | ok r => exact ih _ _ _

theorem keptSamples_runEvents (solver : Solver S Vs Vt α)
    (sched : Scheduler Ks σs Vs Kt σt Vt Kb σb Kh σh)
    (x : S × List (SchedState σs σt σb σh)) (n : Nat) :
    keptSamples (runEvents solver sched x n) = keptOfRun solver sched x n := by
  simp only [keptSamples, runEvents, keptOfRun, List.filter_map, List.map_map]
  rfl

theorem trajectory_shape (solver : Solver S Vs Vt α) (hp : PreservesStructure solver)
    (sched : Scheduler Ks σs Vs Kt σt Vt Kb σb Kh σh)
    (x : S × List (SchedState σs σt σb σh)) (i : Nat) :
    (solver.get (trajectory solver sched x i).1).shape = (solver.get x.1).shape := by
  induction i with
  | zero => rfl
  | succ i ih => rw [trajectory, hp, ih]

theorem runEvents_shape (solver : Solver S Vs Vt α) (hp : PreservesStructure solver)
    (sched : Scheduler Ks σs Vs Kt σt Vt Kb σb Kh σh)
    (x : S × List (SchedState σs σt σb σh)) (n : Nat) :
    ∀ e ∈ runEvents solver sched x n, e.2.shape = (solver.get x.1).shape := by
  intro e he
  obtain ⟨i, -, rfl⟩ := List.mem_map.1 he
  exact trajectory_shape solver hp sched x (i + 1)

variable [Inhabited Ks] [Inhabited Kt] [Inhabited Kb] [Inhabited Kh]

/-- One chain of `run` with the strategy `map` is the life of a chain. -/
theorem mcmcMap_cons (saving : Saving H σ ρ α) (solver : Solver S Vs Vt α)
    (sched : Scheduler Ks σs Vs Kt σt Vt Kb σb Kh σh) (helpers : List (SchedKw Ks Kt Kb Kh))
    (its : Nat) (scheds : List (SchedState σs σt σb σh)) (n : Int)
    (hs : mcmcSchedulers sched its helpers = .ok (scheds, n)) (h : H) (s : S) (states : List S) :
    mcmcMap saving solver sched helpers its h (s :: states) =
      match runSaving saving h (solver.get s) n (runEvents solver sched (s, scheds) its) with
      | .error e => .error e
      | .ok (h3, r) =>
        match mcmcMap saving solver sched helpers its h3 states with
        | .error e => .error e
        | .ok (h4, rs) => .ok (h4, r :: rs) := by
  simp only [mcmcMap, mcmcInit, hs, runSaving]
  cases saving.init h (solver.get s) n with
  | error e => rfl
  | ok p =>
    obtain ⟨h1, sv⟩ := p
    simp only [mcmcScan_eq]
    cases saveAll saving h1 sv (runEvents solver sched (s, scheds) its) with
    | error e => rfl
    | ok q => rfl

end

end JaxSgmc
