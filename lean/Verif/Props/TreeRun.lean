import Verif.Spec.TreeRun
import Verif.Props.TreeSolver
import Verif.Props.AliasRun

/-!
# Complete runs on pytrees: C113
-/

namespace JaxSgmc

open Spec

/-! ## Solvers which cannot fail -/

section
variable {S T α H σ ρ Ks σs Vs Kt σt Vt Kb σb Kh σh : Type}

/-- If `solverT` on the states `f s` does what `solver` does on `s`, the runs are the same. -/
theorem mcmcMapT_pure [Inhabited Ks] [Inhabited Kt] [Inhabited Kb] [Inhabited Kh]
    (saving : Saving H σ ρ α) (f : T → S) (solverT : SolverT S Vs Vt α) (solver : Solver T Vs Vt α)
    (hu : ∀ s sc, solverT.update (f s) sc = .ok (f (solver.update s sc).1, (solver.update s sc).2))
    (hg : ∀ s, solverT.get (f s) = solver.get s)
    (sched : Scheduler Ks σs Vs Kt σt Vt Kb σb Kh σh) (helpers : List (SchedKw Ks Kt Kb Kh)) (its : Nat) :
    ∀ (states : List T) (h : H), mcmcMapT saving solverT sched helpers its h (states.map f)
      = mcmcMap saving solver sched helpers its h states := by
  have hscan : ∀ (n : Nat) (h : H) (s : T) (l : List (SchedState σs σt σb σh)) (sv : σ),
      mcmcScanT saving solverT sched n h (f s, l) sv = mcmcScan saving solver sched n h (s, l) sv := by
    intro n
    induction n with
    | zero => intros; rfl
    | succ n ih =>
      intro h s l sv
      rw [mcmcScanT, mcmcScan]
      simp only [mcmcStepT, hu, except_ok_bind, except_pure, hg, mcmcStep]
      cases saving.save h sv ((l.map (schedGet sched)).head?.map Schedule.keep |>.getD false)
          (solver.get (solver.update s (l.map (schedGet sched))).1) with
      | error e => rfl
      | ok p =>
        obtain ⟨h', sv'⟩ := p
        exact ih h' _ _ sv'
  intro states
  induction states with
  | nil => intro h; rfl
  | cons s states ih =>
    intro h
    rw [List.map_cons, mcmcMapT, mcmcMap]
    simp only [mcmcInitT, mcmcInit, hg]
    cases mcmcSchedulers sched its helpers with
    | error e => rfl
    | ok sc =>
      obtain ⟨sc, n⟩ := sc
      simp only [except_ok_bind]
      cases saving.init h (solver.get s) n with
      | error e => rfl
      | ok r =>
        obtain ⟨h1, sv⟩ := r
        simp only [except_ok_bind, except_pure, hscan]
        cases mcmcScan saving solver sched its h1 (s, sc) sv with
        | error e => rfl
        | ok q =>
          obtain ⟨h2, sv2⟩ := q
          simp only [except_ok_bind]
          cases saving.post h2 sv2 with
          | error e => rfl
          | ok p =>
            obtain ⟨h3, r3⟩ := p
            simp only [except_ok_bind, ih]
            cases mcmcMap saving solver sched helpers its h3 states with
            | error e => rfl
            | ok q => rfl

end

/-- A state on trees together with the related state on vectors. -/
abbrev PairState {S S' : Type} (R : S → S' → Prop) := {x : S × S' // R x.1 x.2}

section
variable {S S' P α κ : Type} {R : S → S' → Prop}

/-- The updates of both states. -/
noncomputable def pairUpdate {B : Type} (uT : S → P → Except PyErr (S × B)) (u : S' → P → S' × B)
    (hu : ∀ t s, R t s → ∀ p, ∃ r, uT t p = .ok (r, (u s p).2) ∧ R r (u s p).1) (x : PairState R) (p : P) :
    PairState R × B :=
  (⟨((hu x.1.1 x.1.2 x.2 p).choose, (u x.1.2 p).1), (hu x.1.1 x.1.2 x.2 p).choose_spec.2⟩, (u x.1.2 p).2)

/-- Both states are updated by the solvers. -/
noncomputable def pairSolver {Vs Vt : Type} (solverT : SolverT S Vs Vt α) (solver : Solver S' Vs Vt Unit)
    (hu : ∀ t s, R t s → ∀ sc, ∃ r, solverT.update t sc = .ok (r, (solver.update s sc).2) ∧
      R r (solver.update s sc).1) : Solver (PairState R) Vs Vt α :=
  ⟨pairUpdate solverT.update solver.update hu, fun x => solverT.get x.1.1⟩

theorem forall₂_pairs {states : List S} {states' : List S'} (hst : List.Forall₂ R states states') :
    ∃ xs : List (PairState R), xs.map (fun x => x.1.1) = states ∧ xs.map (fun x => x.1.2) = states' := by
  induction hst with
  | nil => exact ⟨[], rfl, rfl⟩
  | @cons a b _ _ h _ ih =>
    obtain ⟨xs, h1, h2⟩ := ih
    exact ⟨⟨(a, b), h⟩ :: xs, by rw [List.map_cons, h1], by rw [List.map_cons, h2]⟩

/-- Results about the pairs of states are results about the states on trees. -/
theorem lift_run {Ks σs Vs Kt σt Vt Kb σb Kh σh : Type} [Inhabited Ks] [Inhabited Kt] [Inhabited Kb] [Inhabited Kh]
    (zero : α → α) (solverT : SolverT S Vs Vt α) (solver : Solver S' Vs Vt Unit)
    (hu : ∀ t s, R t s → ∀ sc, ∃ r, solverT.update t sc = .ok (r, (solver.update s sc).2) ∧
      R r (solver.update s sc).1)
    (sched : Scheduler Ks σs Vs Kt σt Vt Kb σb Kh σh) (helpers : List (SchedKw Ks Kt Kb Kh)) (its : Nat)
    (kept : List Nat) (scheds : Nat → List (Schedule Vs Vt))
    (hrun : ∀ xs : List (PairState R), ∃ rs : List (SaveResult α),
      mcmcMap (noSave zero) (pairSolver solverT solver hu) sched helpers its () xs = .ok ((), rs) ∧
      (∀ C : MemCollector α, C.saveDir = false → ∃ C', mcmcMap (hostSaving zero) (pairSolver solverT solver hu) sched
        helpers its C xs = .ok (C', rs)) ∧
      List.Forall₂ (fun s r => ReturnedSamples (kept.map fun i => (pairSolver solverT solver hu).get
        (drive (pairSolver solverT solver hu) scheds s (i + 1))) r) xs rs)
    (states : List S) (states' : List S') (hst : List.Forall₂ R states states') :
    ∃ rs : List (SaveResult α),
      mcmcMapT (noSave zero) solverT sched helpers its () states = .ok ((), rs) ∧
      (∀ C : MemCollector α, C.saveDir = false → ∃ C', mcmcMapT (hostSaving zero) solverT sched helpers its C states
        = .ok (C', rs)) ∧
      List.Forall₂ (fun s r => ∃ ts : ℕ → S, (∀ i, R (ts i) (drive solver scheds s i)) ∧
        ReturnedSamples (kept.map fun i => solverT.get (ts (i + 1))) r) states' rs := by
  obtain ⟨xs, rfl, rfl⟩ := forall₂_pairs hst
  obtain ⟨rs, h1, h2, h3⟩ := hrun xs
  have hu' : ∀ (x : PairState R) sc, solverT.update x.1.1 sc
      = .ok ((fun y : PairState R => y.1.1) ((pairSolver solverT solver hu).update x sc).1,
        ((pairSolver solverT solver hu).update x sc).2) := fun x sc =>
    (hu x.1.1 x.1.2 x.2 sc).choose_spec.1
  have e := fun {H σ ρ : Type} (saving : Saving H σ ρ α) =>
    mcmcMapT_pure saving (fun x : PairState R => x.1.1) solverT (pairSolver solverT solver hu) hu' (fun _ => rfl)
      sched helpers its
  refine ⟨rs, by rw [e, h1], fun C hC => ?_, ?_⟩
  · obtain ⟨C', hC'⟩ := h2 C hC
    exact ⟨C', by rw [e, hC']⟩
  · rw [List.forall₂_map_left_iff]
    refine h3.imp ?_
    intro x r hr
    have hd : ∀ i, (drive (pairSolver solverT solver hu) scheds x i).1.2 = drive solver scheds x.1.2 i := by
      intro i
      induction i with
      | zero => rfl
      | succ i ih =>
        rw [drive, drive, ← ih]
        rfl
    exact ⟨fun i => (drive (pairSolver solverT solver hu) scheds x i).1.1,
      fun i => by rw [← hd]; exact (drive (pairSolver solverT solver hu) scheds x i).2, hr⟩

/-- The runs with the schedule of `sgld`, `sghmc`, `obabo` and `re_sgld`, for a solver on trees which is related to a
solver on vectors. -/
theorem thinned_runT (zero : α → α) (solverT : SolverT S XF ℝ α) (solver : Solver S' XF ℝ Unit)
    (hu : ∀ t s, R t s → ∀ sc, ∃ r, solverT.update t sc = .ok (r, (solver.update s sc).2) ∧
      R r (solver.update s sc).1)
    (hshape : ∀ t s t' s', R t s → R t' s' → (solverT.get t).shape = (solverT.get t').shape)
    (hne : ∀ t, solverT.get t ≠ .none)
    (gumbel : κ → Nat → ℝ) (key : κ) (first last : ℝ) (burnIn accepted : Nat) (bar : Bool)
    (temps : List ℝ) (hl : 0 < last) (hfl : last < first) (its : Nat) (hits : 2 ≤ its)
    (hfit : burnIn + accepted ≤ its) :
    ∃ (step : Nat → ℝ) (kept : List Nat) (scheds : Nat → List (Schedule XF ℝ)),
      DecreasingSteps first last its step ∧ Thinned burnIn its accepted kept ∧
      (∀ i < its, (scheds i).map toParams = ⟨step i, 1⟩ :: temps.map fun τ => ⟨step i, τ⟩) ∧
      ∀ (states : List S) (states' : List S'), List.Forall₂ R states states' → ∃ rs : List (SaveResult α),
      mcmcMapT (noSave zero) solverT (aliasThinned gumbel key first last burnIn accepted bar)
        (temps.map (helperKw κ)) its () states = .ok ((), rs) ∧
      (∀ C : MemCollector α, C.saveDir = false → ∃ C', mcmcMapT (hostSaving zero) solverT
        (aliasThinned gumbel key first last burnIn accepted bar)
        (temps.map (helperKw κ)) its C states = .ok (C', rs)) ∧
      List.Forall₂ (fun s r => ∃ ts : ℕ → S, (∀ i, R (ts i) (drive solver scheds s i)) ∧
        ReturnedSamples (kept.map fun i => solverT.get (ts (i + 1))) r) states' rs := by
  obtain ⟨step, kept, scheds, hD, hT, hS, hrun⟩ := thinned_run gumbel key first last burnIn accepted bar zero
    (pairSolver solverT solver hu)
    (by intro s sc; exact hshape _ _ _ _ (pairUpdate solverT.update solver.update hu s sc).1.2 s.2)
    (fun s => hne _) temps hl hfl its hits hfit
  exact ⟨step, kept, scheds, hD, hT, hS, lift_run zero solverT solver hu _ _ its kept scheds hrun⟩

/-- The runs with the schedule of `amagold` and `sggmc`. -/
theorem all_runT (zero : α → α) (solverT : SolverT S XF ℝ α) (solver : Solver S' XF ℝ Unit)
    (hu : ∀ t s, R t s → ∀ sc, ∃ r, solverT.update t sc = .ok (r, (solver.update s sc).2) ∧
      R r (solver.update s sc).1)
    (hshape : ∀ t s t' s', R t s → R t' s' → (solverT.get t).shape = (solverT.get t').shape)
    (hne : ∀ t, solverT.get t ≠ .none) (first last : ℝ) (burnIn : Nat) (bar : Bool)
    (hl : 0 < last) (hfl : last < first) (its : Nat) (hits : 2 ≤ its) (hfit : burnIn ≤ its) :
    ∃ (step : Nat → ℝ) (kept : List Nat) (scheds : Nat → List (Schedule XF ℝ)),
      DecreasingSteps first last its step ∧ Thinned burnIn its (its - burnIn) kept ∧
      (∀ i < its, (scheds i).map toParams = [⟨step i, 1⟩]) ∧
      ∀ (states : List S) (states' : List S'), List.Forall₂ R states states' → ∃ rs : List (SaveResult α),
      mcmcMapT (noSave zero) solverT (aliasAll first last burnIn bar) [] its () states = .ok ((), rs) ∧
      (∀ C : MemCollector α, C.saveDir = false → ∃ C', mcmcMapT (hostSaving zero) solverT
        (aliasAll first last burnIn bar) [] its C states = .ok (C', rs)) ∧
      List.Forall₂ (fun s r => ∃ ts : ℕ → S, (∀ i, R (ts i) (drive solver scheds s i)) ∧
        ReturnedSamples (kept.map fun i => solverT.get (ts (i + 1))) r) states' rs := by
  obtain ⟨step, kept, scheds, hD, hT, hS, hrun⟩ := all_run zero (pairSolver solverT solver hu)
    (by intro s sc; exact hshape _ _ _ _ (pairUpdate solverT.update solver.update hu s sc).1.2 s.2)
    (fun s => hne _) first last burnIn bar hl hfl its hits hfit
  exact ⟨step, kept, scheds, hD, hT, hS, lift_run zero solverT solver hu _ _ its kept scheds hrun⟩

end

/-! ## The solvers -/

section
variable {S S' α : Type} {R : S → S' → Prop}

theorem sgmcSolverT_same {uT : S → Params → Except PyErr S} {u : S' → Params → S'}
    (hu : ∀ t s, R t s → ∀ p, ∃ r, uT t p = .ok r ∧ R r (u s p)) (getT : S → Tree α) (get : S' → Tree Unit) :
    ∀ t s, R t s → ∀ sc, ∃ r, (sgmcSolverT uT getT).update t sc = .ok (r, ((sgmcSolver u get).update s sc).2) ∧
      R r ((sgmcSolver u get).update s sc).1 := by
  intro t s h sc
  cases sc with
  | nil => exact ⟨t, rfl, h⟩
  | cons m ms =>
    obtain ⟨r, r1, r2⟩ := hu t s h (toParams m)
    exact ⟨r, by simp only [sgmcSolverT, r1]; rfl, r2⟩

theorem ptSolverT_same {uT : S → Params → Params → Except PyErr S} {u : S' → Params → Params → S'}
    (hu : ∀ t s, R t s → ∀ p q, ∃ r, uT t p q = .ok r ∧ R r (u s p q)) (getT : S → Tree α) (get : S' → Tree Unit) :
    ∀ t s, R t s → ∀ sc, ∃ r, (ptSolverT uT getT).update t sc = .ok (r, ((ptSolver u get).update s sc).2) ∧
      R r ((ptSolver u get).update s sc).1 := by
  intro t s h sc
  rcases sc with _ | ⟨m, _ | ⟨m', ms⟩⟩
  · exact ⟨t, rfl, h⟩
  · exact ⟨t, rfl, h⟩
  · obtain ⟨r, r1, r2⟩ := hu t s h (toParams m) (toParams m')
    exact ⟨r, by simp only [ptSolverT, r1]; rfl, r2⟩

theorem mhSolverT_same {uT : S → Params → Except PyErr (S × XF)} {u : S' → Params → S' × XF}
    (hu : ∀ t s, R t s → ∀ p, ∃ r, uT t p = .ok (r, (u s p).2) ∧ R r (u s p).1) (getT : S → Tree α)
    (get : S' → Tree Unit) :
    ∀ t s, R t s → ∀ sc, ∃ r, (mhSolverT uT getT).update t sc = .ok (r, ((mhSolver u get).update s sc).2) ∧
      R r ((mhSolver u get).update s sc).1 := by
  intro t s h sc
  cases sc with
  | nil => exact ⟨t, rfl, h⟩
  | cons m ms =>
    obtain ⟨r, r1, r2⟩ := hu t s h (toParams m)
    exact ⟨r, by simp only [mhSolverT, r1]; rfl, r2⟩

end

/-! ## C113 -/

section
variable {x0 : Tree (Arr ℝ)} {κ δ β μ φ A A' : Type}

theorem entries_shape {a b : Tree (Arr ℝ)} {v w : Fin (ravel x0).length → ℝ} (ha : Entries x0 a v)
    (hb : Entries x0 b w) (f : Arr ℝ → OutLeafT μ) : (a.map f).shape = (b.map f).shape := by
  have h : a.map Arr.shape = b.map Arr.shape := ha.2.1.trans hb.2.1.symm
  have : (a.map Arr.shape).map (fun _ => ()) = (b.map Arr.shape).map (fun _ => ()) := by rw [h]
  simpa only [Tree.shape, Tree.map_map, Function.comp_def] using this

theorem node3_shape {k : Kind} {a b c a' b' c' : Tree (OutLeafT μ)} (h1 : a.shape = a'.shape)
    (h2 : b.shape = b'.shape) (h3 : c.shape = c'.shape) :
    (Tree.node k [a, b, c]).shape = (Tree.node k [a', b', c']).shape := by
  simp only [Tree.shape, Tree.map, Tree.mapL] at *
  rw [h1, h2, h3]

theorem langevinGetT_shape {rel : A → A' → Prop} {t t' : LangevinStateT κ δ μ A}
    {s s' : LangevinState (Fin (ravel x0).length) κ δ μ A'} (h : SameLangevin x0 rel t s)
    (h' : SameLangevin x0 rel t' s') : (langevinGetT t).shape = (langevinGetT t').shape :=
  node3_shape rfl rfl (entries_shape h.1 h'.1 _)

theorem langevinGetT_report {rel : A → A' → Prop} {t : LangevinStateT κ δ μ A}
    {s : LangevinState (Fin (ravel x0).length) κ δ μ A'} (h : SameLangevin x0 rel t s) :
    langevinGetT t = langevinReport s t.latent := by
  obtain ⟨-, h2, -, -, h5, -⟩ := h
  simp only [langevinGetT, langevinReport, reportDict, Reported.tree, List.map, h2, h5]

/-- The returned samples, from the related states. -/
theorem returned_trees {S S' : Type} {R : S → S' → Prop} {getT : S → Tree (OutLeafT μ)} {ts : ℕ → S} {ss : ℕ → S'}
    (hR : ∀ i, R (ts i) (ss i)) {kept : List ℕ} {r : SaveResult (OutLeafT μ)}
    (hr : ReturnedSamples (kept.map fun i => getT (ts (i + 1))) r) (pos : S → Tree (Arr ℝ))
    (run : ℕ → S') (hrun : ∀ i ∈ kept, ss (i + 1) = run i) (entries : S' → Fin (ravel x0).length → ℝ)
    (report : S' → Tree (Arr ℝ) → Tree (OutLeafT μ)) (he : ∀ t s, R t s → Entries x0 (pos t) (entries s))
    (hg : ∀ t s, R t s → getT t = report s (pos t)) :
    ReturnedTrees x0 kept (fun i => entries (run i)) (fun i x => report (run i) x) r := by
  refine ⟨fun i => pos (ts (i + 1)), ?_, ?_⟩
  · intro i hi
    dsimp only
    rw [← hrun i hi]
    exact he _ _ (hR _)
  · convert hr using 1
    apply List.map_congr_left
    intro i hi
    dsimp only
    rw [← hrun i hi, hg _ _ (hR _)]

/-- **C113** (`alias.sgld`).  For initial samples which are trees of arrays of the same structure and shapes, the run
never fails; exactly `accepted_samples` samples per chain are returned, in the order of the chains, and every sample
is a tree of the same structure and shapes whose entries are those of the run of SGLD on vectors, after iterations
chosen after the burn in.  It makes no difference whether they are saved on the device or the host. -/
theorem c113_sgld (h0 : ValidTree x0) (zero : OutLeafT μ → OutLeafT μ) (P : Prng κ) (key0 : κ)
    (flatBatch : β → List ℝ) (getData : δ → δ × β) (sgT : StochGradLikT β μ)
    (sg : StochGradLik (Fin (ravel x0).length) β μ) (hsg : SameGradient x0 sgT sg) (ms : μ) (gumbel : κ → Nat → ℝ)
    (first last : ℝ) (burnIn accepted : Nat) (bar : Bool) (its : Nat) (hl : 0 < last) (hfl : last < first)
    (hits : 2 ≤ its) (hfit : burnIn + accepted ≤ its) :
    ∃ (step : Nat → ℝ) (kept : List Nat),
      DecreasingSteps first last its step ∧ Thinned burnIn its accepted kept ∧
      ∀ (chains : List (Tree (Arr ℝ) × δ)) (vectors : List ((Fin (ravel x0).length → ℝ) × δ)),
        SameChains x0 chains vectors → ∃ rs : List (SaveResult (OutLeafT μ)),
        runSgldT (noSave zero) P key0 (none : Option (FlatStrategy A)) flatBatch getData sgT ms gumbel first last
          burnIn accepted bar its () chains = .ok ((), rs) ∧
        (∀ C : MemCollector (OutLeafT μ), C.saveDir = false → ∃ C',
          runSgldT (hostSaving zero) P key0 (none : Option (FlatStrategy A)) flatBatch getData sgT ms gumbel first
            last burnIn accepted bar its C chains = .ok (C', rs)) ∧
        List.Forall₂ (fun c r =>
          let run := fun i => langevinRun P (layoutOf x0) (none : Option (AdaptStrategy _ β Unit)) getData sg
            (langevinInit c.2 c.1 key0 none ms) (paramsUpTo step 1 (i + 1))
          ReturnedTrees x0 kept (fun i => (run i).latent) (fun i x => langevinReport (run i) x) r) vectors rs := by
  have hu := fun (t : LangevinStateT κ δ μ A) (s : LangevinState (Fin (ravel x0).length) κ δ μ Unit)
    (h : SameLangevin x0 (fun _ _ => True) t s) p => langevinUpdateT_plain h0 P flatBatch getData hsg h p
  obtain ⟨step, kept, scheds, hD, hT, hS, hrun⟩ := thinned_runT zero _ _
    (sgmcSolverT_same hu langevinGetT (fun _ => .none)) (by
      intro t s t' s' h h'
      exact langevinGetT_shape h h') (fun t => by simp [sgmcSolverT, langevinGetT]) gumbel key0 first last burnIn accepted bar [] hl hfl its
      hits hfit
  refine ⟨step, kept, hD, hT, ?_⟩
  intro chains vs hc
  obtain ⟨rs, h1, h2, h3⟩ := hrun (chains.map fun c => langevinInitT none c.2 c.1 key0 ms)
    (vs.map fun c => langevinInit c.2 c.1 key0 none ms) (by
      rw [List.forall₂_map_left_iff, List.forall₂_map_right_iff]
      refine hc.imp ?_
      rintro ⟨c, d⟩ ⟨v, d'⟩ ⟨e1, e2⟩
      exact ⟨e1, rfl, rfl, e2, rfl, rfl, rfl, trivial⟩)
  refine ⟨rs, h1, h2, ?_⟩
  refine (forall₂_map_left' _ _ _ _ h3).imp ?_
  rintro c r ⟨ts, t1, t2⟩
  exact returned_trees t1 t2 (fun t => t.latent) _
    (fun i hi => by
      rw [sgmc_drive _ _ scheds step its hS _ _ (by have := (hT.range i hi).2; omega)]
      rfl)
    (fun s => s.latent) langevinReport (fun _ _ h => h.1) (fun _ _ h => langevinGetT_report h)

/-- **C113** (`alias.sgld` with a preconditioner). -/
theorem c113_adapted (h0 : ValidTree x0) (zero : OutLeafT μ → OutLeafT μ) (P : Prng κ) (key0 : κ)
    (flatBatch : β → List ℝ) (getData : δ → δ × β) (sgT : StochGradLikT β μ)
    (sg : StochGradLik (Fin (ravel x0).length) β μ) (hsg : SameGradient x0 sgT sg)
    (S : FlatStrategy A) (ad : AdaptStrategy (Fin (ravel x0).length) β A') (rel : A → A' → Prop)
    (hS : SameStrategy _ flatBatch S ad rel) (adaptInit : (Fin (ravel x0).length → ℝ) → A')
    (hinit : ∀ x, rel (S.init (List.ofFn x)) (adaptInit x)) (ms : μ) (gumbel : κ → Nat → ℝ)
    (first last : ℝ) (burnIn accepted : Nat) (bar : Bool) (its : Nat) (hl : 0 < last) (hfl : last < first)
    (hits : 2 ≤ its) (hfit : burnIn + accepted ≤ its) :
    ∃ (step : Nat → ℝ) (kept : List Nat),
      DecreasingSteps first last its step ∧ Thinned burnIn its accepted kept ∧
      ∀ (chains : List (Tree (Arr ℝ) × δ)) (vectors : List ((Fin (ravel x0).length → ℝ) × δ)),
        SameChains x0 chains vectors → ∃ rs : List (SaveResult (OutLeafT μ)),
        runSgldT (noSave zero) P key0 (some S) flatBatch getData sgT ms gumbel first last
          burnIn accepted bar its () chains = .ok ((), rs) ∧
        (∀ C : MemCollector (OutLeafT μ), C.saveDir = false → ∃ C',
          runSgldT (hostSaving zero) P key0 (some S) flatBatch getData sgT ms gumbel first
            last burnIn accepted bar its C chains = .ok (C', rs)) ∧
        List.Forall₂ (fun c r =>
          let run := fun i => langevinRun P (layoutOf x0) (some ad) getData sg
            (langevinInit c.2 c.1 key0 (some (adaptInit c.1)) ms) (paramsUpTo step 1 (i + 1))
          ReturnedTrees x0 kept (fun i => (run i).latent) (fun i x => langevinReport (run i) x) r) vectors rs := by
  have hu : ∀ (t : LangevinStateT κ δ μ A) (s : LangevinState (Fin (ravel x0).length) κ δ μ A'),
      (SameLangevin x0 rel t s ∧ s.adaptState.isSome) → ∀ p, ∃ r,
        langevinUpdateT P (some S) flatBatch getData sgT t p = .ok r ∧
        (SameLangevin x0 rel r (langevinUpdate P (layoutOf x0) (some ad) getData sg s p) ∧
          (langevinUpdate P (layoutOf x0) (some ad) getData sg s p).adaptState.isSome) := fun t s h p =>
    langevinUpdateT_adapted h0 P flatBatch getData hsg hS h.1 h.2 p
  obtain ⟨step, kept, scheds, hD, hT, hS, hrun⟩ := thinned_runT zero _ _
    (sgmcSolverT_same (R := fun t s => SameLangevin x0 rel t s ∧ s.adaptState.isSome) hu langevinGetT
      (fun _ => .none)) (by
      intro t s t' s' h h'
      exact langevinGetT_shape h.1 h'.1) (fun t => by simp [sgmcSolverT, langevinGetT]) gumbel key0 first last burnIn
      accepted bar [] hl hfl its hits hfit
  refine ⟨step, kept, hD, hT, ?_⟩
  intro chains vs hc
  obtain ⟨rs, h1, h2, h3⟩ := hrun (chains.map fun c => langevinInitT (some S) c.2 c.1 key0 ms)
    (vs.map fun c => langevinInit c.2 c.1 key0 (some (adaptInit c.1)) ms) (by
      rw [List.forall₂_map_left_iff, List.forall₂_map_right_iff]
      refine hc.imp ?_
      rintro ⟨c, d⟩ ⟨v, d'⟩ ⟨e1, e2⟩
      refine ⟨⟨e1, rfl, rfl, e2, rfl, rfl, rfl, ⟨v, e1⟩, ?_⟩, rfl⟩
      have := hinit v
      rw [← e1.2.2] at this
      exact this)
  refine ⟨rs, h1, h2, ?_⟩
  refine (forall₂_map_left' _ _ _ _ h3).imp ?_
  rintro c r ⟨ts, t1, t2⟩
  exact returned_trees (R := fun (t : LangevinStateT κ δ μ A) (s : LangevinState (Fin (ravel x0).length) κ δ μ A') =>
      SameLangevin x0 rel t s ∧ s.adaptState.isSome) t1 t2 (fun t => t.latent) _
    (fun i hi => by
      rw [sgmc_drive _ _ scheds step its hS _ _ (by have := (hT.range i hi).2; omega)]
      rfl)
    (fun s => s.latent) langevinReport (fun _ _ h => h.1.1) (fun _ _ h => langevinGetT_report h.1)

/-- **C113** (`alias.sgld` with `rms_prop=True`). -/
theorem c113_psgld (h0 : ValidTree x0) (zero : OutLeafT μ → OutLeafT μ) (P : Prng κ) (key0 : κ)
    (flatBatch : β → List ℝ) (getData : δ → δ × β) (sgT : StochGradLikT β μ)
    (sg : StochGradLik (Fin (ravel x0).length) β μ) (hsg : SameGradient x0 sgT sg) (alpha lmbd : ℝ)
    (ms : μ) (gumbel : κ → Nat → ℝ)
    (first last : ℝ) (burnIn accepted : Nat) (bar : Bool) (its : Nat) (hl : 0 < last) (hfl : last < first)
    (hits : 2 ≤ its) (hfit : burnIn + accepted ≤ its) :
    ∃ (step : Nat → ℝ) (kept : List Nat),
      DecreasingSteps first last its step ∧ Thinned burnIn its accepted kept ∧
      ∀ (chains : List (Tree (Arr ℝ) × δ)) (vectors : List ((Fin (ravel x0).length → ℝ) × δ)),
        SameChains x0 chains vectors → ∃ rs : List (SaveResult (OutLeafT μ)),
        runSgldT (noSave zero) P key0 (some (rmsFlat alpha lmbd)) flatBatch getData sgT ms gumbel first last
          burnIn accepted bar its () chains = .ok ((), rs) ∧
        (∀ C : MemCollector (OutLeafT μ), C.saveDir = false → ∃ C',
          runSgldT (hostSaving zero) P key0 (some (rmsFlat alpha lmbd)) flatBatch getData sgT ms gumbel first
            last burnIn accepted bar its C chains = .ok (C', rs)) ∧
        List.Forall₂ (fun c r =>
          let run := fun i => langevinRun P (layoutOf x0) (some rmsStrategy) getData sg
            (langevinInit c.2 c.1 key0 (some (rmsInit c.1 alpha lmbd)) ms) (paramsUpTo step 1 (i + 1))
          ReturnedTrees x0 kept (fun i => (run i).latent) (fun i x => langevinReport (run i) x) r) vectors rs :=
  c113_adapted h0 zero P key0 flatBatch getData sgT sg hsg (rmsFlat alpha lmbd) rmsStrategy _
    (rms_same _ alpha lmbd flatBatch) (fun x => rmsInit x alpha lmbd)
    (fun x => ⟨by
      apply List.ext_getElem
      · simp [rmsFlat]
      · intro i g1 g2
        simp [rmsFlat, rmsInit], rfl, rfl⟩) ms gumbel first last burnIn accepted bar its hl hfl hits hfit

/-- **C113** (`alias.re_sgld`).  As for `sgld`; the second sample of every pair starts the chain with the temperature
`temperature`, and the samples are those of the first one. -/
theorem c113_re_sgld (h0 : ValidTree x0) (zero : OutLeafT μ → OutLeafT μ) (P : Prng κ) (key0 : κ)
    (flatBatch : β → List ℝ) (getData : δ → δ × β) (sgT : StochGradLikT β μ)
    (sg : StochGradLik (Fin (ravel x0).length) β μ) (hsg : SameGradient x0 sgT sg) (ms : μ) (gumbel : κ → Nat → ℝ)
    (temperature first last : ℝ) (burnIn accepted : Nat) (its : Nat) (hl : 0 < last) (hfl : last < first)
    (hits : 2 ≤ its) (hfit : burnIn + accepted ≤ its) :
    ∃ (step : Nat → ℝ) (kept : List Nat),
      DecreasingSteps first last its step ∧ Thinned burnIn its accepted kept ∧
      ∀ (chains hots : List (Tree (Arr ℝ) × δ)) (vectors hotVectors : List ((Fin (ravel x0).length → ℝ) × δ)),
        chains.length = hots.length → SameChains x0 chains vectors → SameChains x0 hots hotVectors →
        ∃ rs : List (SaveResult (OutLeafT μ)),
        runReSgldT (noSave zero) P key0 flatBatch getData sgT ms gumbel temperature first last burnIn accepted
          its () (chains.zip hots) = .ok ((), rs) ∧
        (∀ C : MemCollector (OutLeafT μ), C.saveDir = false → ∃ C',
          runReSgldT (hostSaving zero) P key0 flatBatch getData sgT ms gumbel temperature first last burnIn accepted
            its C (chains.zip hots) = .ok (C', rs)) ∧
        List.Forall₂ (fun c r =>
          let run := fun i => (ptRun P (fun n => 1 / n)
            (langevinUpdate P (layoutOf x0) (none : Option (AdaptStrategy _ β Unit)) getData sg)
            { normal := langevinInit c.1.2 c.1.1 (P.split key0 3 1) none ms
              hot := langevinInit c.2.2 c.2.1 (P.split key0 3 2) none ms
              ssq := 0, F := 1, step := 0, key := P.split key0 3 0, drawn := [] }
            ((paramsUpTo step 1 (i + 1)).zip (paramsUpTo step temperature (i + 1)))).normal
          ReturnedTrees x0 kept (fun i => (run i).latent) (fun i x => langevinReport (run i) x) r)
          (vectors.zip hotVectors) rs := by
  have hu : ∀ (t : PtStateT κ δ μ Unit) (s : PtState (Fin (ravel x0).length) κ δ μ Unit),
      SamePt x0 (fun _ _ => True) t s → ∀ p q, ∃ r,
        ptUpdateT P (fun n => 1 / n) (langevinUpdateT P none flatBatch getData sgT) t p q = .ok r ∧
        SamePt x0 (fun _ _ => True) r (ptUpdate P (fun n => 1 / n)
          (langevinUpdate P (layoutOf x0) none getData sg) s p q) := by
    intro t s h p q
    obtain ⟨r, r1, r2, -⟩ := ptUpdateT_same P (fun n => 1 / n) (fun _ _ => True) (fun _ => True)
      (fun t s h _ p => by
        obtain ⟨r, r1, r2⟩ := langevinUpdateT_plain h0 P flatBatch getData hsg h p
        exact ⟨r, r1, r2, trivial⟩) h ⟨trivial, trivial⟩ p q
    exact ⟨r, r1, r2⟩
  obtain ⟨step, kept, scheds, hD, hT, hS, hrun⟩ := thinned_runT zero _ _
    (ptSolverT_same hu (fun s => langevinGetT s.normal) (fun _ => .none)) (by
      intro t s t' s' h h'
      exact langevinGetT_shape h.normal h'.normal) (fun t => by simp [ptSolverT, langevinGetT]) gumbel key0 first last
      burnIn accepted false [temperature] hl hfl its hits hfit
  refine ⟨step, kept, hD, hT, ?_⟩
  intro chains hots vs hvs hlen hc hh
  have hz : List.Forall₂ (fun (c : (Tree (Arr ℝ) × δ) × (Tree (Arr ℝ) × δ))
      (v : ((Fin (ravel x0).length → ℝ) × δ) × ((Fin (ravel x0).length → ℝ) × δ)) =>
      (Entries x0 c.1.1 v.1.1 ∧ c.1.2 = v.1.2) ∧ (Entries x0 c.2.1 v.2.1 ∧ c.2.2 = v.2.2))
      (chains.zip hots) (vs.zip hvs) := by
    clear hrun
    unfold SameChains at hc hh
    induction hc generalizing hots hvs with
    | nil => exact .nil
    | cons a _ ih =>
      cases hh with
      | nil => simp at hlen
      | cons b hb => exact .cons ⟨a, b⟩ (ih _ _ (by simpa using hlen) hb)
  obtain ⟨rs, h1, h2, h3⟩ := hrun
    ((chains.zip hots).map fun c => ptInitT P (fun d x k => langevinInitT none d x k ms) c.1 c.2 0 key0 1)
    ((vs.zip hvs).map fun c =>
      { normal := langevinInit c.1.2 c.1.1 (P.split key0 3 1) none ms
        hot := langevinInit c.2.2 c.2.1 (P.split key0 3 2) none ms
        ssq := 0, F := 1, step := 0, key := P.split key0 3 0, drawn := [] }) (by
      rw [List.forall₂_map_left_iff, List.forall₂_map_right_iff]
      refine hz.imp ?_
      rintro ⟨⟨c, d⟩, ⟨c', d'⟩⟩ ⟨⟨v, e⟩, ⟨v', e'⟩⟩ ⟨⟨e1, e2⟩, ⟨e3, e4⟩⟩
      exact ⟨⟨e1, rfl, rfl, e2, rfl, rfl, rfl, trivial⟩, ⟨e3, rfl, rfl, e4, rfl, rfl, rfl, trivial⟩, rfl, rfl, rfl,
        rfl, rfl⟩)
  refine ⟨rs, h1, h2, ?_⟩
  refine (forall₂_map_left' _ _ _ _ h3).imp ?_
  rintro c r ⟨ts, t1, t2⟩
  exact returned_trees (R := fun (t : PtStateT κ δ μ Unit) (s : LangevinState (Fin (ravel x0).length) κ δ μ Unit) =>
      SameLangevin x0 (fun _ _ => True) t.normal s) (ss := fun i => PtState.normal (drive _ scheds _ i))
    (fun i => (t1 i).normal) t2 (fun t => t.normal.latent) _
    (fun i hi => by
      rw [pt_drive _ _ scheds step temperature its hS _ _ (by have := (hT.range i hi).2; omega)]
      rfl)
    (fun s => s.latent) langevinReport (fun _ _ h => h.1) (fun _ _ h => langevinGetT_report h)

theorem leapfrogGetT_shape {t t' : LeapfrogStateT κ δ μ} {s s' : LeapfrogState (Fin (ravel x0).length) ℝ κ δ μ}
    (h : SameLeapfrog x0 t s) (h' : SameLeapfrog x0 t' s') : (leapfrogGetT t).shape = (leapfrogGetT t').shape :=
  node3_shape rfl rfl (entries_shape h.positions h'.positions _)

theorem leapfrogGetT_report {t : LeapfrogStateT κ δ μ} {s : LeapfrogState (Fin (ravel x0).length) ℝ κ δ μ}
    (h : SameLeapfrog x0 t s) : leapfrogGetT t = leapfrogReport s t.positions := by
  simp only [leapfrogGetT, leapfrogReport, reportDict, Reported.tree, List.map, h.potential, h.modelState]

theorem obaboGetT_shape {t t' : ObaboStateT κ δ μ} {s s' : ObaboState (Fin (ravel x0).length) ℝ κ δ μ}
    (h : SameObabo x0 t s) (h' : SameObabo x0 t' s') : (obaboGetT t).shape = (obaboGetT t').shape :=
  node3_shape rfl rfl (entries_shape h.positions h'.positions _)

theorem obaboGetT_report {t : ObaboStateT κ δ μ} {s : ObaboState (Fin (ravel x0).length) ℝ κ δ μ}
    (h : SameObabo x0 t s) : obaboGetT t = obaboReport s t.positions := by
  simp only [obaboGetT, obaboReport, reportDict, Reported.tree, List.map, h.potential, h.modelState]

/-- **C113** (`alias.sghmc`).  As for `sgld`; a constant mass can be given for samples which are containers (see C110
for the others). -/
theorem c113_sghmc (h0 : ValidTree x0) (zero : OutLeafT μ → OutLeafT μ) (P : Prng κ) (key0 : κ)
    (nT : Option (NoiseFnT β μ)) (n : Option (NoiseFn (Fin (ravel x0).length) β μ)) (hn : SameNoise x0 nT n)
    (fT : ℝ ⊕ Tree (Arr ℝ)) (f : ℝ ⊕ (Fin (ravel x0).length → ℝ)) (hf : SameFriction x0 fT f)
    (cT : Tree (Arr ℝ)) (c : Option (Fin (ravel x0).length → ℝ)) (hc : SameConstMass x0 cT c)
    (hx : c ≠ none → Container x0) (steps : ℕ) (getData : δ → δ × β) (sgT : StochGradT β μ)
    (sg : StochGrad (Fin (ravel x0).length) β μ) (hsg : SameStochGrad x0 sgT sg) (ms : μ) (gumbel : κ → Nat → ℝ)
    (first last : ℝ) (burnIn accepted : Nat) (bar : Bool) (its : Nat) (hl : 0 < last) (hfl : last < first)
    (hits : 2 ≤ its) (hfit : burnIn + accepted ≤ its) :
    ∃ (step : Nat → ℝ) (kept : List Nat),
      DecreasingSteps first last its step ∧ Thinned burnIn its accepted kept ∧
      ∀ (chains : List (Tree (Arr ℝ) × δ)) (vectors : List ((Fin (ravel x0).length → ℝ) × δ)),
        SameChains x0 chains vectors → ∃ rs : List (SaveResult (OutLeafT μ)),
        runSghmcT (noSave zero) P key0 nT fT cT steps getData sgT ms gumbel first last burnIn accepted bar its ()
          chains = .ok ((), rs) ∧
        (∀ C : MemCollector (OutLeafT μ), C.saveDir = false → ∃ C',
          runSghmcT (hostSaving zero) P key0 nT fT cT steps getData sgT ms gumbel first last burnIn accepted bar its C
            chains = .ok (C', rs)) ∧
        List.Forall₂ (fun v r =>
          let run := fun i => (paramsUpTo step 1 (i + 1)).foldl
            (fun s p => fricIntegrate P (layoutOf x0) n f c steps getData sg s p none) (fricInit v.2 v.1 key0 ms)
          ReturnedTrees x0 kept (fun i => (run i).positions) (fun i x => leapfrogReport (run i) x) r)
          vectors rs := by
  obtain ⟨cm, c1, c2⟩ := resolveMassT_same cT c hc hx
  have hu : ∀ (t : LeapfrogStateT κ δ μ) (s : LeapfrogState (Fin (ravel x0).length) ℝ κ δ μ),
      SameLeapfrog x0 t s → ∀ p, ∃ r, fricIntegrateT P nT fT cm steps getData sgT t p none = .ok r ∧
        SameLeapfrog x0 r (fricIntegrate P (layoutOf x0) n f c steps getData sg s p none) := fun t s h p =>
    fricIntegrateT_same h0 P hn fT f hf c cm c2 steps getData hsg p (m := none) (m' := none) trivial h
  obtain ⟨step, kept, scheds, hD, hT, hS, hrun⟩ := thinned_runT zero _ _
    (sgmcSolverT_same hu leapfrogGetT (fun _ => .none))
    (fun t s t' s' h h' => leapfrogGetT_shape h h') (fun t => by simp [sgmcSolverT, leapfrogGetT]) gumbel key0 first
    last burnIn accepted bar [] hl hfl its hits hfit
  refine ⟨step, kept, hD, hT, ?_⟩
  intro chains vs hch
  obtain ⟨rs, h1, h2, h3⟩ := hrun (chains.map fun c => fricInitT c.2 c.1 key0 ms)
    (vs.map fun c => fricInit c.2 c.1 key0 ms) (by
      rw [List.forall₂_map_left_iff, List.forall₂_map_right_iff]
      refine hch.imp ?_
      rintro ⟨c, d⟩ ⟨v, d'⟩ ⟨e1, e2⟩
      exact ⟨e1, e1, rfl, rfl, e2, rfl, rfl⟩)
  refine ⟨rs, by simp only [runSghmcT, c1, except_ok_bind]; exact h1, fun C hC => ?_, ?_⟩
  · obtain ⟨C', hC'⟩ := h2 C hC
    exact ⟨C', by simp only [runSghmcT, c1, except_ok_bind]; exact hC'⟩
  · refine (forall₂_map_left' _ _ _ _ h3).imp ?_
    rintro c r ⟨ts, t1, t2⟩
    exact returned_trees t1 t2 (fun t => t.positions) _
      (fun i hi => by
        rw [sgmc_drive _ _ scheds step its hS _ _ (by have := (hT.range i hi).2; omega)])
      (fun s => s.positions) leapfrogReport (fun _ _ h => h.positions) (fun _ _ h => leapfrogGetT_report h)

/-- **C113** (`alias.obabo`). -/
theorem c113_obabo (h0 : ValidTree x0) (zero : OutLeafT μ → OutLeafT μ) (P : Prng κ) (key0 : κ) (friction : ℝ)
    (cT : Tree (Arr ℝ)) (c : Option (Fin (ravel x0).length → ℝ)) (hc : SameConstMass x0 cT c)
    (hx : c ≠ none → Container x0) (steps : ℕ) (getData : δ → δ × β) (sgT : StochGradT β μ)
    (sg : StochGrad (Fin (ravel x0).length) β μ) (hsg : SameStochGrad x0 sgT sg) (ms : μ) (gumbel : κ → Nat → ℝ)
    (first last : ℝ) (burnIn accepted : Nat) (bar : Bool) (its : Nat) (hl : 0 < last) (hfl : last < first)
    (hits : 2 ≤ its) (hfit : burnIn + accepted ≤ its) :
    ∃ (step : Nat → ℝ) (kept : List Nat),
      DecreasingSteps first last its step ∧ Thinned burnIn its accepted kept ∧
      ∀ (chains : List (Tree (Arr ℝ) × δ)) (vectors : List ((Fin (ravel x0).length → ℝ) × δ)),
        SameChains x0 chains vectors → ∃ rs : List (SaveResult (OutLeafT μ)),
        runObaboT (noSave zero) P key0 friction cT steps getData sgT ms gumbel first last burnIn accepted bar its ()
          chains = .ok ((), rs) ∧
        (∀ C : MemCollector (OutLeafT μ), C.saveDir = false → ∃ C',
          runObaboT (hostSaving zero) P key0 friction cT steps getData sgT ms gumbel first last burnIn accepted bar its
            C chains = .ok (C', rs)) ∧
        List.Forall₂ (fun v r =>
          let run := fun i => (paramsUpTo step 1 (i + 1)).foldl
            (fun s p => obaboIntegrate P (layoutOf x0) friction c steps getData sg s p none)
            (obaboInit v.2 v.1 key0 ms)
          ReturnedTrees x0 kept (fun i => (run i).positions) (fun i x => obaboReport (run i) x) r)
          vectors rs := by
  obtain ⟨cm, c1, c2⟩ := resolveMassT_same cT c hc hx
  have hu : ∀ (t : ObaboStateT κ δ μ) (s : ObaboState (Fin (ravel x0).length) ℝ κ δ μ),
      SameObabo x0 t s → ∀ p, ∃ r, obaboIntegrateT P friction cm steps getData sgT t p none = .ok r ∧
        SameObabo x0 r (obaboIntegrate P (layoutOf x0) friction c steps getData sg s p none) := fun t s h p =>
    obaboIntegrateT_same h0 P friction c cm c2 steps getData hsg p (m := none) (m' := none) trivial h
  obtain ⟨step, kept, scheds, hD, hT, hS, hrun⟩ := thinned_runT zero _ _
    (sgmcSolverT_same hu obaboGetT (fun _ => .none))
    (fun t s t' s' h h' => obaboGetT_shape h h') (fun t => by simp [sgmcSolverT, obaboGetT]) gumbel key0 first
    last burnIn accepted bar [] hl hfl its hits hfit
  refine ⟨step, kept, hD, hT, ?_⟩
  intro chains vs hch
  obtain ⟨rs, h1, h2, h3⟩ := hrun (chains.map fun c => obaboInitT c.2 c.1 key0 ms)
    (vs.map fun c => obaboInit c.2 c.1 key0 ms) (by
      rw [List.forall₂_map_left_iff, List.forall₂_map_right_iff]
      refine hch.imp ?_
      rintro ⟨c, d⟩ ⟨v, d'⟩ ⟨e1, e2⟩
      exact ⟨e1, e1.map fun _ => 0, rfl, rfl, e2, rfl, rfl, rfl, rfl⟩)
  refine ⟨rs, by simp only [runObaboT, c1, except_ok_bind]; exact h1, fun C hC => ?_, ?_⟩
  · obtain ⟨C', hC'⟩ := h2 C hC
    exact ⟨C', by simp only [runObaboT, c1, except_ok_bind]; exact hC'⟩
  · refine (forall₂_map_left' _ _ _ _ h3).imp ?_
    rintro c r ⟨ts, t1, t2⟩
    exact returned_trees t1 t2 (fun t => t.positions) _
      (fun i hi => by
        rw [sgmc_drive _ _ scheds step its hS _ _ (by have := (hT.range i hi).2; omega)])
      (fun s => s.positions) obaboReport (fun _ _ h => h.positions) (fun _ _ h => obaboGetT_report h)

end

/-! ### AMAGOLD and SGGMC -/

/-- Initial states on trees and on vectors. -/
theorem mapExcept_same {α α' S S' : Type} {Q : α → α' → Prop} {R : S → S' → Prop} (f : α → Except PyErr S) (g : α' → S')
    (h : ∀ a b, Q a b → ∃ s, f a = .ok s ∧ R s (g b)) {l : List α} {l' : List α'} (hl : List.Forall₂ Q l l') :
    ∃ ss, mapExcept f l = .ok ss ∧ List.Forall₂ R ss (l'.map g) := by
  induction hl with
  | nil => exact ⟨[], rfl, .nil⟩
  | cons hab _ ih =>
    obtain ⟨s, s1, s2⟩ := h _ _ hab
    obtain ⟨ss, r1, r2⟩ := ih
    exact ⟨s :: ss, by simp only [mapExcept, s1, r1], .cons s2 r2⟩

section
variable {S S' α κ C : Type} {R : S → S' → Prop}

/-- The runs with the schedule of `amagold` and `sggmc` (alias.py:296-309, 419-432), for an update on trees which is
related to an update on vectors. -/
theorem mh_runT (zero : α → α) (uT : S → Params → Except PyErr (S × XF)) (u : S' → Params → S' × XF)
    (hu : ∀ t s, R t s → ∀ p, ∃ r, uT t p = .ok (r, (u s p).2) ∧ R r (u s p).1) (getT : S → Tree α)
    (hshape : ∀ t s t' s', R t s → R t' s' → (getT t).shape = (getT t').shape) (hne : ∀ t, getT t ≠ .none)
    (key0 : κ) (gumbel : κ → Nat → ℝ) (first last : ℝ) (burnIn : Nat) (accepted : Option Nat) (bar : Bool) (its : Nat)
    (hl : 0 < last) (hfl : last < first) (hits : 2 ≤ its) (hbi : burnIn ≤ its)
    (hfit : burnIn + accepted.getD (its - burnIn) ≤ its) :
    ∃ (step : Nat → ℝ) (kept : List Nat),
      DecreasingSteps first last its step ∧ Thinned burnIn its (accepted.getD (its - burnIn)) kept ∧
      ∀ (states : List S) (states' : List S'), List.Forall₂ R states states' → ∃ rs : List (SaveResult α),
        runMhT (noSave zero) key0 uT getT gumbel first last burnIn accepted bar its () states = .ok ((), rs) ∧
        (∀ C : MemCollector α, C.saveDir = false → ∃ C', runMhT (hostSaving zero) key0 uT getT gumbel first last
          burnIn accepted bar its C states = .ok (C', rs)) ∧
        List.Forall₂ (fun s r => ∃ ts : ℕ → S,
          (∀ i ∈ kept, R (ts i) ((paramsUpTo step 1 (i + 1)).foldl (fun s p => (u s p).1) s)) ∧
          ReturnedSamples (kept.map fun i => getT (ts i)) r) states' rs := by
  have fin : ∀ (step : Nat → ℝ) (kept : List Nat) (scheds : Nat → List (Schedule XF ℝ))
      (_ : ∀ i < its, (scheds i).map toParams = [⟨step i, 1⟩]) (_ : ∀ i ∈ kept, i < its)
      (states' : List S') (rs : List (SaveResult α)),
      List.Forall₂ (fun s r => ∃ ts : ℕ → S, (∀ i, R (ts i) (drive (mhSolver u (fun _ => (Tree.none : Tree Unit))) scheds s i)) ∧
        ReturnedSamples (kept.map fun i => getT (ts (i + 1))) r) states' rs →
      List.Forall₂ (fun s r => ∃ ts : ℕ → S,
          (∀ i ∈ kept, R (ts i) ((paramsUpTo step 1 (i + 1)).foldl (fun s p => (u s p).1) s)) ∧
          ReturnedSamples (kept.map fun i => getT (ts i)) r) states' rs := by
    intro step kept scheds hS hk states' rs h3
    refine h3.imp ?_
    rintro s r ⟨ts, t1, t2⟩
    refine ⟨fun i => ts (i + 1), ?_, t2⟩
    intro i hi
    have := t1 (i + 1)
    rwa [mh_drive _ _ scheds step its hS _ _ (by have := hk i hi; omega)] at this
  cases accepted with
  | none =>
    obtain ⟨step, kept, scheds, hD, hT, hS, hrun⟩ := all_runT zero _ _
      (mhSolverT_same hu getT (fun _ => .none)) hshape hne first last burnIn bar hl hfl its hits hbi
    refine ⟨step, kept, hD, hT, fun states states' hst => ?_⟩
    obtain ⟨rs, h1, h2, h3⟩ := hrun states states' hst
    exact ⟨rs, h1, h2, fin step kept scheds hS (fun i hi => (hT.range i hi).2) states' rs h3⟩
  | some k =>
    obtain ⟨step, kept, scheds, hD, hT, hS, hrun⟩ := thinned_runT zero _ _
      (mhSolverT_same hu getT (fun _ => .none)) hshape hne gumbel key0 first last burnIn k bar [] hl hfl its hits hfit
    refine ⟨step, kept, hD, hT, fun states states' hst => ?_⟩
    obtain ⟨rs, h1, h2, h3⟩ := hrun states states' hst
    exact ⟨rs, h1, h2, fin step kept scheds hS (fun i hi => (hT.range i hi).2) states' rs h3⟩

/-- The runs with adaptive step size. -/
theorem mh_adaptive_runT (zero : α → α) (uT : S → Params → Except PyErr (S × XF)) (u : S' → Params → S' × XF)
    (hu : ∀ t s, R t s → ∀ p, ∃ r, uT t p = .ok (r, (u s p).2) ∧ R r (u s p).1) (getT : S → Tree α)
    (hshape : ∀ t s t' s', R t s → R t' s' → (getT t).shape = (getT t').shape) (hne : ∀ t, getT t ≠ .none)
    (first stab decay speed target : ℝ) (burnIn : Nat) (bar : Bool) (hf : 0 < first) (hst : 0 ≤ stab)
    (its : Nat) (hfit : burnIn ≤ its) (states : List S) (states' : List S') (hs : List.Forall₂ R states states') :
    ∃ rs : List (SaveResult α),
      runMhAdaptiveT (noSave zero) uT getT first stab decay speed target burnIn bar its () states = .ok ((), rs) ∧
      (∀ C : MemCollector α, C.saveDir = false → ∃ C', runMhAdaptiveT (hostSaving zero) uT getT first stab decay
        speed target burnIn bar its C states = .ok (C', rs)) ∧
      List.Forall₂ (fun s r => ∃ step : Nat → ℝ, FrozenSteps first burnIn step ∧
        (∀ i ≤ burnIn, step i = Real.exp (dualAverage first stab decay speed target (fun k =>
          (u ((paramsUpTo step 1 k).foldl (fun s p => (u s p).1) s) ⟨step k, 1⟩).2.toReal) i)) ∧
        ∃ ts : ℕ → S,
          (∀ i, R (ts i) ((paramsUpTo step 1 (i + 1)).foldl (fun s p => (u s p).1) s)) ∧
          ReturnedSamples ((List.range (its - burnIn)).map fun j => getT (ts (burnIn + j))) r) states' rs := by
  obtain ⟨xs, rfl, rfl⟩ := forall₂_pairs hs
  obtain ⟨rs, h1, h2, h3⟩ := adaptive_run zero (pairUpdate uT u hu) (fun x => getT x.1.1)
    (fun x p => hshape _ _ _ _ (pairUpdate uT u hu x p).1.2 x.2) (fun x => hne _) first stab decay speed target burnIn
    bar hf hst its hfit xs
  have hu' : ∀ (x : PairState R) (sc : List (Schedule ℝ ℝ)), (mhSolverRealT uT getT).update x.1.1 sc
      = .ok ((fun y : PairState R => y.1.1)
        ((mhSolverReal (pairUpdate uT u hu) (fun x => getT x.1.1)).update x sc).1,
        ((mhSolverReal (pairUpdate uT u hu) (fun x => getT x.1.1)).update x sc).2) := by
    intro x sc
    cases sc with
    | nil => rfl
    | cons m ms =>
      simp only [mhSolverRealT, mhSolverReal]
      rw [(hu x.1.1 x.1.2 x.2 ⟨m.stepSize, m.temperature⟩).choose_spec.1]
      rfl
  have e := fun {H σ ρ : Type} (saving : Saving H σ ρ α) =>
    mcmcMapT_pure saving (fun x : PairState R => x.1.1) (mhSolverRealT uT getT)
      (mhSolverReal (pairUpdate uT u hu) (fun x => getT x.1.1)) hu' (fun _ => rfl)
      (aliasAdaptive first stab decay speed target burnIn bar) [] its
  refine ⟨rs, by rw [runMhAdaptiveT, e, h1], fun C hC => ?_, ?_⟩
  · obtain ⟨C', hC'⟩ := h2 C hC
    exact ⟨C', by rw [runMhAdaptiveT, e, hC']⟩
  · rw [List.forall₂_map_left_iff]
    refine h3.imp ?_
    rintro x r ⟨step, s1, s2, s3⟩
    have hfold : ∀ (ps : List Params) (x : PairState R),
        (ps.foldl (fun s p => (pairUpdate uT u hu s p).1) x).1.2 = ps.foldl (fun s p => (u s p).1) x.1.2 := by
      intro ps
      induction ps with
      | nil => intro x; rfl
      | cons p ps ih => intro x; rw [List.foldl_cons, List.foldl_cons, ih]; rfl
    refine ⟨step, s1, ?_, fun i => ((paramsUpTo step 1 (i + 1)).foldl
      (fun s p => (pairUpdate uT u hu s p).1) x).1.1, ?_, s3⟩
    · intro i hi
      rw [s2 i hi]
      congr 2
      funext k
      simp only [pairUpdate]
      rw [← hfold]
      rfl
    · intro i
      rw [← hfold]
      exact ((paramsUpTo step 1 (i + 1)).foldl (fun s p => (pairUpdate uT u hu s p).1) x).2

end

section
variable {x0 : Tree (Arr ℝ)} {κ δ β μ φ S Ms : Type}

theorem node5_shape {k : Kind} {a b c d e a' b' c' d' e' : Tree (OutLeafT μ)} (h1 : a.shape = a'.shape)
    (h2 : b.shape = b'.shape) (h3 : c.shape = c'.shape) (h4 : d.shape = d'.shape) (h5 : e.shape = e'.shape) :
    (Tree.node k [a, b, c, d, e]).shape = (Tree.node k [a', b', c', d', e']).shape := by
  simp only [Tree.shape, Tree.map, Tree.mapL] at *
  rw [h1, h2, h3, h4, h5]

theorem node7_shape {k : Kind} {a b c d e f g a' b' c' d' e' f' g' : Tree (OutLeafT μ)} (h1 : a.shape = a'.shape)
    (h2 : b.shape = b'.shape) (h3 : c.shape = c'.shape) (h4 : d.shape = d'.shape) (h5 : e.shape = e'.shape)
    (h6 : f.shape = f'.shape) (h7 : g.shape = g'.shape) :
    (Tree.node k [a, b, c, d, e, f, g]).shape = (Tree.node k [a', b', c', d', e', f', g']).shape := by
  simp only [Tree.shape, Tree.map, Tree.mapL] at *
  rw [h1, h2, h3, h4, h5, h6, h7]

theorem amagoldGetT_shape {rel : S → Ms → Prop} {t t' : AmagoldStateT κ δ μ φ S}
    {s s' : AmagoldState (Fin (ravel x0).length) κ δ μ φ Ms} (h : SameAmagold x0 rel t s)
    (h' : SameAmagold x0 rel t' s') : (amagoldGetT t).shape = (amagoldGetT t').shape :=
  node5_shape rfl rfl rfl rfl (entries_shape h.positions h'.positions _)

theorem amagoldGetT_report {rel : S → Ms → Prop} {t : AmagoldStateT κ δ μ φ S}
    {s : AmagoldState (Fin (ravel x0).length) κ δ μ φ Ms} (h : SameAmagold x0 rel t s) :
    amagoldGetT t = amagoldReport s t.integratorState.positions := by
  simp only [amagoldGetT, amagoldReport, reportDict, Reported.tree, List.map, h.energy, h.modelState,
    h.acceptanceRatio]

theorem sggmcGetT_shape {rel : S → Ms → Prop} {t t' : SggmcStateT κ δ μ φ S}
    {s s' : SggmcState (Fin (ravel x0).length) κ δ μ φ Ms} (h : SameSggmc x0 rel t s)
    (h' : SameSggmc x0 rel t' s') : (sggmcGetT t).shape = (sggmcGetT t').shape :=
  node7_shape rfl rfl rfl rfl rfl rfl (entries_shape h.positions h'.positions _)

theorem sggmcGetT_report {rel : S → Ms → Prop} {t : SggmcStateT κ δ μ φ S}
    {s : SggmcState (Fin (ravel x0).length) κ δ μ φ Ms} (h : SameSggmc x0 rel t s) :
    sggmcGetT t = sggmcReport s t.integratorState.positions := by
  simp only [sggmcGetT, sggmcReport, reportDict, Reported.tree, List.map, h.energy, h.modelState,
    h.acceptanceRatio, h.potential]

/-- The returned trees, from the related states of the kept iterations. -/
theorem returned_trees' {S S' : Type} {R : S → S' → Prop} {getT : S → Tree (OutLeafT μ)} {ts : ℕ → S}
    {run : ℕ → S'} {kept : List ℕ} (hR : ∀ i ∈ kept, R (ts i) (run i)) {r : SaveResult (OutLeafT μ)}
    (hr : ReturnedSamples (kept.map fun i => getT (ts i)) r) (pos : S → Tree (Arr ℝ))
    (entries : S' → Fin (ravel x0).length → ℝ)
    (report : S' → Tree (Arr ℝ) → Tree (OutLeafT μ)) (he : ∀ t s, R t s → Entries x0 (pos t) (entries s))
    (hg : ∀ t s, R t s → getT t = report s (pos t)) :
    ReturnedTrees x0 kept (fun i => entries (run i)) (fun i x => report (run i) x) r := by
  refine ⟨fun i => pos (ts i), fun i hi => he _ _ (hR i hi), ?_⟩
  convert hr using 1
  apply List.map_congr_left
  intro i hi
  exact (hg _ _ (hR i hi)).symm

/-- An update of AMAGOLD without mass adaption. -/
theorem amagold_pair (h0 : ValidTree x0) (P : Prng κ) (friction : ℝ)
    (c : Option (Fin (ravel x0).length → ℝ)) (cm : Option MassMatrixT)
    (c2 : ∀ m m', SameMassOpt x0 m m' → ∀ p v, Entries x0 p v →
      SameMass x0 (resolveMassT m cm p) (resolveMass m' c))
    (steps : ℕ) (getData : δ → δ × β) {sgT : StochGradT β μ} {sg : StochGrad (Fin (ravel x0).length) β μ}
    (hsg : SameStochGrad x0 sgT sg) {fT : FullPotFnT φ μ} {f : FullPotFn (Fin (ravel x0).length) φ μ}
    (hf : SameFullPot x0 fT f) (t : AmagoldStateT κ δ μ φ Unit)
    (s : AmagoldState (Fin (ravel x0).length) κ δ μ φ Unit) (h : SameAmagold x0 (fun _ _ => True) t s) (p : Params) :
    ∃ r, amagoldUpdateT P none (revIntegrateT P friction cm steps getData sgT) fT t p =
        .ok (r, (amagoldUpdate P none (revForAmagold P (layoutOf x0) friction c steps getData sg) f s p).2) ∧
      SameAmagold x0 (fun _ _ => True) r
        (amagoldUpdate P none (revForAmagold P (layoutOf x0) friction c steps getData sg) f s p).1 := by
  obtain ⟨r, r1, r2, r3, -⟩ := amagoldUpdateT_same (cov := []) (F := none) (M := none) h0 P friction c cm c2 steps
    getData hsg hf trivial h (by simp) p
  exact ⟨r.1, by rw [r1, ← r3], r2⟩

/-- An update of SGGMC without mass adaption. -/
theorem sggmc_pair (h0 : ValidTree x0) (P : Prng κ) (friction : ℝ)
    (c : Option (Fin (ravel x0).length → ℝ)) (cm : Option MassMatrixT)
    (c2 : ∀ m m', SameMassOpt x0 m m' → ∀ p v, Entries x0 p v →
      SameMass x0 (resolveMassT m cm p) (resolveMass m' c))
    (steps : ℕ) (getData : δ → δ × β) {sgT : StochGradT β μ} {sg : StochGrad (Fin (ravel x0).length) β μ}
    (hsg : SameStochGrad x0 sgT sg) {fT : FullPotFnT φ μ} {f : FullPotFn (Fin (ravel x0).length) φ μ}
    (hf : SameFullPot x0 fT f) (t : SggmcStateT κ δ μ φ Unit)
    (s : SggmcState (Fin (ravel x0).length) κ δ μ φ Unit) (h : SameSggmc x0 (fun _ _ => True) t s) (p : Params) :
    ∃ r, sggmcUpdateT P none (obaboIntegrateT P friction cm steps getData sgT) fT t p =
        .ok (r, (sggmcUpdate P none (obaboForSggmc P (layoutOf x0) friction c steps getData sg) f s p).2) ∧
      SameSggmc x0 (fun _ _ => True) r
        (sggmcUpdate P none (obaboForSggmc P (layoutOf x0) friction c steps getData sg) f s p).1 := by
  obtain ⟨r, r1, r2, r3, -⟩ := sggmcUpdateT_same (cov := []) (F := none) (M := none) h0 P friction c cm c2 steps
    getData hsg hf trivial h (by simp) p
  exact ⟨r.1, by rw [r1, ← r3], r2⟩

/-- The initial states of AMAGOLD. -/
theorem amagold_states (h0 : ValidTree x0) (P : Prng κ) (key0 : κ)
    (c : Option (Fin (ravel x0).length → ℝ)) (cm : Option MassMatrixT)
    (c2 : ∀ m m', SameMassOpt x0 m m' → ∀ p v, Entries x0 p v →
      SameMass x0 (resolveMassT m cm p) (resolveMass m' c))
    {fT : FullPotFnT φ μ} {f : FullPotFn (Fin (ravel x0).length) φ μ} (hf : SameFullPot x0 fT f) (ms : μ)
    {chains : List (Tree (Arr ℝ) × δ × φ)} {vs : List ((Fin (ravel x0).length → ℝ) × δ × φ)}
    (hch : SameChains x0 chains vs) :
    ∃ states, mapExcept (fun c => amagoldInitT P (none : Option (FlatMass Unit)) (revInitT P cm c.2.1) fT c.2.2 c.1
        .none key0 ms) chains = .ok states ∧
      List.Forall₂ (SameAmagold x0 (fun (_ _ : Unit) => True)) states
        (vs.map fun v => amagoldInit P none (revInitForAmagold P (layoutOf x0) c v.2.1) f v.2.2 v.1 key0 ms) := by
  refine mapExcept_same _ _ ?_ hch
  rintro ⟨x, d, w⟩ ⟨v, d', w'⟩ ⟨e1, e2⟩
  dsimp only at e1 e2
  cases e2
  have e := hf _ _ e1 w ms
  obtain ⟨i, i1, i2⟩ := revInitT_same' h0 P c cm c2 d (P.split key0 2 0) (f v w ms).2.2 (m0 := none) (m0' := none)
    trivial e1
  refine ⟨⟨i, (f v w ms).1, (f v w ms).2.1, P.split key0 2 1, (.fin 0, 0), none, []⟩, ?_, ?_⟩
  · simp only [amagoldInitT, initialMassStateT, currentMassT, except_ok_bind, except_pure, e, i1]
  · exact ⟨i2.positions, i2.momentum, by
      simp only [amagoldInit, revInitForAmagold, i2.potential, Option.map_none], i2.key, i2.dataState, i2.modelState, i2.drawn, rfl, rfl, rfl, rfl,
      trivial, rfl⟩

/-- The initial states of SGGMC. -/
theorem sggmc_states (P : Prng κ) (key0 : κ)
    {fT : FullPotFnT φ μ} {f : FullPotFn (Fin (ravel x0).length) φ μ} (hf : SameFullPot x0 fT f) (ms : μ)
    {chains : List (Tree (Arr ℝ) × δ × φ)} {vs : List ((Fin (ravel x0).length → ℝ) × δ × φ)}
    (hch : SameChains x0 chains vs) :
    ∃ states, mapExcept (fun c => sggmcInitT P (none : Option (FlatMass Unit)) (obaboInitT c.2.1) fT c.2.2 c.1
        .none key0 ms) chains = .ok states ∧
      List.Forall₂ (SameSggmc x0 (fun (_ _ : Unit) => True)) states
        (vs.map fun v => sggmcInit P none (obaboInitForSggmc v.2.1) f v.2.2 v.1 key0 ms) := by
  refine mapExcept_same _ _ ?_ hch
  rintro ⟨x, d, w⟩ ⟨v, d', w'⟩ ⟨e1, e2⟩
  dsimp only at e1 e2
  cases e2
  have e := hf _ _ e1 w ms
  refine ⟨⟨obaboInitT d x (P.split key0 2 0) (f v w ms).2.2, (f v w ms).1, (f v w ms).2.1, P.split key0 2 1,
    (.fin 0, 0, .fin 0), none, []⟩, ?_, ?_⟩
  · simp only [sggmcInitT, initialMassStateT, except_ok_bind, except_pure, e]
  · exact ⟨e1, e1.map fun _ => 0, rfl, rfl, rfl, rfl, ⟨rfl, rfl⟩, ⟨rfl, rfl⟩, rfl, rfl, rfl, rfl, rfl, trivial, rfl⟩

/-- **C113** (`alias.amagold`).  Without `accepted_samples`, all samples after the burn in are returned. -/
theorem c113_amagold (h0 : ValidTree x0) (zero : OutLeafT μ → OutLeafT μ) (P : Prng κ) (key0 : κ) (friction : ℝ)
    (cT : Tree (Arr ℝ)) (c : Option (Fin (ravel x0).length → ℝ)) (hc : SameConstMass x0 cT c)
    (hx : c ≠ none → Container x0) (steps : ℕ) (getData : δ → δ × β) (sgT : StochGradT β μ)
    (sg : StochGrad (Fin (ravel x0).length) β μ) (hsg : SameStochGrad x0 sgT sg) (fT : FullPotFnT φ μ)
    (f : FullPotFn (Fin (ravel x0).length) φ μ) (hf : SameFullPot x0 fT f) (ms : μ) (gumbel : κ → Nat → ℝ)
    (first last : ℝ) (burnIn : Nat) (accepted : Option Nat) (bar : Bool) (its : Nat) (hl : 0 < last)
    (hfl : last < first) (hits : 2 ≤ its) (hbi : burnIn ≤ its)
    (hfit : burnIn + accepted.getD (its - burnIn) ≤ its) :
    ∃ (step : Nat → ℝ) (kept : List Nat),
      DecreasingSteps first last its step ∧ Thinned burnIn its (accepted.getD (its - burnIn)) kept ∧
      ∀ (chains : List (Tree (Arr ℝ) × δ × φ)) (vectors : List ((Fin (ravel x0).length → ℝ) × δ × φ)),
        SameChains x0 chains vectors → ∃ rs : List (SaveResult (OutLeafT μ)),
        runAmagoldT (noSave zero) P key0 friction cT steps getData sgT fT ms gumbel first last burnIn accepted bar
          its () chains = .ok ((), rs) ∧
        (∀ C : MemCollector (OutLeafT μ), C.saveDir = false → ∃ C',
          runAmagoldT (hostSaving zero) P key0 friction cT steps getData sgT fT ms gumbel first last burnIn accepted
            bar its C chains = .ok (C', rs)) ∧
        List.Forall₂ (fun v r =>
          let run := fun i => amagoldRun P (none : Option (MassAdaption _ Unit))
            (revForAmagold P (layoutOf x0) friction c steps getData sg) f
            (amagoldInit P none (revInitForAmagold P (layoutOf x0) c v.2.1) f v.2.2 v.1 key0 ms)
            (paramsUpTo step 1 (i + 1))
          ReturnedTrees x0 kept (fun i => (run i).integratorState.positions)
            (fun i x => amagoldReport (run i) x) r) vectors rs := by
  obtain ⟨cm, c1, c2⟩ := resolveMassT_same cT c hc hx
  obtain ⟨step, kept, hD, hT, hrun⟩ := mh_runT zero _ _
    (amagold_pair h0 P friction c cm c2 steps getData hsg hf) amagoldGetT
    (fun t s t' s' h h' => amagoldGetT_shape h h') (fun t => by simp [amagoldGetT]) key0 gumbel first last burnIn
    accepted bar its hl hfl hits hbi hfit
  refine ⟨step, kept, hD, hT, ?_⟩
  intro chains vs hch
  obtain ⟨states, s1, s2⟩ := amagold_states h0 P key0 c cm c2 hf ms hch
  obtain ⟨rs, h1, h2, h3⟩ := hrun states _ s2
  refine ⟨rs, by simp only [runAmagoldT, c1, s1, except_ok_bind]; exact h1, fun C hC => ?_, ?_⟩
  · obtain ⟨C', hC'⟩ := h2 C hC
    exact ⟨C', by simp only [runAmagoldT, c1, s1, except_ok_bind]; exact hC'⟩
  · refine (forall₂_map_left' _ _ _ _ h3).imp ?_
    rintro v r ⟨ts, t1, t2⟩
    exact returned_trees' t1 t2 (fun t => t.integratorState.positions) (fun s => s.integratorState.positions)
      amagoldReport (fun _ _ h => h.positions) (fun _ _ h => amagoldGetT_report h)

/-- **C113** (`alias.amagold` with `adaptive_step_size`).  All samples after the burn in are returned; the step sizes
follow the dual averaging of the acceptance ratios of the same chain during the burn in and are constant
afterwards. -/
theorem c113_amagold_adaptive (h0 : ValidTree x0) (zero : OutLeafT μ → OutLeafT μ) (P : Prng κ) (key0 : κ)
    (friction : ℝ)
    (cT : Tree (Arr ℝ)) (c : Option (Fin (ravel x0).length → ℝ)) (hc : SameConstMass x0 cT c)
    (hx : c ≠ none → Container x0) (steps : ℕ) (getData : δ → δ × β) (sgT : StochGradT β μ)
    (sg : StochGrad (Fin (ravel x0).length) β μ) (hsg : SameStochGrad x0 sgT sg) (fT : FullPotFnT φ μ)
    (f : FullPotFn (Fin (ravel x0).length) φ μ) (hf : SameFullPot x0 fT f) (ms : μ)
    (first stab decay speed target : ℝ) (burnIn : Nat) (bar : Bool) (its : Nat) (hfirst : 0 < first)
    (hst : 0 ≤ stab) (hbi : burnIn ≤ its)
    (chains : List (Tree (Arr ℝ) × δ × φ)) (vectors : List ((Fin (ravel x0).length → ℝ) × δ × φ))
    (hch : SameChains x0 chains vectors) :
    ∃ rs : List (SaveResult (OutLeafT μ)),
      runAmagoldAdaptiveT (noSave zero) P key0 friction cT steps getData sgT fT ms first stab decay speed target
        burnIn none bar its () chains = .ok ((), rs) ∧
      (∀ C : MemCollector (OutLeafT μ), C.saveDir = false → ∃ C',
        runAmagoldAdaptiveT (hostSaving zero) P key0 friction cT steps getData sgT fT ms first stab decay speed
          target burnIn none bar its C chains = .ok (C', rs)) ∧
      List.Forall₂ (fun v r => ∃ step : Nat → ℝ, FrozenSteps first burnIn step ∧
        let run := fun n => amagoldRun P (none : Option (MassAdaption _ Unit))
            (revForAmagold P (layoutOf x0) friction c steps getData sg) f
          (amagoldInit P none (revInitForAmagold P (layoutOf x0) c v.2.1) f v.2.2 v.1 key0 ms)
          (paramsUpTo step 1 n)
        (∀ i ≤ burnIn, step i = Real.exp (dualAverage first stab decay speed target (fun k =>
          (amagoldUpdate P (none : Option (MassAdaption _ Unit))
            (revForAmagold P (layoutOf x0) friction c steps getData sg) f (run k)
            ⟨step k, 1⟩).2.toReal) i)) ∧
        ReturnedTrees x0 ((List.range (its - burnIn)).map fun j => burnIn + j)
          (fun i => (run (i + 1)).integratorState.positions)
          (fun i x => amagoldReport (run (i + 1)) x) r) vectors rs := by
  obtain ⟨cm, c1, c2⟩ := resolveMassT_same cT c hc hx
  obtain ⟨states, s1, s2⟩ := amagold_states h0 P key0 c cm c2 hf ms hch
  obtain ⟨rs, h1, h2, h3⟩ := mh_adaptive_runT zero _ _
    (amagold_pair h0 P friction c cm c2 steps getData hsg hf) amagoldGetT
    (fun t s t' s' h h' => amagoldGetT_shape h h') (fun t => by simp [amagoldGetT]) first stab decay speed target
    burnIn bar hfirst hst its hbi states _ s2
  refine ⟨rs, by simp only [runAmagoldAdaptiveT, assertNoThinning, c1, s1, except_ok_bind]; exact h1,
    fun C hC => ?_, ?_⟩
  · obtain ⟨C', hC'⟩ := h2 C hC
    exact ⟨C', by simp only [runAmagoldAdaptiveT, assertNoThinning, c1, s1, except_ok_bind]; exact hC'⟩
  · refine (forall₂_map_left' _ _ _ _ h3).imp ?_
    rintro v r ⟨step, e1, e2, ts, t1, t2⟩
    refine ⟨step, e1, e2, ?_⟩
    refine returned_trees' (kept := (List.range (its - burnIn)).map fun j => burnIn + j) (fun i _ => t1 i)
      (getT := amagoldGetT) ?_
      (fun t => t.integratorState.positions) (fun s => s.integratorState.positions)
      amagoldReport (fun _ _ h => h.positions) (fun _ _ h => amagoldGetT_report h)
    rw [List.map_map]
    exact t2

/-- **C113** (`alias.sggmc`).  Without `accepted_samples`, all samples after the burn in are returned. -/
theorem c113_sggmc (h0 : ValidTree x0) (zero : OutLeafT μ → OutLeafT μ) (P : Prng κ) (key0 : κ) (friction : ℝ)
    (cT : Tree (Arr ℝ)) (c : Option (Fin (ravel x0).length → ℝ)) (hc : SameConstMass x0 cT c)
    (hx : c ≠ none → Container x0) (steps : ℕ) (getData : δ → δ × β) (sgT : StochGradT β μ)
    (sg : StochGrad (Fin (ravel x0).length) β μ) (hsg : SameStochGrad x0 sgT sg) (fT : FullPotFnT φ μ)
    (f : FullPotFn (Fin (ravel x0).length) φ μ) (hf : SameFullPot x0 fT f) (ms : μ) (gumbel : κ → Nat → ℝ)
    (first last : ℝ) (burnIn : Nat) (accepted : Option Nat) (bar : Bool) (its : Nat) (hl : 0 < last)
    (hfl : last < first) (hits : 2 ≤ its) (hbi : burnIn ≤ its)
    (hfit : burnIn + accepted.getD (its - burnIn) ≤ its) :
    ∃ (step : Nat → ℝ) (kept : List Nat),
      DecreasingSteps first last its step ∧ Thinned burnIn its (accepted.getD (its - burnIn)) kept ∧
      ∀ (chains : List (Tree (Arr ℝ) × δ × φ)) (vectors : List ((Fin (ravel x0).length → ℝ) × δ × φ)),
        SameChains x0 chains vectors → ∃ rs : List (SaveResult (OutLeafT μ)),
        runSggmcT (noSave zero) P key0 friction cT steps getData sgT fT ms gumbel first last burnIn accepted bar
          its () chains = .ok ((), rs) ∧
        (∀ C : MemCollector (OutLeafT μ), C.saveDir = false → ∃ C',
          runSggmcT (hostSaving zero) P key0 friction cT steps getData sgT fT ms gumbel first last burnIn accepted
            bar its C chains = .ok (C', rs)) ∧
        List.Forall₂ (fun v r =>
          let run := fun i => sggmcRun P (none : Option (MassAdaption _ Unit))
            (obaboForSggmc P (layoutOf x0) friction c steps getData sg) f
            (sggmcInit P none (obaboInitForSggmc v.2.1) f v.2.2 v.1 key0 ms)
            (paramsUpTo step 1 (i + 1))
          ReturnedTrees x0 kept (fun i => (run i).integratorState.positions)
            (fun i x => sggmcReport (run i) x) r) vectors rs := by
  obtain ⟨cm, c1, c2⟩ := resolveMassT_same cT c hc hx
  obtain ⟨step, kept, hD, hT, hrun⟩ := mh_runT zero _ _
    (sggmc_pair h0 P friction c cm c2 steps getData hsg hf) sggmcGetT
    (fun t s t' s' h h' => sggmcGetT_shape h h') (fun t => by simp [sggmcGetT]) key0 gumbel first last burnIn
    accepted bar its hl hfl hits hbi hfit
  refine ⟨step, kept, hD, hT, ?_⟩
  intro chains vs hch
  obtain ⟨states, s1, s2⟩ := sggmc_states P key0 hf ms hch
  obtain ⟨rs, h1, h2, h3⟩ := hrun states _ s2
  refine ⟨rs, by simp only [runSggmcT, c1, s1, except_ok_bind]; exact h1, fun C hC => ?_, ?_⟩
  · obtain ⟨C', hC'⟩ := h2 C hC
    exact ⟨C', by simp only [runSggmcT, c1, s1, except_ok_bind]; exact hC'⟩
  · refine (forall₂_map_left' _ _ _ _ h3).imp ?_
    rintro v r ⟨ts, t1, t2⟩
    exact returned_trees' t1 t2 (fun t => t.integratorState.positions) (fun s => s.integratorState.positions)
      sggmcReport (fun _ _ h => h.positions) (fun _ _ h => sggmcGetT_report h)

/-- **C113** (`alias.sggmc` with `adaptive_step_size`).  All samples after the burn in are returned; the step sizes
follow the dual averaging of the acceptance ratios of the same chain during the burn in and are constant
afterwards. -/
theorem c113_sggmc_adaptive (h0 : ValidTree x0) (zero : OutLeafT μ → OutLeafT μ) (P : Prng κ) (key0 : κ)
    (friction : ℝ)
    (cT : Tree (Arr ℝ)) (c : Option (Fin (ravel x0).length → ℝ)) (hc : SameConstMass x0 cT c)
    (hx : c ≠ none → Container x0) (steps : ℕ) (getData : δ → δ × β) (sgT : StochGradT β μ)
    (sg : StochGrad (Fin (ravel x0).length) β μ) (hsg : SameStochGrad x0 sgT sg) (fT : FullPotFnT φ μ)
    (f : FullPotFn (Fin (ravel x0).length) φ μ) (hf : SameFullPot x0 fT f) (ms : μ)
    (first stab decay speed target : ℝ) (burnIn : Nat) (bar : Bool) (its : Nat) (hfirst : 0 < first)
    (hst : 0 ≤ stab) (hbi : burnIn ≤ its)
    (chains : List (Tree (Arr ℝ) × δ × φ)) (vectors : List ((Fin (ravel x0).length → ℝ) × δ × φ))
    (hch : SameChains x0 chains vectors) :
    ∃ rs : List (SaveResult (OutLeafT μ)),
      runSggmcAdaptiveT (noSave zero) P key0 friction cT steps getData sgT fT ms first stab decay speed target
        burnIn none bar its () chains = .ok ((), rs) ∧
      (∀ C : MemCollector (OutLeafT μ), C.saveDir = false → ∃ C',
        runSggmcAdaptiveT (hostSaving zero) P key0 friction cT steps getData sgT fT ms first stab decay speed
          target burnIn none bar its C chains = .ok (C', rs)) ∧
      List.Forall₂ (fun v r => ∃ step : Nat → ℝ, FrozenSteps first burnIn step ∧
        let run := fun n => sggmcRun P (none : Option (MassAdaption _ Unit))
            (obaboForSggmc P (layoutOf x0) friction c steps getData sg) f
          (sggmcInit P none (obaboInitForSggmc v.2.1) f v.2.2 v.1 key0 ms)
          (paramsUpTo step 1 n)
        (∀ i ≤ burnIn, step i = Real.exp (dualAverage first stab decay speed target (fun k =>
          (sggmcUpdate P (none : Option (MassAdaption _ Unit))
            (obaboForSggmc P (layoutOf x0) friction c steps getData sg) f (run k)
            ⟨step k, 1⟩).2.toReal) i)) ∧
        ReturnedTrees x0 ((List.range (its - burnIn)).map fun j => burnIn + j)
          (fun i => (run (i + 1)).integratorState.positions)
          (fun i x => sggmcReport (run (i + 1)) x) r) vectors rs := by
  obtain ⟨cm, c1, c2⟩ := resolveMassT_same cT c hc hx
  obtain ⟨states, s1, s2⟩ := sggmc_states P key0 hf ms hch
  obtain ⟨rs, h1, h2, h3⟩ := mh_adaptive_runT zero _ _
    (sggmc_pair h0 P friction c cm c2 steps getData hsg hf) sggmcGetT
    (fun t s t' s' h h' => sggmcGetT_shape h h') (fun t => by simp [sggmcGetT]) first stab decay speed target
    burnIn bar hfirst hst its hbi states _ s2
  refine ⟨rs, by simp only [runSggmcAdaptiveT, assertNoThinning, c1, s1, except_ok_bind]; exact h1,
    fun C hC => ?_, ?_⟩
  · obtain ⟨C', hC'⟩ := h2 C hC
    exact ⟨C', by simp only [runSggmcAdaptiveT, assertNoThinning, c1, s1, except_ok_bind]; exact hC'⟩
  · refine (forall₂_map_left' _ _ _ _ h3).imp ?_
    rintro v r ⟨step, e1, e2, ts, t1, t2⟩
    refine ⟨step, e1, e2, ?_⟩
    refine returned_trees' (kept := (List.range (its - burnIn)).map fun j => burnIn + j) (fun i _ => t1 i)
      (getT := sggmcGetT) ?_
      (fun t => t.integratorState.positions) (fun s => s.integratorState.positions)
      sggmcReport (fun _ _ h => h.positions) (fun _ _ h => sggmcGetT_report h)
    rw [List.map_map]
    exact t2

/-- **C113** (thinning with `adaptive_step_size`).  A number of accepted samples is rejected. -/
theorem c113_rejected {H σ ρ : Type} (saving : Saving H σ ρ (OutLeafT μ)) (P : Prng κ) (key0 : κ) (friction : ℝ)
    (cT : Tree (Arr ℝ)) (cm : Option MassMatrixT) (hc : prepareMass cT = .ok cm) (steps : ℕ)
    (getData : δ → δ × β) (sgT : StochGradT β μ) (fT : FullPotFnT φ μ) (ms : μ)
    (first stab decay speed target : ℝ) (burnIn k : Nat) (bar : Bool) (its : Nat) (h : H)
    (chains : List (Tree (Arr ℝ) × δ × φ)) :
    runAmagoldAdaptiveT saving P key0 friction cT steps getData sgT fT ms first stab decay speed target burnIn
      (some k) bar its h chains = .error .assertionError ∧
    runSggmcAdaptiveT saving P key0 friction cT steps getData sgT fT ms first stab decay speed target burnIn
      (some k) bar its h chains = .error .assertionError := by
  constructor
  · simp only [runAmagoldAdaptiveT, hc, except_ok_bind, assertNoThinning, Option.isSome_some, if_true]
    rfl
  · simp only [runSggmcAdaptiveT, hc, except_ok_bind, assertNoThinning, Option.isSome_some, if_true]
    rfl

end

/-- The hypotheses are met by two chains which start with different nested samples, the sum of squares as stochastic
and full potential, a constant mass and the arguments of the documentation. -/
example : ValidTree treeSample ∧
    SameChains treeSample [(treeSample, (0 : ℕ), ()), (treeScale 2 treeSample, 1, ())]
      [(fun i => (ravel treeSample)[i], 0, ()), (vscale 2 fun i => (ravel treeSample)[i], 1, ())] ∧
    SameStochGrad (β := Unit) (μ := Unit) treeSample
      (fun t _ m => ((((ravel t).map fun y => y ^ 2).sum, m), treeScale 2 t))
      (fun v _ m => ((((List.ofFn v).map fun y => y ^ 2).sum, m), vscale 2 v)) ∧
    SameFullPot (φ := Unit) (μ := Unit) treeSample
      (fun t d m => (.fin ((ravel t).map fun y => y ^ 2).sum, d, m))
      (fun v d m => (.fin ((List.ofFn v).map fun y => y ^ 2).sum, d, m)) ∧
    SameConstMass treeSample (treeScale 2 treeSample) (some (vscale 2 fun i => (ravel treeSample)[i])) ∧
    Container treeSample ∧
    (0 : ℝ) < 0.001 ∧ (0.001 : ℝ) < 0.05 ∧ 2 ≤ 1000 ∧ 10 + 100 ≤ 1000 := by
  have hv : ValidTree treeSample := by
    intro a ha
    simp only [treeSample, Tree.leaves, Tree.leavesL, List.nil_append, List.cons_append, List.append_nil,
      List.mem_cons, List.not_mem_nil, or_false] at ha
    rcases ha with rfl | rfl <;> simp [Arr.Valid]
  refine ⟨hv, .cons ⟨entries_self hv, rfl⟩ (.cons ⟨(entries_self hv).scale 2, rfl⟩ .nil), ?_, ?_,
    (entries_self hv).scale 2, ⟨_, _, rfl⟩, by norm_num, by norm_num, by norm_num, by norm_num⟩
  · intro t v h b m
    exact ⟨by dsimp only; rw [h.2.2], h.scale 2⟩
  · intro t v h d m
    dsimp only
    rw [h.2.2]

/-- The conclusion excludes wrong results: a returned result with one kept iteration contains the entries of the
sample of this iteration, in the order of the leaves. -/
example (r : SaveResult (OutLeafT Unit)) (s : LangevinState (Fin (ravel treeSample).length) Unit Unit Unit Unit)
    (h : ReturnedTrees treeSample [3] (fun _ => s.latent) (fun _ x => langevinReport s x) r) :
    ∃ x : Tree (Arr ℝ), ravel x = List.ofFn s.latent ∧ SameShape treeSample x ∧
      ReturnedSamples [langevinReport s x] r := by
  obtain ⟨x, h1, h2⟩ := h
  exact ⟨x 3, (h1 3 (by simp)).2.2, sameShape_symm (h1 3 (by simp)).2.1, h2⟩

end JaxSgmc
