import Verif.Model.SgldRun
import Verif.Props.SgldDecreasing
import Verif.Props.SgldNumpy

/-!
# C151: SGLD with `polynomial_step_size`, as a complete program
-/

namespace JaxSgmc

open MeasureTheory ProbabilityTheory Filter Topology Spec

variable {ι κ δ β μ Ω S σ ρ : Type}

/-- Runs with a scheduler of polynomial step sizes. -/
theorem sgmc_drive_at {S α : Type} (update : S → Params → S) (get : S → Tree α) (scheds : Nat → List (Schedule XF ℝ))
    (step : Nat → ℝ) (τ : ℝ) (its : Nat)
    (h : ∀ i < its, (scheds i).map toParams = [⟨step i, τ⟩]) (s : S) (n : Nat) (hn : n ≤ its) :
    Spec.drive (sgmcSolver update get) scheds s n = (paramsUpTo step τ n).foldl update s := by
  induction n with
  | zero => rfl
  | succ n ih =>
    have h1 := h n (by omega)
    rw [Spec.drive, ih (by omega), paramsUpTo_succ, List.foldl_append]
    cases hs : scheds n with
    | nil => simp [hs] at h1
    | cons m ms =>
      rw [hs] at h1
      simp only [List.map_cons, List.cons.injEq] at h1
      show update _ (toParams m) = _
      rw [h1.1]
      rfl

/-- The step sizes of `polynomial_step_size(a, b, gamma)`. -/
noncomputable def polyStep (a b gamma : ℝ) (n : ℕ) : ℝ := a * (b + n) ^ (-gamma)

section
variable {a b gamma T : ℝ} (ha : 0 < a) (hb : 0 < b) (hg0 : 0 ≤ gamma)

include ha hb hg0 in
theorem polyThinned_kept {κ : Type} (gumbel : κ → Nat → ℝ) (thinKey : κ) (burnIn accepted : Nat) (bar : Bool) (its : Nat)
    (hfit : burnIn + accepted ≤ its) : ∃ kept, Thinned burnIn its accepted kept ∧
      ∀ {α S : Type} (zero : α → α) (update : S → Params → S) (get : S → Tree α)
        (_ : PreservesStructure (sgmcSolver update get)) (_ : ∀ s, get s ≠ .none) (states : List S),
      ∃ rs : List (SaveResult α),
        mcmcMap (noSave zero) (sgmcSolver update get)
          (polynomialThinned gumbel thinKey a b gamma T burnIn accepted bar) [] its () states = .ok ((), rs) ∧
        (∀ C : MemCollector α, C.saveDir = false → ∃ C', mcmcMap (hostSaving zero) (sgmcSolver update get)
          (polynomialThinned gumbel thinKey a b gamma T burnIn accepted bar) [] its C states = .ok (C', rs)) ∧
        List.Forall₂ (fun s r => ReturnedSamples (kept.map fun i => get
          ((paramsUpTo (polyStep a b gamma) T (i + 1)).foldl update s)) r) states rs := by
  obtain ⟨ss, h1, h2⟩ := c34_polynomial a b gamma ha hb hg0 its
  have h4 : ∀ i < its, jnpGet ss i = .fin (polyStep a b gamma i) := by
    intro i hi
    have := (h2 (fun _ => default) i hi).1
    rwa [paramAfter_static _ (fun _ _ _ => rfl)] at this
  have hpos : PositiveSteps (polynomialStepSize (.fin a) (.fin b) gamma) ss its := by
    intro i hi
    rw [paramAfter_static _ (fun _ _ _ => rfl)]
    exact ⟨polyStep a b gamma i, poly_pos a b gamma ha hb i, h4 i hi⟩
  obtain ⟨hA, -⟩ := c33_random_thinning gumbel (polynomialStepSize (.fin a) (.fin b) gamma)
    (initialBurnIn (burnIn : Int)) accepted thinKey its default ss h1 (burnIn : Int) (its - burnIn) rfl hpos
  have hav : (availableIterations (initialBurnIn (burnIn : Int)) (burnIn : Int) its).length = its - burnIn := by
    have := count_burnIn (burnIn : Int) its
    simp only [Int.toNat_natCast] at this
    rw [← this]
    apply congrArg List.length
    apply List.filter_congr
    intro i _
    rw [selectAfter_static _ (fun _ _ _ => rfl)]
    rfl
  obtain ⟨t, g1, g2, g3⟩ := hA (by rw [hav]; show accepted ≤ _; omega)
  have hrange : ∀ i : Nat, t.any (fun j => i == j) = true → i < its ∧ burnIn ≤ i := by
    intro i hi
    obtain ⟨k1, k2⟩ := g3 i hi
    rw [selectAfter_static _ (fun _ _ _ => rfl)] at k2
    have k3 : ((burnIn : Int) ≤ i) := by simpa [initialBurnIn] using k2
    exact ⟨k1, by omega⟩
  set sched := polynomialThinned gumbel thinKey a b gamma T burnIn accepted bar with hsched
  have hinit : ∃ bs, schedInit sched its default
      = .ok (⟨0, its, ss, T, (burnIn : Int), t, bs⟩, (accepted : Int)) := by
    have hth : sched.thinning.init its
        (default : SchedKw PolyKw (Option ℝ) (Option Int) (ThinKw κ)).thinning = .ok (t, (accepted : Int)) := g1
    have hss : sched.stepSize.init its
        (default : SchedKw PolyKw (Option ℝ) (Option Int) (ThinKw κ)).stepSize = .ok ss := h1
    have hbi : sched.burnIn.init its
        (default : SchedKw PolyKw (Option ℝ) (Option Int) (ThinKw κ)).burnIn
        = .ok ((burnIn : Int), (its : Int) - burnIn) := rfl
    have hte : sched.temperature.init its
        (default : SchedKw PolyKw (Option ℝ) (Option Int) (ThinKw κ)).temperature = .ok T := rfl
    have hmin : min (accepted : Int) ((its : Int) - burnIn) = accepted := by omega
    simp only [schedInit, hth, hss, hbi, hte, hmin]
    exact ⟨_, rfl⟩
  obtain ⟨b0, hmain⟩ := hinit
  set main : SchedState (List XF) ℝ Int (List Nat) := ⟨0, its, ss, T, (burnIn : Int), t, b0⟩ with hm
  have hms : mcmcSchedulers sched its [] = .ok ([main], (accepted : Int)) := by
    simp only [mcmcSchedulers, hmain, mapExcept]
  let kept := (List.range its).filter (fun i : Nat => t.any (fun j => i == j))
  let vals : SchedState (List XF) ℝ Int (List Nat) → Nat → Schedule XF ℝ := fun _ i =>
    ⟨jnpGet ss i, T, decide ((burnIn : Int) ≤ i), t.any (fun j => i == j)⟩
  have hkept : (List.range its).filter (fun i => (vals main i).keep) = kept := by
    apply List.filter_congr
    intro i _
    show (decide ((burnIn : Int) ≤ i) && t.any (fun j => i == j)) = _
    cases hi : t.any (fun j => i == j) with
    | false => simp
    | true =>
      have := (hrange i hi).2
      have h' : (burnIn : Int) ≤ i := by omega
      simp [h']
  have hth : Thinned burnIn its accepted kept := by
    refine ⟨g2, List.Pairwise.filter _ List.pairwise_lt_range, fun i hi => ?_⟩
    have := hrange i (List.mem_filter.1 hi).2
    omega
  refine ⟨kept, hth, fun {α S} zero update get hp hne states => ?_⟩
  obtain ⟨rs, r1, r2, r3⟩ := static_run zero (sgmcSolver update get) hp hne sched [] its accepted main [] hms vals (by
    intro st hst fb i
    obtain rfl := List.mem_singleton.1 hst
    obtain ⟨e1, e2, e3, e4, e5⟩ := schedAfter_spec sched ⟨0, its, ss, T, (burnIn : Int), t, b0⟩ fb rfl i
    simp only [schedGet, e1, e2, e3, e4, e5, hm]
    rw [paramAfter_static _ (fun _ _ _ => rfl), paramAfter_static _ (fun _ _ _ => rfl),
      selectAfter_static _ (fun _ _ _ => rfl), selectAfter_static _ (fun _ _ _ => rfl)]
    rfl) kept hkept g2 states
  refine ⟨rs, r1, r2, r3.imp fun s r hr => ?_⟩
  have e : (kept.map fun i => (sgmcSolver update get).get (Spec.drive (sgmcSolver update get)
      (fun i => [main].map fun st => vals st i) s (i + 1))) = kept.map fun i => get
        ((paramsUpTo (polyStep a b gamma) T (i + 1)).foldl update s) := by
    refine List.map_congr_left fun i hi => ?_
    rw [sgmc_drive_at update get _ (polyStep a b gamma) T its ?_ s _ (by have := (hth.range i hi).2; omega)]
    · rfl
    · intro i hi
      show [(⟨(jnpGet ss i).toReal, T⟩ : Params)] = _
      rw [h4 i hi]
      rfl
  rw [← e]
  exact hr

include ha hb hg0 in
theorem polyAll_kept (burnIn : Nat) (bar : Bool) (its : Nat) (hfit : burnIn ≤ its) :
    ∃ kept, Thinned burnIn its (its - burnIn) kept ∧
      ∀ {α S : Type} (zero : α → α) (update : S → Params → S) (get : S → Tree α)
        (_ : PreservesStructure (sgmcSolver update get)) (_ : ∀ s, get s ≠ .none) (states : List S),
      ∃ rs : List (SaveResult α),
        mcmcMap (noSave zero) (sgmcSolver update get) (polynomialAll a b gamma T burnIn bar) [] its () states = .ok ((), rs) ∧
        (∀ C : MemCollector α, C.saveDir = false → ∃ C', mcmcMap (hostSaving zero) (sgmcSolver update get)
          (polynomialAll a b gamma T burnIn bar) [] its C states = .ok (C', rs)) ∧
        List.Forall₂ (fun s r => ReturnedSamples (kept.map fun i => get
          ((paramsUpTo (polyStep a b gamma) T (i + 1)).foldl update s)) r) states rs := by
  obtain ⟨ss, h1, h2⟩ := c34_polynomial a b gamma ha hb hg0 its
  have h4 : ∀ i < its, jnpGet ss i = .fin (polyStep a b gamma i) := by
    intro i hi
    have := (h2 (fun _ => default) i hi).1
    rwa [paramAfter_static _ (fun _ _ _ => rfl)] at this
  set sched := polynomialAll a b gamma T burnIn bar with hsched
  have hinit : ∃ bs, schedInit sched its default
      = .ok (⟨0, its, ss, T, (burnIn : Int), (), bs⟩, ((its - burnIn : Nat) : Int)) := by
    have hth : sched.thinning.init its
        (default : SchedKw PolyKw (Option ℝ) (Option Int) Unit).thinning = .ok ((), (its : Int)) := rfl
    have hss : sched.stepSize.init its
        (default : SchedKw PolyKw (Option ℝ) (Option Int) Unit).stepSize = .ok ss := h1
    have hbi : sched.burnIn.init its
        (default : SchedKw PolyKw (Option ℝ) (Option Int) Unit).burnIn
        = .ok ((burnIn : Int), (its : Int) - burnIn) := rfl
    have hte : sched.temperature.init its
        (default : SchedKw PolyKw (Option ℝ) (Option Int) Unit).temperature = .ok T := rfl
    have hmin : min (its : Int) ((its : Int) - burnIn) = ((its - burnIn : Nat) : Int) := by omega
    simp only [schedInit, hth, hss, hbi, hte, hmin]
    exact ⟨_, rfl⟩
  obtain ⟨b0, hmain⟩ := hinit
  set main : SchedState (List XF) ℝ Int Unit := ⟨0, its, ss, T, (burnIn : Int), (), b0⟩ with hm
  have hms : mcmcSchedulers sched its [] = .ok ([main], ((its - burnIn : Nat) : Int)) := by
    simp only [mcmcSchedulers, hmain, mapExcept]
  let vals : SchedState (List XF) ℝ Int Unit → Nat → Schedule XF ℝ := fun _ i =>
    ⟨jnpGet ss i, T, decide ((burnIn : Int) ≤ i), true⟩
  let kept := (List.range its).filter (fun i : Nat => decide ((burnIn : Int) ≤ i))
  have hkept : (List.range its).filter (fun i => (vals main i).keep) = kept := by
    apply List.filter_congr
    intro i _
    show (decide ((burnIn : Int) ≤ i) && true) = _
    simp
  have hcount : kept.length = its - burnIn := by
    have := count_burnIn (burnIn : Int) its
    simpa only [Int.toNat_natCast] using this
  have hth : Thinned burnIn its (its - burnIn) kept := by
    refine ⟨hcount, List.Pairwise.filter _ List.pairwise_lt_range, fun i hi => ?_⟩
    have := (List.mem_filter.1 hi)
    have h' := of_decide_eq_true this.2
    have := List.mem_range.1 this.1
    omega
  refine ⟨kept, hth, fun {α S} zero update get hp hne states => ?_⟩
  obtain ⟨rs, r1, r2, r3⟩ := static_run zero (sgmcSolver update get) hp hne sched [] its (its - burnIn) main [] hms vals (by
    intro st hst fb i
    obtain rfl := List.mem_singleton.1 hst
    obtain ⟨e1, e2, e3, e4, e5⟩ := schedAfter_spec sched ⟨0, its, ss, T, (burnIn : Int), (), b0⟩ fb rfl i
    simp only [schedGet, e1, e2, e3, e4, e5, hm]
    rw [paramAfter_static _ (fun _ _ _ => rfl), paramAfter_static _ (fun _ _ _ => rfl),
      selectAfter_static _ (fun _ _ _ => rfl), selectAfter_static _ (fun _ _ _ => rfl)]
    rfl) kept hkept hcount states
  refine ⟨rs, r1, r2, r3.imp fun s r hr => ?_⟩
  have e : (kept.map fun i => (sgmcSolver update get).get (Spec.drive (sgmcSolver update get)
      (fun i => [main].map fun st => vals st i) s (i + 1))) = kept.map fun i => get
        ((paramsUpTo (polyStep a b gamma) T (i + 1)).foldl update s) := by
    refine List.map_congr_left fun i hi => ?_
    rw [sgmc_drive_at update get _ (polyStep a b gamma) T its ?_ s _ (by have := (hth.range i hi).2; omega)]
    · rfl
    · intro i hi
      show [(⟨(jnpGet ss i).toReal, T⟩ : Params)] = _
      rw [h4 i hi]
      rfl
  rw [← e]
  exact hr

include ha hb hg0 in
/-- **C151 (the run).** A run of SGLD with `polynomial_step_size`, a burn in and possibly `random_thinning` succeeds if
enough iterations are left after the burn in, and returns for every chain the samples after the kept iterations, which lie
after the burn in; saving on the host gives the same result. -/
theorem c151_run {κ : Type} (gumbel : κ → Nat → ℝ) (thinKey : κ) (burnIn : Nat) (accepted : Option Nat) (bar : Bool)
    (its : Nat) (hfit : burnIn + accepted.getD 0 ≤ its) :
    ∃ kept, Thinned burnIn its (accepted.getD (its - burnIn)) kept ∧
      ∀ {ι μ A δ β : Type} [Fintype ι] (zero : OutLeaf ι μ → OutLeaf ι μ) (P : Prng κ) (key : κ) (lay : Layout ι)
        (ad : Option (AdaptStrategy ι β A)) (getData : δ → δ × β) (sg : StochGradLik ι β μ)
        (adaptInit : (ι → ℝ) → Option A) (ms : μ) (chains : List ((ι → ℝ) × δ)),
        ∃ rs : List (SaveResult (OutLeaf ι μ)),
        runSgldPolynomial (noSave zero) P key lay ad getData sg adaptInit ms gumbel thinKey a b gamma T burnIn accepted bar
          its () chains = .ok ((), rs) ∧
        (∀ C : MemCollector (OutLeaf ι μ), C.saveDir = false → ∃ C',
          runSgldPolynomial (hostSaving zero) P key lay ad getData sg adaptInit ms gumbel thinKey a b gamma T burnIn
            accepted bar its C chains = .ok (C', rs)) ∧
        List.Forall₂ (fun c r => ReturnedSamples (kept.map fun i => reportedLangevin
          (langevinRun P lay ad getData sg (langevinInit c.2 c.1 key (adaptInit c.1) ms)
            (paramsUpTo (fun n => a * (b + n) ^ (-gamma)) T (i + 1)))) r) chains rs := by
  have gen : ∃ kept, Thinned burnIn its (accepted.getD (its - burnIn)) kept ∧
      ∀ {ι μ A δ β : Type} [Fintype ι] (zero : OutLeaf ι μ → OutLeaf ι μ) (P : Prng κ) (key : κ) (lay : Layout ι)
        (ad : Option (AdaptStrategy ι β A)) (getData : δ → δ × β) (sg : StochGradLik ι β μ)
        (adaptInit : (ι → ℝ) → Option A) (ms : μ) (chains : List ((ι → ℝ) × δ)),
        ∃ rs : List (SaveResult (OutLeaf ι μ)),
        runSgldPolynomial (noSave zero) P key lay ad getData sg adaptInit ms gumbel thinKey a b gamma T burnIn accepted bar
          its () chains = .ok ((), rs) ∧
        (∀ C : MemCollector (OutLeaf ι μ), C.saveDir = false → ∃ C',
          runSgldPolynomial (hostSaving zero) P key lay ad getData sg adaptInit ms gumbel thinKey a b gamma T burnIn
            accepted bar its C chains = .ok (C', rs)) ∧
        List.Forall₂ (fun s r => ReturnedSamples (kept.map fun i => langevinTree
          ((paramsUpTo (polyStep a b gamma) T (i + 1)).foldl (langevinUpdate P lay ad getData sg) s)) r)
          (chains.map fun c => langevinInit c.2 c.1 key (adaptInit c.1) ms) rs := by
    cases accepted with
    | some k =>
      obtain ⟨kept, hk, h⟩ := polyThinned_kept (T := T) ha hb hg0 gumbel thinKey burnIn k bar its hfit
      refine ⟨kept, hk, fun {ι μ A δ β} _ zero P key lay ad getData sg adaptInit ms chains => ?_⟩
      exact h zero (langevinUpdate P lay ad getData sg) langevinTree (by intro s sc; cases sc <;> rfl)
        (by intro s; simp [langevinTree]) _
    | none =>
      obtain ⟨kept, hk, h⟩ := polyAll_kept (T := T) ha hb hg0 burnIn bar its (by simpa using hfit)
      refine ⟨kept, hk, fun {ι μ A δ β} _ zero P key lay ad getData sg adaptInit ms chains => ?_⟩
      exact h zero (langevinUpdate P lay ad getData sg) langevinTree (by intro s sc; cases sc <;> rfl)
        (by intro s; simp [langevinTree]) _
  obtain ⟨kept, hk, h⟩ := gen
  refine ⟨kept, hk, fun {ι μ A δ β} _ zero P key lay ad getData sg adaptInit ms chains => ?_⟩
  obtain ⟨rs, h1, h2, h3⟩ := h zero P key lay ad getData sg adaptInit ms chains
  exact ⟨rs, h1, h2, (forall₂_map_left' _ _ _ _ h3).imp fun c r hr => hr⟩

end

/-! ## Averages -/

theorem thinned_finset {burnIn its acc : ℕ} {kept : List ℕ} (hk : Thinned burnIn its acc kept) :
    ∃ I : Finset ℕ, I.card = acc ∧ (∀ i ∈ I, i ≤ its) ∧
      ∀ F : ℕ → ℝ, ((kept.map fun i => F (i + 1)).sum = ∑ i ∈ I, F i) := by
  have hn : (kept.map (· + 1)).Nodup := by
    refine List.Nodup.map (fun x y h => by simpa using h) ?_
    exact hk.increasing.imp fun h => h.ne
  refine ⟨(kept.map (· + 1)).toFinset, ?_, ?_, ?_⟩
  · rw [List.toFinset_card_of_nodup hn, List.length_map, hk.count]
  · intro i hi
    obtain ⟨j, hj, rfl⟩ := List.mem_map.1 (List.mem_toFinset.1 hi)
    have := hk.range j hj
    omega
  · intro F
    rw [List.sum_toFinset F hn, List.map_map]
    rfl

section
variable [Fintype ι] [DecidableEq ι] {U : (ι → ℝ) → ℝ} {G : (ι → ℝ) → ι → ℝ} {m L : ℝ} (hU : Spec.Convex U G m L)
  [MeasurableSpace Ω] [MeasurableSpace β] [Countable β] [MeasurableSingletonClass β]
  {prob : Measure Ω} [IsProbabilityMeasure prob] {P : Ω → Prng κ} {data : Ω → δ → δ × β} {d₀ : δ} {w : β → ENNReal}
  {sp : κ → ℕ → ℕ → κ} (hR : Spec.IdealRandom prob P data d₀ 1 (fun b => w (b 0)) sp) {lay : Layout ι}
  (hlay : Spec.Layout.Valid lay) {sg : StochGradLik ι β μ} {g : (ι → ℝ) → β → (ι → ℝ)} (hsg : ∀ x b ms, (sg x b ms).2 = g x b)
  (hgm : ∀ b, Measurable fun x => g x b) {s : ℝ} (hg : Spec.Unbiased w g G s) {T : ℝ} (hT : 0 < T)
  {a b gamma : ℝ} (ha : 0 < a) (hb : 0 < b) (hg0 : 0 < gamma)

include hU hR hlay hsg hgm hg hT ha hb hg0 in
theorem poly_mean (x₀ : ι → ℝ) {f : (ι → ℝ) → ℝ} {Λ : ℝ} (hf : Spec.Lipschitz f Λ) {ε : ℝ} (hε : 0 < ε) :
    ∃ K : ℝ, 0 < K ∧ ∀ (ms : μ) (key : κ) (burnIn its acc : ℕ) (kept : List ℕ), Thinned burnIn its acc kept →
      K ≤ acc * polyStep a b gamma its →
      Integrable (fun ω => (Spec.meanOver f (kept.map fun i => Spec.sgldSample (P ω) lay (data ω) d₀ sg ms x₀ key
        (paramsUpTo (polyStep a b gamma) T (i + 1))) - Spec.posteriorMean (fun x => U x / T) Set.univ f) ^ 2) prob ∧
      ∫ ω, (Spec.meanOver f (kept.map fun i => Spec.sgldSample (P ω) lay (data ω) d₀ sg ms x₀ key
        (paramsUpTo (polyStep a b gamma) T (i + 1))) - Spec.posteriorMean (fun x => U x / T) Set.univ f) ^ 2 ∂prob ≤ ε := by
  have hlim : Tendsto (polyStep a b gamma) atTop (𝓝 0) := by
    have h1 : Tendsto (fun k : ℕ => b + (k : ℝ)) atTop atTop := tendsto_atTop_add_const_left _ _ tendsto_natCast_atTop_atTop
    have := ((tendsto_rpow_neg_atTop hg0).comp h1).const_mul a
    rwa [mul_zero] at this
  obtain ⟨K, hK⟩ := c147_average (μ := μ) hU hR hlay hsg hgm hg hT (h := polyStep a b gamma) (fun n => poly_pos a b gamma ha hb n)
    (fun i j hij => poly_anti a b gamma ha hb hg0.le i j hij) hlim x₀ hf hε
  refine ⟨max K 1, lt_max_of_lt_right one_pos, fun ms key burnIn its acc kept hk hle => ?_⟩
  obtain ⟨I, i1, i2, i3⟩ := thinned_finset hk
  have hres := hK ms key its I i2 (by rw [i1]; exact (le_max_left _ _).trans hle)
  have e : ∀ ω, Spec.meanOver f (kept.map fun i => Spec.sgldSample (P ω) lay (data ω) d₀ sg ms x₀ key
        (paramsUpTo (polyStep a b gamma) T (i + 1))) = (∑ i ∈ I, f (Spec.sgldSample (P ω) lay (data ω) d₀ sg ms x₀ key
          ((List.range i).map fun k => ⟨polyStep a b gamma k, T⟩))) / I.card := by
    intro ω
    rw [← i3 fun i => f (Spec.sgldSample (P ω) lay (data ω) d₀ sg ms x₀ key
          ((List.range i).map fun k => ⟨polyStep a b gamma k, T⟩)), i1, ← hk.count]
    unfold Spec.meanOver
    rw [List.length_map, List.map_map]
    rfl
  simp only [e]
  exact hres

end

/-- The step sizes decrease slowly enough for `gamma < 1`. -/
theorem polyStep_slow {a b gamma : ℝ} (ha : 0 < a) (hb : 0 < b) (hg0 : 0 < gamma) (hg1 : gamma < 1) {θ : ℝ} (hθ : 0 < θ)
    {K : ℝ} : ∃ n₀ : ℕ, ∀ its acc : ℕ, n₀ ≤ its → θ * its ≤ acc → K ≤ acc * polyStep a b gamma its := by
  have hslow : Tendsto (fun n : ℕ => n * polyStep a b gamma n) atTop atTop := by
    have h1 : Tendsto (fun n : ℕ => a * 2 ^ (-gamma) * (n : ℝ) ^ (1 - gamma)) atTop atTop :=
      ((tendsto_rpow_atTop (by linarith : 0 < 1 - gamma)).comp tendsto_natCast_atTop_atTop).const_mul_atTop (by positivity)
    refine tendsto_atTop_mono' _ ?_ h1
    filter_upwards [tendsto_natCast_atTop_atTop.eventually_ge_atTop b, eventually_gt_atTop 0] with n hn hn0
    have hnp : (0 : ℝ) < n := Nat.cast_pos.2 hn0
    have h2 : (2 * (n : ℝ)) ^ (-gamma) ≤ (b + n) ^ (-gamma) :=
      Real.rpow_le_rpow_of_nonpos (by positivity) (by linarith) (by linarith)
    rw [Real.mul_rpow zero_le_two hnp.le] at h2
    have h3 : (n : ℝ) ^ (1 - gamma) = n * (n : ℝ) ^ (-gamma) := by
      rw [sub_eq_add_neg, Real.rpow_add hnp, Real.rpow_one]
    rw [h3]
    calc a * 2 ^ (-gamma) * (n * (n : ℝ) ^ (-gamma)) = n * (a * (2 ^ (-gamma) * (n : ℝ) ^ (-gamma))) := by ring
      _ ≤ n * polyStep a b gamma n := mul_le_mul_of_nonneg_left (mul_le_mul_of_nonneg_left h2 ha.le) hnp.le
  obtain ⟨n₀, h⟩ := eventually_atTop.1 (hslow.eventually_ge_atTop (K / θ))
  refine ⟨n₀, fun its acc hn hacc => ?_⟩
  have h1 := h its hn
  rw [div_le_iff₀ hθ] at h1
  have hp : 0 < polyStep a b gamma its := poly_pos a b gamma ha hb its
  nlinarith [mul_le_mul_of_nonneg_right hacc hp.le]

/-- The samples of a chain of the run. -/
theorem poly_values [Fintype ι] {P : Prng κ} {key : κ} {lay : Layout ι} {data : δ → δ × β} {sg : StochGradLik ι β μ}
    {ms : μ} {x₀ : ι → ℝ} {d₀ : δ} {step : ℕ → ℝ} {T : ℝ} {kept : List ℕ} (hk : 0 < kept.length)
    {chains : List ((ι → ℝ) × δ)} {j : ℕ}
    (hj : chains[j]? = some (x₀, d₀)) {rs : List (SaveResult (OutLeaf ι μ))}
    (h : List.Forall₂ (fun c r => Spec.ReturnedSamples (kept.map fun i => Spec.reportedLangevin
      (langevinRun P lay (none : Option (AdaptStrategy ι β Unit)) data sg (langevinInit c.2 c.1 key none ms)
        (Spec.paramsUpTo step T (i + 1)))) r) chains rs) :
    Spec.chainVariables rs j = kept.map fun i =>
      Spec.sgldSample P lay data d₀ sg ms x₀ key (Spec.paramsUpTo step T (i + 1)) := by
  obtain ⟨hlen, h4⟩ := List.forall₂_iff_get.1 h
  obtain ⟨hj1, hj2⟩ := List.getElem?_eq_some_iff.1 hj
  have hj3 : j < rs.length := hlen ▸ hj1
  have h5 := h4 j hj1 hj3
  have hc : chains.get ⟨j, hj1⟩ = (x₀, d₀) := hj2
  rw [hc] at h5
  unfold Spec.chainVariables
  rw [List.getElem?_eq_getElem hj3]
  exact returnedLangevin_eq (fun i => langevinRun P lay none data sg (langevinInit d₀ x₀ key none ms)
    (Spec.paramsUpTo step T (i + 1))) hk h5

/-- A Markov bound. -/
theorem square_probability [MeasurableSpace Ω] {prob : Measure Ω} [IsProbabilityMeasure prob] {Z : Ω → ℝ} {ε η : ℝ} (hε : 0 < ε)
    (i1 : Integrable (fun ω => Z ω ^ 2) prob) (i2 : ∫ ω, Z ω ^ 2 ∂prob ≤ η * ε ^ 2) :
    prob {ω | ε ≤ |Z ω|} ≤ ENNReal.ofReal η := by
  have hle2 : {ω | ε ≤ |Z ω|} ⊆ {ω | ε ^ 2 ≤ Z ω ^ 2} := fun ω hω => by
    show ε ^ 2 ≤ Z ω ^ 2
    rw [← sq_abs (Z ω)]
    exact pow_le_pow_left₀ hε.le hω 2
  have hmk := mul_meas_ge_le_integral_of_nonneg (Eventually.of_forall fun ω => sq_nonneg (Z ω)) i1 (ε ^ 2)
  have h2 : ε ^ 2 * prob.real {ω | ε ^ 2 ≤ Z ω ^ 2} ≤ η * ε ^ 2 := hmk.trans i2
  have h3 : prob.real {ω | ε ^ 2 ≤ Z ω ^ 2} ≤ η := by
    have hp : 0 < ε ^ 2 := by positivity
    nlinarith
  refine (measure_mono hle2).trans ?_
  rw [← ENNReal.ofReal_toReal (measure_ne_top prob {ω | ε ^ 2 ≤ Z ω ^ 2})]
  exact ENNReal.ofReal_le_ofReal h3

section
variable [Fintype ι] [DecidableEq ι] {U : (ι → ℝ) → ℝ} {G : (ι → ℝ) → ι → ℝ} {m L : ℝ} (hU : Spec.Convex U G m L)
  [MeasurableSpace Ω] [MeasurableSpace β] [Countable β] [MeasurableSingletonClass β]
  {prob : Measure Ω} [IsProbabilityMeasure prob] {P : Ω → Prng κ} {data : Ω → δ → δ × β} {d₀ : δ} {w : β → ENNReal}
  {sp : κ → ℕ → ℕ → κ} (hR : Spec.IdealRandom prob P data d₀ 1 (fun b => w (b 0)) sp) {lay : Layout ι}
  (hlay : Spec.Layout.Valid lay) {sg : StochGradLik ι β μ} {g : (ι → ℝ) → β → (ι → ℝ)} (hsg : ∀ x b ms, (sg x b ms).2 = g x b)
  (hgm : ∀ b, Measurable fun x => g x b) {s : ℝ} (hg : Spec.Unbiased w g G s) {T : ℝ} (hT : 0 < T)
  {a b gamma : ℝ} (ha : 0 < a) (hb : 0 < b) (hg0 : 0 < gamma) (hg1 : gamma < 1)

include hU hR hlay hsg hgm hg hT ha hb hg0 hg1 in
/-- **C151.** SGLD with `polynomial_step_size(a, b, gamma)`, `0 < gamma < 1`, run by `mcmc` with any burn in and with or
without `random_thinning`.  Let the samples kept be at least the fraction `θ > 0` of the iterations.  Then for every
Lipschitz function, initial sample and `ε > 0` every run with sufficiently many iterations succeeds, and the mean over the
returned samples of the chain differs from the posterior mean at temperature `T` by at most `ε` in mean square.  Step sizes
need not be tuned to the accuracy (compare C136). -/
theorem c151_converges {f : (ι → ℝ) → ℝ} {Λ : ℝ} (hf : Spec.Lipschitz f Λ) {ε θ : ℝ} (hε : 0 < ε) (hθ : 0 < θ)
    (x₀ : ι → ℝ) : ∃ n₀ : ℕ, ∀ (ms : μ) (key thinKey : κ) (gumbel : κ → ℕ → ℝ) (bar : Bool)
      (zero : OutLeaf ι μ → OutLeaf ι μ) (burnIn : ℕ) (accepted : Option ℕ) (its : ℕ), n₀ ≤ its →
      burnIn + accepted.getD 0 ≤ its → θ * its ≤ (accepted.getD (its - burnIn) : ℕ) →
      ∀ (chains : Ω → List ((ι → ℝ) × δ)) (j : ℕ), (∀ ω, (chains ω)[j]? = some (x₀, d₀)) →
      ∃ rs : Ω → List (SaveResult (OutLeaf ι μ)),
      (∀ ω, runSgldPolynomial (noSave zero) (P ω) key lay (none : Option (AdaptStrategy ι β Unit)) (data ω) sg (fun _ => none)
        ms gumbel thinKey a b gamma T burnIn accepted bar its () (chains ω) = .ok ((), rs ω)) ∧
      Integrable (fun ω => (Spec.meanOver f (Spec.chainVariables (rs ω) j) -
        Spec.posteriorMean (fun x => U x / T) Set.univ f) ^ 2) prob ∧
      ∫ ω, (Spec.meanOver f (Spec.chainVariables (rs ω) j) -
        Spec.posteriorMean (fun x => U x / T) Set.univ f) ^ 2 ∂prob ≤ ε := by
  obtain ⟨K, hK0, hK⟩ := poly_mean (μ := μ) hU hR hlay hsg hgm hg hT ha hb hg0 x₀ hf hε
  obtain ⟨n₀, hn₀⟩ := polyStep_slow ha hb hg0 hg1 hθ (K := K)
  refine ⟨n₀, fun ms key thinKey gumbel bar zero burnIn accepted its hn hfit hθ' chains j hj => ?_⟩
  obtain ⟨kept, hk, hruns⟩ := c151_run (T := T) ha hb hg0.le gumbel thinKey burnIn accepted bar its hfit
  choose rs r1 _ r3 using fun ω => hruns zero (P ω) key lay (none : Option (AdaptStrategy ι β Unit)) (data ω) sg (fun _ => none) ms
    (chains ω)
  have hle := hn₀ its _ hn hθ'
  have hpos : 0 < kept.length := by
    rw [hk.count]
    rcases Nat.eq_zero_or_pos (accepted.getD (its - burnIn)) with h | h
    · rw [h, Nat.cast_zero, zero_mul] at hle
      exact absurd hle (not_le.2 hK0)
    · exact h
  refine ⟨rs, r1, ?_⟩
  have hval : ∀ ω, Spec.chainVariables (rs ω) j = kept.map fun i =>
      Spec.sgldSample (P ω) lay (data ω) d₀ sg ms x₀ key (Spec.paramsUpTo (polyStep a b gamma) T (i + 1)) := fun ω =>
    poly_values hpos (hj ω) (r3 ω)
  simp only [hval]
  exact hK ms key burnIn its _ kept hk hle

end

/-! ## With the data loaders -/

section
variable [Fintype ι] [DecidableEq ι] {devices : ℕ} (hdev : 1 ≤ devices) {objs : ℕ → Loader σ ρ}
  (hobjs : ∀ i, ∃ data, mkLoader data = .ok (objs i)) {loader mb seed : ℕ}
  {prior : (ι → ℝ) → ℝ} {lik : Likelihood ℝ (List (String × Option ρ)) S (ι → ℝ)} {strategy : Strategy}
  {ℓ : (ι → ℝ) → List (String × Option ρ) → ℝ} (hℓ : ∀ y, Spec.LogLik lik y (ℓ y)) (hsm : ∀ x, Spec.SmoothAt ℓ prior x)
  {N : ℕ} (hN : 0 < N) {obs : Fin N → List (String × Option ρ)}
  (hd : Spec.IsDataset ((objs loader).data.map fun c => (c.1, c.2.map some)) N obs) (hobs : (objs loader).obsCount = N)
  (hmb : Spec.BatchFits lik mb) {lay : Layout ι} (hlay : Spec.Layout.Valid lay)
  [MeasurableSpace Ω] {prob : Measure Ω} [IsProbabilityMeasure prob] {P : Ω → Prng κ} {R : Ω → Rng σ} {sp : κ → ℕ → ℕ → κ}
  (hK : Spec.IdealNumpy prob P R N mb seed sp)
  {d : Ω → HostData (Loader σ ρ) NumpyKw (List (String × List ρ) × List Bool)}
  (hst : ∀ ω, Spec.RandomStreamOf (R ω) devices objs loader mb seed (d ω)) {junk : List (String × List ρ) × List Bool}
  {ms : Option S} (hms : ∀ y, Spec.StateFits lik y ms) {G : (ι → ℝ) → ι → ℝ} {m L : ℝ}
  (hU : Spec.Convex (Spec.dataPotential ℓ prior obs) G m L) {c : ℝ} (hc : 0 ≤ c)
  (hgrow : ∀ j x, ∑ i, Spec.partialDeriv (fun y => ℓ y (obs j)) x i ^ 2 ≤ c * (1 + Spec.sqLen x)) {T : ℝ} (hT : 0 < T) (key : κ)
  {a b gamma : ℝ} (ha : 0 < a) (hb : 0 < b) (hg0 : 0 < gamma) (hg1 : gamma < 1)

include hdev hobjs hℓ hsm hN hd hobs hmb hlay hK hst hms hU hc hgrow hT ha hb hg0 hg1 in
/-- **C151 (`NumpyDataLoader`).** With data from a `NumpyDataLoader` the mean over the returned samples of a run with
sufficiently many iterations is with probability at least `1 - η` within `ε` of the mean under the posterior of the data
set (at temperature `T`). -/
theorem c151_numpy {f : (ι → ℝ) → ℝ} {Λ : ℝ} (hf : Spec.Lipschitz f Λ) {ε η θ : ℝ} (hε : 0 < ε) (hη : 0 < η) (hθ : 0 < θ)
    (x₀ : ι → ℝ) : ∃ n₀ : ℕ, ∀ (thinKey : κ) (gumbel : κ → ℕ → ℝ) (bar : Bool)
      (zero : OutLeaf ι (Option S) → OutLeaf ι (Option S)) (burnIn : ℕ) (accepted : Option ℕ) (its : ℕ), n₀ ≤ its →
      burnIn + accepted.getD 0 ≤ its → θ * its ≤ (accepted.getD (its - burnIn) : ℕ) →
      ∀ (chains : Ω → List ((ι → ℝ) × HostData (Loader σ ρ) NumpyKw (List (String × List ρ) × List Bool))) (j : ℕ),
      (∀ ω, (chains ω)[j]? = some (x₀, d ω)) →
      ∃ rs : Ω → List (SaveResult (OutLeaf ι (Option S))),
      (∀ ω, runSgldPolynomial (noSave zero) (P ω) key lay (none : Option (AdaptStrategy ι _ Unit))
        (hostDataSource (numpyHost (R ω)) devices junk) (hostGradLik prior lik strategy 1 N mb) (fun _ => none) ms gumbel
        thinKey a b gamma T burnIn accepted bar its () (chains ω) = .ok ((), rs ω)) ∧
      prob {ω | ε ≤ |Spec.meanOver f (Spec.chainVariables (rs ω) j) -
        Spec.posteriorMean (fun x => Spec.dataPotential ℓ prior obs x / T) Set.univ f|} ≤ ENNReal.ofReal η := by
  obtain ⟨K, hK0, hmean⟩ := poly_mean (μ := Unit) hU (numpy_ideal_one hK hN) hlay (sg := dataSg ℓ prior obs) (fun _ _ _ => rfl)
    (dataGrad_measurable hsm) (dataGrad_unbiased hsm hN hmb.pos hc hgrow hU.gradient) hT ha hb hg0 x₀ hf
    (ε := η * ε ^ 2) (by positivity)
  obtain ⟨n₀, hn₀⟩ := polyStep_slow ha hb hg0 hg1 hθ (K := K)
  refine ⟨n₀, fun thinKey gumbel bar zero burnIn accepted its hn hfit hθ' chains j hj => ?_⟩
  obtain ⟨kept, hk, hruns⟩ := c151_run (T := T) ha hb hg0.le gumbel thinKey burnIn accepted bar its hfit
  choose rs r1 _ r3 using fun ω => hruns zero (P ω) key lay
    (none : Option (AdaptStrategy ι (List (String × List ρ) × List Bool) Unit))
    (hostDataSource (numpyHost (R ω)) devices junk) (hostGradLik prior lik strategy 1 N mb) (fun _ => none) ms (chains ω)
  have hle := hn₀ its _ hn hθ'
  have hpos : 0 < kept.length := by
    rw [hk.count]
    rcases Nat.eq_zero_or_pos (accepted.getD (its - burnIn)) with h | h
    · rw [h, Nat.cast_zero, zero_mul] at hle
      exact absurd hle (not_le.2 hK0)
    · exact h
  refine ⟨rs, r1, ?_⟩
  have hval : ∀ ω, Spec.chainVariables (rs ω) j = kept.map fun i =>
      Spec.sgldSample (P ω) lay (Spec.batchSource (numpyIndices hN mb seed (R ω))) 0 (dataSg ℓ prior obs) () x₀ key
        (Spec.paramsUpTo (polyStep a b gamma) T (i + 1)) := by
    intro ω
    have hv := poly_values (step := polyStep a b gamma) hpos (hj ω) (r3 ω)
    rw [hv]
    exact List.map_congr_left fun i _ => numpy_sample hdev hobjs hℓ hsm hN hd hobs hmb hK hst hms key x₀ _ ω
  simp only [hval]
  obtain ⟨i1, i2⟩ := hmean () key burnIn its _ kept hk hle
  exact square_probability hε i1 i2

end

section
variable [Fintype ι] [DecidableEq ι]
  {prior : (ι → ℝ) → ℝ} {lik : Likelihood ℝ (List (String × ρ)) S (ι → ℝ)} {strategy : Strategy}
  {ℓ : (ι → ℝ) → List (String × ρ) → ℝ} (hℓ : ∀ y, Spec.LogLik lik y (ℓ y)) (hsm : ∀ x, Spec.SmoothAt ℓ prior x)
  {N : ℕ} (hN : 0 < N) {data : List (String × List ρ)} {obs : Fin N → List (String × ρ)}
  (hd : Spec.IsDataset data N obs) {mb : ℕ} (hmb : Spec.BatchFits lik mb) {lay : Layout ι} (hlay : Spec.Layout.Valid lay)
  [MeasurableSpace Ω] {prob : Measure Ω} [IsProbabilityMeasure prob] {P : Ω → Prng κ} {I : Ω → Randint κ}
  {sp : κ → ℕ → ℕ → κ} (hK : Spec.IdealKeys prob P I sp) {key dk : κ} (hind : Spec.KeysApart sp dk key)
  {ms : Option S} (hms : ∀ y, Spec.StateFits lik y ms) {G : (ι → ℝ) → ι → ℝ} {m L : ℝ}
  (hU : Spec.Convex (Spec.dataPotential ℓ prior obs) G m L) {c : ℝ} (hc : 0 ≤ c)
  (hgrow : ∀ j x, ∑ i, Spec.partialDeriv (fun y => ℓ y (obs j)) x i ^ 2 ≤ c * (1 + Spec.sqLen x)) {T : ℝ} (hT : 0 < T)
  {a b gamma : ℝ} (ha : 0 < a) (hb : 0 < b) (hg0 : 0 < gamma) (hg1 : gamma < 1)

include hℓ hsm hN hd hmb hlay hK hind hms hU hc hgrow hT ha hb hg0 hg1 in
/-- **C151 (`DeviceNumpyDataLoader`).** The same with data from a `DeviceNumpyDataLoader` and independent keys for chain
and data. -/
theorem c151_device {f : (ι → ℝ) → ℝ} {Λ : ℝ} (hf : Spec.Lipschitz f Λ) {ε η θ : ℝ} (hε : 0 < ε) (hη : 0 < η) (hθ : 0 < θ)
    (x₀ : ι → ℝ) : ∃ n₀ : ℕ, ∀ (thinKey : κ) (gumbel : κ → ℕ → ℝ) (bar : Bool)
      (zero : OutLeaf ι (Option S) → OutLeaf ι (Option S)) (burnIn : ℕ) (accepted : Option ℕ) (its : ℕ), n₀ ≤ its →
      burnIn + accepted.getD 0 ≤ its → θ * its ≤ (accepted.getD (its - burnIn) : ℕ) →
      ∀ (chains : List ((ι → ℝ) × κ)) (j : ℕ), chains[j]? = some (x₀, dk) →
      ∃ rs : Ω → List (SaveResult (OutLeaf ι (Option S))),
      (∀ ω, runSgldPolynomial (noSave zero) (P ω) key lay (none : Option (AdaptStrategy ι _ Unit))
        (deviceGetData (P ω) (I ω) data N mb) (potentialGradLik prior lik strategy 1) (fun _ => none) ms gumbel
        thinKey a b gamma T burnIn accepted bar its () chains = .ok ((), rs ω)) ∧
      prob {ω | ε ≤ |Spec.meanOver f (Spec.chainVariables (rs ω) j) -
        Spec.posteriorMean (fun x => Spec.dataPotential ℓ prior obs x / T) Set.univ f|} ≤ ENNReal.ofReal η := by
  obtain ⟨K, hK0, hmean⟩ := poly_mean (μ := Unit) hU (chain_ideal hK hind hN mb) hlay (sg := dataSg ℓ prior obs)
    (fun _ _ _ => rfl) (dataGrad_measurable hsm) (dataGrad_unbiased hsm hN hmb.pos hc hgrow hU.gradient) hT ha hb hg0 x₀ hf
    (ε := η * ε ^ 2) (by positivity)
  obtain ⟨n₀, hn₀⟩ := polyStep_slow ha hb hg0 hg1 hθ (K := K)
  refine ⟨n₀, fun thinKey gumbel bar zero burnIn accepted its hn hfit hθ' chains j hj => ?_⟩
  obtain ⟨kept, hk, hruns⟩ := c151_run (T := T) ha hb hg0.le gumbel thinKey burnIn accepted bar its hfit
  choose rs r1 _ r3 using fun ω => hruns zero (P ω) key lay (none : Option (AdaptStrategy ι _ Unit))
    (deviceGetData (P ω) (I ω) data N mb) (potentialGradLik prior lik strategy 1) (fun _ => none) ms chains
  have hle := hn₀ its _ hn hθ'
  have hpos : 0 < kept.length := by
    rw [hk.count]
    rcases Nat.eq_zero_or_pos (accepted.getD (its - burnIn)) with h | h
    · rw [h, Nat.cast_zero, zero_mul] at hle
      exact absurd hle (not_le.2 hK0)
    · exact h
  refine ⟨rs, r1, ?_⟩
  have hval : ∀ ω, Spec.chainVariables (rs ω) j = kept.map fun i =>
      Spec.sgldSample (chainPrng sp key (P ω)) lay (indexBatches sp hN mb (I ω)) dk (dataSg ℓ prior obs) () x₀ (chainRoot sp key)
        (Spec.paramsUpTo (polyStep a b gamma) T (i + 1)) := by
    intro ω
    have hv := poly_values (step := polyStep a b gamma) hpos hj (r3 ω)
    rw [hv]
    exact List.map_congr_left fun i _ => device_sample hℓ hsm hN hd hmb hlay hK hms x₀ _ ω
  simp only [hval]
  obtain ⟨i1, i2⟩ := hmean () (chainRoot sp key) burnIn its _ kept hk hle
  exact square_probability hε i1 i2

end

/-- The hypotheses can be met: with ideal generators and the data `1, 3`, half of the iterations as burn in and step sizes
`(1 + k)^(-1/3)`, the mean over the samples returned by a long run with a `NumpyDataLoader` (mini-batches of one observation,
cache of three mini-batches) is probably close to the posterior mean. -/
example (junk : List (String × List ℝ) × List Bool) : ∃ n₀ : ℕ, ∀ its : ℕ, n₀ ≤ its →
    ∃ rs : _ → List (SaveResult (OutLeaf (Fin 1) (Option Unit))),
    (∀ ω, runSgldPolynomial (noSave id) (IdealSpace.gen ω) [1] (Spec.vectorLayout 1) (none : Option (AdaptStrategy (Fin 1) _ Unit))
      (hostDataSource (numpyHost (IdealNumpySpace.rng ω)) 1 junk) (hostGradLik meanPrior (.plain hostMeanLik) .vmap 1 2 1)
      (fun _ => none) none (fun _ _ => 0) [] 1 1 (1 / 3) 1 (its / 2) none true its ()
      [(0, firstChain (IdealNumpySpace.rng ω) 1 meanObjs 0 3 1 (.random false false (some 7)))] = .ok ((), rs ω)) ∧
    IdealNumpySpace.law 2 1 {ω | 1 / 100 ≤ |Spec.meanOver (fun x => x 0) (Spec.chainVariables (rs ω) 0) -
      Spec.posteriorMean (fun x => Spec.dataPotential hostMeanLik meanPrior hostMeanObs x / 1) Set.univ fun x => x 0|} ≤
        ENNReal.ofReal (1 / 20) := by
  have hv : Spec.Layout.Valid (Spec.vectorLayout 1) :=
    ⟨Spec.vectorLayout_injective 1, fun _ => Nat.one_pos, fun i => i.2⟩
  have hprob : IsProbabilityMeasure (IdealNumpySpace.law 2 1) := by
    unfold IdealNumpySpace.law IdealSpace.law
    infer_instance
  have hst : ∀ ω, Spec.RandomStreamOf (IdealNumpySpace.rng ω) 1 meanObjs 0 1 7
      (firstChain (IdealNumpySpace.rng (N := 2) (mb := 1) ω) 1 meanObjs 0 3 1 (.random false false (some 7))) :=
    fun ω => firstChain_random (given := some 7) (IdealNumpySpace.rng_lawful ω) (meanObjs_ok 0) (by norm_num) (by norm_num) (by decide)
  obtain ⟨n₀, h⟩ := c151_numpy (le_refl 1) meanObjs_ok (lik := .plain hostMeanLik) (ℓ := hostMeanLik) (strategy := .vmap)
    (junk := junk) (fun y r => rfl) hostMean_smooth
    (by norm_num : 0 < 2) hostMean_dataset rfl (mb := 1) (le_refl 1) hv (IdealNumpySpace.ideal 7) hst
    (fun y => rfl) (hostMean_potential ▸ mean_convex) (c := 18) (by norm_num) mean_growth
    one_pos [1] (a := 1) (b := 1) (gamma := 1 / 3) one_pos one_pos (by norm_num) (by norm_num) (f := fun x => x 0) (Λ := 1)
    (fun x y => by simp [Spec.sqLen]) (ε := 1 / 100) (η := 1 / 20) (θ := 1 / 2) (by norm_num) (by norm_num) (by norm_num) 0
  refine ⟨n₀, fun its hits => h [] (fun _ _ => 0) true id (its / 2) none its hits ?_ ?_ _ 0 fun ω => rfl⟩
  · show its / 2 + 0 ≤ its
    omega
  · show 1 / 2 * (its : ℝ) ≤ ((its - its / 2 : ℕ) : ℝ)
    have h1 : its ≤ 2 * (its - its / 2) := by omega
    have h2 : (its : ℝ) ≤ 2 * ((its - its / 2 : ℕ) : ℝ) := by exact_mod_cast h1
    linarith

end JaxSgmc
