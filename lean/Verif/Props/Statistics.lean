import Verif.Model.Samples
import Verif.Props.Solver
import Verif.Props.Langevin

/-!
# C89: mass adaption sees the chain; C90: reported statistics; C91: total noise with Fisher information
-/

namespace JaxSgmc

variable {ι κ δ β μ φ Ms A : Type}

/-! ## C89 -/

theorem amagoldRun_snoc (P : Prng κ) (ma : Option (MassAdaption ι Ms))
    (integ : LeapfrogState ι XF κ δ μ → Params → Option (MassMatrix ι) → LeapfrogState ι XF κ δ μ)
    (fullPot : FullPotFn ι φ μ) (s : AmagoldState ι κ δ μ φ Ms) (ps : List Params) (p : Params) :
    amagoldRun P ma integ fullPot s (ps ++ [p]) =
      (amagoldUpdate P ma integ fullPot (amagoldRun P ma integ fullPot s ps) p).1 := by
  simp [amagoldRun, List.foldl_append]

theorem sggmcRun_snoc (P : Prng κ) (ma : Option (MassAdaption ι Ms))
    (integ : ObaboState ι XF κ δ μ → Params → Option (MassMatrix ι) → ObaboState ι XF κ δ μ)
    (fullPot : FullPotFn ι φ μ) (s : SggmcState ι κ δ μ φ Ms) (ps : List Params) (p : Params) :
    sggmcRun P ma integ fullPot s (ps ++ [p]) =
      (sggmcUpdate P ma integ fullPot (sggmcRun P ma integ fullPot s ps) p).1 := by
  simp [sggmcRun, List.foldl_append]

/-- The state of the mass adaption is the one after the reported samples. -/
theorem amagold_massState (P : Prng κ) (m : MassAdaption ι Ms)
    (initInt : (ι → ℝ) → κ → μ → Option (MassMatrix ι) → LeapfrogState ι XF κ δ μ)
    (integ : LeapfrogState ι XF κ δ μ → Params → Option (MassMatrix ι) → LeapfrogState ι XF κ δ μ)
    (fullPot : FullPotFn ι φ μ) (f₀ : φ) (x₀ : ι → ℝ) (k₀ : κ) (m₀ : μ) (qs : List Params) :
    let run := amagoldRun P (some m) integ fullPot (amagoldInit P (some m) initInt fullPot f₀ x₀ k₀ m₀)
    (run qs).massState = some (((List.range qs.length).map
      (fun k => (amagoldGet (run (qs.take (k + 1)))).vars)).foldl m.update (m.init x₀)) := by
  intro run
  induction qs using List.reverseRecOn with
  | nil => rfl
  | append_singleton qs q ih =>
    have e : run (qs ++ [q]) = (amagoldUpdate P (some m) integ fullPot (run qs) q).1 :=
      amagoldRun_snoc ..
    have h1 : (run (qs ++ [q])).massState = nextMassState (some m) (run qs).massState
        (amagoldGet (run (qs ++ [q]))).vars := by
      rw [e]; rfl
    rw [h1, ih, List.length_append, List.length_singleton, List.range_succ, List.map_append,
      List.foldl_append]
    have h2 : (List.range qs.length).map (fun k => (amagoldGet (run ((qs ++ [q]).take (k + 1)))).vars) =
        (List.range qs.length).map (fun k => (amagoldGet (run (qs.take (k + 1)))).vars) := by
      refine List.map_congr_left fun k hk => ?_
      rw [List.take_append_of_le_length (List.mem_range.1 hk)]
    have h3 : (qs ++ [q]).take (qs.length + 1) = qs ++ [q] := by
      rw [List.take_of_length_le]; simp
    rw [h2]
    simp only [List.map_cons, List.map_nil, List.foldl_cons, List.foldl_nil, h3]
    rfl

/-- C89 for AMAGOLD: after the updates `ps` the adaption has been updated with exactly the samples reported
after each of them, in this order, starting from its initialisation with the first sample; the next update is
an update without adaption by the integrator with the mass which the adaption then returns. -/
theorem c89_amagold (P : Prng κ) (m : MassAdaption ι Ms)
    (initInt : (ι → ℝ) → κ → μ → Option (MassMatrix ι) → LeapfrogState ι XF κ δ μ)
    (integ : LeapfrogState ι XF κ δ μ → Params → Option (MassMatrix ι) → LeapfrogState ι XF κ δ μ)
    (fullPot : FullPotFn ι φ μ) (f₀ : φ) (x₀ : ι → ℝ) (k₀ : κ) (m₀ : μ) (ps : List Params) (p : Params) :
    let run := amagoldRun P (some m) integ fullPot (amagoldInit P (some m) initInt fullPot f₀ x₀ k₀ m₀)
    let samples := (List.range ps.length).map (fun k => (amagoldGet (run (ps.take (k + 1)))).vars)
    let mass := m.get (samples.foldl m.update (m.init x₀))
    let next := (amagoldUpdate P none (fun s p _ => integ s p (some mass)) fullPot (run ps) p).1
    amagoldGet (run (ps ++ [p])) = amagoldGet next ∧
      (run (ps ++ [p])).integratorState = next.integratorState ∧
      (run (ps ++ [p])).potential = next.potential := by
  intro run samples mass next
  have hst := amagold_massState P m initInt integ fullPot f₀ x₀ k₀ m₀
  have e : run (ps ++ [p]) = (amagoldUpdate P (some m) integ fullPot (run ps) p).1 :=
    amagoldRun_snoc ..
  have hm : currentMass (some m) (run ps).massState = some mass := by rw [hst ps]; rfl
  have e2 : (amagoldUpdate P (some m) integ fullPot (run ps) p).1 =
      { next with massState := nextMassState (some m) (run ps).massState next.integratorState.positions } := by
    simp only [next]
    unfold amagoldUpdate
    dsimp only
    rw [hm]
  rw [e, e2]
  exact ⟨rfl, rfl, rfl⟩

/-- The state of the mass adaption is the one after the reported samples. -/
theorem sggmc_massState (P : Prng κ) (m : MassAdaption ι Ms)
    (initInt : (ι → ℝ) → κ → μ → ObaboState ι XF κ δ μ)
    (integ : ObaboState ι XF κ δ μ → Params → Option (MassMatrix ι) → ObaboState ι XF κ δ μ)
    (fullPot : FullPotFn ι φ μ) (f₀ : φ) (x₀ : ι → ℝ) (k₀ : κ) (m₀ : μ) (qs : List Params) :
    let run := sggmcRun P (some m) integ fullPot (sggmcInit P (some m) initInt fullPot f₀ x₀ k₀ m₀)
    (run qs).massState = some (((List.range qs.length).map
      (fun k => (sggmcGet (run (qs.take (k + 1)))).vars)).foldl m.update (m.init x₀)) := by
  intro run
  induction qs using List.reverseRecOn with
  | nil => rfl
  | append_singleton qs q ih =>
    have e : run (qs ++ [q]) = (sggmcUpdate P (some m) integ fullPot (run qs) q).1 :=
      sggmcRun_snoc ..
    have h1 : (run (qs ++ [q])).massState = nextMassState (some m) (run qs).massState
        (sggmcGet (run (qs ++ [q]))).vars := by
      rw [e]; rfl
    rw [h1, ih, List.length_append, List.length_singleton, List.range_succ, List.map_append,
      List.foldl_append]
    have h2 : (List.range qs.length).map (fun k => (sggmcGet (run ((qs ++ [q]).take (k + 1)))).vars) =
        (List.range qs.length).map (fun k => (sggmcGet (run (qs.take (k + 1)))).vars) := by
      refine List.map_congr_left fun k hk => ?_
      rw [List.take_append_of_le_length (List.mem_range.1 hk)]
    have h3 : (qs ++ [q]).take (qs.length + 1) = qs ++ [q] := by
      rw [List.take_of_length_le]; simp
    rw [h2]
    simp only [List.map_cons, List.map_nil, List.foldl_cons, List.foldl_nil, h3]
    rfl

/-- C89 for SGGMC. -/
theorem c89_sggmc (P : Prng κ) (m : MassAdaption ι Ms)
    (initInt : (ι → ℝ) → κ → μ → ObaboState ι XF κ δ μ)
    (integ : ObaboState ι XF κ δ μ → Params → Option (MassMatrix ι) → ObaboState ι XF κ δ μ)
    (fullPot : FullPotFn ι φ μ) (f₀ : φ) (x₀ : ι → ℝ) (k₀ : κ) (m₀ : μ) (ps : List Params) (p : Params) :
    let run := sggmcRun P (some m) integ fullPot (sggmcInit P (some m) initInt fullPot f₀ x₀ k₀ m₀)
    let samples := (List.range ps.length).map (fun k => (sggmcGet (run (ps.take (k + 1)))).vars)
    let mass := m.get (samples.foldl m.update (m.init x₀))
    let next := (sggmcUpdate P none (fun s p _ => integ s p (some mass)) fullPot (run ps) p).1
    sggmcGet (run (ps ++ [p])) = sggmcGet next ∧
      (run (ps ++ [p])).integratorState = next.integratorState ∧
      (run (ps ++ [p])).potential = next.potential := by
  intro run samples mass next
  have hst := sggmc_massState P m initInt integ fullPot f₀ x₀ k₀ m₀
  have e : run (ps ++ [p]) = (sggmcUpdate P (some m) integ fullPot (run ps) p).1 :=
    sggmcRun_snoc ..
  have hm : currentMass (some m) (run ps).massState = some mass := by rw [hst ps]; rfl
  have e2 : (sggmcUpdate P (some m) integ fullPot (run ps) p).1 =
      { next with massState := nextMassState (some m) (run ps).massState next.integratorState.positions } := by
    simp only [next]
    unfold sggmcUpdate
    dsimp only
    rw [hm]
  rw [e, e2]
  exact ⟨rfl, rfl, rfl⟩

/-- C89: the integrator gets the initial mass of the adaption when AMAGOLD is initialised (to draw the
initial momentum). -/
theorem c89_init (P : Prng κ) (m : MassAdaption ι Ms)
    (initInt : (ι → ℝ) → κ → μ → Option (MassMatrix ι) → LeapfrogState ι XF κ δ μ)
    (fullPot : FullPotFn ι φ μ) (f₀ : φ) (x₀ : ι → ℝ) (k₀ : κ) (m₀ : μ) :
    (amagoldInit P (some m) initInt fullPot f₀ x₀ k₀ m₀).integratorState =
      initInt x₀ (P.split k₀ 2 0) (fullPot x₀ f₀ m₀).2.2 (some (m.get (m.init x₀))) := rfl

/-- C89: without adaption the integrators always get no mass and use their constant one. -/
theorem c89_constant (P : Prng κ)
    (integ integ' : LeapfrogState ι XF κ δ μ → Params → Option (MassMatrix ι) → LeapfrogState ι XF κ δ μ)
    (hi : ∀ s p, integ s p none = integ' s p none)
    (integO integO' : ObaboState ι XF κ δ μ → Params → Option (MassMatrix ι) → ObaboState ι XF κ δ μ)
    (hio : ∀ s p, integO s p none = integO' s p none)
    (fullPot : FullPotFn ι φ μ) (s : AmagoldState ι κ δ μ φ Ms) (so : SggmcState ι κ δ μ φ Ms)
    (ps : List Params) :
    amagoldRun P none integ fullPot s ps = amagoldRun P none integ' fullPot s ps ∧
      sggmcRun P none integO fullPot so ps = sggmcRun P none integO' fullPot so ps := by
  have e1 : ∀ s p, amagoldUpdate P (none : Option (MassAdaption ι Ms)) integ fullPot s p =
      amagoldUpdate P none integ' fullPot s p := by
    intro s p
    unfold amagoldUpdate
    dsimp only [currentMass]
    rw [hi]
  have e2 : ∀ s p, sggmcUpdate P (none : Option (MassAdaption ι Ms)) integO fullPot s p =
      sggmcUpdate P none integO' fullPot s p := by
    intro s p
    unfold sggmcUpdate
    dsimp only [currentMass]
    rw [hio]
  simp only [amagoldRun, sggmcRun, e1, e2]
  exact ⟨trivial, trivial⟩

/-- A case of `c89_amagold`: an adaption which records the samples; the integrator moves by one, the
proposals are accepted, and the mass seen by the third update comes from two samples. -/
example :
    let m : MassAdaption Unit (List ℝ) := ⟨fun x => [x ()], fun l x => l ++ [x ()],
      fun l => ⟨.diag fun _ => l.length, .diag fun _ => 1⟩⟩
    ([fun _ => 1, fun _ => 2].foldl m.update (m.init (fun _ => 0))) = [0, 1, 2] := rfl

/-! ## C90 -/

/-- C90 for AMAGOLD: the reported acceptance ratio is the one returned by the update, the reported step size
the one of the schedule. -/
theorem c90_amagold (P : Prng κ) (ma : Option (MassAdaption ι Ms))
    (integ : LeapfrogState ι XF κ δ μ → Params → Option (MassMatrix ι) → LeapfrogState ι XF κ δ μ)
    (fullPot : FullPotFn ι φ μ) (s : AmagoldState ι κ δ μ φ Ms) (ps : List Params) (p : Params)
    (U U' ρ : ℝ) (hu : ∀ k, 0 ≤ P.uniform k)
    (h0 : (amagoldRun P ma integ fullPot s ps).potential = .fin U)
    (h1 : let q := (integ (amagoldRun P ma integ fullPot s ps).integratorState p
        (currentMass ma (amagoldRun P ma integ fullPot s ps).massState))
      (fullPot q.positions (amagoldRun P ma integ fullPot s ps).fullDataState q.modelState).1 = .fin U' ∧
        q.potential = .fin ρ) :
    let r := amagoldGet (amagoldRun P ma integ fullPot s (ps ++ [p]))
    r.stepSize = p.stepSize ∧ r.acceptanceRatio = .fin (Spec.acceptProb (U' - U - ρ)) := by
  intro r
  have h := c61_amagold P ma integ fullPot _ p U U' ρ (hu _) h0 h1
  have e : r = amagoldGet (amagoldUpdate P ma integ fullPot (amagoldRun P ma integ fullPot s ps) p).1 := by
    simp only [r, amagoldRun_snoc]
  rw [e]
  exact ⟨rfl, h.2.2.2.1⟩

/-- C90 for SGGMC: additionally the change of the kinetic energy along the proposal is reported. -/
theorem c90_sggmc (P : Prng κ) (ma : Option (MassAdaption ι Ms))
    (integ : ObaboState ι XF κ δ μ → Params → Option (MassMatrix ι) → ObaboState ι XF κ δ μ)
    (fullPot : FullPotFn ι φ μ) (s : SggmcState ι κ δ μ φ Ms) (ps : List Params) (p : Params)
    (U U' K K' : ℝ) (hu : ∀ k, 0 ≤ P.uniform k) (hT : p.temperature ≠ 0)
    (h0 : (sggmcRun P ma integ fullPot s ps).potential = .fin U)
    (h1 : let q := (integ (sggmcRun P ma integ fullPot s ps).integratorState p
        (currentMass ma (sggmcRun P ma integ fullPot s ps).massState))
      (fullPot q.positions (sggmcRun P ma integ fullPot s ps).fullDataState q.modelState).1 = .fin U' ∧
        q.kineticStart = .fin K ∧ q.kineticEnd = .fin K') :
    let r := sggmcGet (sggmcRun P ma integ fullPot s (ps ++ [p]))
    r.stepSize = p.stepSize ∧ r.kineticEnergy = .fin (K' - K) ∧
      r.acceptanceRatio = .fin (Spec.acceptProb ((U' - U + K' - K) / p.temperature)) := by
  intro r
  have h := c61_sggmc P ma integ fullPot _ p U U' K K' (hu _) hT h0 h1
  have e : r = sggmcGet (sggmcUpdate P ma integ fullPot (sggmcRun P ma integ fullPot s ps) p).1 := by
    simp only [r, sggmcRun_snoc]
  rw [e]
  refine ⟨rfl, ?_, h.2.2.2.1⟩
  show XF.sub (integ _ _ _).kineticEnd (integ _ _ _).kineticStart = _
  rw [h1.2.1, h1.2.2]
  simp [XF.sub, XF.add, XF.neg, sub_eq_add_neg]

/-! ## C91 -/

/-- C91: with the noise model `fisher_information` the injected noise (variance `2 h n²` for the returned
factors `n`) and the estimated noise of the stochastic gradient (variance `h² V`) together have the variance
`2 h C` required by the friction `C`, in every component in which the friction exceeds half the estimated
noise. -/
theorem c91_total [Fintype ι] (N n : ℕ) (perObs : Fin n → ι → ℝ) (sampleGrad friction : ι → ℝ)
    (h : ℝ) (noise : ι → ℝ) (hn : fisherNoise N n perObs sampleGrad friction h = some noise) (i : ι)
    (hi : h / 2 * fisherV N n perObs sampleGrad i < friction i) :
    2 * h * noise i ^ 2 + h ^ 2 * fisherV N n perObs sampleGrad i = 2 * h * friction i := by
  unfold fisherNoise at hn
  have hpos : 0 < friction i - 0.5 * h * fisherV N n perObs sampleGrad i := by
    have : (0.5 : ℝ) * h * fisherV N n perObs sampleGrad i = h / 2 * fisherV N n perObs sampleGrad i := by
      rw [show (0.5 : ℝ) = 1 / 2 by norm_num]; ring
    rw [this]; linarith
  dsimp only at hn
  split at hn
  · simp only [Option.some.injEq] at hn
    rw [← hn]
    dsimp only
    rw [if_neg (not_le.mpr hpos), Real.sq_sqrt hpos.le]
    norm_num
    ring
  · next hne =>
    exact absurd ⟨i, Finset.mem_filter.2 ⟨Finset.mem_univ i, hpos⟩⟩ hne

/-- C91: in the other components the noise is the smallest one injected in a component which is not
over-estimated; it is positive. -/
theorem c91_clipped [Fintype ι] (N n : ℕ) (perObs : Fin n → ι → ℝ) (sampleGrad friction : ι → ℝ)
    (h : ℝ) (noise : ι → ℝ) (hn : fisherNoise N n perObs sampleGrad friction h = some noise) (i : ι)
    (hi : friction i ≤ h / 2 * fisherV N n perObs sampleGrad i) :
    0 < noise i ∧ (∃ j, h / 2 * fisherV N n perObs sampleGrad j < friction j ∧ noise i = noise j) ∧
      ∀ j, h / 2 * fisherV N n perObs sampleGrad j < friction j → noise i ≤ noise j := by
  have half : ∀ j, (0.5 : ℝ) * h * fisherV N n perObs sampleGrad j =
      h / 2 * fisherV N n perObs sampleGrad j := fun j => by
    rw [show (0.5 : ℝ) = 1 / 2 by norm_num]; ring
  unfold fisherNoise at hn
  simp only [half] at hn
  split at hn
  · next hne =>
    simp only [Option.some.injEq] at hn
    have hi' : friction i - h / 2 * fisherV N n perObs sampleGrad i ≤ 0 := by linarith
    obtain ⟨j, hj, hje⟩ := Finset.exists_mem_eq_inf' hne
      (fun j => friction j - h / 2 * fisherV N n perObs sampleGrad j)
    have hj' : 0 < friction j - h / 2 * fisherV N n perObs sampleGrad j := (Finset.mem_filter.1 hj).2
    have hni : noise i = Real.sqrt (friction j - h / 2 * fisherV N n perObs sampleGrad j) := by
      rw [← hn]; dsimp only; rw [if_pos hi', hje]
    have hnj : ∀ j, h / 2 * fisherV N n perObs sampleGrad j < friction j →
        noise j = Real.sqrt (friction j - h / 2 * fisherV N n perObs sampleGrad j) := by
      intro j hj
      rw [← hn]; dsimp only; rw [if_neg (by linarith)]
    refine ⟨?_, ⟨j, by linarith, ?_⟩, ?_⟩
    · rw [hni]; exact Real.sqrt_pos.2 hj'
    · rw [hni, hnj j (by linarith)]
    · intro k hk
      rw [hni, hnj k hk]
      refine Real.sqrt_le_sqrt ?_
      rw [← hje]
      exact Finset.inf'_le _ (Finset.mem_filter.2 ⟨Finset.mem_univ k, by linarith⟩)
  · split at hn
    · simp at hn
    · next h1 => exact absurd ⟨i⟩ h1

/-- A case of `c91_total` and `c91_clipped`: two components, the gradient noise is over-estimated in the
second. -/
example : ∃ (perObs : Fin 2 → Fin 2 → ℝ) (noise : Fin 2 → ℝ),
    fisherNoise 2 2 perObs (fun _ => 0) (fun _ => 5) 1 = some noise ∧
    1 / 2 * fisherV 2 2 perObs (fun _ => 0) 0 < 5 ∧ 5 ≤ (1 : ℝ) / 2 * fisherV 2 2 perObs (fun _ => 0) 1 := by
  have hV : ∀ i, fisherV 2 2 (fun _ i => if i = 0 then (1 : ℝ) else 3) (fun _ : Fin 2 => 0) i =
      if i = 0 then 2 else 18 := by
    intro i
    fin_cases i <;> norm_num [fisherV]
  obtain ⟨noise, hn⟩ : ∃ noise, fisherNoise 2 2 (fun _ i => if i = 0 then (1 : ℝ) else 3)
      (fun _ : Fin 2 => 0) (fun _ => 5) 1 = some noise := by
    unfold fisherNoise
    dsimp only
    rw [dif_pos ⟨0, by simp [hV]; norm_num⟩]
    exact ⟨_, rfl⟩
  refine ⟨_, noise, hn, ?_, ?_⟩
  · rw [hV]; norm_num
  · rw [hV]; norm_num

end JaxSgmc
