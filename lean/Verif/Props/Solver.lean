import Verif.Lemmas.Solver
import Mathlib.Data.List.Induction

/-!
# Properties of the solvers: C59, C60, C61, C62, C63
-/

namespace JaxSgmc

variable {ι κ δ μ φ Ms : Type}

/-! ## C59: AMAGOLD -/

/-- C59: an AMAGOLD update either takes over position, momentum and potential of the proposal, or
restores the position exactly, reverses the momentum and keeps potential and model state.  Data state and
key of the integrator are those of the proposal in both cases, and the key of the solver is replaced. -/
theorem c59_update (P : Prng κ) (ma : Option (MassAdaption ι Ms))
    (integ : LeapfrogState ι XF κ δ μ → Params → Option (MassMatrix ι) → LeapfrogState ι XF κ δ μ)
    (fullPot : FullPotFn ι φ μ) (s : AmagoldState ι κ δ μ φ Ms) (p : Params) :
    let prop := integ s.integratorState p (currentMass ma s.massState)
    let new := (amagoldUpdate P ma integ fullPot s p).1
    let U := fullPot prop.positions s.fullDataState prop.modelState
    new.integratorState.dataState = prop.dataState ∧
    new.integratorState.key = prop.key ∧
    new.key = P.split s.key 2 0 ∧
    new.fullDataState = U.2.1 ∧
    ((new.integratorState.positions = prop.positions ∧
        new.integratorState.momentum = prop.momentum ∧
        new.integratorState.modelState = U.2.2 ∧
        new.potential = U.1) ∨
      (new.integratorState.positions = s.integratorState.positions ∧
        new.integratorState.momentum = (fun i => -s.integratorState.momentum i) ∧
        new.integratorState.modelState = s.integratorState.modelState ∧
        new.potential = s.potential)) := by
  intro prop new U
  refine ⟨rfl, rfl, rfl, rfl, ?_⟩
  simp only [new, amagoldUpdate]
  split
  · refine .inl ⟨rfl, ?_, rfl, rfl⟩
    funext i
    simp [vscale]
    norm_num
    rfl
  · refine .inr ⟨rfl, ?_, rfl, rfl⟩
    funext i
    simp [vscale]
    norm_num

/-- C59: after any number of updates the stored potential is the full potential of the current
positions. -/
theorem c59_potential (P : Prng κ) (ma : Option (MassAdaption ι Ms))
    (initInt : (ι → ℝ) → κ → μ → Option (MassMatrix ι) → LeapfrogState ι XF κ δ μ)
    (hinit : ∀ x k m mass, (initInt x k m mass).positions = x)
    (integ : LeapfrogState ι XF κ δ μ → Params → Option (MassMatrix ι) → LeapfrogState ι XF κ δ μ)
    (fullPot : FullPotFn ι φ μ) (U : (ι → ℝ) → XF) (hU : ∀ x f m, (fullPot x f m).1 = U x)
    (f₀ : φ) (x₀ : ι → ℝ) (k₀ : κ) (m₀ : μ) (schedules : List Params) :
    let s := amagoldRun P ma integ fullPot (amagoldInit P ma initInt fullPot f₀ x₀ k₀ m₀) schedules
    s.potential = U s.integratorState.positions := by
  induction schedules using List.reverseRecOn with
  | nil => simp [amagoldRun, amagoldInit, hU, hinit]
  | append_singleton ps p ih =>
    dsimp only at ih ⊢
    have e : amagoldRun P ma integ fullPot (amagoldInit P ma initInt fullPot f₀ x₀ k₀ m₀) (ps ++ [p])
        = (amagoldUpdate P ma integ fullPot
          (amagoldRun P ma integ fullPot (amagoldInit P ma initInt fullPot f₀ x₀ k₀ m₀) ps) p).1 := by
      simp [amagoldRun, List.foldl_append]
    rw [e]
    obtain ⟨-, -, -, -, h | h⟩ := c59_update P ma integ fullPot
      (amagoldRun P ma integ fullPot (amagoldInit P ma initInt fullPot f₀ x₀ k₀ m₀) ps) p
    · rw [h.2.2.2, h.1, hU]
    · rw [h.2.2.2, h.1, ih]

/-- C59 for the actual integrator: with `reversible_leapfrog` every update consumes exactly `steps`
mini-batches, whether the proposals are accepted or not. -/
theorem c59_data [Fintype ι] {β : Type} (P : Prng κ) (ma : Option (MassAdaption ι Ms)) (lay : Layout ι)
    (friction : ℝ) (cm : Option (ι → ℝ)) (steps : ℕ) (getData : δ → δ × β) (sg : StochGrad ι β μ)
    (fullPot : FullPotFn ι φ μ) (d₀ : δ) (f₀ : φ) (x₀ : ι → ℝ) (k₀ : κ) (m₀ : μ)
    (schedules : List Params) :
    (amagoldRun P ma (revForAmagold P lay friction cm steps getData sg) fullPot
      (amagoldInit P ma (revInitForAmagold P lay cm d₀) fullPot f₀ x₀ k₀ m₀)
      schedules).integratorState.dataState =
    (fun d => (getData d).1)^[schedules.length * steps] d₀ := by
  have hfold : ∀ (prm : Params) (m : MassMatrix ι) (n : ℕ) (s : LeapfrogState ι ℝ κ δ μ),
      ((List.range n).foldl (revBody P lay friction getData sg prm m) s).dataState =
        (fun d => (getData d).1)^[n] s.dataState := by
    intro prm m n s
    induction n with
    | zero => rfl
    | succ n ih =>
      rw [List.range_succ, List.foldl_append, Function.iterate_succ_apply', ← ih]
      rfl
  induction schedules using List.reverseRecOn with
  | nil => simp [amagoldRun, amagoldInit, revInitForAmagold, revInit]
  | append_singleton ps p ih =>
    have e : ∀ s, amagoldRun P ma (revForAmagold P lay friction cm steps getData sg) fullPot s
        (ps ++ [p]) = (amagoldUpdate P ma (revForAmagold P lay friction cm steps getData sg) fullPot
          (amagoldRun P ma (revForAmagold P lay friction cm steps getData sg) fullPot s ps) p).1 := by
      intro s; simp [amagoldRun, List.foldl_append]
    rw [e, (c59_update P ma _ fullPot _ p).1]
    simp only [revForAmagold, revIntegrate]
    rw [hfold, List.length_append, List.length_singleton, Nat.add_mul, Nat.one_mul, Nat.add_comm,
      Function.iterate_add_apply, ← ih]

/-- The hypotheses of `c59_potential` hold for `reversible_leapfrog` and, for example, a quadratic
potential; after two updates the stored potential is the squared position. -/
example (P : Prng ℕ) (p q : Params) (x : Fin 2 → ℝ) :
    let s := amagoldRun P (Ms := Unit) none (revForAmagold P ⟨1, fun _ => 0, fun i : Fin 2 => i.val, fun _ => 2⟩ 0.5 none
      3 (fun d : ℕ => (d + 1, d)) (fun y (b : ℕ) (_ : Unit) => ((0, ()), fun i => b * y i)))
      (fun y (f : Unit) m => (.fin (y 0 ^ 2 + y 1 ^ 2), (f, m)))
      (amagoldInit P none (revInitForAmagold P ⟨1, fun _ => 0, fun i : Fin 2 => i.val, fun _ => 2⟩ none 0)
        (fun y (f : Unit) m => (.fin (y 0 ^ 2 + y 1 ^ 2), (f, m))) () x 7 ()) [p, q]
    s.potential = .fin (s.integratorState.positions 0 ^ 2 + s.integratorState.positions 1 ^ 2) :=
  c59_potential P none _ (fun _ _ _ _ => rfl) _ _ (fun y => .fin (y 0 ^ 2 + y 1 ^ 2))
    (fun _ _ _ => rfl) () x 7 () [p, q]

/-! ## C60: SGGMC -/

/-- C60: an SGGMC update either takes over position, momentum and potential of the proposal, or restores
position, momentum, potential and model state.  Data state and keys advance in both cases, and the
kinetic energy accumulators are reset. -/
theorem c60_update (P : Prng κ) (ma : Option (MassAdaption ι Ms))
    (integ : ObaboState ι XF κ δ μ → Params → Option (MassMatrix ι) → ObaboState ι XF κ δ μ)
    (fullPot : FullPotFn ι φ μ) (s : SggmcState ι κ δ μ φ Ms) (p : Params) :
    let prop := integ s.integratorState p (currentMass ma s.massState)
    let new := (sggmcUpdate P ma integ fullPot s p).1
    let U := fullPot prop.positions s.fullDataState prop.modelState
    new.integratorState.dataState = prop.dataState ∧
    new.integratorState.key = prop.key ∧
    new.key = P.split s.key 2 0 ∧
    new.fullDataState = U.2.1 ∧
    new.integratorState.kineticStart = .fin 0 ∧
    new.integratorState.kineticEnd = .fin 0 ∧
    ((new.integratorState.positions = prop.positions ∧
        new.integratorState.momentum = prop.momentum ∧
        new.integratorState.modelState = U.2.2 ∧
        new.potential = U.1) ∨
      (new.integratorState.positions = s.integratorState.positions ∧
        new.integratorState.momentum = s.integratorState.momentum ∧
        new.integratorState.modelState = s.integratorState.modelState ∧
        new.potential = s.potential)) := by
  intro prop new U
  refine ⟨rfl, rfl, rfl, rfl, rfl, rfl, ?_⟩
  simp only [new, sggmcUpdate]
  split
  · exact .inl ⟨rfl, rfl, rfl, rfl⟩
  · exact .inr ⟨rfl, rfl, rfl, rfl⟩

/-- C60: after any number of updates the stored potential is the full potential of the current positions
and the kinetic energy accumulators are zero. -/
theorem c60_potential (P : Prng κ) (ma : Option (MassAdaption ι Ms))
    (initInt : (ι → ℝ) → κ → μ → ObaboState ι XF κ δ μ)
    (hinit : ∀ x k m, (initInt x k m).positions = x ∧ (initInt x k m).kineticStart = .fin 0 ∧
      (initInt x k m).kineticEnd = .fin 0)
    (integ : ObaboState ι XF κ δ μ → Params → Option (MassMatrix ι) → ObaboState ι XF κ δ μ)
    (fullPot : FullPotFn ι φ μ) (U : (ι → ℝ) → XF) (hU : ∀ x f m, (fullPot x f m).1 = U x)
    (f₀ : φ) (x₀ : ι → ℝ) (k₀ : κ) (m₀ : μ) (schedules : List Params) :
    let s := sggmcRun P ma integ fullPot (sggmcInit P ma initInt fullPot f₀ x₀ k₀ m₀) schedules
    s.potential = U s.integratorState.positions ∧
    s.integratorState.kineticStart = .fin 0 ∧ s.integratorState.kineticEnd = .fin 0 := by
  induction schedules using List.reverseRecOn with
  | nil => simp [sggmcRun, sggmcInit, hU, hinit]
  | append_singleton ps p ih =>
    dsimp only at ih ⊢
    have e : sggmcRun P ma integ fullPot (sggmcInit P ma initInt fullPot f₀ x₀ k₀ m₀) (ps ++ [p])
        = (sggmcUpdate P ma integ fullPot
          (sggmcRun P ma integ fullPot (sggmcInit P ma initInt fullPot f₀ x₀ k₀ m₀) ps) p).1 := by
      simp [sggmcRun, List.foldl_append]
    rw [e]
    obtain ⟨-, -, -, -, h1, h2, h | h⟩ := c60_update P ma integ fullPot
      (sggmcRun P ma integ fullPot (sggmcInit P ma initInt fullPot f₀ x₀ k₀ m₀) ps) p
    · exact ⟨by rw [h.2.2.2, h.1, hU], h1, h2⟩
    · exact ⟨by rw [h.2.2.2, h.1, ih.1], h1, h2⟩

/-- C60 for the actual integrator: with `obabo` every update consumes exactly `2 * steps` mini-batches,
whether the proposals are accepted or not. -/
theorem c60_data [Fintype ι] {β : Type} (P : Prng κ) (ma : Option (MassAdaption ι Ms)) (lay : Layout ι)
    (friction : ℝ) (cm : Option (ι → ℝ)) (steps : ℕ) (getData : δ → δ × β) (sg : StochGrad ι β μ)
    (fullPot : FullPotFn ι φ μ) (d₀ : δ) (f₀ : φ) (x₀ : ι → ℝ) (k₀ : κ) (m₀ : μ)
    (schedules : List Params) :
    (sggmcRun P ma (obaboForSggmc P lay friction cm steps getData sg) fullPot
      (sggmcInit P ma (obaboInitForSggmc d₀) fullPot f₀ x₀ k₀ m₀)
      schedules).integratorState.dataState =
    (fun d => (getData d).1)^[schedules.length * (2 * steps)] d₀ := by
  have hfold : ∀ (prm : Params) (m : MassMatrix ι) (n : ℕ) (s : ObaboState ι ℝ κ δ μ),
      ((List.range n).foldl (obaboStep P lay friction getData sg prm m) s).dataState =
        (fun d => (getData d).1)^[2 * n] s.dataState := by
    intro prm m n s
    induction n with
    | zero => rfl
    | succ n ih =>
      rw [List.range_succ, List.foldl_append, Nat.mul_succ, Function.iterate_succ_apply',
        Function.iterate_succ_apply', ← ih]
      rfl
  induction schedules using List.reverseRecOn with
  | nil => simp [sggmcRun, sggmcInit, obaboInitForSggmc, obaboInit]
  | append_singleton ps p ih =>
    have e : ∀ s, sggmcRun P ma (obaboForSggmc P lay friction cm steps getData sg) fullPot s
        (ps ++ [p]) = (sggmcUpdate P ma (obaboForSggmc P lay friction cm steps getData sg) fullPot
          (sggmcRun P ma (obaboForSggmc P lay friction cm steps getData sg) fullPot s ps) p).1 := by
      intro s; simp [sggmcRun, List.foldl_append]
    rw [e, (c60_update P ma _ fullPot _ p).1]
    simp only [obaboForSggmc, obaboIntegrate]
    rw [hfold, List.length_append, List.length_singleton, Nat.add_mul, Nat.one_mul, Nat.add_comm,
      Function.iterate_add_apply, ← ih]

/-- The hypotheses of `c60_potential` hold for `obabo` and, for example, a quadratic potential. -/
example (P : Prng ℕ) (p q : Params) (x : Fin 2 → ℝ) :
    let s := sggmcRun P (Ms := Unit) none (obaboForSggmc P ⟨1, fun _ => 0, fun i : Fin 2 => i.val, fun _ => 2⟩ 0.5 none
      3 (fun d : ℕ => (d + 1, d)) (fun y (b : ℕ) (_ : Unit) => ((0, ()), fun i => b * y i)))
      (fun y (f : Unit) m => (.fin (y 0 ^ 2 + y 1 ^ 2), (f, m)))
      (sggmcInit P none (obaboInitForSggmc 0)
        (fun y (f : Unit) m => (.fin (y 0 ^ 2 + y 1 ^ 2), (f, m))) () x 7 ()) [p, q]
    s.potential = .fin (s.integratorState.positions 0 ^ 2 + s.integratorState.positions 1 ^ 2) :=
  (c60_potential P none _ (fun _ _ _ => ⟨rfl, rfl, rfl⟩) _ _ (fun y => .fin (y 0 ^ 2 + y 1 ^ 2))
    (fun _ _ _ => rfl) () x 7 () [p, q]).1

/-! ## C61: acceptance ratios -/

/-- C61 for AMAGOLD: the reported acceptance ratio is `min(1, exp(-(U' - U - ρ)))`, lies in `(0, 1]`, and
the step is accepted exactly if the uniform number is smaller. -/
theorem c61_amagold (P : Prng κ) (ma : Option (MassAdaption ι Ms))
    (integ : LeapfrogState ι XF κ δ μ → Params → Option (MassMatrix ι) → LeapfrogState ι XF κ δ μ)
    (fullPot : FullPotFn ι φ μ) (s : AmagoldState ι κ δ μ φ Ms) (p : Params) (U U' ρ : ℝ)
    (hu : 0 ≤ P.uniform (P.split s.key 2 1))
    (h0 : s.potential = .fin U)
    (h1 : let q := integ s.integratorState p (currentMass ma s.massState)
      (fullPot q.positions s.fullDataState q.modelState).1 = .fin U' ∧ q.potential = .fin ρ) :
    let α := Spec.acceptProb (U' - U - ρ)
    let out := amagoldUpdate P ma integ fullPot s p
    let prop := integ s.integratorState p (currentMass ma s.massState)
    0 < α ∧ α ≤ 1 ∧ out.2 = .fin α ∧ out.1.acceptanceRatio.1 = .fin α ∧
    (P.uniform (P.split s.key 2 1) < α → out.1.integratorState.positions = prop.positions ∧
      out.1.integratorState.momentum = prop.momentum ∧ out.1.potential = .fin U') ∧
    (α ≤ P.uniform (P.split s.key 2 1) →
      out.1.integratorState.positions = s.integratorState.positions ∧
      out.1.integratorState.momentum = (fun i => -s.integratorState.momentum i) ∧
      out.1.potential = .fin U) := by
  intro α out prop
  have hl : amagoldLogAlpha s.potential (fullPot prop.positions s.fullDataState prop.modelState).1
      prop.potential = .fin (min 0 (-(U' - U - ρ))) := by
    rw [h0, h1.1, h1.2, amagoldLogAlpha_fin]
    congr 2; ring
  have ha : XF.exp (amagoldLogAlpha s.potential
      (fullPot prop.positions s.fullDataState prop.modelState).1 prop.potential) = .fin α := by
    rw [hl, XF.exp, exp_min_zero]
  have hlt : XF.Lt (XF.logOf (P.uniform (P.split s.key 2 1))) (amagoldLogAlpha s.potential
      (fullPot prop.positions s.fullDataState prop.modelState).1 prop.potential) ↔
      P.uniform (P.split s.key 2 1) < α := by
    rw [hl, XF.lt_logOf_fin hu, exp_min_zero]
  refine ⟨Spec.acceptProb_pos _, Spec.acceptProb_le _, ha, ha, fun h => ?_, fun h => ?_⟩
  · have hc := hlt.mpr h
    simp only [out, amagoldUpdate]
    rw [if_pos hc]
    refine ⟨rfl, ?_, h1.1⟩
    funext i
    simp [vscale]
    norm_num
    rfl
  · have hc := mt hlt.mp (not_lt.mpr h)
    simp only [out, amagoldUpdate]
    rw [if_neg hc]
    refine ⟨rfl, ?_, h0⟩
    funext i
    simp [vscale]
    norm_num

/-- C61 for SGGMC: the reported acceptance ratio is `min(1, exp(-(U' + K_end - U - K_start) / T))`, lies
in `(0, 1]`, and the step is accepted exactly if the uniform number is smaller. -/
theorem c61_sggmc (P : Prng κ) (ma : Option (MassAdaption ι Ms))
    (integ : ObaboState ι XF κ δ μ → Params → Option (MassMatrix ι) → ObaboState ι XF κ δ μ)
    (fullPot : FullPotFn ι φ μ) (s : SggmcState ι κ δ μ φ Ms) (p : Params) (U U' K K' : ℝ)
    (hu : 0 ≤ P.uniform (P.split s.key 2 1)) (hT : p.temperature ≠ 0)
    (h0 : s.potential = .fin U)
    (h1 : let q := integ s.integratorState p (currentMass ma s.massState)
      (fullPot q.positions s.fullDataState q.modelState).1 = .fin U' ∧ q.kineticStart = .fin K ∧
        q.kineticEnd = .fin K') :
    let α := Spec.acceptProb ((U' - U + K' - K) / p.temperature)
    let out := sggmcUpdate P ma integ fullPot s p
    let prop := integ s.integratorState p (currentMass ma s.massState)
    0 < α ∧ α ≤ 1 ∧ out.2 = .fin α ∧ out.1.acceptanceRatio.1 = .fin α ∧
    (P.uniform (P.split s.key 2 1) < α → out.1.integratorState.positions = prop.positions ∧
      out.1.integratorState.momentum = prop.momentum ∧ out.1.potential = .fin U') ∧
    (α ≤ P.uniform (P.split s.key 2 1) →
      out.1.integratorState.positions = s.integratorState.positions ∧
      out.1.integratorState.momentum = s.integratorState.momentum ∧
      out.1.potential = .fin U) := by
  intro α out prop
  have hl : sggmcLogAlpha p.temperature s.potential
      (fullPot prop.positions s.fullDataState prop.modelState).1 prop.kineticStart prop.kineticEnd =
        .fin (min 0 (-((U' - U + K' - K) / p.temperature))) := by
    rw [h0, h1.1, h1.2.1, h1.2.2, sggmcLogAlpha_fin hT]
    congr 2; ring
  have ha : XF.exp (sggmcLogAlpha p.temperature s.potential
      (fullPot prop.positions s.fullDataState prop.modelState).1 prop.kineticStart prop.kineticEnd) =
      .fin α := by
    rw [hl, XF.exp, exp_min_zero]
  have hlt : XF.Lt (XF.logOf (P.uniform (P.split s.key 2 1))) (sggmcLogAlpha p.temperature s.potential
      (fullPot prop.positions s.fullDataState prop.modelState).1 prop.kineticStart prop.kineticEnd) ↔
      P.uniform (P.split s.key 2 1) < α := by
    rw [hl, XF.lt_logOf_fin hu, exp_min_zero]
  refine ⟨Spec.acceptProb_pos _, Spec.acceptProb_le _, ha, ha, fun h => ?_, fun h => ?_⟩
  · have hc := hlt.mpr h
    simp only [out, sggmcUpdate]
    rw [if_pos hc]
    exact ⟨rfl, rfl, h1.1⟩
  · have hc := mt hlt.mp (not_lt.mpr h)
    simp only [out, sggmcUpdate]
    rw [if_neg hc]
    exact ⟨rfl, rfl, h0⟩

/-- A case of `c61_amagold`: the proposal has energy error `1`, the uniform number is `1/2`, and the
proposal is rejected because `exp(-1) < 1/2`. -/
example : let P : Prng Unit := ⟨fun _ _ _ => (), fun _ _ _ => 0, fun _ => 1 / 2⟩
    let s : AmagoldState Unit Unit Unit Unit Unit Unit :=
      ⟨⟨.fin 0, (), fun _ => 3, fun _ => 5, (), (), []⟩, .fin 3, (), (), (.fin 0, 0), none, []⟩
    let out := amagoldUpdate P none (fun s _ _ => { s with positions := fun _ => 4 })
      (fun x f m => (.fin (x ()), (f, m))) s ⟨1, 1⟩
    out.1.integratorState.positions = (fun _ => 3) ∧
    out.1.integratorState.momentum = (fun _ => -5) := by
  intro P s out
  have h := c61_amagold P none (fun s _ _ => { s with positions := fun _ => 4 })
    (fun x f m => (.fin (x ()), (f, m))) s ⟨1, 1⟩ 3 4 0 (by norm_num [P]) rfl ⟨rfl, rfl⟩
  have h2 := h.2.2.2.2.2 ?_
  · exact ⟨h2.1, h2.2.1⟩
  · have : Real.exp (-1) ≤ 1 / 2 := by
      rw [Real.exp_neg, inv_le_comm₀ (Real.exp_pos _) (by norm_num)]
      have := Real.add_one_le_exp (1 : ℝ)
      norm_num at this ⊢
      linarith
    norm_num [Spec.acceptProb, P] at this ⊢
    exact this

/-! ## C62, C63: parallel tempering -/

section
variable {A : Type}

/-- C63: an update advances both chains by one integrator step, each with its own schedule, and returns
these two states in original or exchanged order. -/
theorem c63_chains (P : Prng κ) (sa : ℕ → ℝ)
    (upd : LangevinState ι κ δ μ A → Params → LangevinState ι κ δ μ A)
    (s : PtState ι κ δ μ A) (pn ph : Params) :
    let new := ptUpdate P sa upd s pn ph
    (new.normal = upd s.normal pn ∧ new.hot = upd s.hot ph) ∨
    (new.normal = upd s.hot ph ∧ new.hot = upd s.normal pn) := by
  intro new
  simp only [new, ptUpdate]
  split
  · exact .inl ⟨rfl, rfl⟩
  · exact .inr ⟨rfl, rfl⟩

/-- C63: only the chain in the first place is reported. -/
theorem c63_reported {α : Type} (get : LangevinState ι κ δ μ A → α) (s s' : PtState ι κ δ μ A)
    (h : s.normal = s'.normal) : ptGet get s = ptGet get s' := by
  simp [ptGet, h]

/-- The full statement C62: the chains are exchanged exactly if `log(u) < log_s`. -/
def C62Statement : Prop :=
  ∀ (P : Prng Unit) (upd : LangevinState Unit Unit Unit Unit Unit → Params →
      LangevinState Unit Unit Unit Unit Unit)
    (s : PtState Unit Unit Unit Unit Unit) (pn ph : Params),
    0 ≤ P.uniform (P.split s.key 2 1) →
    let new := ptUpdate P (fun n => 1 / n) upd s pn ph
    let a := upd s.normal pn
    let b := upd s.hot ph
    let logS := Spec.reSgldLogSwapRate pn.temperature ph.temperature a.potential b.potential new.ssq s.F
    (P.uniform (P.split s.key 2 1) < Real.exp logS → new.normal = b ∧ new.hot = a) ∧
    (Real.exp logS ≤ P.uniform (P.split s.key 2 1) → new.normal = a ∧ new.hot = b)

/-- What the code does instead: the chains are *kept* exactly if `u < S`, and exchanged otherwise; the
swap rate `S` itself is the one of reSGLD, with the updated variance estimate.  Missing to C62: the two
branches of the condition are exchanged. -/
theorem c62_inverted_partial (P : Prng κ) (sa : ℕ → ℝ)
    (upd : LangevinState ι κ δ μ A → Params → LangevinState ι κ δ μ A)
    (s : PtState ι κ δ μ A) (pn ph : Params) (hu : 0 ≤ P.uniform (P.split s.key 2 1)) :
    let new := ptUpdate P sa upd s pn ph
    let a := upd s.normal pn
    let b := upd s.hot ph
    let logS := Spec.reSgldLogSwapRate pn.temperature ph.temperature a.potential b.potential new.ssq s.F
    new.ssq = (1 - sa (s.step + 1)) * s.ssq + sa (s.step + 1) * a.variance ∧
    (P.uniform (P.split s.key 2 1) < Real.exp logS → new.normal = a ∧ new.hot = b) ∧
    (Real.exp logS ≤ P.uniform (P.split s.key 2 1) → new.normal = b ∧ new.hot = a) := by
  intro new a b logS
  refine ⟨rfl, fun h => ?_, fun h => ?_⟩
  · have hc := (XF.lt_logOf_fin hu).mpr h
    simp only [new, ptUpdate]
    split
    · exact ⟨rfl, rfl⟩
    · next hn => exact absurd hc hn
  · have hc := mt (XF.lt_logOf_fin hu).mp (not_lt.mpr h)
    simp only [new, ptUpdate]
    split
    · next hp => exact absurd hp hc
    · exact ⟨rfl, rfl⟩

end

/-- C62 is false: the branches of the swap are exchanged.  In the witness the hot chain has the lower
energy, the swap rate is larger than one, and the chains are not exchanged. -/
theorem c62_false : ¬ C62Statement := by
  intro h
  let c (u : ℝ) : LangevinState Unit Unit Unit Unit Unit := ⟨fun _ => 0, (), (), none, (), u, 0, []⟩
  have := (h ⟨fun _ _ _ => (), fun _ _ _ => 0, fun _ => 1 / 2⟩ (fun s _ => s)
    ⟨c 2, c 1, 0, 1, 0, (), []⟩ ⟨1, 1⟩ ⟨1, 2⟩ (by norm_num)).1 ?_
  · have h2 := c62_inverted_partial (A := Unit) ⟨fun _ _ _ => (), fun _ _ _ => 0, fun _ => 1 / 2⟩
      (fun n => 1 / n) (fun s _ => s) ⟨c 2, c 1, 0, 1, 0, (), []⟩ ⟨1, 1⟩ ⟨1, 2⟩ (by norm_num)
    obtain ⟨-, h2, -⟩ := h2
    have h3 := h2 ?_
    · have e := this.1.symm.trans h3.1
      have e2 : (1 : ℝ) = 2 := congrArg LangevinState.potential e
      norm_num at e2
    · refine lt_of_lt_of_le (b := 1) (by norm_num) (Real.one_le_exp ?_)
      norm_num [Spec.reSgldLogSwapRate, c, ptUpdate]
  · refine lt_of_lt_of_le (b := 1) (by norm_num) (Real.one_le_exp ?_)
    norm_num [Spec.reSgldLogSwapRate, c, ptUpdate]

/-! ## C78: proposals with an undefined potential -/

/-- C78 for AMAGOLD: a proposal whose full potential is NaN or `+inf` is rejected for every uniform
number (the current potential and the energy of the path are finite). -/
theorem c78_amagold (P : Prng κ) (ma : Option (MassAdaption ι Ms))
    (integ : LeapfrogState ι XF κ δ μ → Params → Option (MassMatrix ι) → LeapfrogState ι XF κ δ μ)
    (fullPot : FullPotFn ι φ μ) (s : AmagoldState ι κ δ μ φ Ms) (p : Params) (U ρ : ℝ)
    (h0 : s.potential = .fin U)
    (h1 : let q := integ s.integratorState p (currentMass ma s.massState)
      ((fullPot q.positions s.fullDataState q.modelState).1 = .nan ∨
        (fullPot q.positions s.fullDataState q.modelState).1 = .pinf) ∧ q.potential = .fin ρ) :
    let new := (amagoldUpdate P ma integ fullPot s p).1
    new.integratorState.positions = s.integratorState.positions ∧ new.potential = .fin U := by
  intro new
  have hl : ¬ XF.Lt (XF.logOf (P.uniform (P.split s.key 2 1))) (amagoldLogAlpha s.potential
      (fullPot (integ s.integratorState p (currentMass ma s.massState)).positions s.fullDataState
        (integ s.integratorState p (currentMass ma s.massState)).modelState).1
      (integ s.integratorState p (currentMass ma s.massState)).potential) := by
    rw [h0, h1.2]
    rcases h1.1 with h | h
    · have : amagoldLogAlpha (.fin U) .nan (.fin ρ) = .nan := by
        simp [amagoldLogAlpha, XF.sub, XF.neg, XF.add, XF.Lt]
      rw [h, this]; exact XF.not_lt_nan _
    · have : amagoldLogAlpha (.fin U) .pinf (.fin ρ) = .ninf := by
        simp [amagoldLogAlpha, XF.sub, XF.neg, XF.add, XF.Lt]
      rw [h, this]; exact XF.not_lt_ninf _
  simp only [new, amagoldUpdate]
  rw [if_neg hl]
  exact ⟨rfl, h0⟩

/-- The statement of C78 for SGGMC. -/
def C78Statement : Prop :=
  ∀ (P : Prng Unit)
    (integ : ObaboState Unit XF Unit Unit Unit → Params → Option (MassMatrix Unit) →
      ObaboState Unit XF Unit Unit Unit)
    (fullPot : FullPotFn Unit Unit Unit) (s : SggmcState Unit Unit Unit Unit Unit Unit) (p : Params)
    (U K K' : ℝ), 0 < p.temperature → s.potential = .fin U →
    (let q := integ s.integratorState p none;
      ((fullPot q.positions s.fullDataState q.modelState).1 = .nan ∨
        (fullPot q.positions s.fullDataState q.modelState).1 = .pinf) ∧ q.kineticStart = .fin K ∧
        q.kineticEnd = .fin K') →
    (sggmcUpdate P none integ fullPot s p).1.integratorState.positions = s.integratorState.positions

/-- C78 is false of SGGMC: a NaN potential makes `log_alpha` NaN, which `jnp.where(log_alpha <= 0,
log_alpha, 0.0)` turns into 0; the proposal is accepted with reported acceptance ratio 1. -/
theorem c78_nan_accepted (P : Prng κ) (ma : Option (MassAdaption ι Ms))
    (integ : ObaboState ι XF κ δ μ → Params → Option (MassMatrix ι) → ObaboState ι XF κ δ μ)
    (fullPot : FullPotFn ι φ μ) (s : SggmcState ι κ δ μ φ Ms) (p : Params)
    (hu : 0 ≤ P.uniform (P.split s.key 2 1) ∧ P.uniform (P.split s.key 2 1) < 1)
    (h1 : let q := integ s.integratorState p (currentMass ma s.massState)
      (fullPot q.positions s.fullDataState q.modelState).1 = .nan) :
    let out := sggmcUpdate P ma integ fullPot s p
    let prop := integ s.integratorState p (currentMass ma s.massState)
    out.1.integratorState.positions = prop.positions ∧ out.1.potential = .nan ∧ out.2 = .fin 1 := by
  intro out prop
  have hnan : ∀ a, XF.mul a .nan = .nan := by intro a; cases a <;> rfl
  have hadd : ∀ a, XF.add .nan a = .nan := by intro a; cases a <;> rfl
  have hl : sggmcLogAlpha p.temperature s.potential
      (fullPot prop.positions s.fullDataState prop.modelState).1 prop.kineticStart prop.kineticEnd =
      .fin 0 := by
    rw [h1]
    simp [sggmcLogAlpha, XF.sub, hadd, hnan, XF.Le]
  have hlt : XF.Lt (XF.logOf (P.uniform (P.split s.key 2 1))) (sggmcLogAlpha p.temperature s.potential
      (fullPot prop.positions s.fullDataState prop.modelState).1 prop.kineticStart
      prop.kineticEnd) := by
    rw [hl, XF.lt_logOf_fin hu.1, Real.exp_zero]; exact hu.2
  refine ⟨?_, ?_, ?_⟩
  · simp only [out, sggmcUpdate]; rw [if_pos hlt]
  · simp only [out, sggmcUpdate]; rw [if_pos hlt]; exact h1
  · show XF.exp _ = _
    rw [hl, XF.exp, Real.exp_zero]

theorem c78_false : ¬ C78Statement := by
  intro h
  have h1 := h ⟨fun _ _ _ => (), fun _ _ _ => 0, fun _ => 1 / 2⟩
    (fun s _ _ => { s with positions := fun _ => 1 }) (fun _ f m => (.nan, (f, m)))
    ⟨⟨0, (), fun _ => 0, fun _ => 0, (), (), .fin 0, .fin 0, []⟩, .fin 0, (), (), (.fin 0, 0, .fin 0),
      none, []⟩ ⟨1, 1⟩ 0 0 0 one_pos rfl ⟨.inl rfl, rfl, rfl⟩
  have h2 := c78_nan_accepted (ι := Unit) (Ms := Unit) ⟨fun _ _ _ => (), fun _ _ _ => 0, fun _ => 1 / 2⟩ none
    (fun s _ _ => { s with positions := fun _ => 1 }) (fun _ f m => (.nan, (f, m)))
    ⟨⟨0, (), fun _ => 0, fun _ => 0, (), (), .fin 0, .fin 0, []⟩, .fin 0, (), (), (.fin 0, 0, .fin 0),
      none, []⟩ ⟨1, 1⟩ (by norm_num) rfl
  have h3 := congrFun (h1.symm.trans h2.1) ()
  norm_num at h3

/-- Of C78, SGGMC satisfies the case of a potential `+inf` (missing: NaN). -/
theorem c78_sggmc_inf_partial (P : Prng κ) (ma : Option (MassAdaption ι Ms))
    (integ : ObaboState ι XF κ δ μ → Params → Option (MassMatrix ι) → ObaboState ι XF κ δ μ)
    (fullPot : FullPotFn ι φ μ) (s : SggmcState ι κ δ μ φ Ms) (p : Params) (U K K' : ℝ)
    (hT : 0 < p.temperature) (h0 : s.potential = .fin U)
    (h1 : let q := integ s.integratorState p (currentMass ma s.massState)
      (fullPot q.positions s.fullDataState q.modelState).1 = .pinf ∧ q.kineticStart = .fin K ∧
        q.kineticEnd = .fin K') :
    let new := (sggmcUpdate P ma integ fullPot s p).1
    new.integratorState.positions = s.integratorState.positions ∧ new.potential = .fin U := by
  intro new
  have hl : ¬ XF.Lt (XF.logOf (P.uniform (P.split s.key 2 1))) (sggmcLogAlpha p.temperature s.potential
      (fullPot (integ s.integratorState p (currentMass ma s.massState)).positions s.fullDataState
        (integ s.integratorState p (currentMass ma s.massState)).modelState).1
      (integ s.integratorState p (currentMass ma s.massState)).kineticStart
      (integ s.integratorState p (currentMass ma s.massState)).kineticEnd) := by
    rw [h0, h1.1, h1.2.1, h1.2.2]
    have hneg : -1 / p.temperature < 0 := div_neg_of_neg_of_pos (by norm_num) hT
    have : sggmcLogAlpha p.temperature (.fin U) .pinf (.fin K) (.fin K') = .ninf := by
      simp [sggmcLogAlpha, XF.sub, XF.neg, XF.add, XF.div, hT.ne', XF.mul, XF.infMul, hneg,
        not_lt.mpr hneg.le, XF.Le]
    rw [this]; exact XF.not_lt_ninf _
  simp only [new, sggmcUpdate]
  rw [if_neg hl]
  exact ⟨rfl, h0⟩

end JaxSgmc
