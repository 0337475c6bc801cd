import Verif.Model.Samples
import Verif.Spec.Scripted
import Verif.Props.Obabo
import Verif.Props.Langevin
import Verif.Props.Solver
import Mathlib.Data.List.GetD

/-!
# C87, C88: values reported with the samples, variance estimate of reSGLD
-/

namespace JaxSgmc

variable {ι κ δ β μ φ Ms A : Type}

/-! ## C87 -/

section
variable [Fintype ι]

/-- C87 for SGLD: the reported likelihood is the (negative) stochastic potential of the *previous* sample
on the mini-batch of the last update.  Missing to C87: it is not the one of the reported variables. -/
theorem c87_sgld_partial (P : Prng κ) (lay : Layout ι) (ad : Option (AdaptStrategy ι β A))
    (getData : δ → δ × β) (sg : StochGradLik ι β μ) {U : (ι → ℝ) → β → ℝ}
    (hU : ∀ x b ms, (sg x b ms).1.1 = U x b) (s : LangevinState ι κ δ μ A) (ps : List Params)
    (p : Params) :
    (langevinGet (langevinRun P lay ad getData sg s (ps ++ [p]))).likelihood =
      -U (langevinGet (langevinRun P lay ad getData sg s ps)).vars
        (Spec.nthBatch getData s.dataState ps.length) := by
  rw [langevinRun_snoc]
  show -(sg _ (getData (langevinRun P lay ad getData sg s ps).dataState).2 _).1.1 = _
  rw [hU, langevinRun_data]
  rfl

/-- C87 for SGHMC: the reported energy is the stochastic potential of the reported variables on the last
mini-batch. -/
theorem c87_sghmc_partial (P : Prng κ) (lay : Layout ι) (nm : Option (NoiseFn ι β μ))
    (fr : ℝ ⊕ (ι → ℝ)) (cm : Option (ι → ℝ)) (L : ℕ) (getData : δ → δ × β) (sg : StochGrad ι β μ)
    {U : (ι → ℝ) → β → ℝ} (hU : ∀ x b ms, (sg x b ms).1.1 = U x b) (s : LeapfrogState ι ℝ κ δ μ)
    (prm : Params) (mass : Option (MassMatrix ι)) :
    let r := leapfrogGet (fricIntegrate P lay nm fr cm (L + 1) getData sg s prm mass)
    r.energy = U r.vars (Spec.nthBatch getData s.dataState L) := by
  have hd : ∀ (m : MassMatrix ι) (f : ι → ℝ) (s : LeapfrogState ι ℝ κ δ μ) n,
      ((List.range n).foldl (fricBody P lay nm getData sg prm f m) s).dataState =
        (fun d => (getData d).1)^[n] s.dataState := by
    intro m f s n
    induction n with
    | zero => rfl
    | succ n ih =>
      rw [List.range_succ, List.foldl_append, Function.iterate_succ_apply', ← ih]
      rfl
  simp only [fricIntegrate, List.range_succ, List.foldl_append, List.foldl_cons, List.foldl_nil]
  show (sg _ _ _).1.1 = U _ _
  rw [hU, hd]
  rfl

/-- C87 for OBABO: the reported energy is the mean of the stochastic potentials before and after the last
leapfrog step.  Missing to C87: the energy of the reported variables is only one half of it. -/
theorem c87_obabo_partial (P : Prng κ) (lay : Layout ι) (γ : ℝ) (cm : Option (ι → ℝ)) (L : ℕ)
    (getData : δ → δ × β) (sg : StochGrad ι β μ) {U : (ι → ℝ) → β → ℝ}
    (hU : ∀ x b ms, (sg x b ms).1.1 = U x b) (s : ObaboState ι ℝ κ δ μ) (prm : Params)
    (mass : Option (MassMatrix ι)) :
    let r := obaboGet (obaboIntegrate P lay γ cm (L + 1) getData sg s prm mass)
    let before := obaboGet (obaboIntegrate P lay γ cm L getData sg s prm mass)
    r.energy = (U before.vars (Spec.nthBatch getData s.dataState (2 * L)) +
      U r.vars (Spec.nthBatch getData s.dataState (2 * L + 1))) / 2 := by
  intro r before
  simp only [r, before, obaboIntegrate_eq]
  set m := Spec.usedMass mass cm
  rw [obaboSt_succ]
  have h1 := obaboSt_data P lay γ getData sg prm m s L
  have e : (obaboGet (obaboStep P lay γ getData sg prm m (obaboSt P lay γ getData sg prm m s L) L)).energy
      = 0.5 * ((sg (obaboSt P lay γ getData sg prm m s L).positions
        (getData (obaboSt P lay γ getData sg prm m s L).dataState).2
        (obaboSt P lay γ getData sg prm m s L).modelState).1.1 +
      (sg (obaboGet (obaboStep P lay γ getData sg prm m (obaboSt P lay γ getData sg prm m s L) L)).vars
        (getData (getData (obaboSt P lay γ getData sg prm m s L).dataState).1).2
        (sg (obaboSt P lay γ getData sg prm m s L).positions
          (getData (obaboSt P lay γ getData sg prm m s L).dataState).2
          (obaboSt P lay γ getData sg prm m s L).modelState).1.2).1.1) := rfl
  rw [e, hU, hU, h1]
  have h2 : Spec.nthBatch getData s.dataState (2 * L + 1) =
      (getData (getData ((fun d => (getData d).1)^[2 * L] s.dataState)).1).2 := by
    unfold Spec.nthBatch
    rw [Function.iterate_succ_apply']
  rw [h2]
  show 0.5 * (U (obaboGet (obaboSt P lay γ getData sg prm m s L)).vars
    (Spec.nthBatch getData s.dataState (2 * L)) + _) = _
  ring

end

/-- C87 for SGGMC: the reported potential is the full potential of the reported variables. -/
theorem c87_sggmc_partial (P : Prng κ) (ma : Option (MassAdaption ι Ms))
    (initInt : (ι → ℝ) → κ → μ → ObaboState ι XF κ δ μ)
    (hinit : ∀ x k m, (initInt x k m).positions = x ∧ (initInt x k m).kineticStart = .fin 0 ∧
      (initInt x k m).kineticEnd = .fin 0)
    (integ : ObaboState ι XF κ δ μ → Params → Option (MassMatrix ι) → ObaboState ι XF κ δ μ)
    (fullPot : FullPotFn ι φ μ) (U : (ι → ℝ) → XF) (hU : ∀ x f m, (fullPot x f m).1 = U x)
    (f₀ : φ) (x₀ : ι → ℝ) (k₀ : κ) (m₀ : μ) (ps : List Params) :
    let r := sggmcGet (sggmcRun P ma integ fullPot (sggmcInit P ma initInt fullPot f₀ x₀ k₀ m₀) ps)
    r.potential = U r.vars :=
  (c60_potential P ma initInt hinit integ fullPot U hU f₀ x₀ k₀ m₀ ps).1

/-- The full statement C87 for SGLD with a potential `U` which does not depend on the mini-batch: after
every update, the reported likelihood is `-U` at the reported variables. -/
def C87Sgld : Prop :=
  ∀ (n : ℕ) (P : Prng Spec.SKey) (lay : Layout (Fin n)) (U : (Fin n → ℝ) → ℝ)
    (sg : StochGradLik (Fin n) Unit Unit), (∀ x b ms, (sg x b ms).1.1 = U x) →
    ∀ (s : LangevinState (Fin n) Spec.SKey Unit Unit Unit) (ps : List Params) (p : Params),
    let r := langevinGet (langevinRun P lay none (fun d => (d, d)) sg s (ps ++ [p]))
    r.likelihood = -U r.vars

/-- The full statement C87 for OBABO. -/
def C87Obabo : Prop :=
  ∀ (n : ℕ) (P : Prng Spec.SKey) (lay : Layout (Fin n)) (U : (Fin n → ℝ) → ℝ)
    (sg : StochGrad (Fin n) Unit Unit), (∀ x b ms, (sg x b ms).1.1 = U x) →
    ∀ (γ : ℝ) (s : ObaboState (Fin n) ℝ Spec.SKey Unit Unit) (L : ℕ) (prm : Params),
    let r := obaboGet (obaboIntegrate P lay γ none (L + 1) (fun d => (d, d)) sg s prm none)
    r.energy = U r.vars

/-- The full statement C87 for AMAGOLD. -/
def C87Amagold : Prop :=
  ∀ (n : ℕ) (P : Prng Spec.SKey) (lay : Layout (Fin n)) (U : (Fin n → ℝ) → ℝ)
    (sg : StochGrad (Fin n) Unit Unit), (∀ x b ms, (sg x b ms).1.1 = U x) →
    ∀ (γ : ℝ) (x : Fin n → ℝ) (L : ℕ) (ps : List Params),
    let fullPot : FullPotFn (Fin n) Unit Unit := fun x f ms => (.fin (U x), f, ms)
    let init := amagoldInit P (none : Option (MassAdaption (Fin n) Unit))
      (revInitForAmagold P lay none ()) fullPot () x (.main 0) ()
    let r := amagoldGet (amagoldRun P none (revForAmagold P lay γ none L (fun d => (d, d)) sg) fullPot
      init ps)
    r.energy = .fin (U r.vars)

/-- The full statement C87. -/
def C87Statement : Prop := C87Sgld ∧ C87Obabo ∧ C87Amagold

/-- C87 is false for SGLD: the likelihood of the previous sample is reported. -/
theorem c87_false_sgld : ¬ C87Sgld := by
  intro h
  have h1 := h 1 (Spec.scripted (Spec.vectorLayout 1) (fun _ _ => 0) 0) (Spec.vectorLayout 1)
    (fun x => x 0) (fun x _ _ => ((x 0, ([], ())), fun _ => 1)) (fun _ _ _ => rfl)
    ⟨fun _ => 0, (), .main 0, none, (), 0, 1, []⟩ [] ⟨1, 0⟩
  dsimp only at h1
  rw [c87_sgld_partial (U := fun x _ => x 0) _ _ _ _ _ (fun _ _ _ => rfl)] at h1
  have h2 : (langevinGet (langevinRun (Spec.scripted (Spec.vectorLayout 1) (fun _ _ => 0) 0)
      (Spec.vectorLayout 1) none (fun d => (d, d))
      (fun x (_ : Unit) (_ : Unit) => ((x 0, ([], ())), fun _ => 1))
      (⟨fun _ => 0, (), .main 0, none, (), 0, 1, []⟩ :
        LangevinState (Fin 1) Spec.SKey Unit Unit Unit) ([] ++ [⟨1, 0⟩]))).vars 0 = -1 := by
    simp [langevinGet, langevinRun, langevinUpdate, vadd, vscale]
  rw [h2] at h1
  norm_num [langevinGet, langevinRun] at h1

/-- C87 is false for OBABO: a mean of two energies is reported. -/
theorem c87_false_obabo : ¬ C87Obabo := by
  intro h
  have h1 := h 1 (Spec.scripted (Spec.vectorLayout 1) (fun _ _ => 0) 0) (Spec.vectorLayout 1)
    (fun x => x 0) (fun x _ _ => ((x 0, ()), fun _ => 1)) (fun _ _ _ => rfl) 0
    ⟨0, .main 0, fun _ => 0, fun _ => 0, (), (), 0, 0, []⟩ 0 ⟨1, 1⟩
  dsimp only at h1
  rw [c87_obabo_partial (U := fun x _ => x 0) _ _ _ _ _ _ _ (fun _ _ _ => rfl)] at h1
  set r := obaboGet (obaboIntegrate (Spec.scripted (Spec.vectorLayout 1) (fun _ _ => 0) 0)
      (Spec.vectorLayout 1) 0 none (0 + 1) (fun d => (d, d))
      (fun x (_ : Unit) (_ : Unit) => ((x 0, ()), fun _ => 1))
      (⟨0, .main 0, fun _ => 0, fun _ => 0, (), (), 0, 0, []⟩ :
        ObaboState (Fin 1) ℝ Spec.SKey Unit Unit) ⟨1, 1⟩ none) with hr
  have h2 : r.vars 0 = -(1 / 2) := by
    simp only [hr, obaboGet, obaboIntegrate, zero_add, List.range_one, List.foldl_cons, List.foldl_nil,
      obaboStep, resampling_zero, momentumUpdate, positionUpdate, vadd, vscale, resolveMass, initMass,
      VTensor.mul]
    norm_num
  rw [h2] at h1
  norm_num [obaboGet, obaboIntegrate] at h1

/-- C87 is false for AMAGOLD: the energy difference accumulated along the trajectory is reported. -/
theorem c87_false_amagold : ¬ C87Amagold := by
  intro h
  have h1 := h 1 (Spec.scripted (Spec.vectorLayout 1) (fun _ _ => 0) 0) (Spec.vectorLayout 1)
    (fun _ => 5) (fun x _ _ => ((5, ()), fun _ => 0)) (fun _ _ _ => rfl) 0 (fun _ => 0) 0 [⟨1, 1⟩]
  dsimp only at h1
  have h2 : ∀ (P : Prng Spec.SKey) (integ : LeapfrogState (Fin 1) XF Spec.SKey Unit Unit → Params →
      Option (MassMatrix (Fin 1)) → LeapfrogState (Fin 1) XF Spec.SKey Unit Unit)
      (fp : FullPotFn (Fin 1) Unit Unit) (s : AmagoldState (Fin 1) Spec.SKey Unit Unit Unit Unit)
      (p : Params), s.integratorState.potential = .fin 0 →
      (integ s.integratorState p none).potential = .fin 0 →
      (amagoldGet (amagoldUpdate P none integ fp s p).1).energy = .fin 0 := by
    intro P integ fp s p hs hi
    unfold amagoldUpdate amagoldGet leapfrogGet
    dsimp only [currentMass]
    by_cases hc : XF.Lt (XF.logOf (P.uniform (P.split s.key 2 1)))
      (amagoldLogAlpha s.potential (fp (integ s.integratorState p none).positions s.fullDataState
        (integ s.integratorState p none).modelState).1 (integ s.integratorState p none).potential)
    · rw [if_pos hc]; exact hi
    · rw [if_neg hc]; exact hs
  have h3 := h2 (Spec.scripted (Spec.vectorLayout 1) (fun _ _ => 0) 0)
    (revForAmagold (Spec.scripted (Spec.vectorLayout 1) (fun _ _ => 0) 0) (Spec.vectorLayout 1) 0 none 0
      (fun d => (d, d)) (fun x _ _ => ((5, ()), fun _ => 0))) (fun x f ms => (.fin 5, f, ms))
    (amagoldInit (Spec.scripted (Spec.vectorLayout 1) (fun _ _ => 0) 0) none
      (revInitForAmagold (Spec.scripted (Spec.vectorLayout 1) (fun _ _ => 0) 0) (Spec.vectorLayout 1) none ())
      (fun x f ms => (.fin 5, f, ms)) () (fun _ => 0) (.main 0) ()) ⟨1, 1⟩
    (by simp [amagoldInit, revInitForAmagold, revInit])
    (by simp [revForAmagold, revIntegrate])
  simp only [amagoldRun, List.foldl_cons, List.foldl_nil] at h1
  rw [h3] at h1
  simp at h1

theorem c87_false : ¬ C87Statement := fun h => c87_false_sgld h.1

/-! ## C88 -/

/-- The variance reported by an update of `langevin_diffusion` is the population variance (mean of the
squares minus square of the mean) of the likelihoods of the observations in the mini-batch. -/
theorem c88_variance [Fintype ι] (P : Prng κ) (lay : Layout ι) (ad : Option (AdaptStrategy ι β A))
    (getData : δ → δ × β) (sg : StochGradLik ι β μ) (s : LangevinState ι κ δ μ A) (p : Params)
    (n : ℕ) (hn : 0 < n) (l : Fin n → ℝ)
    (hl : (sg s.latent (getData s.dataState).2 s.modelState).1.2.1 = List.ofFn l) :
    (langevinUpdate P lay ad getData sg s p).variance =
      (∑ i, l i ^ 2) / n - ((∑ i, l i) / n) ^ 2 := by
  show jnpVar (sg s.latent (getData s.dataState).2 s.modelState).1.2.1 = _
  rw [hl]
  have hn' : (n : ℝ) ≠ 0 := by exact_mod_cast hn.ne'
  unfold jnpVar
  simp only [List.length_ofFn, List.map_ofFn, List.sum_ofFn, Function.comp_def]
  have e : ∀ c : ℝ, ∑ i, (l i - c) ^ 2 = ∑ i, l i ^ 2 - 2 * c * ∑ i, l i + n * c ^ 2 := by
    intro c
    simp only [sub_sq, Finset.sum_add_distrib, Finset.sum_sub_distrib, Finset.sum_const,
      Finset.card_univ, Fintype.card_fin, nsmul_eq_mul]
    congr 2
    rw [Finset.mul_sum]
    exact Finset.sum_congr rfl fun i _ => by ring
  rw [e]
  field_simp
  ring

/-- C88: with the default schedule `1 / n` the variance estimate of `parallel_tempering` is after any
number of updates the mean of the variances reported by the updates of the cold chain; the initial
estimate is forgotten. -/
theorem c88_mean (P : Prng κ) (upd : LangevinState ι κ δ μ A → Params → LangevinState ι κ δ μ A)
    (s : PtState ι κ δ μ A) (hs : s.step = 0) (ps : List (Params × Params)) (hps : ps ≠ []) :
    (ptRun P (fun n => 1 / n) upd s ps).ssq =
      (∑ k ∈ Finset.range ps.length,
        (upd (ptRun P (fun n => 1 / n) upd s (ps.take k)).normal (ps.getD k (⟨0, 0⟩, ⟨0, 0⟩)).1).variance) /
        ps.length := by
  have hstep : ∀ qs : List (Params × Params), (ptRun P (fun n => 1 / n) upd s qs).step = qs.length := by
    intro qs
    induction qs using List.reverseRecOn with
    | nil => exact hs
    | append_singleton qs q ih =>
      rw [ptRun, List.foldl_append]
      show (ptRun P (fun n => 1 / n) upd s qs).step + 1 = _
      rw [ih]; simp
  induction ps using List.reverseRecOn with
  | nil => exact absurd rfl hps
  | append_singleton qs q ih =>
    have e : (ptRun P (fun n => 1 / n) upd s (qs ++ [q])).ssq =
        (1 - 1 / ((qs.length + 1 : ℕ) : ℝ)) * (ptRun P (fun n => 1 / n) upd s qs).ssq +
          1 / ((qs.length + 1 : ℕ) : ℝ) * (upd (ptRun P (fun n => 1 / n) upd s qs).normal q.1).variance := by
      rw [ptRun, List.foldl_append]
      show (1 - 1 / (((ptRun P (fun n => 1 / n) upd s qs).step + 1 : ℕ) : ℝ)) *
          (ptRun P (fun n => 1 / n) upd s qs).ssq +
        1 / (((ptRun P (fun n => 1 / n) upd s qs).step + 1 : ℕ) : ℝ) *
          (upd (ptRun P (fun n => 1 / n) upd s qs).normal q.1).variance = _
      rw [hstep]
    rw [e, List.length_append, List.length_singleton, Finset.sum_range_succ]
    have hl : (qs ++ [q]).take qs.length = qs := by simp
    have hg : (qs ++ [q]).getD qs.length (⟨0, 0⟩, ⟨0, 0⟩) = q := by simp
    rw [hl, hg]
    have hsum : ∀ k ∈ Finset.range qs.length,
        (upd (ptRun P (fun n => 1 / n) upd s ((qs ++ [q]).take k)).normal
          ((qs ++ [q]).getD k (⟨0, 0⟩, ⟨0, 0⟩)).1).variance =
        (upd (ptRun P (fun n => 1 / n) upd s (qs.take k)).normal
          (qs.getD k (⟨0, 0⟩, ⟨0, 0⟩)).1).variance := by
      intro k hk
      have hk' := Finset.mem_range.1 hk
      rw [List.take_append_of_le_length hk'.le, List.getD_append _ _ _ _ hk']
    rw [Finset.sum_congr rfl hsum]
    have hne : ((qs.length + 1 : ℕ) : ℝ) ≠ 0 := by positivity
    rcases Nat.eq_zero_or_pos qs.length with h0 | h0
    · rw [h0]; simp
    · have hq : qs ≠ [] := fun h => by rw [h] at h0; simp at h0
      rw [ih hq]
      have hne' : (qs.length : ℝ) ≠ 0 := by exact_mod_cast h0.ne'
      push_cast at hne ⊢
      field_simp
      ring

/-- A case of `c88_mean`: two updates with variance 4. -/
example (P : Prng Unit) (s : PtState Unit Unit Unit Unit Unit) (hs : s.step = 0) (q : Params × Params)
    (upd : LangevinState Unit Unit Unit Unit Unit → Params → LangevinState Unit Unit Unit Unit Unit)
    (h : ∀ a p, (upd a p).variance = 4) : (ptRun P (fun n => 1 / n) upd s [q, q]).ssq = 4 := by
  rw [c88_mean P upd s hs [q, q] (by simp)]
  simp only [h]
  norm_num

end JaxSgmc
