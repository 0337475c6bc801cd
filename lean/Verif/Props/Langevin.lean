import Verif.Model.Adaption
import Verif.Spec.Adaption
import Verif.Spec.Integrator
import Verif.Spec.Scripted
import Mathlib.Data.List.Induction

/-!
# Properties of `friction_leapfrog` and `langevin_diffusion`: C67, C68, C69
-/

namespace JaxSgmc

variable {ι κ δ β μ A : Type} [Fintype ι]

/-! ## C68 -/

/-- The states of a Langevin run with the schedules `ps` (solver.py:153-160). -/
noncomputable def langevinRun (P : Prng κ) (lay : Layout ι) (ad : Option (AdaptStrategy ι β A))
    (getData : δ → δ × β) (sg : StochGradLik ι β μ) (s : LangevinState ι κ δ μ A) (ps : List Params) :
    LangevinState ι κ δ μ A :=
  ps.foldl (langevinUpdate P lay ad getData sg) s

section
variable (P : Prng κ) (lay : Layout ι) (ad : Option (AdaptStrategy ι β A)) (getData : δ → δ × β)
  (sg : StochGradLik ι β μ) (s : LangevinState ι κ δ μ A)

theorem langevinRun_snoc (ps : List Params) (p : Params) :
    langevinRun P lay ad getData sg s (ps ++ [p]) =
      langevinUpdate P lay ad getData sg (langevinRun P lay ad getData sg s ps) p := by
  simp [langevinRun]

theorem langevinRun_key (ps : List Params) : (langevinRun P lay ad getData sg s ps).key =
    (fun k => P.split k 2 0)^[ps.length] s.key := by
  induction ps using List.reverseRecOn with
  | nil => rfl
  | append_singleton ps p ih =>
    rw [langevinRun_snoc, List.length_append, List.length_singleton, Function.iterate_succ_apply', ← ih]
    rfl

theorem langevinRun_data (ps : List Params) : (langevinRun P lay ad getData sg s ps).dataState =
    (fun d => (getData d).1)^[ps.length] s.dataState := by
  induction ps using List.reverseRecOn with
  | nil => rfl
  | append_singleton ps p ih =>
    rw [langevinRun_snoc, List.length_append, List.length_singleton, Function.iterate_succ_apply', ← ih]
    rfl

end

/-- C68, without adaption: in every run, the update after the schedules `ps` is the SGLD update with the
next mini-batch, the next noise vector, and step size and temperature of the schedule. -/
theorem c68_sgld (P : Prng κ) (lay : Layout ι) (getData : δ → δ × β) (sg : StochGradLik ι β μ)
    {G : (ι → ℝ) → β → (ι → ℝ)} (hG : ∀ x b ms, (sg x b ms).2 = G x b)
    (s : LangevinState ι κ δ μ A) (ps : List Params) (p : Params) (i : ι) :
    let x := (langevinRun P lay none getData sg s ps).latent
    (langevinRun P lay none getData sg s (ps ++ [p])).latent i =
      Spec.sgldStep 1 p.stepSize p.temperature (x i)
        (G x (Spec.nthBatch getData s.dataState ps.length) i)
        (Spec.leapNoise P lay s.key ps.length i) := by
  intro x
  have hb : Spec.nthBatch getData s.dataState ps.length =
      (getData (langevinRun P lay none getData sg s ps).dataState).2 := by
    rw [langevinRun_data]; rfl
  have hn : Spec.leapNoise P lay s.key ps.length =
      (randomTree P lay (P.split (langevinRun P lay none getData sg s ps).key 2 1)).1 := by
    rw [langevinRun_key]; rfl
  rw [langevinRun_snoc, hb, hn, ← hG x _ (langevinRun P lay none getData sg s ps).modelState]
  simp only [langevinUpdate, vadd, vscale, Spec.sgldStep, x]
  ring_nf

/-- The gradients (of variable `i`) seen by a run with the schedules `ps`. -/
noncomputable def langevinGrads (P : Prng κ) (lay : Layout ι) (ad : Option (AdaptStrategy ι β A))
    (getData : δ → δ × β) (sg : StochGradLik ι β μ) (G : (ι → ℝ) → β → (ι → ℝ))
    (s : LangevinState ι κ δ μ A) (ps : List Params) (i : ι) : List ℝ :=
  (List.range ps.length).map fun k =>
    G (langevinRun P lay ad getData sg s (ps.take k)).latent (Spec.nthBatch getData s.dataState k) i

/-- C68 with RMSprop: the update is the preconditioned SGLD update, with the preconditioner
`1 / (lmbd + sqrt v)` where `v` is the moving average of the squared gradients of this run up to and
including the present one. -/
theorem c68_rmsprop (P : Prng κ) (lay : Layout ι) (getData : δ → δ × β) (sg : StochGradLik ι β μ)
    {G : (ι → ℝ) → β → (ι → ℝ)} (hG : ∀ x b ms, (sg x b ms).2 = G x b) (α : ℝ) {l : ℝ} (hl : 0 < l)
    (s : LangevinState ι κ δ μ (RmsState ι)) (hs : s.adaptState = some (rmsInit s.latent α l))
    (ps : List Params) (p : Params) (hp : 0 ≤ p.temperature * p.stepSize) (i : ι) :
    let x := (langevinRun P lay (some rmsStrategy) getData sg s ps).latent
    let v := Spec.movingSquares α
      (langevinGrads P lay (some rmsStrategy) getData sg G s (ps ++ [p]) i)
    (langevinRun P lay (some rmsStrategy) getData sg s (ps ++ [p])).latent i =
      Spec.sgldStep (1 / (l + Real.sqrt v)) p.stepSize p.temperature (x i)
        (G x (Spec.nthBatch getData s.dataState ps.length) i)
        (Spec.leapNoise P lay s.key ps.length i) := by
  set run := langevinRun P lay (some rmsStrategy) getData sg s with hrun
  have htake : ∀ (ps : List Params) (p : Params),
      langevinGrads P lay (some rmsStrategy) getData sg G s (ps ++ [p]) i =
      langevinGrads P lay (some rmsStrategy) getData sg G s ps i ++
        [G (run ps).latent (Spec.nthBatch getData s.dataState ps.length) i] := by
    intro ps p
    unfold langevinGrads
    rw [List.length_append, List.length_singleton, List.range_succ, List.map_append]
    congr 1
    · refine List.map_congr_left fun k hk => ?_
      rw [List.take_append_of_le_length (List.mem_range.mp hk).le]
    · simp [hrun]
  have hb : ∀ ps : List Params, Spec.nthBatch getData s.dataState ps.length =
      (getData (run ps).dataState).2 := by
    intro ps; rw [hrun, langevinRun_data]; rfl
  have hst : ∀ ps : List Params, ∃ w : ι → ℝ, (run ps).adaptState = some ⟨w, α, l⟩ ∧
      w i = Spec.movingSquares α (langevinGrads P lay (some rmsStrategy) getData sg G s ps i) := by
    intro ps
    induction ps using List.reverseRecOn with
    | nil => exact ⟨fun _ => 1, hs, rfl⟩
    | append_singleton ps p ih =>
      obtain ⟨w, hw, hwi⟩ := ih
      refine ⟨fun j => α * w j + (1 - α) * ((sg (run ps).latent (getData (run ps).dataState).2
        (run ps).modelState).2 j * (sg (run ps).latent (getData (run ps).dataState).2
        (run ps).modelState).2 j), ?_, ?_⟩
      · rw [hrun, langevinRun_snoc, ← hrun]
        simp only [langevinUpdate, hw, rmsStrategy, rmsUpdate]
      · rw [htake, Spec.movingSquares, List.foldl_append, List.foldl_cons, List.foldl_nil]
        have := hwi
        unfold Spec.movingSquares at this
        rw [← this, hG, ← hb]
  intro x v
  obtain ⟨w, hw, hwi⟩ := hst ps
  have hn : Spec.leapNoise P lay s.key ps.length =
      (randomTree P lay (P.split (run ps).key 2 1)).1 := by
    rw [hrun, langevinRun_key]; rfl
  have hv : v = α * w i + (1 - α) * (G (run ps).latent (getData (run ps).dataState).2 i *
      G (run ps).latent (getData (run ps).dataState).2 i) := by
    show Spec.movingSquares α _ = _
    rw [htake, Spec.movingSquares, List.foldl_append, List.foldl_cons, List.foldl_nil]
    have := hwi
    unfold Spec.movingSquares at this
    rw [← this, hb]
  rw [hrun, langevinRun_snoc, ← hrun]
  rw [hn, hb]
  simp only [langevinUpdate, hw, rmsStrategy, rmsUpdate, rmsGet, vadd, vscale, VTensor.mul, hG]
  rw [← hv]
  have hpos : 0 < l + Real.sqrt v := add_pos_of_pos_of_nonneg hl (Real.sqrt_nonneg v)
  rw [Real.rpow_neg_one]
  have e : Real.sqrt ((l + Real.sqrt v)⁻¹) * Real.sqrt (2 * p.temperature * p.stepSize) =
      Real.sqrt (2 * p.temperature * p.stepSize * (1 / (l + Real.sqrt v))) := by
    rw [one_div, Real.sqrt_mul (x := 2 * p.temperature * p.stepSize) (by linarith), mul_comm]
  unfold Spec.sgldStep
  rw [← e, one_div]
  show x i + _ = x i - p.stepSize * (l + √v)⁻¹ * G x (getData (run ps).dataState).2 i +
    √((l + √v)⁻¹) * √(2 * p.temperature * p.stepSize) * (randomTree P lay (P.split (run ps).key 2 1)).1 i
  show x i + (p.stepSize * 0 + (l + √v)⁻¹ * (-p.stepSize * G x (getData (run ps).dataState).2 i) +
    √((l + √v)⁻¹) * (√(2 * p.temperature * p.stepSize) *
      (randomTree P lay (P.split (run ps).key 2 1)).1 i)) = _
  ring

/-- A case of `c68_rmsprop`: the initial state built by `langevinInit` from the state of RMSprop. -/
example : ∃ (s : LangevinState (Fin 2) Spec.SKey ℕ Unit (RmsState (Fin 2))) (p : Params),
    s.adaptState = some (rmsInit s.latent (9 / 10) (1 / 100000)) ∧ 0 ≤ p.temperature * p.stepSize ∧
      0 < p.stepSize :=
  ⟨langevinInit 0 ![1, 2] (.main 0) (some (rmsInit ![1, 2] (9 / 10) (1 / 100000))) (), ⟨1 / 10, 1⟩, rfl,
    by norm_num, by norm_num⟩

/-! ## C69 -/

omit [Fintype ι] in
/-- C69: after any sequence of gradients the RMSprop metric is positive and bounded by `1 / lmbd`, its
square root is a square root, and the correction term is zero. -/
theorem c69_rmsprop (x : ι → ℝ) {α l : ℝ} (h0 : 0 ≤ α) (h1 : α ≤ 1) (hl : 0 < l)
    (grads : List (ι → ℝ)) :
    ∃ g r : ι → ℝ, (rmsGet (grads.foldl rmsUpdate (rmsInit x α l))).gInv = .diag g ∧
      (rmsGet (grads.foldl rmsUpdate (rmsInit x α l))).sqrtGInv = .diag r ∧
      (∀ i, 0 < g i ∧ g i ≤ 1 / l ∧ 0 < r i ∧ r i * r i = g i) ∧
      ∀ i, (rmsGet (grads.foldl rmsUpdate (rmsInit x α l))).gamma i = 0 := by
  have inv : ∀ grads : List (ι → ℝ), (∀ i, 0 ≤ (grads.foldl rmsUpdate (rmsInit x α l)).v i) ∧
      (grads.foldl rmsUpdate (rmsInit x α l)).alpha = α ∧
      (grads.foldl rmsUpdate (rmsInit x α l)).lmbd = l := by
    intro grads
    induction grads using List.reverseRecOn with
    | nil => exact ⟨fun _ => zero_le_one, rfl, rfl⟩
    | append_singleton gs g ih =>
      rw [List.foldl_append, List.foldl_cons, List.foldl_nil]
      refine ⟨fun i => ?_, ih.2.1, ih.2.2⟩
      show 0 ≤ _ * _ + (1 - (List.foldl rmsUpdate (rmsInit x α l) gs).alpha) * (g i * g i)
      rw [ih.2.1]
      exact add_nonneg (mul_nonneg h0 (ih.1 i)) (mul_nonneg (by linarith) (mul_self_nonneg _))
  obtain ⟨hv, -, hlm⟩ := inv grads
  refine ⟨_, _, rfl, rfl, fun i => ?_, fun _ => rfl⟩
  dsimp only
  rw [hlm, Real.rpow_neg_one]
  set w := (grads.foldl rmsUpdate (rmsInit x α l)).v i
  have hpos : 0 < l + Real.sqrt w := add_pos_of_pos_of_nonneg hl (Real.sqrt_nonneg w)
  refine ⟨inv_pos.mpr hpos, ?_, Real.sqrt_pos.mpr (inv_pos.mpr hpos), Real.mul_self_sqrt
    (inv_pos.mpr hpos).le⟩
  rw [one_div]
  exact inv_anti₀ hl (le_add_of_nonneg_right (Real.sqrt_nonneg w))

/-- A case of `c69_rmsprop`, with the default values of the parameters and a zero gradient. -/
example : ∃ (α l : ℝ) (grads : List (Fin 2 → ℝ)), 0 ≤ α ∧ α ≤ 1 ∧ 0 < l ∧ grads.length = 2 :=
  ⟨9 / 10, 1 / 100000, [0, ![1, -3]], by norm_num, by norm_num, by norm_num, rfl⟩

/-! ## C67 -/

/-- The SGHMC momentum update required by the friction (arXiv:1402.4102, equation 13 without estimate of
the gradient noise): the momentum `p` with `M⁻¹p = w`, gradient `g`, friction `f`, step size `h`. -/
noncomputable def Spec.sghmcMomentum (h f p w g z : ℝ) : ℝ :=
  p - h * f * w - h * g + Real.sqrt (2 * f * h) * z

/-- The full claim C67: every step without noise model is the SGHMC update. -/
def C67Statement : Prop :=
  ∀ (n : ℕ) (P : Prng Spec.SKey) (lay : Layout (Fin n)) (getData : ℕ → ℕ × ℕ)
    (sg : StochGrad (Fin n) ℕ Unit) (prm : Params) (friction : Fin n → ℝ) (m : MassMatrix (Fin n))
    (s : LeapfrogState (Fin n) ℝ Spec.SKey ℕ Unit) (i : Fin n),
    0 ≤ prm.stepSize → (∀ i, 0 ≤ friction i) →
    let s' := fricBody P lay none getData sg prm friction m s 0
    s'.momentum i = Spec.sghmcMomentum prm.stepSize (friction i) (s.momentum i)
      (m.inv.mul s.momentum i) ((sg s'.positions (getData s.dataState).2 s.modelState).2 i)
      (Spec.leapNoise P lay s.key 0 i)

/-- What the code does without noise model: the noise is scaled by the friction instead of its square
root. -/
theorem c67_scaled_partial (P : Prng κ) (lay : Layout ι) (getData : δ → δ × β) (sg : StochGrad ι β μ)
    (prm : Params) (friction : ι → ℝ) (m : MassMatrix ι) (s : LeapfrogState ι ℝ κ δ μ) (k : ℕ) (i : ι) :
    let s' := fricBody P lay none getData sg prm friction m s k
    s'.momentum i = s.momentum i - prm.stepSize * friction i * m.inv.mul s.momentum i -
        prm.stepSize * (sg s'.positions (getData s.dataState).2 s.modelState).2 i +
        friction i * Real.sqrt (2 * prm.stepSize) * Spec.leapNoise P lay s.key 0 i := by
  simp only [fricBody, vadd, vscale, vmul, Spec.leapNoise, Function.iterate_zero, id_eq]
  ring

/-- The injected noise has the required scale exactly for friction 0 and 1. -/
theorem c67_iff_partial {h f : ℝ} (hh : 0 < h) (hf : 0 ≤ f) :
    f * Real.sqrt (2 * h) = Real.sqrt (2 * f * h) ↔ f = 0 ∨ f = 1 := by
  have hs : 0 < Real.sqrt (2 * h) := Real.sqrt_pos.mpr (by linarith)
  have e : 2 * f * h = f * (2 * h) := by ring
  rw [e, Real.sqrt_mul hf]
  constructor
  · intro h1
    have h2 : f = Real.sqrt f := mul_right_cancel₀ hs.ne' h1
    have h3 : f * f = f := by
      nth_rewrite 1 2 [h2]; rw [Real.mul_self_sqrt hf]
    have : f * (f - 1) = 0 := by linarith
    rcases mul_eq_zero.mp this with h | h
    · exact .inl h
    · exact .inr (by linarith)
  · rintro (rfl | rfl) <;> simp

/-- With a noise model which returns the square root of the friction (estimated gradient noise zero), the
required noise is injected. -/
theorem c67_model_partial (P : Prng κ) (lay : Layout ι) (getData : δ → δ × β) (sg : StochGrad ι β μ)
    (prm : Params) (friction : ι → ℝ) (m : MassMatrix ι) (s : LeapfrogState ι ℝ κ δ μ)
    (hh : 0 ≤ prm.stepSize) (hf : ∀ i, 0 ≤ friction i) (k : ℕ) (i : ι) :
    let nm : NoiseFn ι β μ := fun _ _ f _ _ _ => .diag (fun i => Real.sqrt (f i))
    let s' := fricBody P lay (some nm) getData sg prm friction m s k
    s'.momentum i = Spec.sghmcMomentum prm.stepSize (friction i) (s.momentum i)
      (m.inv.mul s.momentum i) ((sg s'.positions (getData s.dataState).2 s.modelState).2 i)
      (Spec.leapNoise P lay s.key 0 i) := by
  have e : 2 * friction i * prm.stepSize = (2 * prm.stepSize) * friction i := by ring
  have hd : ∀ d v : ι → ℝ, (VTensor.diag d).mul v = fun i => d i * v i := fun _ _ => rfl
  simp only [fricBody, vadd, vscale, vmul, Spec.leapNoise, Function.iterate_zero, id_eq, hd,
    Spec.sghmcMomentum]
  rw [e, Real.sqrt_mul (x := 2 * prm.stepSize) (by linarith) (friction i)]
  ring

/-- The noise model `fisher_information` returns the square root of the friction if it estimates zero
gradient noise and the friction is positive. -/
theorem c67_fisher_partial [Nonempty ι] (N n : ℕ) (perObs : Fin n → ι → ℝ) (sampleGrad friction : ι → ℝ)
    (h : ℝ) (hv : ∀ i, fisherV N n perObs sampleGrad i = 0) (hf : ∀ i, 0 < friction i) :
    fisherNoise N n perObs sampleGrad friction h = some (fun i => Real.sqrt (friction i)) := by
  have hc : (fun i => friction i - 0.5 * h * fisherV N n perObs sampleGrad i) = friction := by
    funext i; rw [hv]; ring
  have hn : (Finset.univ.filter (fun i => 0 < friction i)).Nonempty :=
    ⟨Classical.arbitrary ι, by simp [hf]⟩
  unfold fisherNoise
  simp only [hv, mul_zero, sub_zero]
  rw [dif_pos hn]
  congr 1
  funext i
  rw [if_neg (not_le.mpr (hf i))]

/-- C67 is false: with friction 1/4 (the default) and step size 2, the noise is half the required one. -/
theorem c67_false : ¬ C67Statement := by
  intro h
  have h1 := h 1 (Spec.scripted (Spec.vectorLayout 1) (fun _ _ => 1) 0) (Spec.vectorLayout 1)
    (Spec.batchSource fun i => i) (fun _ _ _ => ((0, ()), fun _ => 0)) ⟨2, 1⟩ (fun _ => 1 / 4)
    (initMass fun _ => 1) ⟨0, .main 0, 0, 0, 0, (), []⟩ 0 (by norm_num) (fun _ => by norm_num)
  dsimp only at h1
  rw [c67_scaled_partial, Spec.scripted_leapNoise (Spec.vectorLayout_injective 1)] at h1
  simp only [Spec.sghmcMomentum] at h1
  have h2 : (1 / 4 : ℝ) * Real.sqrt (2 * 2) = Real.sqrt (2 * (1 / 4) * 2) := by linarith
  rcases (c67_iff_partial (by norm_num) (by norm_num)).mp h2 with h3 | h3 <;> norm_num at h3

end JaxSgmc
