import Verif.Spec.Temperature
import Verif.Spec.Invariance
import Verif.Props.AmagoldUnique
import Mathlib.Tactic.Ring
import Mathlib.Tactic.Linarith
import Mathlib.Tactic.NormNum

/-!
# C134: the temperature of the schedule

The documentation of the schedule (scheduler.py:48-61): "temperature: Scaling the magnitude of the additional
noise".  This holds for `langevin_diffusion` and `obabo`; `reversible_leapfrog` and `friction_leapfrog` ignore the
temperature, hence so does the solver AMAGOLD, whose stationary distribution is the one of temperature one.
-/

namespace JaxSgmc

open MeasureTheory

variable {ι κ δ β μ : Type}

/-- The full property C134: for all four integrators the temperature scales the noise. -/
def C134Statement : Prop :=
  ∀ (ι κ δ β μ A : Type) [Fintype ι] (lay : Layout ι) (getData : δ → δ × β) (sg : StochGrad ι β μ)
    (sgl : StochGradLik ι β μ) (ad : Option (AdaptStrategy ι β A)) (friction : ℝ) (cm : Option (ι → ℝ)) (am : Option (MassMatrix ι))
    (steps : ℕ) (nm : Option (NoiseFn ι β μ)), 0 ≤ friction →
    Spec.TemperatureScalesNoise (fun P s p => langevinUpdate (κ := κ) P lay ad getData sgl s p) ∧
    Spec.TemperatureScalesNoise (fun P s p => obaboIntegrate (κ := κ) P lay friction cm steps getData sg s p am) ∧
    Spec.TemperatureScalesNoise (fun P s p => revIntegrate (κ := κ) P lay friction cm steps getData sg s p am) ∧
    Spec.TemperatureScalesNoise
      (fun P s p => fricIntegrate (κ := κ) P lay nm (.inl friction) cm steps getData sg s p am)

theorem randomTree_scaled (P : Prng κ) (lay : Layout ι) (c : ℝ) (k : κ) :
    randomTree (Spec.scaledNoise c P) lay k = (vscale c (randomTree P lay k).1, (randomTree P lay k).2) := rfl

theorem vscale_vscale (a b : ℝ) (v : ι → ℝ) : vscale a (vscale b v) = vscale (a * b) v := by
  funext i; simp only [vscale]; ring

variable [Fintype ι]

theorem tensor_mul_vscale (t : VTensor ι) (c : ℝ) (v : ι → ℝ) : t.mul (vscale c v) = vscale c (t.mul v) := by
  cases t with
  | diag d => funext i; simp only [VTensor.mul, vscale]; ring
  | full m =>
    show m.mulVec (c • v) = c • m.mulVec v
    exact Matrix.mulVec_smul m c v

/-- **C134 (partial).** The Langevin diffusion (`sgld`, `re_sgld`, `sgldp`), with or without an adaption:
an update at temperature `T` is an update at temperature one with all normal numbers multiplied by `√T`. -/
theorem c134_langevin_partial {A : Type} (lay : Layout ι) (ad : Option (AdaptStrategy ι β A)) (getData : δ → δ × β)
    (sg : StochGradLik ι β μ) :
    Spec.TemperatureScalesNoise (fun P s p => langevinUpdate (κ := κ) P lay ad getData sg s p) := by
  intro P s h T hh hT
  have e : vscale (Real.sqrt (2 * T * h)) (randomTree P lay (P.split s.key 2 1)).1
      = vscale (Real.sqrt (2 * 1 * h)) (vscale (Real.sqrt T) (randomTree P lay (P.split s.key 2 1)).1) := by
    rw [vscale_vscale, ← Real.sqrt_mul (by positivity)]
    congr 2; ring
  unfold langevinUpdate
  dsimp only
  rw [randomTree_scaled, e]
  rfl

/-- **C134 (partial).** At temperature zero the Langevin diffusion is stochastic gradient descent: two generators which
split keys in the same way give the same update. -/
theorem c134_descent_partial {A : Type} (lay : Layout ι) (ad : Option (AdaptStrategy ι β A)) (getData : δ → δ × β)
    (sg : StochGradLik ι β μ) (P Q : Prng κ) (hs : P.split = Q.split) (s : LangevinState ι κ δ μ A) (h : ℝ) :
    langevinUpdate P lay ad getData sg s ⟨h, 0⟩ = langevinUpdate Q lay ad getData sg s ⟨h, 0⟩ := by
  have e : ∀ v w : ι → ℝ, vscale (Real.sqrt (2 * 0 * h)) v = vscale (Real.sqrt (2 * 0 * h)) w := by
    intro v w
    funext i
    simp [vscale]
  unfold langevinUpdate
  dsimp only
  rw [e (randomTree P lay (P.split s.key 2 1)).1 (randomTree Q lay (Q.split s.key 2 1)).1]
  simp only [randomTree, hs]

/-- Without an adaption it is `x - h ∇U(x)`. -/
theorem c134_gradient_partial {A : Type} (lay : Layout ι) (getData : δ → δ × β)
    (sg : StochGradLik ι β μ) (P : Prng κ) (s : LangevinState ι κ δ μ A) (h : ℝ) (i : ι) :
    (langevinUpdate P lay none getData sg s ⟨h, 0⟩).latent i
      = s.latent i - h * (sg s.latent (getData s.dataState).2 s.modelState).2 i := by
  simp [langevinUpdate, vadd, vscale]
  ring

theorem momentumResampling_scaled (friction : ℝ) (mass : MassMatrix ι) (p ξ : ι → ℝ) {h T : ℝ} (hf : 0 ≤ friction)
    (hh : 0 ≤ h) : momentumResampling friction ⟨h, T⟩ mass p ξ
      = momentumResampling friction ⟨h, 1⟩ mass p (vscale (Real.sqrt T) ξ) := by
  have h1 : 0 ≤ 1 - Real.exp (-friction * h) := by
    have : Real.exp (-friction * h) ≤ 1 := Real.exp_le_one_iff.2 (by nlinarith)
    linarith
  unfold momentumResampling
  dsimp only
  rw [tensor_mul_vscale, vscale_vscale, Real.sqrt_mul h1, Real.sqrt_mul h1, Real.sqrt_one, mul_one]

/-- **C134 (partial).** OBABO (`obabo`, `sggmc`): the same. -/
theorem c134_obabo_partial (lay : Layout ι) {friction : ℝ} (hf : 0 ≤ friction) (cm : Option (ι → ℝ)) (steps : ℕ)
    (getData : δ → δ × β) (sg : StochGrad ι β μ) (am : Option (MassMatrix ι)) :
    Spec.TemperatureScalesNoise
      (fun P s p => obaboIntegrate (κ := κ) P lay friction cm steps getData sg s p am) := by
  intro P s h T hh hT
  have e : obaboStep P lay friction getData sg ⟨h, T⟩ (resolveMass am cm)
      = obaboStep (Spec.scaledNoise (Real.sqrt T) P) lay friction getData sg ⟨h, 1⟩ (resolveMass am cm) := by
    funext s n
    unfold obaboStep
    dsimp only
    simp only [randomTree_scaled, ← momentumResampling_scaled friction _ _ _ (T := T) hf hh]
    rfl
  unfold obaboIntegrate
  dsimp only
  rw [e]

/-- **C134 is false** for the other two integrators: the reversible leapfrog ignores the temperature … -/
theorem c134_false_reversible (lay : Layout ι) (friction : ℝ) (cm : Option (ι → ℝ)) (steps : ℕ)
    (getData : δ → δ × β) (sg : StochGrad ι β μ) (am : Option (MassMatrix ι)) :
    Spec.IgnoresTemperature (fun P s p => revIntegrate (κ := κ) P lay friction cm steps getData sg s p am) :=
  fun _ _ _ _ _ => rfl

/-- … as does the friction leapfrog (`sghmc`). -/
theorem c134_false_friction (lay : Layout ι) (nm : Option (NoiseFn ι β μ)) (friction : ℝ ⊕ (ι → ℝ))
    (cm : Option (ι → ℝ)) (steps : ℕ) (getData : δ → δ × β) (sg : StochGrad ι β μ) (am : Option (MassMatrix ι)) :
    Spec.IgnoresTemperature
      (fun P s p => fricIntegrate (κ := κ) P lay nm friction cm steps getData sg s p am) :=
  fun _ _ _ _ _ => rfl

/-- A generator whose normal numbers are all one. -/
def onesPrng : Prng Unit := ⟨fun _ _ _ => (), fun _ _ _ => 1, fun _ => 1⟩

/-- **C134 is false.** At temperature zero the reversible leapfrog still adds noise. -/
theorem c134_false : ¬ C134Statement := by
  intro h
  have h1 := (h (Fin 1) Unit Unit Unit Unit Unit ⟨1, fun _ => 0, fun _ => 0, fun _ => 1⟩ (fun d => (d, ()))
    (fun _ _ _ => ((0, ()), fun _ => 0)) (fun _ _ _ => ((0, ([], ())), fun _ => 0)) none 1 none none 1 none
    zero_le_one).2.2.1 onesPrng ⟨0, (), fun _ => 0, fun _ => 0, (), (), []⟩ 1 0 zero_le_one le_rfl
  have h2 := congrFun (congrArg LeapfrogState.momentum h1) 0
  simp [revIntegrate, revBody, Spec.scaledNoise, onesPrng, randomTree, resolveMass, initMass, VTensor.mul, vadd,
    vscale] at h2

section
variable [Countable β] [Inhabited β] {φ : Type}

/-- Consequence: the only stationary distribution of AMAGOLD at *any* temperature of the schedule is the one of
temperature one, with density `exp(-U)`. -/
theorem c134_false_amagold {lay : Layout ι} (hl : Spec.Layout.Injective lay) {γ : ℝ} (hγ : 0 < γ)
    (am : Option (MassMatrix ι)) (cm : Option (ι → ℝ)) (hm : Spec.MassOk (Spec.usedMass am cm)) {L : ℕ} (hL : 2 ≤ L)
    (sg : StochGrad ι β μ) {G : (ι → ℝ) → β → (ι → ℝ)} (hG : ∀ x b ms, (sg x b ms).2 = G x b)
    (hGm : ∀ b, Measurable fun x => G x b) (fullPot : FullPotFn ι φ μ) {U : (ι → ℝ) → ℝ} (hU : Measurable U)
    {D : Set (ι → ℝ)} (hD : MeasurableSet D) (hfp : Spec.PotentialOn fullPot U D) (f₀ : φ) (ms : μ)
    (w : (Fin L → β) → ENNReal) (hw : ∀ b, w (fun i => b (Fin.rev i)) = w b) (hw1 : ∑' b, w b = 1)
    {h : ℝ} (hh : 0 < h) (T : ℝ)
    (hZ0 : Spec.posterior U D Set.univ ≠ 0) (hZ : Spec.posterior U D Set.univ ≠ ⊤)
    (ρ : Measure ((ι → ℝ) × (ι → ℝ))) [IsProbabilityMeasure ρ]
    (hρ : ∀ f : (ι → ℝ) × (ι → ℝ) → ENNReal, Measurable f →
      ∫⁻ z, Spec.amagoldExpect lay γ am cm L sg fullPot U f₀ ms w f [⟨h, T⟩] z ∂ρ = ∫⁻ z, f z ∂ρ)
    {A : Set (ι → ℝ)} (hA : MeasurableSet A) :
    ρ {z | z.1 ∈ A} = Spec.posterior U D A / Spec.posterior U D Set.univ :=
  c129_positions hl hγ am cm hm hL sg hG hGm fullPot hU hD hfp f₀ ms w hw hw1 ⟨h, T⟩ hh hZ0 hZ ρ hρ hA

end

/-- The theorems about the Langevin diffusion say something: the update at temperature 4 moves the sample twice as far
as at temperature one. -/
example : (langevinUpdate (A := Unit) onesPrng (⟨1, fun _ => 0, fun _ => 0, fun _ => 1⟩ : Layout (Fin 1)) none
      (fun d : Unit => (d, ())) (fun _ _ (m : Unit) => ((0, ([], m)), fun _ => 0))
      ⟨fun _ => 0, (), (), none, (), 0, 1, []⟩ ⟨2, 4⟩).latent 0 = 4 ∧
    (langevinUpdate (A := Unit) onesPrng (⟨1, fun _ => 0, fun _ => 0, fun _ => 1⟩ : Layout (Fin 1)) none
      (fun d : Unit => (d, ())) (fun _ _ (m : Unit) => ((0, ([], m)), fun _ => 0))
      ⟨fun _ => 0, (), (), none, (), 0, 1, []⟩ ⟨2, 1⟩).latent 0 = 2 := by
  constructor
  · simp [langevinUpdate, vadd, vscale, randomTree, onesPrng]
    rw [show (4 : ℝ) = 2 ^ 2 by norm_num, Real.sqrt_sq (by norm_num)]
    have := Real.mul_self_sqrt (show (0 : ℝ) ≤ 2 by norm_num)
    linarith
  · simp [langevinUpdate, vadd, vscale, randomTree, onesPrng]

end JaxSgmc
