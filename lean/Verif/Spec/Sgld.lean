import Verif.Spec.Oracle
import Verif.Spec.Gradient

/-!
# Specification: stochastic gradient Langevin dynamics and strongly convex potentials
-/

namespace JaxSgmc.Spec

open MeasureTheory

variable {ι κ δ β μ : Type}

/-- The squared Euclidean length. -/
def sqLen [Fintype ι] (v : ι → ℝ) : ℝ := ∑ i, v i ^ 2

/-- `U` is differentiable with gradient `G`, strongly convex with constant `m` and has a Lipschitz gradient with
constant `L`. -/
structure Convex [Fintype ι] [DecidableEq ι] (U : (ι → ℝ) → ℝ) (G : (ι → ℝ) → ι → ℝ) (m L : ℝ) : Prop where
  differentiable : Differentiable ℝ U
  gradient : ∀ x i, G x i = partialDeriv U x i
  m_pos : 0 < m
  L_pos : 0 < L
  monotone : ∀ x y, m * sqLen (x - y) ≤ ∑ i, (G x i - G y i) * (x i - y i)
  lipschitz : ∀ x y, sqLen (G x - G y) ≤ L ^ 2 * sqLen (x - y)

/-- The mini-batch gradient `g x b` is an unbiased estimate of `G x` if the mini-batch `b` has probability `w b`, with
a variance which grows at most quadratically. -/
structure Unbiased [Fintype ι] (w : β → ENNReal) (g : (ι → ℝ) → β → (ι → ℝ)) (G : (ι → ℝ) → ι → ℝ) (s : ℝ) : Prop where
  s_nonneg : 0 ≤ s
  probability : ∑' b, w b = 1
  mean : ∀ x i, HasSum (fun b => (w b).toReal * g x b i) (G x i)
  variance : ∀ x, ∑' b, w b * ENNReal.ofReal (sqLen (g x b - G x)) ≤ ENNReal.ofReal (s * (1 + sqLen x))

/-- `f` is Lipschitz with respect to the Euclidean distance, with constant `Λ`. -/
def Lipschitz [Fintype ι] (f : (ι → ℝ) → ℝ) (Λ : ℝ) : Prop := ∀ x y, (f x - f y) ^ 2 ≤ Λ ^ 2 * sqLen (x - y)

/-- The state of SGLD (`sgmc` with `langevin_diffusion`, no adaption) after the updates with parameters `prms`, started
with the sample `x₀` and the key `key`. -/
noncomputable def sgldState [Fintype ι] (P : Prng κ) (lay : Layout ι) (data : δ → δ × β) (d₀ : δ) (sg : StochGradLik ι β μ) (ms : μ)
    (x₀ : ι → ℝ) (key : κ) (prms : List Params) : LangevinState ι κ δ μ Unit :=
  prms.foldl (fun s p => langevinUpdate P lay none data sg s p) (langevinInit d₀ x₀ key none ms)

/-- The sample reported after these updates. -/
noncomputable def sgldSample [Fintype ι] (P : Prng κ) (lay : Layout ι) (data : δ → δ × β) (d₀ : δ) (sg : StochGradLik ι β μ) (ms : μ)
    (x₀ : ι → ℝ) (key : κ) (prms : List Params) : ι → ℝ :=
  (langevinGet (sgldState P lay data d₀ sg ms x₀ key prms)).vars

end JaxSgmc.Spec
