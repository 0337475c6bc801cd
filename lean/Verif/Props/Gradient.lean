import Verif.Model.Gradient
import Verif.Spec.Gradient
import Verif.Props.Potential
import Mathlib.Analysis.Calculus.FDeriv.Add
import Mathlib.Analysis.Calculus.FDeriv.Mul
import Mathlib.Analysis.Calculus.FDeriv.Pi
import Mathlib.Analysis.Calculus.Deriv.Pi
import Mathlib.Analysis.Calculus.Deriv.Comp

/-!
# C105: the stochastic gradient is an unbiased estimate of the gradient of the full potential
-/

namespace JaxSgmc

open Spec

section
variable {ι ρ S : Type} [Fintype ι] [DecidableEq ι]

theorem gradOf_eq_partial {f : (ι → ℝ) → ℝ} {x : ι → ℝ} (h : DifferentiableAt ℝ f x) (i : ι) :
    gradOf f x i = partialDeriv f x i := by
  have h1 : HasFDerivAt f (fderiv ℝ f x) (Function.update x i (x i)) := by
    rw [Function.update_eq_self]; exact h.hasFDerivAt
  have h2 := h1.comp_hasDerivAt (x i) (hasDerivAt_update x i (x i))
  exact h2.deriv.symm

/-- The potential of a list of observations as a function of the latent variables. -/
noncomputable def linearPotential (ℓ : (ι → ℝ) → ρ → ℝ) (prior : (ι → ℝ) → ℝ) (w T : ℝ) (rows : List ρ)
    (y : ι → ℝ) : ℝ := -(w * (rows.map (ℓ y)).sum + prior y) / T

theorem hasFDeriv_linearPotential {ℓ : (ι → ℝ) → ρ → ℝ} {prior : (ι → ℝ) → ℝ} {x : ι → ℝ}
    (hs : SmoothAt ℓ prior x) (w T : ℝ) (rows : List ρ) :
    HasFDerivAt (linearPotential ℓ prior w T rows)
      ((-T⁻¹) • (w • (rows.map fun r => fderiv ℝ (fun y => ℓ y r) x).sum + fderiv ℝ prior x)) x := by
  have hsum : HasFDerivAt (fun y => (rows.map (ℓ y)).sum)
      (rows.map fun r => fderiv ℝ (fun y => ℓ y r) x).sum x := by
    induction rows with
    | nil => simpa using hasFDerivAt_const (0 : ℝ) x
    | cons r rows ih =>
      simp only [List.map_cons, List.sum_cons]
      exact (hs.1 r).hasFDerivAt.add ih
  have h := ((hsum.const_smul w).add hs.2.hasFDerivAt).const_smul (-T⁻¹)
  refine h.congr_of_eventuallyEq (Filter.Eventually.of_forall fun y => ?_)
  simp only [linearPotential, Pi.add_apply, Pi.smul_apply, smul_eq_mul]
  ring

theorem gradOf_linearPotential {ℓ : (ι → ℝ) → ρ → ℝ} {prior : (ι → ℝ) → ℝ} {x : ι → ℝ}
    (hs : SmoothAt ℓ prior x) (w T : ℝ) (rows : List ρ) (i : ι) :
    gradOf (linearPotential ℓ prior w T rows) x i
      = -(w * (rows.map fun r => gradOf (fun y => ℓ y r) x i).sum + gradOf prior x i) / T := by
  have h : ∀ rows : List ρ, (rows.map fun r => fderiv ℝ (fun y => ℓ y r) x).sum (Pi.single i 1)
      = (rows.map fun r => gradOf (fun y => ℓ y r) x i).sum := by
    intro rows
    induction rows with
    | nil => simp
    | cons r rows ih =>
      rw [List.map_cons, List.sum_cons, List.map_cons, List.sum_cons, ← ih]
      rfl
  unfold gradOf
  rw [(hasFDeriv_linearPotential hs w T rows).fderiv]
  simp only [smul_apply, add_apply, h, smul_eq_mul, gradOf]
  ring

theorem potentialValue_eq (prior : (ι → ℝ) → ℝ) (lik : Likelihood ℝ ρ S (ι → ℝ)) (strategy : Strategy) (T : ℝ)
    (rows : List ρ) (info : BatchInfo) (st : Option S) (ℓ : (ι → ℝ) → ρ → ℝ)
    (hℓ : ∀ y, LogLik lik y (ℓ y)) (hst : ∀ y, StateFits lik y st) (hrows : BatchFits lik rows.length) :
    potentialValue prior lik strategy T rows info st
      = linearPotential ℓ prior ((info.N : ℝ) / rows.length) T rows := by
  funext y
  obtain ⟨st', -, h⟩ := c26_formula prior lik strategy T y rows info st (ℓ y) (hℓ y) (hst y) hrows
  simp only [potentialValue, h, linearPotential]
  ring

/-- **C105** (what is computed).  The gradient used by the integrators is
`-(N / n * (sum of the gradients of the log-likelihoods of the batch) + gradient of the log-prior) / T`; the
value, the likelihoods and the model state returned with it are those of the potential. -/
theorem c105_gradient (prior : (ι → ℝ) → ℝ) (lik : Likelihood ℝ ρ S (ι → ℝ)) (strategy : Strategy) (T : ℝ)
    (rows : List ρ) (info : BatchInfo) (st : Option S) (ℓ : (ι → ℝ) → ρ → ℝ)
    (hℓ : ∀ y, LogLik lik y (ℓ y)) (hst : ∀ y, StateFits lik y st) (hrows : BatchFits lik rows.length)
    (x : ι → ℝ) (hs : SmoothAt ℓ prior x) :
    ∃ p ls st', minibatchPotential prior lik strategy T x rows info st none = .ok (p, ls, st') ∧
      (potentialGradLik prior lik strategy T x (rows, info) st).1 = (p, (ls, st')) ∧
      (potentialGrad prior lik strategy T x (rows, info) st).1 = (p, st') ∧
      (potentialGrad prior lik strategy T x (rows, info) st).2
        = (potentialGradLik prior lik strategy T x (rows, info) st).2 ∧
      ∀ i, (potentialGradLik prior lik strategy T x (rows, info) st).2 i =
        -((info.N : ℝ) / rows.length * (rows.map fun r => partialDeriv (fun y => ℓ y r) x i).sum +
          partialDeriv prior x i) / T := by
  obtain ⟨st', -, h⟩ := c26_formula prior lik strategy T x rows info st (ℓ x) (hℓ x) (hst x) hrows
  refine ⟨_, _, _, h, by simp only [potentialGradLik, h], by simp only [potentialGrad, h],
    by simp only [potentialGrad, potentialGradLik, h], fun i => ?_⟩
  simp only [potentialGradLik, h]
  rw [potentialValue_eq prior lik strategy T rows info st ℓ hℓ hst hrows, gradOf_linearPotential hs,
    gradOf_eq_partial hs.2]
  congr 5
  apply List.map_congr_left
  intro r _
  exact gradOf_eq_partial (hs.1 r) i

theorem partial_exact {ℓ : (ι → ℝ) → ρ → ℝ} {prior : (ι → ℝ) → ℝ} {x : ι → ℝ} (hs : SmoothAt ℓ prior x)
    (T : ℝ) (obs : List ρ) (i : ι) :
    partialDeriv (fun y => exactPotential (ℓ y) (prior y) T obs) x i
      = -((obs.map fun r => partialDeriv (fun y => ℓ y r) x i).sum + partialDeriv prior x i) / T := by
  have he : (fun y => exactPotential (ℓ y) (prior y) T obs) = linearPotential ℓ prior 1 T obs := by
    funext y; simp [exactPotential, linearPotential]
  rw [he, ← gradOf_eq_partial (hasFDeriv_linearPotential hs 1 T obs).differentiableAt,
    gradOf_linearPotential hs, gradOf_eq_partial hs.2, one_mul]
  congr 4
  apply List.map_congr_left
  intro r _
  exact gradOf_eq_partial (hs.1 r) i

/-- **C105** (with replacement).  The average of the stochastic gradient over all `N^n` equally likely
mini-batches of `n` observations is the gradient of the exact potential. -/
theorem c105_unbiased (prior : (ι → ℝ) → ℝ) (lik : Likelihood ℝ ρ S (ι → ℝ)) (strategy : Strategy) (T : ℝ)
    (st : Option S) (ℓ : (ι → ℝ) → ρ → ℝ)
    (hℓ : ∀ y, LogLik lik y (ℓ y)) (hst : ∀ y, StateFits lik y st)
    (N n : ℕ) (hN : 0 < N) (hn : BatchFits lik n) (obs : Fin N → ρ) (mask : List Bool)
    (x : ι → ℝ) (hs : SmoothAt ℓ prior x) (i : ι) :
    (∑ d : Fin n → Fin N, (potentialGradLik prior lik strategy T x
        (List.ofFn fun k => obs (d k), ⟨N, n, mask⟩) st).2 i) / (N : ℝ) ^ n
      = partialDeriv (fun y => exactPotential (ℓ y) (prior y) T (List.ofFn obs)) x i := by
  have hn1 := hn.pos
  have hterm : ∀ d : Fin n → Fin N, (potentialGradLik prior lik strategy T x
      (List.ofFn fun k => obs (d k), ⟨N, n, mask⟩) st).2 i
      = -((N : ℝ) / n * (∑ k, partialDeriv (fun y => ℓ y (obs (d k))) x i) + partialDeriv prior x i) / T := by
    intro d
    obtain ⟨p, ls, st', -, -, -, -, h⟩ := c105_gradient prior lik strategy T
      (List.ofFn fun k => obs (d k)) ⟨N, n, mask⟩ st ℓ hℓ hst (by simpa using hn) x hs
    rw [h i]
    simp [List.map_ofFn, List.sum_ofFn, Function.comp_def]
  simp only [hterm]
  rw [partial_exact hs, ← Finset.sum_div, Finset.sum_neg_distrib, Finset.sum_add_distrib, ← Finset.mul_sum,
    sum_draws N n fun j => partialDeriv (fun y => ℓ y (obs j)) x i]
  simp only [List.map_ofFn, List.sum_ofFn, Function.comp_def, Finset.sum_const, Finset.card_univ,
    Fintype.card_pi, Fintype.card_fin, Finset.prod_const, nsmul_eq_mul, Nat.cast_pow]
  have hN' : (N : ℝ) ≠ 0 := by positivity
  have hn' : (n : ℝ) ≠ 0 := by positivity
  obtain ⟨m, rfl⟩ : ∃ m, n = m + 1 := ⟨n - 1, by omega⟩
  simp only [Nat.add_sub_cancel]
  by_cases hT : T = 0
  · simp [hT]
  · field_simp
    ring

/-- **C105** (epochs).  If the batches of an epoch contain every observation exactly once, the mean of their
gradients (all at the same point) is the gradient of the exact potential. -/
theorem c105_epoch (prior : (ι → ℝ) → ℝ) (lik : Likelihood ℝ ρ S (ι → ℝ)) (strategy : Strategy) (T : ℝ)
    (st : Option S) (ℓ : (ι → ℝ) → ρ → ℝ)
    (hℓ : ∀ y, LogLik lik y (ℓ y)) (hst : ∀ y, StateFits lik y st)
    (n : ℕ) (hn : BatchFits lik n) (obs : List ρ) (epoch : List (List ρ)) (hne : epoch ≠ [])
    (hsize : ∀ b ∈ epoch, b.length = n) (hperm : epoch.flatten.Perm obs) (mask : List Bool)
    (x : ι → ℝ) (hs : SmoothAt ℓ prior x) (i : ι) :
    (epoch.map fun b => (potentialGradLik prior lik strategy T x (b, ⟨obs.length, n, mask⟩) st).2 i).sum /
        epoch.length
      = partialDeriv (fun y => exactPotential (ℓ y) (prior y) T obs) x i := by
  have hn1 := hn.pos
  have hlen : obs.length = epoch.length * n := by
    rw [← hperm.length_eq, List.length_flatten, List.map_congr_left hsize]
    simp
  rw [partial_exact hs]
  have hterm : ∀ b ∈ epoch, (potentialGradLik prior lik strategy T x (b, ⟨obs.length, n, mask⟩) st).2 i
      = -((epoch.length : ℝ) * (b.map fun r => partialDeriv (fun y => ℓ y r) x i).sum +
        partialDeriv prior x i) / T := by
    intro b hb
    obtain ⟨p, ls, st', -, -, -, -, h⟩ := c105_gradient prior lik strategy T b ⟨obs.length, n, mask⟩ st ℓ hℓ
      hst (by rw [hsize b hb]; exact hn) x hs
    rw [h i, hsize b hb]
    have : ((obs.length : ℕ) : ℝ) / n = epoch.length := by
      rw [hlen]; push_cast; field_simp
    simp only [this]
  rw [List.map_congr_left hterm]
  have hsum : ∀ (l : List (List ρ)) (c g : ℝ) (f : ρ → ℝ),
      (l.map fun b => -(c * (b.map f).sum + g) / T).sum = -(c * (l.flatten.map f).sum + l.length * g) / T := by
    intro l c g f
    induction l with
    | nil => simp
    | cons b l ih =>
      simp only [List.map_cons, List.sum_cons, ih, List.flatten_cons, List.map_append, List.sum_append,
        List.length_cons]
      push_cast
      ring
  rw [hsum, (hperm.map _).sum_eq]
  have : (epoch.length : ℝ) ≠ 0 := by
    simpa using hne
  field_simp

/-- **C105** (SGLD).  The average of one SGLD update over all mini-batches is the update of Langevin
dynamics with the exact gradient and the same noise. -/
theorem c105_sgld {κ A : Type} (P : Prng κ) (lay : Layout ι)
    (prior : (ι → ℝ) → ℝ) (lik : Likelihood ℝ ρ S (ι → ℝ)) (strategy : Strategy) (T : ℝ)
    (ℓ : (ι → ℝ) → ρ → ℝ) (N n : ℕ) (hN : 0 < N) (hn : BatchFits lik n) (obs : Fin N → ρ) (mask : List Bool)
    (s : LangevinState ι κ Unit (Option S) A)
    (hℓ : ∀ y, LogLik lik y (ℓ y)) (hst : ∀ y, StateFits lik y s.modelState)
    (hs : SmoothAt ℓ prior s.latent) (p : Params) (i : ι) :
    (∑ d : Fin n → Fin N, (langevinUpdate P lay (none : Option (AdaptStrategy ι (List ρ × BatchInfo) A))
        (fun u => (u, (List.ofFn fun k => obs (d k), ⟨N, n, mask⟩)))
        (potentialGradLik prior lik strategy T) s p).latent i) / (N : ℝ) ^ n
      = s.latent i -
        p.stepSize * partialDeriv (fun y => exactPotential (ℓ y) (prior y) T (List.ofFn obs)) s.latent i +
        Real.sqrt (2 * p.temperature * p.stepSize) * (randomTree P lay (P.split s.key 2 1)).1 i := by
  have h := c105_unbiased prior lik strategy T s.modelState ℓ hℓ hst N n hN hn obs mask s.latent hs i
  have hN' : ((N : ℝ) ^ n) ≠ 0 := by positivity
  rw [div_eq_iff hN'] at h
  simp only [langevinUpdate, vadd, vscale]
  rw [div_eq_iff hN', Finset.sum_add_distrib, Finset.sum_add_distrib, ← Finset.mul_sum, h]
  simp only [Finset.sum_const, Finset.card_univ, Fintype.card_pi, Fintype.card_fin, Finset.prod_const,
    nsmul_eq_mul, Nat.cast_pow]
  ring

end

/-- The hypotheses are met by a Gaussian likelihood with a flat prior. -/
example : let ℓ : (Fin 1 → ℝ) → ℝ → ℝ := fun y r => -(r - y 0) ^ 2 / 2
    (∀ y, LogLik (S := Unit) (.plain ℓ) y (ℓ y)) ∧ (∀ y, StateFits (S := Unit) (.plain ℓ) y none) ∧
      BatchFits (S := Unit) (.plain ℓ) 1 ∧ SmoothAt ℓ (fun _ => 0) (fun _ => 0) := by
  refine ⟨fun y r => rfl, fun y => rfl, le_refl _, fun r => ?_, differentiableAt_const _⟩
  fun_prop

end JaxSgmc
