import Verif.Props.Scheduler
import Verif.Spec.DualAverage

/-!
# C103: the adaptive step size performs dual averaging
-/

namespace JaxSgmc

open Spec

theorem adaptive_fields (p : AdaptiveParams) (s : AdaptiveState) (fb : Nat → Stats) (i : Nat) :
    (ParamAfter (adaptiveStepSize p) s fb i).t0 = s.t0 ∧ (ParamAfter (adaptiveStepSize p) s fb i).kappa = s.kappa ∧
      (ParamAfter (adaptiveStepSize p) s fb i).gamma = s.gamma ∧
      (ParamAfter (adaptiveStepSize p) s fb i).mu = s.mu := by
  induction i with
  | zero => exact ⟨rfl, rfl, rfl, rfl⟩
  | succ i ih => exact ih

theorem adaptive_error (p : AdaptiveParams) (s : AdaptiveState) (h0 : s.hBar = 0) (ht : 0 ≤ s.t0)
    (fb : Nat → Stats) (i : Nat) :
    (ParamAfter (adaptiveStepSize p) s fb i).hBar
      = averageError s.t0 p.targetAcceptanceRate (fun k => (fb k).getD 0) i := by
  induction i with
  | zero => simp [ParamAfter, averageError, h0]
  | succ i ih =>
    obtain ⟨e1, -⟩ := adaptive_fields p s fb i
    show (ParamAfter (adaptiveStepSize p) s fb i).hBar *
      (1 - 1 / ((i : ℝ) + 1 + (ParamAfter (adaptiveStepSize p) s fb i).t0)) +
      1 / ((i : ℝ) + 1 + (ParamAfter (adaptiveStepSize p) s fb i).t0) *
        (p.targetAcceptanceRate - (fb i).getD 0) = _
    rw [e1, ih, averageError, averageError, Finset.sum_range_succ]
    have h1 : (i : ℝ) + 1 + s.t0 ≠ 0 := by positivity
    push_cast
    by_cases h2 : (i : ℝ) + s.t0 = 0
    · have hi : (i : ℝ) = 0 := by
        have : (0 : ℝ) ≤ i := Nat.cast_nonneg i
        linarith
      have hi' : i = 0 := by exact_mod_cast hi
      subst hi'
      simp only [Finset.range_zero, Finset.sum_empty, zero_div, zero_mul, zero_add]
      rw [one_div, div_eq_mul_inv, mul_comm]
    · field_simp
      ring

theorem adaptive_log (p : AdaptiveParams) (s : AdaptiveState) (ε₀ : ℝ) (h0 : s.hBar = 0) (ht : 0 ≤ s.t0)
    (hx : s.xBar = Real.log ε₀) (hmu : s.mu = Real.log (10 * ε₀)) (fb : Nat → Stats) (i : Nat)
    (hi : (i : Int) ≤ s.burnIn) :
    (ParamAfter (adaptiveStepSize p) s fb i).xBar
      = dualAverage ε₀ s.t0 s.kappa s.gamma p.targetAcceptanceRate (fun k => (fb k).getD 0) i := by
  induction i with
  | zero => exact hx
  | succ i ih =>
    have hE := adaptive_error p s h0 ht fb (i + 1)
    obtain ⟨e1, e2, e3, e4⟩ := adaptive_fields p s fb i
    have hb := adaptive_burnIn p s fb i
    rw [dualAverage, ← ih (by omega), ← hE]
    have hlt : (i : Int) < (ParamAfter (adaptiveStepSize p) s fb i).burnIn := by
      rw [hb]; omega
    show (if (i : Int) < (ParamAfter (adaptiveStepSize p) s fb i).burnIn then
      (ParamAfter (adaptiveStepSize p) s fb i).xBar * (1 - ((i : ℝ) + 1) ^
          (-(ParamAfter (adaptiveStepSize p) s fb i).kappa)) + ((i : ℝ) + 1) ^
          (-(ParamAfter (adaptiveStepSize p) s fb i).kappa) *
          ((ParamAfter (adaptiveStepSize p) s fb i).mu - Real.sqrt ((i : ℝ) + 1) /
            (ParamAfter (adaptiveStepSize p) s fb i).gamma * _)
      else _) = _
    rw [if_pos hlt, e2, e3, e4, hmu]
    have e5 : (ParamAfter (adaptiveStepSize p) s fb (i + 1)).hBar =
      (ParamAfter (adaptiveStepSize p) s fb i).hBar *
      (1 - 1 / ((i : ℝ) + 1 + (ParamAfter (adaptiveStepSize p) s fb i).t0)) +
      1 / ((i : ℝ) + 1 + (ParamAfter (adaptiveStepSize p) s fb i).t0) *
        (p.targetAcceptanceRate - (fb i).getD 0) := rfl
    rw [← e5]
    push_cast
    ring

/-- **C103** (dual averaging).  Until the end of the burn in, the step size of iteration `i` is the one given by
dual averaging of the acceptance ratios reported in the iterations before; afterwards it does not change. -/
theorem c103_dual_averaging (p : AdaptiveParams) (its : Nat) (hε : 0 < p.initialStepSize)
    (ht : 0 ≤ p.stabilizationConstant) :
    ∃ s, (adaptiveStepSize p).init its {} = .ok s ∧ ∀ fb : Nat → Stats, ∀ i : Nat,
      (adaptiveStepSize p).get (ParamAfter (adaptiveStepSize p) s fb i) i
        = Real.exp (dualAverage p.initialStepSize p.stabilizationConstant p.decayConstant p.speedConstant
          p.targetAcceptanceRate (fun k => (fb k).getD 0) (min i p.burnIn.toNat)) := by
  obtain ⟨s, h1, h2, h3⟩ := c36_adaptive p {} its hε
  refine ⟨s, h1, fun fb i => ?_⟩
  have hs := Except.ok.inj h1
  have key : ∀ i : Nat, (i : Int) ≤ p.burnIn →
      (adaptiveStepSize p).get (ParamAfter (adaptiveStepSize p) s fb i) i
        = Real.exp (dualAverage p.initialStepSize p.stabilizationConstant p.decayConstant p.speedConstant
          p.targetAcceptanceRate (fun k => (fb k).getD 0) i) := by
    intro i hi
    show Real.exp _ = _
    rw [adaptive_log p s p.initialStepSize (by rw [← hs]) (by rw [← hs]; exact ht) (by rw [← hs]; rfl)
      (by rw [← hs]; rfl) fb i (by rw [← hs]; exact hi)]
    rw [← hs]
    rfl
  rcases Nat.le_total i p.burnIn.toNat with h | h
  · rw [Nat.min_eq_left h]
    rcases Nat.eq_zero_or_pos i with rfl | hpos
    · show (adaptiveStepSize p).get s 0 = _
      rw [h2]
      exact (Real.exp_log hε).symm
    · exact key i (by omega)
  · rw [Nat.min_eq_right h]
    have hb : p.burnIn ≤ ((p.burnIn.toNat : Nat) : Int) := Int.self_le_toNat _
    rw [(h3 fb).2 p.burnIn.toNat i hb h]
    by_cases h0 : 0 ≤ p.burnIn
    · exact key _ (by rw [Int.toNat_of_nonneg h0])
    · have : p.burnIn.toNat = 0 := by omega
      rw [this]
      show (adaptiveStepSize p).get s 0 = _
      rw [h2]
      exact (Real.exp_log hε).symm

theorem weight_mem {κ : ℝ} (hκ : 0 ≤ κ) (m : ℕ) :
    0 ≤ ((m + 1 : ℕ) : ℝ) ^ (-κ) ∧ ((m + 1 : ℕ) : ℝ) ^ (-κ) ≤ 1 := by
  have h1 : (1 : ℝ) ≤ ((m + 1 : ℕ) : ℝ) := by
    push_cast
    have : (0 : ℝ) ≤ m := Nat.cast_nonneg m
    linarith
  refine ⟨Real.rpow_nonneg (by linarith) _, ?_⟩
  exact Real.rpow_le_one_of_one_le_of_nonpos h1 (by linarith)

theorem averageError_antitone {t₀ target : ℝ} (ht : 0 ≤ t₀) {α α' : ℕ → ℝ} (m : ℕ)
    (h : ∀ i < m, α i ≤ α' i) : averageError t₀ target α' m ≤ averageError t₀ target α m := by
  unfold averageError
  apply div_le_div_of_nonneg_right _ (by positivity)
  apply Finset.sum_le_sum
  intro i hi
  have := h i (Finset.mem_range.1 hi)
  linarith

theorem dualAverage_mono {ε₀ t₀ κ γ target : ℝ} (ht : 0 ≤ t₀) (hκ : 0 ≤ κ) (hγ : 0 ≤ γ) {α α' : ℕ → ℝ}
    (m : ℕ) (h : ∀ i < m, α i ≤ α' i) :
    dualAverage ε₀ t₀ κ γ target α m ≤ dualAverage ε₀ t₀ κ γ target α' m := by
  induction m with
  | zero => exact le_refl _
  | succ m ih =>
    obtain ⟨w1, w2⟩ := weight_mem hκ m
    have hi := ih fun i hi => h i (by omega)
    have he := averageError_antitone (target := target) ht (m + 1) h
    unfold dualAverage
    apply add_le_add
    · exact mul_le_mul_of_nonneg_left hi (by linarith)
    · apply mul_le_mul_of_nonneg_left _ w1
      have : 0 ≤ Real.sqrt ((m + 1 : ℕ) : ℝ) / γ := div_nonneg (Real.sqrt_nonneg _) hγ
      have := mul_le_mul_of_nonneg_left he this
      linarith

/-- **C103** (direction).  The step size reacts in the right direction: if the acceptance ratios of one chain
are at least those of another one, its step sizes are at least as large, in every iteration. -/
theorem c103_monotone (p : AdaptiveParams) (its : Nat) (hε : 0 < p.initialStepSize)
    (ht : 0 ≤ p.stabilizationConstant) (hκ : 0 ≤ p.decayConstant) (hγ : 0 ≤ p.speedConstant) :
    ∃ s, (adaptiveStepSize p).init its {} = .ok s ∧ ∀ (α α' : Nat → ℝ) (i : Nat), (∀ k < i, α k ≤ α' k) →
      (adaptiveStepSize p).get (ParamAfter (adaptiveStepSize p) s (fun k => some (α k)) i) i
        ≤ (adaptiveStepSize p).get (ParamAfter (adaptiveStepSize p) s (fun k => some (α' k)) i) i := by
  obtain ⟨s, h1, h2⟩ := c103_dual_averaging p its hε ht
  refine ⟨s, h1, fun α α' i h => ?_⟩
  rw [h2, h2, Real.exp_le_exp]
  apply dualAverage_mono ht hκ hγ
  intro k hk
  exact h k (by omega)

/-- **C103** (too large step sizes are reduced).  As long as no acceptance ratio exceeds the target, the step
size never exceeds ten times the initial one; if no ratio falls below the target, it never falls below the
initial one. -/
theorem c103_bounds (p : AdaptiveParams) (its : Nat) (hε : 0 < p.initialStepSize)
    (ht : 0 ≤ p.stabilizationConstant) (hκ : 0 ≤ p.decayConstant) (hγ : 0 ≤ p.speedConstant) :
    ∃ s, (adaptiveStepSize p).init its {} = .ok s ∧ ∀ (α : Nat → ℝ) (i : Nat),
      ((∀ k < i, α k ≤ p.targetAcceptanceRate) →
        (adaptiveStepSize p).get (ParamAfter (adaptiveStepSize p) s (fun k => some (α k)) i) i
          ≤ 10 * p.initialStepSize) ∧
      ((∀ k < i, p.targetAcceptanceRate ≤ α k) → p.initialStepSize ≤
        (adaptiveStepSize p).get (ParamAfter (adaptiveStepSize p) s (fun k => some (α k)) i) i) := by
  obtain ⟨s, h1, h2⟩ := c103_dual_averaging p its hε ht
  refine ⟨s, h1, fun α i => ?_⟩
  set ε₀ := p.initialStepSize
  have hlog : Real.log ε₀ ≤ Real.log (10 * ε₀) := Real.log_le_log hε (by linarith)
  have hconst : ∀ m, averageError p.stabilizationConstant p.targetAcceptanceRate
      (fun _ => p.targetAcceptanceRate) m = 0 := by
    intro m; simp [averageError]
  have hflat : ∀ m, Real.log ε₀ ≤ dualAverage ε₀ p.stabilizationConstant p.decayConstant p.speedConstant
      p.targetAcceptanceRate (fun _ => p.targetAcceptanceRate) m ∧
      dualAverage ε₀ p.stabilizationConstant p.decayConstant p.speedConstant
      p.targetAcceptanceRate (fun _ => p.targetAcceptanceRate) m ≤ Real.log (10 * ε₀) := by
    intro m
    induction m with
    | zero => exact ⟨le_refl _, hlog⟩
    | succ m ih =>
      obtain ⟨w1, w2⟩ := weight_mem hκ m
      obtain ⟨i1, i2⟩ := ih
      unfold dualAverage
      rw [hconst, mul_zero, sub_zero]
      set w := ((m + 1 : ℕ) : ℝ) ^ (-p.decayConstant)
      constructor <;> nlinarith
  rw [h2]
  constructor
  · intro h
    rw [← Real.exp_log (show (0 : ℝ) < 10 * ε₀ by linarith), Real.exp_le_exp]
    refine le_trans (dualAverage_mono ht hκ hγ _ ?_) (hflat _).2
    intro k hk
    exact h k (by omega)
  · intro h
    rw [← Real.exp_log hε, Real.exp_le_exp, Real.exp_log hε]
    refine le_trans (hflat _).1 (dualAverage_mono ht hκ hγ _ ?_)
    intro k hk
    exact h k (by omega)

/-- The hypotheses are met by the default parameters. -/
example : (0 : ℝ) < ({} : AdaptiveParams).initialStepSize ∧ 0 ≤ ({} : AdaptiveParams).stabilizationConstant ∧
    0 ≤ ({} : AdaptiveParams).decayConstant ∧ 0 ≤ ({} : AdaptiveParams).speedConstant := by norm_num

end JaxSgmc
