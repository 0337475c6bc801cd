import Verif.Model.Solver
import Verif.Spec.Solver

/-! # Lemmas about the solvers -/

namespace JaxSgmc

variable {ι κ δ μ φ Ms : Type}

theorem XF.lt_logOf_fin {u a : ℝ} (hu : 0 ≤ u) : XF.Lt (XF.logOf u) (.fin a) ↔ u < Real.exp a := by
  unfold XF.logOf
  by_cases h : 0 < u
  · simp only [h, if_true, XF.Lt]
    exact Real.log_lt_iff_lt_exp h
  · have h0 : u = 0 := le_antisymm (not_lt.mp h) hu
    subst h0
    simp [XF.Lt, Real.exp_pos]

theorem XF.not_lt_nan (a : XF) : ¬ XF.Lt a .nan := by cases a <;> simp [XF.Lt]

theorem XF.not_lt_ninf (a : XF) : ¬ XF.Lt a .ninf := by cases a <;> simp [XF.Lt]

theorem amagoldLogAlpha_fin (a b c : ℝ) :
    amagoldLogAlpha (.fin a) (.fin b) (.fin c) = .fin (min 0 (a - b + c)) := by
  have e : XF.add (XF.sub (.fin a) (.fin b)) (.fin c) = .fin (a - b + c) := by
    simp only [XF.sub, XF.neg, XF.add]; ring_nf
  unfold amagoldLogAlpha
  rw [e]
  dsimp only
  split
  · next h => rw [min_eq_left (le_of_lt (show (0 : ℝ) < a - b + c from h))]
  · next h => rw [min_eq_right (not_lt.mp (show ¬ (0 : ℝ) < a - b + c from h))]

/-- A proposal with an infinite or undefined potential is rejected. -/
theorem amagoldLogAlpha_out (x : XF) (a c : ℝ) {v : XF} (h : v = .pinf ∨ v = .nan) :
    ¬ XF.Lt x (amagoldLogAlpha (.fin a) v (.fin c)) := by
  rcases h with rfl | rfl
  · have : amagoldLogAlpha (.fin a) .pinf (.fin c) = .ninf := by
      unfold amagoldLogAlpha
      exact if_neg (XF.not_lt_ninf _)
    rw [this]
    exact XF.not_lt_ninf x
  · have : amagoldLogAlpha (.fin a) .nan (.fin c) = .nan := by
      unfold amagoldLogAlpha
      exact if_neg (by simp [XF.sub, XF.neg, XF.add, XF.Lt])
    rw [this]
    cases x <;> simp [XF.Lt]

theorem sggmcLogAlpha_fin {t : ℝ} (ht : t ≠ 0) (a b c d : ℝ) :
    sggmcLogAlpha t (.fin a) (.fin b) (.fin c) (.fin d) = .fin (min 0 (-(b - a + d - c) / t)) := by
  have e : XF.mul (XF.div (.fin (-1)) (.fin t))
      (XF.sub (XF.add (XF.sub (.fin b) (.fin a)) (.fin d)) (.fin c)) =
        .fin (-(b - a + d - c) / t) := by
    simp only [XF.sub, XF.neg, XF.add, XF.div, if_neg ht, XF.mul]; ring_nf
  unfold sggmcLogAlpha
  rw [e]
  dsimp only
  split
  · next h => rw [min_eq_right (show -(b - a + d - c) / t ≤ 0 from h)]
  · next h => rw [min_eq_left (le_of_lt (not_le.mp (show ¬ -(b - a + d - c) / t ≤ 0 from h)))]

theorem exp_min_zero (x : ℝ) : Real.exp (min 0 (-x)) = Spec.acceptProb x := by
  unfold Spec.acceptProb
  rw [← Real.exp_zero, ← Real.exp_monotone.map_min]

/-- The acceptance ratio reported by AMAGOLD without mass adaption. -/
theorem amagold_ratio (P : Prng κ)
    (integ : LeapfrogState ι XF κ δ μ → Params → Option (MassMatrix ι) → LeapfrogState ι XF κ δ μ)
    (fullPot : FullPotFn ι φ μ) (s : AmagoldState ι κ δ μ φ Ms) (p : Params) (U U' ρ : ℝ)
    (h0 : s.potential = .fin U)
    (h1 : (fullPot (integ s.integratorState p none).positions s.fullDataState
      (integ s.integratorState p none).modelState).1 = .fin U' ∧
      (integ s.integratorState p none).potential = .fin ρ) :
    (amagoldUpdate P none integ fullPot s p).2 = .fin (Spec.acceptProb (U' - U - ρ)) := by
  show XF.exp (amagoldLogAlpha _ _ _) = _
  rw [h0]
  show XF.exp (amagoldLogAlpha _ (fullPot (integ s.integratorState p none).positions s.fullDataState
      (integ s.integratorState p none).modelState).1 (integ s.integratorState p none).potential) = _
  rw [h1.1, h1.2, amagoldLogAlpha_fin, XF.exp, ← exp_min_zero]
  congr 3; ring

/-- The acceptance ratio reported by SGGMC without mass adaption. -/
theorem sggmc_ratio (P : Prng κ)
    (integ : ObaboState ι XF κ δ μ → Params → Option (MassMatrix ι) → ObaboState ι XF κ δ μ)
    (fullPot : FullPotFn ι φ μ) (s : SggmcState ι κ δ μ φ Ms) (p : Params) (U U' K K' : ℝ)
    (hT : p.temperature ≠ 0) (h0 : s.potential = .fin U)
    (h1 : (fullPot (integ s.integratorState p none).positions s.fullDataState
      (integ s.integratorState p none).modelState).1 = .fin U' ∧
      (integ s.integratorState p none).kineticStart = .fin K ∧
      (integ s.integratorState p none).kineticEnd = .fin K') :
    (sggmcUpdate P none integ fullPot s p).2 =
      .fin (Spec.acceptProb ((U' - U + K' - K) / p.temperature)) := by
  show XF.exp (sggmcLogAlpha p.temperature _ _ _ _) = _
  rw [h0]
  show XF.exp (sggmcLogAlpha p.temperature _ (fullPot (integ s.integratorState p none).positions
      s.fullDataState (integ s.integratorState p none).modelState).1
      (integ s.integratorState p none).kineticStart (integ s.integratorState p none).kineticEnd) = _
  rw [h1.1, h1.2.1, h1.2.2, sggmcLogAlpha_fin hT, XF.exp, ← exp_min_zero]
  congr 3; ring

theorem Spec.acceptProb_pos (x : ℝ) : 0 < Spec.acceptProb x := lt_min one_pos (Real.exp_pos _)

theorem Spec.acceptProb_le (x : ℝ) : Spec.acceptProb x ≤ 1 := min_le_left _ _

end JaxSgmc
