import Verif.Spec.AdaptiveX
import Verif.Props.Scheduler

/-!
# C132: an undefined proposal and the adaptive step size
-/

namespace JaxSgmc

open Spec

/-- **C132** (full statement).  A proposal with undefined potential is rejected and nothing else: whatever acceptance
ratios are reported by `amagold`, the step sizes of `adaptive_step_size` are positive numbers. -/
def C132Statement : Prop :=
  ∀ (p : AdaptiveParams) (ratios : Nat → XF), 0 < p.initialStepSize → 0 ≤ p.stabilizationConstant →
    0 < p.speedConstant → (∀ k, AmagoldReports (ratios k)) → ∀ i, IsPositive (adaptiveGetX (adaptiveAfterX p ratios i))

theorem XF.mul_nan (a : XF) : XF.mul a .nan = .nan := by cases a <;> rfl

theorem XF.nan_mul (a : XF) : XF.mul .nan a = .nan := by cases a <;> rfl

theorem XF.add_nan (a : XF) : XF.add a .nan = .nan := by cases a <;> rfl

theorem XF.nan_add (a : XF) : XF.add .nan a = .nan := by cases a <;> rfl

theorem adaptiveX_burnIn (p : AdaptiveParams) (ratios : Nat → XF) (i : Nat) :
    (adaptiveAfterX p ratios i).burnIn = p.burnIn := by
  induction i with
  | zero => rfl
  | succ i ih => exact ih

/-- A step size which is not a number stays so. -/
theorem adaptive_nan_step (p : AdaptiveParams) (s : AdaptiveStateX) (i : Nat) (r : XF) (h : s.xBar = .nan) :
    (adaptiveUpdateX p s i r).xBar = .nan := by
  unfold adaptiveUpdateX
  dsimp only
  split
  · rw [h, XF.nan_mul, XF.nan_add]
  · exact h

/-- C132 is false: one undefined proposal during the burn in, and all later step sizes of the run are not a
number. -/
theorem c132_false_nan (p : AdaptiveParams) (ratios : Nat → XF) (k : Nat) (hk : (k : Int) < p.burnIn)
    (hr : ratios k = .nan) (i : Nat) (hi : k < i) : adaptiveGetX (adaptiveAfterX p ratios i) = .nan := by
  have h : ∀ d, (adaptiveAfterX p ratios (k + 1 + d)).xBar = .nan := by
    intro d
    induction d with
    | zero =>
      show (adaptiveUpdateX p (adaptiveAfterX p ratios k) k (ratios k)).xBar = .nan
      unfold adaptiveUpdateX
      dsimp only
      rw [if_pos (by rw [adaptiveX_burnIn]; exact hk), hr]
      have e : ∀ a, XF.sub a .nan = .nan := fun a => XF.add_nan a
      rw [e, XF.mul_nan, XF.add_nan, XF.mul_nan, e, XF.mul_nan, XF.add_nan]
    | succ d ih => exact adaptive_nan_step p _ _ _ ih
  obtain ⟨d, rfl⟩ := Nat.exists_eq_add_of_le hi
  unfold adaptiveGetX
  rw [show k.succ + d = k + 1 + d from rfl, h]
  rfl

/-- `amagold` reports an acceptance ratio which is not a number if the potential of the proposal is not a number. -/
theorem c132_false_reported {ι κ δ μ φ Ms : Type} (P : Prng κ) (ma : Option (MassAdaption ι Ms))
    (integ : LeapfrogState ι XF κ δ μ → Params → Option (MassMatrix ι) → LeapfrogState ι XF κ δ μ)
    (fullPot : FullPotFn ι φ μ) (s : AmagoldState ι κ δ μ φ Ms) (prm : Params)
    (h : let q := integ s.integratorState prm (currentMass ma s.massState)
      (fullPot q.positions s.fullDataState q.modelState).1 = .nan) :
    (amagoldUpdate P ma integ fullPot s prm).2 = .nan := by
  show XF.exp (amagoldLogAlpha _ _ _) = .nan
  dsimp only at h
  rw [h]
  unfold amagoldLogAlpha
  dsimp only
  have e : XF.sub s.potential .nan = .nan := XF.add_nan _
  rw [e, XF.nan_add, if_neg (by simp [XF.Lt])]
  rfl

theorem c132_false : ¬ C132Statement := by
  intro h
  have hr : AmagoldReports .nan := by
    refine ⟨⟨fun k _ i => i :: k, fun _ _ _ => 0, fun _ => 0⟩, fun _ _ _ => ((0, ()), fun _ => 0),
      fun _ f m => (.nan, (f, m)),
      ⟨⟨.fin 0, [], fun _ => 0, fun _ => 0, (), (), []⟩, .fin 0, (), [], (.fin 0, 0), none, []⟩, ⟨1, 1⟩, ⟨0, rfl⟩,
      one_pos, ?_⟩
    exact (c132_false_reported _ _ _ _ _ _ rfl).symm
  have h1 := h { burnIn := 1 } (fun _ => .nan) (by norm_num) (by norm_num) (by norm_num) (fun _ => hr) 1
  rw [c132_false_nan { burnIn := 1 } (fun _ => .nan) 0 (by norm_num) rfl 1 one_pos] at h1
  obtain ⟨x, -, hx⟩ := h1
  exact absurd hx (by simp)

/-- What holds of C132: as long as all acceptance ratios are finite, the step sizes are those of the real arithmetic
(C36, C95, C103), in particular positive (missing: undefined proposals). -/
theorem c132_finite_partial (p : AdaptiveParams) (ratio : Nat → ℝ) (hi : 0 < p.initialStepSize)
    (ht : 0 ≤ p.stabilizationConstant) (hs : p.speedConstant ≠ 0) :
    ∃ s, (adaptiveStepSize p).init 0 {} = .ok s ∧ ∀ i,
      adaptiveGetX (adaptiveAfterX p (fun k => .fin (ratio k)) i) =
        .fin ((adaptiveStepSize p).get (ParamAfter (adaptiveStepSize p) s (fun k => some (ratio k)) i) i) ∧
      IsPositive (adaptiveGetX (adaptiveAfterX p (fun k => .fin (ratio k)) i)) := by
  refine ⟨_, rfl, fun i => ?_⟩
  set s₀ : AdaptiveState := ⟨p.burnIn, Real.log p.initialStepSize, 0, p.targetAcceptanceRate,
    p.stabilizationConstant, p.decayConstant, p.speedConstant, Real.log (10 * p.initialStepSize)⟩ with hs₀
  have hsim : ∀ i, let s := ParamAfter (adaptiveStepSize p) s₀ (fun k => some (ratio k)) i
      adaptiveAfterX p (fun k => .fin (ratio k)) i =
        ⟨p.burnIn, .fin s.xBar, .fin s.hBar, p.stabilizationConstant, p.decayConstant, p.speedConstant,
          .fin s.mu⟩ ∧ s.burnIn = p.burnIn ∧ s.t0 = p.stabilizationConstant ∧ s.kappa = p.decayConstant ∧
        s.gamma = p.speedConstant ∧ s.mu = s₀.mu := by
    intro i
    induction i with
    | zero =>
      refine ⟨?_, rfl, rfl, rfl, rfl, rfl⟩
      show adaptiveInitX p = _
      unfold adaptiveInitX XF.logOf
      rw [if_pos hi, if_pos (by positivity)]
      rfl
    | succ i ih =>
      obtain ⟨e, b1, b2, b3, b4, b5⟩ := ih
      set s := ParamAfter (adaptiveStepSize p) s₀ (fun k => some (ratio k)) i with hsd
      have hst : ParamAfter (adaptiveStepSize p) s₀ (fun k => some (ratio k)) (i + 1) =
          (adaptiveStepSize p).update s i (some (ratio i)) := rfl
      dsimp only
      rw [hst]
      refine ⟨?_, b1, b2, b3, b4, b5⟩
      show adaptiveUpdateX p (adaptiveAfterX p (fun k => .fin (ratio k)) i) i (.fin (ratio i)) = _
      rw [e]
      unfold adaptiveUpdateX adaptiveStepSize
      dsimp only
      have hm : (0 : ℝ) < i + 1 := by positivity
      have hmt : (i : ℝ) + 1 + p.stabilizationConstant ≠ 0 := by positivity
      have e1 : XF.div (.fin 1) (.fin ((i : ℝ) + 1 + p.stabilizationConstant)) =
          .fin (1 / ((i : ℝ) + 1 + p.stabilizationConstant)) := if_neg hmt
      have e2 : XF.div (.fin (Real.sqrt ((i : ℝ) + 1))) (.fin p.speedConstant) =
          .fin (Real.sqrt ((i : ℝ) + 1) / p.speedConstant) := if_neg hs
      have e3 : XF.pow (.fin ((i : ℝ) + 1)) (-p.decayConstant) = .fin (((i : ℝ) + 1) ^ (-p.decayConstant)) := if_pos hm
      rw [e1, e2, e3, b1, b2, b3, b4]
      simp only [XF.sub, XF.neg, XF.add, XF.mul, Option.getD_some, ← sub_eq_add_neg]
      split
      · rfl
      · rfl
  have h := (hsim i).1
  have e : adaptiveGetX (adaptiveAfterX p (fun k => .fin (ratio k)) i) =
      .fin ((adaptiveStepSize p).get (ParamAfter (adaptiveStepSize p) s₀ (fun k => some (ratio k)) i) i) := by
    rw [h]
    rfl
  exact ⟨e, _, Real.exp_pos _, e⟩

/-- The default parameters meet the hypotheses. -/
example : (0 : ℝ) < ({} : AdaptiveParams).initialStepSize ∧ 0 ≤ ({} : AdaptiveParams).stabilizationConstant ∧
    ({} : AdaptiveParams).speedConstant ≠ 0 := by norm_num

end JaxSgmc
