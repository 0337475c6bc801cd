import Verif.Spec.Swap
import Verif.Props.Solver
import Mathlib.Algebra.BigOperators.Group.Finset.Piecewise

/-!
# Invariance of the swaps of parallel tempering (C121)
-/

namespace JaxSgmc

open Spec MeasureTheory

/-- **C121**, full statement: if the potentials are exact, the swaps of `parallel_tempering` leave the
joint distribution of the two tempered chains invariant. -/
def C121Statement : Prop :=
  ∀ (ι : Type) (U : (ι → ℝ) → ℝ) (t₁ t₂ : ℝ), 0 < t₁ → t₁ < t₂ → ∀ (S : Finset (ι → ℝ)),
    ∀ x ∈ S, ∀ y ∈ S, weightsAfter S (tempered U t₁ t₂) (restUpdate U t₁ t₂) x y = tempered U t₁ t₂ x y

theorem volume_lt (a : ℝ) (ha : 0 ≤ a) :
    (volume {u : ℝ | (0 ≤ u ∧ u < 1) ∧ u < a}).toReal = min 1 a := by
  have : {u : ℝ | (0 ≤ u ∧ u < 1) ∧ u < a} = Set.Ico 0 (min 1 a) := by
    ext u
    simp only [Set.mem_setOf_eq, Set.mem_Ico, lt_min_iff]
    tauto
  rw [this, Real.volume_Ico, sub_zero, ENNReal.toReal_ofReal (le_min zero_le_one ha)]

theorem volume_ge (a : ℝ) (ha : 0 ≤ a) :
    (volume {u : ℝ | (0 ≤ u ∧ u < 1) ∧ ¬ u < a}).toReal = 1 - min 1 a := by
  have : {u : ℝ | (0 ≤ u ∧ u < 1) ∧ ¬ u < a} = Set.Ico (min 1 a) 1 := by
    ext u
    simp only [Set.mem_setOf_eq, Set.mem_Ico, min_le_iff, not_lt]
    constructor
    · rintro ⟨⟨-, h⟩, h'⟩; exact ⟨Or.inr h', h⟩
    · rintro ⟨h1 | h1, h2⟩
      · exact absurd h2 (not_lt.2 h1)
      · exact ⟨⟨ha.trans h1, h2⟩, h1⟩
  rw [this, Real.volume_Ico, ENNReal.toReal_ofReal (sub_nonneg.2 (min_le_left 1 a))]

theorem volume_unit : (volume {u : ℝ | 0 ≤ u ∧ u < 1}).toReal = 1 := by
  have : {u : ℝ | 0 ≤ u ∧ u < 1} = Set.Ico 0 1 := rfl
  rw [this, Real.volume_Ico]
  simp

/-- The weights after a step which exchanges the pair or not: only the pair itself and the exchanged
pair contribute. -/
theorem weightsAfter_two {X : Type} (S : Finset X) (w : X → X → ℝ) (step : X → X → ℝ → X × X)
    (hstep : ∀ x y u, step x y u = (x, y) ∨ step x y u = (y, x)) (x' y' : X) (hx : x' ∈ S) (hy : y' ∈ S)
    (hne : x' ≠ y') :
    weightsAfter S w step x' y' =
      w x' y' * (volume {u : ℝ | (0 ≤ u ∧ u < 1) ∧ step x' y' u = (x', y')}).toReal +
      w y' x' * (volume {u : ℝ | (0 ≤ u ∧ u < 1) ∧ step y' x' u = (x', y')}).toReal := by
  classical
  unfold weightsAfter
  have h0 : ∀ x y, ¬ (x = x' ∧ y = y') → ¬ (x = y' ∧ y = x') →
      w x y * (volume {u : ℝ | (0 ≤ u ∧ u < 1) ∧ step x y u = (x', y')}).toReal = 0 := by
    intro x y h1 h2
    have : {u : ℝ | (0 ≤ u ∧ u < 1) ∧ step x y u = (x', y')} = ∅ := by
      ext u
      simp only [Set.mem_setOf_eq, Set.mem_empty_iff_false, iff_false, not_and]
      intro _ h
      rcases hstep x y u with h3 | h3
      · rw [h3, Prod.mk.injEq] at h; exact h1 h
      · rw [h3, Prod.mk.injEq] at h; exact h2 ⟨h.2, h.1⟩
    rw [this]
    simp
  have hsub : ({x', y'} : Finset X) ⊆ S := by
    intro z hz
    simp only [Finset.mem_insert, Finset.mem_singleton] at hz
    rcases hz with rfl | rfl
    · exact hx
    · exact hy
  rw [← Finset.sum_subset hsub]
  · rw [Finset.sum_pair hne]
    congr 1
    · refine Finset.sum_eq_single y' (fun y _ h => h0 _ _ (fun e => h e.2) (fun e => hne e.1)) ?_
      exact fun h => absurd hy h
    · refine Finset.sum_eq_single x' (fun y _ h => h0 _ _ (fun e => hne e.1.symm) (fun e => h e.2)) ?_
      exact fun h => absurd hx h
  · intro x _ hn
    simp only [Finset.mem_insert, Finset.mem_singleton, not_or] at hn
    exact Finset.sum_eq_zero fun y _ => h0 _ _ (fun e => hn.1 e.1) (fun e => hn.2 e.1)

theorem weightsAfter_diag {X : Type} (S : Finset X) (w : X → X → ℝ) (step : X → X → ℝ → X × X)
    (hstep : ∀ x y u, step x y u = (x, y) ∨ step x y u = (y, x)) (x' : X) (hx : x' ∈ S) :
    weightsAfter S w step x' x' = w x' x' := by
  classical
  unfold weightsAfter
  have h0 : ∀ x y, ¬ (x = x' ∧ y = x') →
      w x y * (volume {u : ℝ | (0 ≤ u ∧ u < 1) ∧ step x y u = (x', x')}).toReal = 0 := by
    intro x y h1
    have : {u : ℝ | (0 ≤ u ∧ u < 1) ∧ step x y u = (x', x')} = ∅ := by
      ext u
      simp only [Set.mem_setOf_eq, Set.mem_empty_iff_false, iff_false, not_and]
      intro _ h
      rcases hstep x y u with h3 | h3
      · rw [h3, Prod.mk.injEq] at h; exact h1 h
      · rw [h3, Prod.mk.injEq] at h; exact h1 ⟨h.2, h.1⟩
    rw [this]
    simp
  rw [Finset.sum_eq_single x' (fun x _ h => Finset.sum_eq_zero fun y _ => h0 _ _ fun e => h e.1)
    (fun h => absurd hx h),
    Finset.sum_eq_single x' (fun y _ h => h0 _ _ fun e => h e.2) (fun h => absurd hx h)]
  have : {u : ℝ | (0 ≤ u ∧ u < 1) ∧ step x' x' u = (x', x')} = {u : ℝ | 0 ≤ u ∧ u < 1} := by
    ext u
    have : step x' x' u = (x', x') := by rcases hstep x' x' u with h | h <;> exact h
    simp [this]
  rw [this, volume_unit, mul_one]

/-- The ratio of the weights of the exchanged pair and the pair. -/
theorem tempered_ratio {X : Type} (U : X → ℝ) (t₁ t₂ : ℝ) (x y : X) :
    tempered U t₁ t₂ x y * Real.exp ((1 / t₁ - 1 / t₂) * (U x - U y)) = tempered U t₁ t₂ y x := by
  unfold tempered
  rw [← Real.exp_add, ← Real.exp_add, ← Real.exp_add]
  congr 1
  ring

theorem tempered_pos {X : Type} (U : X → ℝ) (t₁ t₂ : ℝ) (x y : X) : 0 < tempered U t₁ t₂ x y :=
  mul_pos (Real.exp_pos _) (Real.exp_pos _)

theorem tempered_min {X : Type} (U : X → ℝ) (t₁ t₂ : ℝ) (x y : X) :
    tempered U t₁ t₂ x y * min 1 (Real.exp ((1 / t₁ - 1 / t₂) * (U x - U y))) =
      min (tempered U t₁ t₂ x y) (tempered U t₁ t₂ y x) := by
  rw [mul_min_of_nonneg _ _ (tempered_pos U t₁ t₂ x y).le, mul_one, tempered_ratio]

/-- The swap of replica exchange Monte Carlo leaves the joint distribution invariant: the full statement
is what the method guarantees. -/
theorem c121_exact {X : Type} (U : X → ℝ) (t₁ t₂ : ℝ) (S : Finset X) (x y : X) (hx : x ∈ S) (hy : y ∈ S) :
    weightsAfter S (tempered U t₁ t₂) (exactSwap U t₁ t₂) x y = tempered U t₁ t₂ x y := by
  have hstep : ∀ x y u, exactSwap U t₁ t₂ x y u = (x, y) ∨ exactSwap U t₁ t₂ x y u = (y, x) := by
    intro x y u
    unfold exactSwap
    split
    · exact Or.inr rfl
    · exact Or.inl rfl
  by_cases hne : x = y
  · subst hne
    exact weightsAfter_diag S _ _ hstep x hx
  · rw [weightsAfter_two S _ _ hstep x y hx hy hne]
    have h1 : {u : ℝ | (0 ≤ u ∧ u < 1) ∧ exactSwap U t₁ t₂ x y u = (x, y)} =
        {u : ℝ | (0 ≤ u ∧ u < 1) ∧ ¬ u < Real.exp ((1 / t₁ - 1 / t₂) * (U x - U y))} := by
      ext u
      simp only [Set.mem_setOf_eq, exactSwap]
      refine and_congr_right fun _ => ?_
      split
      · next h => simp only [h, not_true_eq_false, iff_false, Prod.mk.injEq]; exact fun e => hne e.2
      · next h => simp only [true_iff]; exact h
    have h2 : {u : ℝ | (0 ≤ u ∧ u < 1) ∧ exactSwap U t₁ t₂ y x u = (x, y)} =
        {u : ℝ | (0 ≤ u ∧ u < 1) ∧ u < Real.exp ((1 / t₁ - 1 / t₂) * (U y - U x))} := by
      ext u
      simp only [Set.mem_setOf_eq, exactSwap]
      refine and_congr_right fun _ => ?_
      split
      · next h => simp only [h]
      · next h => simp only [h, iff_false, Prod.mk.injEq]; exact fun e => hne e.2
    rw [h1, h2, volume_ge _ (Real.exp_pos _).le, volume_lt _ (Real.exp_pos _).le, mul_sub, mul_one,
      tempered_min, tempered_min, min_comm]
    ring

/-- One update of `parallel_tempering` with resting chains and exact potentials. -/
theorem restUpdate_eq {ι : Type} (U : (ι → ℝ) → ℝ) (t₁ t₂ : ℝ) (x y : ι → ℝ) (u : ℝ) (hu : 0 ≤ u) :
    restUpdate U t₁ t₂ x y u = (exactSwap U t₁ t₂ x y u).swap := by
  let chain (x : ι → ℝ) : LangevinState ι Unit Unit Unit Unit := ⟨x, (), (), none, (), U x, 0, []⟩
  have h := c62_inverted_partial (A := Unit) ⟨fun _ _ _ => (), fun _ _ _ => 0, fun _ => u⟩
    (fun n => 1 / (n : ℝ)) (fun s _ => s) ⟨chain x, chain y, 0, 1, 0, (), []⟩ ⟨1, t₁⟩ ⟨1, t₂⟩ hu
  dsimp only at h
  obtain ⟨h0, h1, h2⟩ := h
  have hlog : reSgldLogSwapRate t₁ t₂ (chain x).potential (chain y).potential
      (ptUpdate ⟨fun _ _ _ => (), fun _ _ _ => 0, fun _ => u⟩ (fun n => 1 / (n : ℝ)) (fun s _ => s)
        ⟨chain x, chain y, 0, 1, 0, (), []⟩ ⟨1, t₁⟩ ⟨1, t₂⟩).ssq 1
      = (1 / t₁ - 1 / t₂) * (U x - U y) := by
    rw [h0]
    simp [reSgldLogSwapRate, chain]
  rw [hlog] at h1 h2
  unfold restUpdate exactSwap
  by_cases hlt : u < Real.exp ((1 / t₁ - 1 / t₂) * (U x - U y))
  · obtain ⟨a, b⟩ := h1 hlt
    rw [if_pos hlt]
    dsimp only [Prod.swap]
    rw [a, b]
  · obtain ⟨a, b⟩ := h2 (not_lt.1 hlt)
    rw [if_neg hlt]
    dsimp only [Prod.swap]
    rw [a, b]

/-- **C121** (partial).  What the code guarantees instead: if the pair of chains has the joint
distribution of the method, after the update the *exchanged* pair has it — the chain from which the
samples are taken has the distribution of the hot chain. -/
theorem c121_exchanged_partial {ι : Type} (U : (ι → ℝ) → ℝ) (t₁ t₂ : ℝ) (S : Finset (ι → ℝ))
    (x y : ι → ℝ) (hx : x ∈ S) (hy : y ∈ S) :
    weightsAfter S (tempered U t₁ t₂) (restUpdate U t₁ t₂) x y = tempered U t₁ t₂ y x := by
  rw [← c121_exact U t₁ t₂ S y x hy hx]
  unfold weightsAfter
  refine Finset.sum_congr rfl fun a _ => Finset.sum_congr rfl fun b _ => ?_
  have : {u : ℝ | (0 ≤ u ∧ u < 1) ∧ restUpdate U t₁ t₂ a b u = (x, y)} =
      {u : ℝ | (0 ≤ u ∧ u < 1) ∧ exactSwap U t₁ t₂ a b u = (y, x)} := by
    ext u
    simp only [Set.mem_setOf_eq]
    refine and_congr_right fun hu => ?_
    rw [restUpdate_eq U t₁ t₂ a b u hu.1]
    exact Prod.swap_eq_iff_eq_swap
  rw [this]

/-- The full statement is false: two positions with potentials 0 and 1. -/
theorem c121_false : ¬ C121Statement := by
  intro h
  have h1 := h Unit (fun x => x ()) 1 2 one_pos one_lt_two {fun _ => 0, fun _ => 1} (fun _ => 0) (by simp)
    (fun _ => 1) (by simp)
  rw [c121_exchanged_partial _ _ _ _ _ _ (by simp) (by simp)] at h1
  unfold tempered at h1
  rw [← Real.exp_add, ← Real.exp_add, Real.exp_eq_exp] at h1
  norm_num at h1

/-- **C121** (consequence).  With exact potentials and a hot chain of higher temperature, an update never
gives the sampled chain the position with the lower potential: it is left as it is or replaced by the
position with the higher potential. -/
theorem c121_never_improves {ι : Type} (U : (ι → ℝ) → ℝ) (t₁ t₂ : ℝ) (h1 : 0 < t₁) (h2 : t₁ < t₂)
    (x y : ι → ℝ) (u : ℝ) (hu : 0 ≤ u) (hu1 : u < 1) :
    U x ≤ U (restUpdate U t₁ t₂ x y u).1 := by
  rw [restUpdate_eq U t₁ t₂ x y u hu]
  unfold exactSwap
  split
  · exact le_rfl
  · next h =>
    dsimp only [Prod.swap]
    have hlt : Real.exp ((1 / t₁ - 1 / t₂) * (U x - U y)) < 1 := lt_of_le_of_lt (not_lt.1 h) hu1
    rw [Real.exp_lt_one_iff] at hlt
    have hpos : 0 < 1 / t₁ - 1 / t₂ := sub_pos.2 (one_div_lt_one_div_of_lt h1 h2)
    by_contra hc
    have : 0 ≤ (1 / t₁ - 1 / t₂) * (U x - U y) := mul_nonneg hpos.le (by linarith)
    linarith

/-- The swap takes place: potentials 0 and 1, temperatures 1 and 2, uniform number 0.9. -/
example : restUpdate (fun x : Unit → ℝ => x ()) 1 2 (fun _ => 0) (fun _ => 1) (9 / 10)
    = (fun _ => 1, fun _ => 0) := by
  rw [restUpdate_eq _ _ _ _ _ _ (by norm_num)]
  unfold exactSwap
  rw [if_neg]
  · rfl
  · rw [not_lt]
    have h : Real.exp (-(1 / 2)) ≤ 9 / 10 := by
      have := Real.add_one_le_exp (1 / 2 : ℝ)
      rw [Real.exp_neg]
      rw [inv_le_comm₀ (Real.exp_pos _) (by norm_num)]
      linarith [this]
    calc Real.exp ((1 / 1 - 1 / 2) * (0 - 1)) = Real.exp (-(1 / 2)) := by norm_num
      _ ≤ 9 / 10 := h

end JaxSgmc
