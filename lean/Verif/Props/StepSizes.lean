import Verif.Props.Scheduler
import Mathlib.Analysis.PSeries
import Mathlib.Topology.Algebra.InfiniteSum.Real

/-!
# C104: the polynomial step sizes satisfy the conditions of SGLD
-/

namespace JaxSgmc

open Filter

/-- The terms of the polynomial schedule as terms of a `p`-series. -/
theorem poly_series (b γ : ℝ) (hb : 0 < b) :
    (fun n : ℕ => (b + n) ^ (-γ)) = fun n : ℕ => 1 / |(n : ℝ) + b| ^ γ := by
  funext n
  have h : (0 : ℝ) < n + b := by positivity
  rw [abs_of_pos h, add_comm, Real.rpow_neg h.le, one_div]

theorem poly_summable (a b γ : ℝ) (ha : 0 < a) (hb : 0 < b) :
    Summable (fun n : ℕ => a * (b + n) ^ (-γ)) ↔ 1 < γ := by
  rw [summable_mul_left_iff ha.ne', poly_series b γ hb, Real.summable_one_div_nat_add_rpow]

theorem poly_sq (a b γ : ℝ) (hb : 0 < b) (n : ℕ) :
    (a * (b + n) ^ (-γ)) ^ 2 = a ^ 2 * (b + n) ^ (-(2 * γ)) := by
  have h : (0 : ℝ) ≤ b + n := by positivity
  rw [mul_pow, ← Real.rpow_natCast ((b + (n : ℝ)) ^ (-γ)) 2, ← Real.rpow_mul h]
  congr 2
  push_cast
  ring

theorem unbounded_sums {f : ℕ → ℝ} (h0 : ∀ n, 0 ≤ f n) (h : ¬ Summable f) (B : ℝ) :
    ∃ n, ∀ m, n ≤ m → B ≤ ∑ i ∈ Finset.range m, f i := by
  have := (not_summable_iff_tendsto_nat_atTop_of_nonneg h0).1 h
  obtain ⟨n, hn⟩ := (tendsto_atTop_atTop.1 this) B
  exact ⟨n, hn⟩

theorem bounded_sums {f : ℕ → ℝ} (h0 : ∀ n, 0 ≤ f n) (h : Summable f) :
    ∃ C, ∀ m, ∑ i ∈ Finset.range m, f i ≤ C :=
  ⟨∑' i, f i, fun m => h.sum_le_tsum _ fun i _ => h0 i⟩

/-- **C104.**  With `1/2 < gamma ≤ 1` the step sizes satisfy the conditions required for SGLD: the step size of
an iteration does not depend on the number of iterations of the run, the step sizes are positive, never increase
and tend to zero, their sum exceeds every bound, the sum of their squares stays below a bound. -/
theorem c104_conditions (a b gamma : ℝ) (ha : 0 < a) (hb : 0 < b) (h1 : 1 / 2 < gamma) (h2 : gamma ≤ 1) :
    ∃ step : ℕ → ℝ,
      (∀ its, ∃ s, (polynomialStepSize (.fin a) (.fin b) gamma).init its {} = .ok s ∧
        ∀ (fb : ℕ → Stats) (i : ℕ), i < its → (polynomialStepSize (.fin a) (.fin b) gamma).get
          (Spec.ParamAfter (polynomialStepSize (.fin a) (.fin b) gamma) s fb i) i = .fin (step i)) ∧
      (∀ i, 0 < step i) ∧ (∀ i j, i ≤ j → step j ≤ step i) ∧ Tendsto step atTop (nhds 0) ∧
      (∀ B, ∃ n, ∀ m, n ≤ m → B ≤ ∑ i ∈ Finset.range m, step i) ∧
      ∃ C, ∀ m, ∑ i ∈ Finset.range m, step i ^ 2 ≤ C := by
  refine ⟨fun n => a * (b + n) ^ (-gamma), ?_, fun i => poly_pos a b gamma ha hb i,
    fun i j hij => poly_anti a b gamma ha hb (by linarith) i j hij, ?_, ?_, ?_⟩
  · intro its
    obtain ⟨s, e1, e2⟩ := c34_polynomial a b gamma ha hb (by linarith) its
    exact ⟨s, e1, fun fb i hi => (e2 fb i hi).1⟩
  · have hg : 0 < gamma := by linarith
    have h := (tendsto_rpow_neg_atTop hg).comp
      (tendsto_atTop_add_const_left atTop b tendsto_natCast_atTop_atTop)
    have := h.const_mul a
    rw [mul_zero] at this
    exact this
  · refine unbounded_sums (fun n => (poly_pos a b gamma ha hb n).le) ?_
    rw [poly_summable a b gamma ha hb]
    exact not_lt.2 h2
  · refine bounded_sums (fun n => sq_nonneg _) ?_
    simp only [poly_sq a b gamma hb]
    exact (poly_summable (a ^ 2) b (2 * gamma) (by positivity) hb).2 (by linarith)

/-- **C104** (the conditions on `gamma` are needed).  For larger `gamma` the sum of all step sizes is bounded,
for smaller ones the sum of the squares is not. -/
theorem c104_sharp (a b gamma : ℝ) (ha : 0 < a) (hb : 0 < b) (hg : 0 ≤ gamma) :
    ∃ step : ℕ → ℝ,
      (∀ its, ∃ s, (polynomialStepSize (.fin a) (.fin b) gamma).init its {} = .ok s ∧
        ∀ (fb : ℕ → Stats) (i : ℕ), i < its → (polynomialStepSize (.fin a) (.fin b) gamma).get
          (Spec.ParamAfter (polynomialStepSize (.fin a) (.fin b) gamma) s fb i) i = .fin (step i)) ∧
      (1 < gamma → ∃ C, ∀ m, ∑ i ∈ Finset.range m, step i ≤ C) ∧
      (gamma ≤ 1 / 2 → ∀ B, ∃ n, ∀ m, n ≤ m → B ≤ ∑ i ∈ Finset.range m, step i ^ 2) := by
  refine ⟨fun n => a * (b + n) ^ (-gamma), ?_, ?_, ?_⟩
  · intro its
    obtain ⟨s, e1, e2⟩ := c34_polynomial a b gamma ha hb hg its
    exact ⟨s, e1, fun fb i hi => (e2 fb i hi).1⟩
  · intro h
    exact bounded_sums (fun n => (poly_pos a b gamma ha hb n).le) ((poly_summable a b gamma ha hb).2 h)
  · intro h
    refine unbounded_sums (fun n => sq_nonneg _) ?_
    simp only [poly_sq a b gamma hb]
    rw [poly_summable (a ^ 2) b (2 * gamma) (by positivity) hb]
    linarith

/-- `gamma = 0.55` is inside the range; the default `gamma = 0.33` (scheduler.py:449) is not. -/
example : ∃ step : ℕ → ℝ, ∃ C, ∀ m, ∑ i ∈ Finset.range m, step i ^ 2 ≤ C := by
  obtain ⟨step, -, -, -, -, -, h⟩ := c104_conditions 1 1 (11 / 20) one_pos one_pos (by norm_num) (by norm_num)
  exact ⟨step, h⟩

end JaxSgmc
