import Verif.Lemmas.Ergodic

/-!
# Averages along a Markov chain with changing transitions

The law of large numbers in the mean square for transitions which all keep one distribution invariant and
uniformly reach the regions which carry most of it.
-/

namespace JaxSgmc

open MeasureTheory ProbabilityTheory Filter Topology

variable {α Θ : Type*} [MeasurableSpace α]

/-- The expectation of `f` after transitions with the given parameters. -/
noncomputable def chainMean (P : Θ → Kernel α α) (f : α → ℝ) : List Θ → α → ℝ
  | [], z => f z
  | θ :: l, z => stepMean (P θ) (chainMean P f l) z

/-- The expectation of the weighted sum of `f` over the states visited. -/
noncomputable def weightedMean (P : Θ → Kernel α α) (f : α → ℝ) : List (Θ × ℝ) → α → ℝ
  | [], _ => 0
  | (θ, a) :: l, z => stepMean (P θ) (fun y => a * f y + weightedMean P f l y) z

/-- The expectation of the square of the weighted sum of `f` over the states visited. -/
noncomputable def weightedSq (P : Θ → Kernel α α) (f : α → ℝ) : List (Θ × ℝ) → α → ℝ
  | [], _ => 0
  | (θ, a) :: l, z => stepMean (P θ) (fun y => (a * f y) ^ 2 + 2 * (a * f y) * weightedMean P f l y +
      weightedSq P f l y) z

/-- The sum of the weights. -/
def totalWeight (l : List (Θ × ℝ)) : ℝ := (l.map Prod.snd).sum

/-- The expectation of the square of `c` plus the weighted sum. -/
noncomputable def shiftedSq (P : Θ → Kernel α α) (f : α → ℝ) (l : List (Θ × ℝ)) (c : ℝ) (z : α) : ℝ :=
  c ^ 2 + 2 * c * weightedMean P f l z + weightedSq P f l z

section
variable {P : Θ → Kernel α α} [∀ θ, IsMarkovKernel (P θ)]

omit [∀ θ, IsMarkovKernel (P θ)] in
theorem abs_measurable {f : α → ℝ} (hf : Measurable f) : Measurable fun y => |f y| :=
  continuous_abs.measurable.comp hf

omit [∀ θ, IsMarkovKernel (P θ)] in
theorem chainMean_measurable {f : α → ℝ} (hf : Measurable f) (l : List Θ) : Measurable (chainMean P f l) := by
  induction l with
  | nil => exact hf
  | cons θ l ih => exact stepMean_measurable ih

theorem chainMean_le {f : α → ℝ} {C : ℝ} (hC : ∀ z, |f z| ≤ C) (l : List Θ) (z : α) : |chainMean P f l z| ≤ C := by
  induction l generalizing z with
  | nil => exact hC z
  | cons θ l ih => exact stepMean_le ih z

omit [∀ θ, IsMarkovKernel (P θ)] in
theorem chainMean_append (f : α → ℝ) (l l' : List Θ) (z : α) :
    chainMean P f (l ++ l') z = chainMean P (chainMean P f l') l z := by
  induction l generalizing z with
  | nil => rfl
  | cons θ l ih =>
    show stepMean (P θ) (chainMean P f (l ++ l')) z = stepMean (P θ) _ z
    rw [show chainMean P f (l ++ l') = chainMean P (chainMean P f l') l from funext fun z => ih z]

theorem stepMean_add {Q : Kernel α α} [IsMarkovKernel Q] {f g : α → ℝ} (hf : Measurable f) (hg : Measurable g) {C C' : ℝ} (hC : ∀ z, |f z| ≤ C)
    (hC' : ∀ z, |g z| ≤ C') (z : α) : stepMean Q (fun y => f y + g y) z = stepMean Q f z + stepMean Q g z :=
  integral_add (bounded_integrable hf hC _) (bounded_integrable hg hC' _)

theorem stepMean_mono {Q : Kernel α α} [IsMarkovKernel Q] {f g : α → ℝ} (hf : Measurable f) (hg : Measurable g) {C C' : ℝ} (hC : ∀ z, |f z| ≤ C)
    (hC' : ∀ z, |g z| ≤ C') (h : ∀ z, f z ≤ g z) (z : α) : stepMean Q f z ≤ stepMean Q g z :=
  integral_mono (bounded_integrable hf hC _) (bounded_integrable hg hC' _) h

theorem chainMean_add {f g : α → ℝ} (hf : Measurable f) (hg : Measurable g) {C C' : ℝ} (hC : ∀ z, |f z| ≤ C)
    (hC' : ∀ z, |g z| ≤ C') (l : List Θ) (z : α) :
    chainMean P (fun y => f y + g y) l z = chainMean P f l z + chainMean P g l z := by
  induction l generalizing z with
  | nil => rfl
  | cons θ l ih =>
    show stepMean (P θ) _ z = stepMean (P θ) _ z + stepMean (P θ) _ z
    rw [← stepMean_add (chainMean_measurable hf l) (chainMean_measurable hg l) (chainMean_le hC l) (chainMean_le hC' l),
      show chainMean P (fun y => f y + g y) l = fun y => chainMean P f l y + chainMean P g l y from
        funext fun z => ih z]

omit [∀ θ, IsMarkovKernel (P θ)] in
theorem chainMean_mul (f : α → ℝ) (c : ℝ) (l : List Θ) (z : α) :
    chainMean P (fun y => c * f y) l z = c * chainMean P f l z := by
  induction l generalizing z with
  | nil => rfl
  | cons θ l ih =>
    show stepMean (P θ) _ z = c * stepMean (P θ) _ z
    rw [show chainMean P (fun y => c * f y) l = fun y => c * chainMean P f l y from funext fun z => ih z]
    exact integral_const_mul _ _

theorem chainMean_mono {f g : α → ℝ} (hf : Measurable f) (hg : Measurable g) {C C' : ℝ} (hC : ∀ z, |f z| ≤ C)
    (hC' : ∀ z, |g z| ≤ C') (h : ∀ z, f z ≤ g z) (l : List Θ) (z : α) :
    chainMean P f l z ≤ chainMean P g l z := by
  induction l generalizing z with
  | nil => exact h z
  | cons θ l ih =>
    exact stepMean_mono (chainMean_measurable (P := P) hf l) (chainMean_measurable hg l) (chainMean_le hC l)
      (chainMean_le hC' l) ih z

omit [∀ θ, IsMarkovKernel (P θ)] in
theorem chainMean_nonneg {f : α → ℝ} (h : ∀ z, 0 ≤ f z) (l : List Θ) (z : α) : 0 ≤ chainMean P f l z := by
  induction l generalizing z with
  | nil => exact h z
  | cons θ l ih => exact integral_nonneg ih

theorem chainMean_abs {f : α → ℝ} (hf : Measurable f) {C : ℝ} (hC : ∀ z, |f z| ≤ C) (l : List Θ) (z : α) :
    |chainMean P f l z| ≤ chainMean P (fun y => |f y|) l z := by
  have hfa : Measurable fun y => |f y| := abs_measurable hf
  have hCa : ∀ z, |(|f z|)| ≤ C := fun z => by rw [abs_abs]; exact hC z
  rw [abs_le]
  constructor
  · have h1 := chainMean_mono (P := P) (hfa.const_mul (-1)) hf (C := C) (fun z => by simpa using hC z) hC
      (fun z => by have := neg_abs_le (f z); linarith) l z
    rw [chainMean_mul] at h1
    linarith
  · exact chainMean_mono hf hfa hC hCa (fun z => le_abs_self _) l z

/-! ## Weighted sums -/

theorem weightedMean_all {f : α → ℝ} (hf : Measurable f) {C : ℝ} (hC : ∀ z, |f z| ≤ C) (l : List (Θ × ℝ))
    (hl : ∀ x ∈ l, 0 ≤ x.2) :
    Measurable (weightedMean P f l) ∧ ∀ z, |weightedMean P f l z| ≤ totalWeight l * C := by
  induction l with
  | nil => exact ⟨measurable_const, fun z => by simp [weightedMean, totalWeight]⟩
  | cons x l ih =>
    obtain ⟨θ, a⟩ := x
    obtain ⟨h1, h2⟩ := ih fun y hy => hl y (List.mem_cons_of_mem _ hy)
    have ha : 0 ≤ a := hl (θ, a) List.mem_cons_self
    have hm : Measurable fun y => a * f y + weightedMean P f l y := by fun_prop
    refine ⟨stepMean_measurable hm, fun z => stepMean_le (fun y => ?_) z⟩
    have e : totalWeight ((θ, a) :: l) = a + totalWeight l := by simp [totalWeight]
    rw [e, add_mul]
    refine (abs_add_le _ _).trans (add_le_add ?_ (h2 y))
    rw [abs_mul, abs_of_nonneg ha]
    exact mul_le_mul_of_nonneg_left (hC y) ha

theorem totalWeight_nonneg (l : List (Θ × ℝ)) (hl : ∀ x ∈ l, 0 ≤ x.2) : 0 ≤ totalWeight l := by
  refine List.sum_nonneg fun a ha => ?_
  obtain ⟨x, hx, rfl⟩ := List.mem_map.1 ha
  exact hl x hx

theorem weightedSq_all {f : α → ℝ} (hf : Measurable f) {C : ℝ} (hC : ∀ z, |f z| ≤ C) (l : List (Θ × ℝ))
    (hl : ∀ x ∈ l, 0 ≤ x.2) :
    Measurable (weightedSq P f l) ∧ (∀ z, |weightedSq P f l z| ≤ (totalWeight l * C) ^ 2) ∧
    ∀ c z, 0 ≤ shiftedSq P f l c z := by
  induction l with
  | nil =>
    refine ⟨measurable_const, fun z => by simp [weightedSq, totalWeight], fun c z => ?_⟩
    simp only [shiftedSq, weightedMean, weightedSq, mul_zero, add_zero]
    positivity
  | cons x l ih =>
    obtain ⟨θ, a⟩ := x
    have hl' : ∀ x ∈ l, 0 ≤ x.2 := fun y hy => hl y (List.mem_cons_of_mem _ hy)
    obtain ⟨h1, h2, h3⟩ := ih hl'
    obtain ⟨m1, m2⟩ := weightedMean_all (P := P) hf hC l hl'
    have ha : 0 ≤ a := hl (θ, a) List.mem_cons_self
    have hN := totalWeight_nonneg l hl'
    have e : totalWeight ((θ, a) :: l) = a + totalWeight l := by simp [totalWeight]
    have hm : Measurable fun y => (a * f y) ^ 2 + 2 * (a * f y) * weightedMean P f l y + weightedSq P f l y := by
      fun_prop
    have hb : ∀ y, |(a * f y) ^ 2 + 2 * (a * f y) * weightedMean P f l y + weightedSq P f l y| ≤
        (totalWeight ((θ, a) :: l) * C) ^ 2 := by
      intro y
      have hC0 : 0 ≤ C := (abs_nonneg _).trans (hC y)
      have haf : |a * f y| ≤ a * C := by
        rw [abs_mul, abs_of_nonneg ha]; exact mul_le_mul_of_nonneg_left (hC y) ha
      have := m2 y
      rw [e]
      refine ((abs_add_le _ _).trans (add_le_add ((abs_add_le _ _).trans (add_le_add ?_ ?_)) (h2 y))).trans
        (b := (a * C) ^ 2 + 2 * (a * C) * (totalWeight l * C) + (totalWeight l * C) ^ 2) (le_of_eq (by ring))
      · rw [abs_pow]; exact pow_le_pow_left₀ (abs_nonneg _) haf 2
      · rw [abs_mul, abs_mul, abs_two]
        gcongr
    refine ⟨stepMean_measurable hm, fun z => stepMean_le hb z, fun c z => ?_⟩
    have hr := shiftedSq_aux (P := P) hf hC hl' ha m1 m2 h1 h2 c z θ
    rw [hr]
    exact integral_nonneg fun y => h3 _ _
where
  shiftedSq_aux {P : Θ → Kernel α α} [∀ θ, IsMarkovKernel (P θ)] {f : α → ℝ} (hf : Measurable f) {C : ℝ} (hC : ∀ z, |f z| ≤ C)
    {l : List (Θ × ℝ)} (hl : ∀ x ∈ l, 0 ≤ x.2) {a : ℝ} (ha : 0 ≤ a) (m1 : Measurable (weightedMean P f l))
    (m2 : ∀ z, |weightedMean P f l z| ≤ totalWeight l * C) (h1 : Measurable (weightedSq P f l))
    (h2 : ∀ z, |weightedSq P f l z| ≤ (totalWeight l * C) ^ 2) (c : ℝ) (z : α) (θ : Θ) :
    shiftedSq P f ((θ, a) :: l) c z = ∫ y, shiftedSq P f l (c + a * f y) y ∂P θ z := by
    have hN := totalWeight_nonneg l hl
    have e : ∀ y, shiftedSq P f l (c + a * f y) y = c ^ 2 + (2 * c * (a * f y + weightedMean P f l y) +
        ((a * f y) ^ 2 + 2 * (a * f y) * weightedMean P f l y + weightedSq P f l y)) := by
      intro y; unfold shiftedSq; ring
    have haf : ∀ y, |a * f y| ≤ a * C := fun y => by
      rw [abs_mul, abs_of_nonneg ha]; exact mul_le_mul_of_nonneg_left (hC y) ha
    have i1 : Integrable (fun y => 2 * c * (a * f y + weightedMean P f l y)) (P θ z) :=
      ((bounded_integrable (by fun_prop) haf _).add (bounded_integrable m1 m2 _)).const_mul _
    have i2 : Integrable (fun y => (a * f y) ^ 2 + 2 * (a * f y) * weightedMean P f l y + weightedSq P f l y) (P θ z) := by
      refine bounded_integrable (C := (a * C) ^ 2 + 2 * (a * C) * (totalWeight l * C) + (totalWeight l * C) ^ 2)
        (by fun_prop) (fun y => ?_) _
      have hC0 : 0 ≤ C := (abs_nonneg _).trans (hC y)
      have := m2 y
      have := haf y
      refine ((abs_add_le _ _).trans (add_le_add ((abs_add_le _ _).trans (add_le_add ?_ ?_)) (h2 y)))
      · rw [abs_pow]; exact pow_le_pow_left₀ (abs_nonneg _) (haf y) 2
      · rw [abs_mul, abs_mul, abs_two]
        gcongr
    have i12 : Integrable (fun y => 2 * c * (a * f y + weightedMean P f l y) +
        ((a * f y) ^ 2 + 2 * (a * f y) * weightedMean P f l y + weightedSq P f l y)) (P θ z) := i1.add i2
    simp_rw [e]
    rw [integral_add (integrable_const _) i12, integral_add i1 i2, integral_const_mul]
    simp [shiftedSq, weightedSq, weightedMean, stepMean, add_assoc]

theorem shiftedSq_cons {f : α → ℝ} (hf : Measurable f) {C : ℝ} (hC : ∀ z, |f z| ≤ C)
    {l : List (Θ × ℝ)} (hl : ∀ x ∈ l, 0 ≤ x.2) {a : ℝ} (ha : 0 ≤ a) (θ : Θ) (c : ℝ) (z : α) :
    shiftedSq P f ((θ, a) :: l) c z = ∫ y, shiftedSq P f l (c + a * f y) y ∂P θ z := by
  obtain ⟨m1, m2⟩ := weightedMean_all (P := P) hf hC l hl
  obtain ⟨h1, h2, -⟩ := weightedSq_all (P := P) hf hC l hl
  exact weightedSq_all.shiftedSq_aux hf hC hl ha m1 m2 h1 h2 c z θ

/-! ## Mixing -/

variable {π : Measure α} [IsProbabilityMeasure π] (hinv : ∀ θ, P θ ∘ₘ π = π)

include hinv in
theorem chainMean_integral {g : α → ℝ} (hg : Measurable g) {C : ℝ} (hC : ∀ z, |g z| ≤ C) (l : List Θ) :
    ∫ z, chainMean P g l z ∂π = ∫ z, g z ∂π := by
  induction l with
  | nil => rfl
  | cons θ l ih =>
    exact (stepMean_integral (hinv θ) (chainMean_measurable hg l) (chainMean_le hC l)).trans ih

include hinv in
theorem stepMean_abs_integral (θ : Θ) {g : α → ℝ} (hg : Measurable g) {C : ℝ} (hC : ∀ z, |g z| ≤ C) :
    ∫ z, |stepMean (P θ) g z| ∂π ≤ ∫ z, |g z| ∂π := by
  have hCa : ∀ z, |(|g z|)| ≤ C := fun z => by rw [abs_abs]; exact hC z
  rw [← stepMean_integral (hinv θ) (g := fun z => |g z|) (abs_measurable hg) hCa]
  refine integral_mono (bounded_integrable (abs_measurable (stepMean_measurable hg)) (C := C)
    (fun z => by rw [abs_abs]; exact stepMean_le hC z) _)
    (bounded_integrable (stepMean_measurable (abs_measurable hg)) (stepMean_le hCa) _) fun z => ?_
  exact abs_integral_le_integral_abs

include hinv in
/-- One step brings a function closer to its mean. -/
theorem stepMean_contracts {S : Set α} (hS : MeasurableSet S) (hS2 : 1 / 2 ≤ π.real S) {κ : ℝ} (hκ : 0 < κ) (θ : Θ)
    (hmin : ∀ z ∈ S, ENNReal.ofReal κ • π.restrict S ≤ P θ z) {g : α → ℝ} (hg : Measurable g) {C : ℝ}
    (hC : ∀ z, |g z| ≤ C) (h0 : ∫ z, g z ∂π = 0) (ht : 4 * (C * π.real Sᶜ) ≤ ∫ z, |g z| ∂π) :
    ∫ z, |stepMean (P θ) g z| ∂π ≤ (1 - κ / 4) * ∫ z, |g z| ∂π := by
  set t := ∫ z, |g z| ∂π with htdef
  have ig := bounded_integrable hg hC π
  -- the positive and negative parts carry half of the mass, mostly inside of `S`
  have part : ∀ g : α → ℝ, Measurable g → (∀ z, |g z| ≤ C) → ∫ z, g z ∂π = 0 → ∫ z, |g z| ∂π = t →
      ∀ z ∈ S, κ * (t / 4) ≤ stepMean (P θ) (fun y => max (g y) 0) z := by
    intro g hg hC h0 htg z hz
    have hp : Measurable fun y => max (g y) 0 := hg.max measurable_const
    have hpC : ∀ y, |max (g y) 0| ≤ C := fun y => by
      rw [abs_of_nonneg (le_max_right _ _)]
      exact max_le ((le_abs_self _).trans (hC y)) ((abs_nonneg _).trans (hC y))
    have ip := bounded_integrable hp hpC π
    have hhalf : ∫ y, max (g y) 0 ∂π = t / 2 := by
      have e : ∀ y, max (g y) 0 = (1 / 2) * (|g y| + g y) := fun y => by
        rcases le_total 0 (g y) with h | h
        · rw [max_eq_left h, abs_of_nonneg h]; ring
        · rw [max_eq_right h, abs_of_nonpos h]; ring
      simp only [e]
      rw [integral_const_mul, integral_add (bounded_integrable hg hC π).abs (bounded_integrable hg hC π), htg, h0]
      ring
    have hout : ∫ y in Sᶜ, max (g y) 0 ∂π ≤ C * π.real Sᶜ := by
      have := norm_setIntegral_le_of_norm_le_const (μ := π) (s := Sᶜ) (f := fun y => max (g y) 0) (C := C)
        (measure_lt_top π _) (fun y _ => hpC y)
      exact (le_abs_self _).trans this
    have hsplit := integral_add_compl hS ip
    have hin : t / 4 ≤ ∫ y in S, max (g y) 0 ∂π := by
      have hCn := hout
      linarith
    have h1 : ∫ y, max (g y) 0 ∂(ENNReal.ofReal κ • π.restrict S) ≤ ∫ y, max (g y) 0 ∂P θ z :=
      integral_mono_measure (hmin z hz) (Eventually.of_forall fun y => le_max_right _ _) (bounded_integrable hp hpC _)
    rw [integral_smul_measure, ENNReal.toReal_ofReal hκ.le, smul_eq_mul] at h1
    exact (mul_le_mul_of_nonneg_left hin hκ.le).trans h1
  have hp := part g hg hC h0 rfl
  have hn := part (fun y => -g y) hg.neg (fun z => by rw [abs_neg]; exact hC z) (by rw [integral_neg, h0, neg_zero])
    (by simp only [abs_neg]; rfl)
  have hCa : ∀ z, |(|g z|)| ≤ C := fun z => by rw [abs_abs]; exact hC z
  -- positive and negative part of the function cancel partly
  have key : ∀ z, |stepMean (P θ) g z| ≤ stepMean (P θ) (fun y => |g y|) z - S.indicator (fun _ => κ * (t / 2)) z := by
    intro z
    have mp : Measurable fun y => max (g y) 0 := hg.max measurable_const
    have mn : Measurable fun y => max (-g y) 0 := hg.neg.max measurable_const
    have bp : ∀ y, |max (g y) 0| ≤ C := fun y => by
      rw [abs_of_nonneg (le_max_right _ _)]
      exact max_le ((le_abs_self _).trans (hC y)) ((abs_nonneg _).trans (hC y))
    have bn : ∀ y, |max (-g y) 0| ≤ C := fun y => by
      rw [abs_of_nonneg (le_max_right _ _)]
      exact max_le ((neg_le_abs _).trans (hC y)) ((abs_nonneg _).trans (hC y))
    have e1 : stepMean (P θ) (fun y => |g y|) z =
        stepMean (P θ) (fun y => max (g y) 0) z + stepMean (P θ) (fun y => max (-g y) 0) z := by
      rw [← stepMean_add mp mn bp bn]
      congr 1
      funext y
      rcases le_total 0 (g y) with h | h
      · rw [max_eq_left h, abs_of_nonneg h, max_eq_right (by linarith)]; ring
      · rw [max_eq_right h, abs_of_nonpos h, max_eq_left (by linarith)]; ring
    have e2 : stepMean (P θ) g z + stepMean (P θ) (fun y => max (-g y) 0) z =
        stepMean (P θ) (fun y => max (g y) 0) z := by
      rw [← stepMean_add hg mn hC bn]
      congr 1
      funext y
      rcases le_total 0 (g y) with h | h
      · rw [max_eq_left h, max_eq_right (by linarith)]; ring
      · rw [max_eq_right h, max_eq_left (by linarith)]; ring
    by_cases hz : z ∈ S
    · rw [Set.indicator_of_mem hz, abs_le]
      have := hp z hz
      have := hn z hz
      constructor <;> linarith
    · rw [Set.indicator_of_notMem hz, sub_zero]
      exact abs_integral_le_integral_abs
  have hind : Integrable (S.indicator fun _ => κ * (t / 2)) π := (integrable_const _).indicator hS
  have iA := bounded_integrable (stepMean_measurable (P := P θ) (abs_measurable hg)) (stepMean_le hCa) π
  calc ∫ z, |stepMean (P θ) g z| ∂π
      ≤ ∫ z, (stepMean (P θ) (fun y => |g y|) z - S.indicator (fun _ => κ * (t / 2)) z) ∂π :=
        integral_mono (bounded_integrable (stepMean_measurable hg) (stepMean_le hC) π).abs (iA.sub hind) key
    _ = t - π.real S * (κ * (t / 2)) := by
        rw [integral_sub iA hind, stepMean_integral (hinv θ) (abs_measurable hg) hCa, integral_indicator hS, setIntegral_const,
          smul_eq_mul]
    _ ≤ (1 - κ / 4) * t := by
        have ht0 : 0 ≤ t := integral_nonneg fun z => abs_nonneg _
        have h1 : 0 ≤ κ * (t / 2) := by positivity
        nlinarith

include hinv in
/-- Functions of states far apart in time are nearly uncorrelated, uniformly over all transitions. -/
theorem chainMean_mixing
    (hmin : ∀ t : ℝ, 0 < t → ∃ S, MeasurableSet S ∧ π.real Sᶜ ≤ t ∧ ∃ κ : ℝ, 0 < κ ∧ ∀ θ, ∀ z ∈ S,
      ENNReal.ofReal κ • π.restrict S ≤ P θ z)
    {g : α → ℝ} (hg : Measurable g) {C : ℝ} (hC : ∀ z, |g z| ≤ C) (h0 : ∫ z, g z ∂π = 0) {t : ℝ} (ht : 0 < t) :
    ∃ n₀ : ℕ, ∀ l : List Θ, n₀ ≤ l.length → ∫ z, |chainMean P g l z| ∂π ≤ t := by
  obtain ⟨z₀⟩ : Nonempty α := nonempty_of_isProbabilityMeasure π
  have hC0 : 0 ≤ C := (abs_nonneg _).trans (hC z₀)
  obtain ⟨S, hS, hSt, κ, hκ, hκS⟩ := hmin (min (1 / 2) (t / (4 * (C + 1)))) (by positivity)
  have hS2 : 1 / 2 ≤ π.real S := by
    have := probReal_compl_eq_one_sub (μ := π) hS
    have := hSt.trans (min_le_left _ _)
    linarith
  have hSC : 4 * (C * π.real Sᶜ) ≤ t := by
    have h1 := hSt.trans (min_le_right _ _)
    rw [le_div_iff₀ (by positivity)] at h1
    have := measureReal_nonneg (μ := π) (s := Sᶜ)
    nlinarith
  set κ' := min κ 1 with hκ'
  have hκ'0 : 0 < κ' := lt_min hκ one_pos
  have hκ'1 : κ' ≤ 1 := min_le_right _ _
  have hκS' : ∀ θ, ∀ z ∈ S, ENNReal.ofReal κ' • π.restrict S ≤ P θ z := fun θ z hz => by
    refine le_trans ?_ (hκS θ z hz)
    refine Measure.le_iff.2 fun A _ => ?_
    simp only [Measure.smul_apply, smul_eq_mul]
    exact mul_le_mul_left (ENNReal.ofReal_le_ofReal (min_le_left _ _)) _
  have hr0 : 0 ≤ 1 - κ' / 4 := by linarith
  have hr1 : 1 - κ' / 4 < 1 := by linarith
  have hlist : ∀ l : List Θ, ∫ z, |chainMean P g l z| ∂π ≤ t ∨
      ∫ z, |chainMean P g l z| ∂π ≤ (1 - κ' / 4) ^ l.length * C := by
    intro l
    induction l with
    | nil =>
      right
      show ∫ z, |g z| ∂π ≤ _
      have := integral_mono (μ := π) (bounded_integrable hg hC π).abs (integrable_const C) hC
      simpa using this
    | cons θ l ih =>
      have hm := chainMean_measurable (P := P) hg l
      have hb := chainMean_le (P := P) hC l
      have hle := stepMean_abs_integral hinv θ hm hb
      by_cases hlt : ∫ z, |chainMean P g l z| ∂π ≤ t
      · left
        exact hle.trans hlt
      · right
        have h1 := stepMean_contracts hinv hS hS2 hκ'0 θ (hκS' θ) hm hb ((chainMean_integral hinv hg hC l).trans h0)
          (hSC.trans (not_le.1 hlt).le)
        rw [List.length_cons, pow_succ', mul_assoc]
        exact h1.trans (mul_le_mul_of_nonneg_left (ih.resolve_left hlt) hr0)
  have hlim : Tendsto (fun n : ℕ => (1 - κ' / 4) ^ n * C) atTop (𝓝 0) := by
    simpa using (tendsto_pow_atTop_nhds_zero_of_lt_one hr0 hr1).mul_const C
  obtain ⟨n₀, hn₀⟩ := (hlim.eventually (ge_mem_nhds ht)).exists_forall_of_atTop
  exact ⟨n₀, fun l hl => (hlist l).elim id fun h => h.trans (hn₀ _ hl)⟩

end

/-! ## Averages -/

section
variable {P : Θ → Kernel α α} [∀ θ, IsMarkovKernel (P θ)] {π : Measure α} [IsProbabilityMeasure π]

omit [∀ θ, IsMarkovKernel (P θ)] [IsProbabilityMeasure π] in
theorem chainMean_snoc (f : α → ℝ) (l : List Θ) (θ : Θ) (z : α) :
    chainMean P f (l ++ [θ]) z = chainMean P (stepMean (P θ) f) l z := chainMean_append f l [θ] z

/-- The mean of a weighted sum is small if all but the first `n₀` expectations are small. -/
theorem weightedMean_integral {g : α → ℝ} (hg : Measurable g) {C : ℝ} (hC : ∀ z, |g z| ≤ C) {t : ℝ} (ht : 0 ≤ t)
    {n₀ : ℕ} (hn₀ : ∀ l : List Θ, n₀ ≤ l.length → ∫ z, |chainMean P g l z| ∂π ≤ t) (l : List (Θ × ℝ))
    (hl : ∀ x ∈ l, 0 ≤ x.2 ∧ x.2 ≤ 1) :
    ∀ pre : List Θ, ∫ z, |chainMean P (weightedMean P g l) pre z| ∂π ≤
      ((n₀ - pre.length : ℕ) : ℝ) * C + t * totalWeight l := by
  obtain ⟨z₀⟩ : Nonempty α := nonempty_of_isProbabilityMeasure π
  have hC0 : 0 ≤ C := (abs_nonneg _).trans (hC z₀)
  induction l with
  | nil =>
    intro pre
    have e : ∀ z, chainMean P (weightedMean P g []) pre z = 0 := fun z => by
      have := chainMean_mul (P := P) (fun _ => (0 : ℝ)) 0 pre z
      simpa [weightedMean] using this
    simp only [e, abs_zero, integral_zero, totalWeight, List.map_nil, List.sum_nil, mul_zero, add_zero]
    positivity
  | cons x l ih =>
    obtain ⟨θ, a⟩ := x
    intro pre
    have hl' : ∀ x ∈ l, 0 ≤ x.2 ∧ x.2 ≤ 1 := fun y hy => hl y (List.mem_cons_of_mem _ hy)
    obtain ⟨ha0, ha1⟩ := hl (θ, a) List.mem_cons_self
    obtain ⟨m1, m2⟩ := weightedMean_all (P := P) hg hC l fun x hx => (hl' x hx).1
    have haC : ∀ z, |a * g z| ≤ a * C := fun z => by
      rw [abs_mul, abs_of_nonneg ha0]; exact mul_le_mul_of_nonneg_left (hC z) ha0
    have e : ∀ z, chainMean P (weightedMean P g ((θ, a) :: l)) pre z =
        a * chainMean P g (pre ++ [θ]) z + chainMean P (weightedMean P g l) (pre ++ [θ]) z := by
      intro z
      rw [← chainMean_mul, ← chainMean_add (hg.const_mul a) m1 haC m2, chainMean_snoc]
      rfl
    have i1 := bounded_integrable (chainMean_measurable (P := P) hg (pre ++ [θ])) (chainMean_le hC (pre ++ [θ])) π
    have i2 := bounded_integrable (chainMean_measurable (P := P) m1 (pre ++ [θ])) (chainMean_le m2 (pre ++ [θ])) π
    have h1 : ∫ z, |chainMean P (weightedMean P g ((θ, a) :: l)) pre z| ∂π ≤
        a * ∫ z, |chainMean P g (pre ++ [θ]) z| ∂π + ∫ z, |chainMean P (weightedMean P g l) (pre ++ [θ]) z| ∂π := by
      rw [← integral_const_mul, ← integral_add (i1.abs.const_mul a) i2.abs]
      refine integral_mono ?_ ((i1.abs.const_mul a).add i2.abs) fun z => ?_
      · simp only [e]; exact ((i1.const_mul a).add i2).abs
      · simp only [e]
        refine (abs_add_le _ _).trans (le_of_eq ?_)
        rw [abs_mul, abs_of_nonneg ha0]
    have h2 := ih hl' (pre ++ [θ])
    have et : totalWeight ((θ, a) :: l) = a + totalWeight l := by simp [totalWeight]
    have hlen : (pre ++ [θ]).length = pre.length + 1 := by simp
    rw [et]
    by_cases hn : n₀ ≤ pre.length + 1
    · have h3 := hn₀ (pre ++ [θ]) (by rw [hlen]; exact hn)
      have h4 : a * ∫ z, |chainMean P g (pre ++ [θ]) z| ∂π ≤ a * t := mul_le_mul_of_nonneg_left h3 ha0
      have h5 : ((n₀ - (pre ++ [θ]).length : ℕ) : ℝ) * C ≤ ((n₀ - pre.length : ℕ) : ℝ) * C := by
        refine mul_le_mul_of_nonneg_right ?_ hC0
        rw [hlen]
        exact_mod_cast Nat.sub_le_sub_left (Nat.le_succ _) _
      linarith
    · have h3 : ∫ z, |chainMean P g (pre ++ [θ]) z| ∂π ≤ C := by
        have := integral_mono (μ := π) i1.abs (integrable_const C) (chainMean_le hC (pre ++ [θ]))
        simpa using this
      have h4 : a * ∫ z, |chainMean P g (pre ++ [θ]) z| ∂π ≤ C := by
        have h6 : 0 ≤ ∫ z, |chainMean P g (pre ++ [θ]) z| ∂π := integral_nonneg fun z => abs_nonneg _
        exact (mul_le_of_le_one_left h6 ha1).trans h3
      have h5 : ((n₀ - pre.length : ℕ) : ℝ) = ((n₀ - (pre ++ [θ]).length : ℕ) : ℝ) + 1 := by
        rw [hlen]
        have : n₀ - pre.length = (n₀ - (pre.length + 1)) + 1 := by omega
        rw [this]
        push_cast
        rfl
      rw [h5]
      have := mul_nonneg ht ha0
      linarith

/-- The square of a weighted sum. -/
theorem weightedSq_bound {g : α → ℝ} (hg : Measurable g) {C : ℝ} (hC : ∀ z, |g z| ≤ C) {t : ℝ} (ht : 0 ≤ t)
    {n₀ : ℕ} (hn₀ : ∀ l : List Θ, n₀ ≤ l.length → ∫ z, |chainMean P g l z| ∂π ≤ t) {z : α} {k₀ : ℕ} {c δ : ℝ} (hc : 0 ≤ c)
    (hδ : 0 ≤ δ) (hk₀ : ∀ l : List Θ, k₀ ≤ l.length → ∀ (φ : α → ℝ) (B : ℝ), Measurable φ → (∀ y, 0 ≤ φ y ∧ φ y ≤ B) →
      chainMean P φ l z ≤ c * ∫ y, φ y ∂π + δ * B) {N : ℝ} (l : List (Θ × ℝ))
    (hl : ∀ x ∈ l, 0 ≤ x.2 ∧ x.2 ≤ 1) (hN : totalWeight l ≤ N) :
    ∀ pre : List Θ, chainMean P (weightedSq P g l) pre z ≤
      totalWeight l * (C ^ 2 + 2 * C * (c * (n₀ * C + t * N) + δ * (N * C))) +
        ((k₀ - pre.length : ℕ) : ℝ) * (C ^ 2 + 2 * C * (N * C)) := by
  have hC0 : 0 ≤ C := (abs_nonneg _).trans (hC z)
  induction l with
  | nil =>
    intro pre
    have hN0 : 0 ≤ N := by simpa [totalWeight] using hN
    have e : chainMean P (weightedSq P g []) pre z = 0 := by
      have := chainMean_mul (P := P) (fun _ => (0 : ℝ)) 0 pre z
      simpa [weightedSq] using this
    rw [e]
    simp only [totalWeight, List.map_nil, List.sum_nil, zero_mul, zero_add]
    positivity
  | cons x l ih =>
    obtain ⟨θ, a⟩ := x
    intro pre
    have hl' : ∀ x ∈ l, 0 ≤ x.2 ∧ x.2 ≤ 1 := fun y hy => hl y (List.mem_cons_of_mem _ hy)
    obtain ⟨ha0, ha1⟩ := hl (θ, a) List.mem_cons_self
    have et : totalWeight ((θ, a) :: l) = a + totalWeight l := by simp [totalWeight]
    have hW := totalWeight_nonneg l fun x hx => (hl' x hx).1
    have hN' : totalWeight l ≤ N := by rw [et] at hN; linarith
    have hN0 : 0 ≤ N := hW.trans hN'
    obtain ⟨m1, m2⟩ := weightedMean_all (P := P) hg hC l fun x hx => (hl' x hx).1
    obtain ⟨s1, s2, -⟩ := weightedSq_all (P := P) hg hC l fun x hx => (hl' x hx).1
    have m3 : ∀ z, |weightedMean P g l z| ≤ N * C := fun z =>
      (m2 z).trans (mul_le_mul_of_nonneg_right hN' hC0)
    have ma : Measurable fun y => |weightedMean P g l y| := abs_measurable m1
    have mb : ∀ y, |(|weightedMean P g l y|)| ≤ N * C := fun y => by rw [abs_abs]; exact m3 y
    -- the bound of the first term
    have hm1 : Measurable fun y => (a * g y) ^ 2 + 2 * (a * g y) * weightedMean P g l y := by fun_prop
    have hm2 : Measurable fun y => a * (C ^ 2 + 2 * C * |weightedMean P g l y|) := by fun_prop
    have hle : ∀ y, |(a * g y) ^ 2 + 2 * (a * g y) * weightedMean P g l y| ≤
        a * (C ^ 2 + 2 * C * |weightedMean P g l y|) := by
      intro y
      have haf : |a * g y| ≤ a * C := by
        rw [abs_mul, abs_of_nonneg ha0]; exact mul_le_mul_of_nonneg_left (hC y) ha0
      have h1 : (a * C) ^ 2 ≤ a * C ^ 2 := by
        rw [mul_pow]
        refine mul_le_mul_of_nonneg_right ?_ (sq_nonneg C)
        nlinarith
      refine ((abs_add_le _ _).trans (add_le_add (b := (a * C) ^ 2) (d := 2 * (a * C) * |weightedMean P g l y|) ?_ ?_)).trans ?_
      · rw [abs_pow]; exact pow_le_pow_left₀ (abs_nonneg _) haf 2
      · rw [abs_mul, abs_mul, abs_two]
        gcongr
      · nlinarith
    have hb2 : ∀ y, |a * (C ^ 2 + 2 * C * |weightedMean P g l y|)| ≤ a * (C ^ 2 + 2 * C * (N * C)) := by
      intro y
      have h1 := m3 y
      have h2 := abs_nonneg (weightedMean P g l y)
      rw [abs_of_nonneg (by positivity)]
      gcongr
    have hb1 : ∀ y, |(a * g y) ^ 2 + 2 * (a * g y) * weightedMean P g l y| ≤ a * (C ^ 2 + 2 * C * (N * C)) := fun y =>
      (hle y).trans ((le_abs_self _).trans (hb2 y))
    have e : chainMean P (weightedSq P g ((θ, a) :: l)) pre z =
        chainMean P (fun y => (a * g y) ^ 2 + 2 * (a * g y) * weightedMean P g l y) (pre ++ [θ]) z +
          chainMean P (weightedSq P g l) (pre ++ [θ]) z := by
      rw [← chainMean_add hm1 s1 hb1 s2, chainMean_snoc]
      rfl
    have h1 := chainMean_mono (P := P) hm1 hm2 hb1 hb2 (fun y => (le_abs_self _).trans (hle y)) (pre ++ [θ]) z
    have h2 := ih hl' hN' (pre ++ [θ])
    have hlen : (pre ++ [θ]).length = pre.length + 1 := by simp
    rw [e, et]
    have hX : 0 ≤ C ^ 2 + 2 * C * (N * C) := by positivity
    by_cases hk : k₀ ≤ pre.length + 1
    · have h3 := hk₀ (pre ++ [θ]) (by rw [hlen]; exact hk) (fun y => |weightedMean P g l y|) (N * C) ma
        fun y => ⟨abs_nonneg _, m3 y⟩
      have h4 := weightedMean_integral hg hC ht hn₀ l hl' []
      have h5 : ∫ y, |weightedMean P g l y| ∂π ≤ n₀ * C + t * N := by
        have h6 : ∫ y, |weightedMean P g l y| ∂π ≤ n₀ * C + t * totalWeight l := by simpa [chainMean] using h4
        exact h6.trans (add_le_add le_rfl (mul_le_mul_of_nonneg_left hN' ht))
      have e3 : chainMean P (fun y => a * (C ^ 2 + 2 * C * |weightedMean P g l y|)) (pre ++ [θ]) z =
          a * (C ^ 2 + 2 * C * chainMean P (fun y => |weightedMean P g l y|) (pre ++ [θ]) z) := by
        rw [chainMean_mul, chainMean_add (f := fun _ => C ^ 2) (g := fun y => 2 * C * |weightedMean P g l y|) measurable_const (ma.const_mul _) (C := C ^ 2) (C' := 2 * C * (N * C))
          (fun y => by rw [abs_of_nonneg (sq_nonneg C)])
          (fun y => by
            rw [abs_mul, abs_of_nonneg (by positivity : 0 ≤ 2 * C)]
            exact mul_le_mul_of_nonneg_left (mb y) (by positivity)), chainMean_mul]
        congr 2
        have h7 : ∀ l : List Θ, ∀ z, chainMean P (fun _ => C ^ 2) l z = C ^ 2 := by
          intro l
          induction l with
          | nil => intro z; rfl
          | cons θ l ih =>
            intro z
            show ∫ y, chainMean P (fun _ => C ^ 2) l y ∂P θ z = _
            simp [ih]
        exact h7 _ _
      have h6 : a * (C ^ 2 + 2 * C * chainMean P (fun y => |weightedMean P g l y|) (pre ++ [θ]) z) ≤
          a * (C ^ 2 + 2 * C * (c * (n₀ * C + t * N) + δ * (N * C))) := by
        have h8 : c * ∫ y, |weightedMean P g l y| ∂π ≤ c * (n₀ * C + t * N) := mul_le_mul_of_nonneg_left h5 hc
        refine mul_le_mul_of_nonneg_left (add_le_add le_rfl (mul_le_mul_of_nonneg_left ?_ (by positivity))) ha0
        linarith
      have h7 : ((k₀ - (pre ++ [θ]).length : ℕ) : ℝ) * (C ^ 2 + 2 * C * (N * C)) ≤
          ((k₀ - pre.length : ℕ) : ℝ) * (C ^ 2 + 2 * C * (N * C)) := by
        refine mul_le_mul_of_nonneg_right ?_ hX
        rw [hlen]
        exact_mod_cast Nat.sub_le_sub_left (Nat.le_succ _) _
      rw [e3] at h1
      rw [add_mul]
      linarith
    · have h3 : chainMean P (fun y => a * (C ^ 2 + 2 * C * |weightedMean P g l y|)) (pre ++ [θ]) z ≤
          C ^ 2 + 2 * C * (N * C) :=
        ((le_abs_self _).trans (chainMean_le hb2 _ _)).trans (mul_le_of_le_one_left hX ha1)
      have h5 : ((k₀ - pre.length : ℕ) : ℝ) = ((k₀ - (pre ++ [θ]).length : ℕ) : ℝ) + 1 := by
        rw [hlen]
        have : k₀ - pre.length = (k₀ - (pre.length + 1)) + 1 := by omega
        rw [this]
        push_cast
        rfl
      rw [h5, add_mul _ (1 : ℝ), add_mul a]
      have : 0 ≤ a * (C ^ 2 + 2 * C * (c * (n₀ * C + t * N) + δ * (N * C))) := by positivity
      linarith

/-- **The law of large numbers for changing transitions.**  If all transitions keep the distribution `π` invariant and
uniformly reach the regions which carry most of it, and the states of the chain are uniformly (up to a small
probability) distributed with a bounded density, then the mean square of weighted averages is uniformly small. -/
theorem weightedSq_small (hinv : ∀ θ, P θ ∘ₘ π = π)
    (hmin : ∀ t : ℝ, 0 < t → ∃ S, MeasurableSet S ∧ π.real Sᶜ ≤ t ∧ ∃ κ : ℝ, 0 < κ ∧ ∀ θ, ∀ z ∈ S,
      ENNReal.ofReal κ • π.restrict S ≤ P θ z) {Z : Set α}
    (hstart : ∀ δ : ℝ, 0 < δ → ∃ (k₀ : ℕ) (c : ℝ), 0 ≤ c ∧ ∀ z ∈ Z, ∀ l : List Θ, k₀ ≤ l.length →
      ∀ (φ : α → ℝ) (B : ℝ), Measurable φ → (∀ y, 0 ≤ φ y ∧ φ y ≤ B) →
        chainMean P φ l z ≤ c * ∫ y, φ y ∂π + δ * B)
    {g : α → ℝ} (hg : Measurable g) {C : ℝ} (hC : ∀ z, |g z| ≤ C) (h0 : ∫ z, g z ∂π = 0) {ε : ℝ} (hε : 0 < ε) :
    ∃ N₀ : ℝ, ∀ z ∈ Z, ∀ l : List (Θ × ℝ), (∀ x ∈ l, 0 ≤ x.2 ∧ x.2 ≤ 1) → N₀ ≤ totalWeight l →
      weightedSq P g l z ≤ ε * totalWeight l ^ 2 := by
  obtain ⟨z₀⟩ : Nonempty α := nonempty_of_isProbabilityMeasure π
  have hC0 : 0 ≤ C := (abs_nonneg _).trans (hC z₀)
  -- the accuracies
  set δ : ℝ := ε / (8 * (C ^ 2 + 1)) with hδdef
  have hδ : 0 < δ := by positivity
  have hδ2 : 2 * C * (δ * C) ≤ ε / 4 := by
    have : δ * (8 * (C ^ 2 + 1)) = ε := by rw [hδdef]; field_simp
    nlinarith
  obtain ⟨k₀, c, hc, hk₀⟩ := hstart δ hδ
  set t : ℝ := ε / (8 * (C * c + 1)) with htdef
  have ht : 0 < t := by positivity
  have ht2 : 2 * C * (c * t) ≤ ε / 4 := by
    have : t * (8 * (C * c + 1)) = ε := by rw [htdef]; field_simp
    nlinarith
  obtain ⟨n₀, hn₀⟩ := chainMean_mixing hinv hmin hg hC h0 ht
  set A : ℝ := C ^ 2 + 2 * C * (c * (n₀ * C)) + k₀ * (C ^ 2 + 2 * C ^ 2) with hA
  have hA0 : 0 ≤ A := by positivity
  refine ⟨max 1 (2 * A / ε), fun z hz l hl hN => ?_⟩
  set N := totalWeight l with hNdef
  have hN1 : 1 ≤ N := (le_max_left _ _).trans hN
  have hN2 : 2 * A ≤ ε * N := by
    have := (le_max_right _ _).trans hN
    rw [div_le_iff₀ hε] at this
    linarith
  have key := weightedSq_bound (P := P) (π := π) hg hC ht.le hn₀ hc hδ.le (hk₀ z hz) l hl le_rfl []
  rw [← hNdef] at key
  have e0 : chainMean P (weightedSq P g l) [] z = weightedSq P g l z := rfl
  rw [e0, List.length_nil, Nat.sub_zero] at key
  refine key.trans ?_
  have hN0 : 0 ≤ N := by linarith
  have b1 : N * (2 * C * (c * (t * N))) ≤ ε / 4 * N ^ 2 := by
    have := mul_le_mul_of_nonneg_right ht2 (sq_nonneg N)
    calc _ = 2 * C * (c * t) * N ^ 2 := by ring
      _ ≤ _ := this
  have b2 : N * (2 * C * (δ * (N * C))) ≤ ε / 4 * N ^ 2 := by
    have := mul_le_mul_of_nonneg_right hδ2 (sq_nonneg N)
    calc _ = 2 * C * (δ * C) * N ^ 2 := by ring
      _ ≤ _ := this
  have b3 : N * (C ^ 2 + 2 * C * (c * (n₀ * C))) + k₀ * (C ^ 2 + 2 * C * (N * C)) ≤ A * N := by
    have : (k₀ : ℝ) * C ^ 2 ≤ k₀ * C ^ 2 * N := le_mul_of_one_le_right (by positivity) hN1
    rw [hA]
    nlinarith
  have b4 : A * N ≤ ε / 2 * N ^ 2 := by nlinarith
  calc N * (C ^ 2 + 2 * C * (c * (n₀ * C + t * N) + δ * (N * C))) + k₀ * (C ^ 2 + 2 * C * (N * C))
      = (N * (C ^ 2 + 2 * C * (c * (n₀ * C))) + k₀ * (C ^ 2 + 2 * C * (N * C))) + N * (2 * C * (c * (t * N))) +
        N * (2 * C * (δ * (N * C))) := by ring
    _ ≤ ε / 2 * N ^ 2 + ε / 4 * N ^ 2 + ε / 4 * N ^ 2 := add_le_add (add_le_add (b3.trans b4) b1) b2
    _ = ε * N ^ 2 := by ring

/-- The states of a chain which eventually moves, and moves to a distribution of (up to a small probability) bounded
density, have (up to a small probability) bounded density. -/
theorem chain_density (hinv : ∀ θ, P θ ∘ₘ π = π) (mv : Θ → α → Measure α) (stay : Θ → α → ENNReal) (R : α → α)
    (hP : ∀ θ z, P θ z = mv θ z + stay θ z • Measure.dirac (R z)) {Z : Set α} (hR : ∀ z ∈ Z, R z ∈ Z)
    {ε : ℝ} (hε : 0 < ε) (hstay : ∀ θ, ∀ z ∈ Z, stay θ z ≤ ENNReal.ofReal (1 - ε))
    (hmv : ∀ δ : ℝ, 0 < δ → ∃ c : ℝ, 0 ≤ c ∧ ∀ θ, ∀ z ∈ Z, ∃ η : Measure α, η Set.univ ≤ ENNReal.ofReal δ ∧
      mv θ z ≤ ENNReal.ofReal c • π + η) {δ : ℝ} (hδ : 0 < δ) :
    ∃ (k₀ : ℕ) (c : ℝ), 0 ≤ c ∧ ∀ z ∈ Z, ∀ l : List Θ, k₀ ≤ l.length →
      ∀ (φ : α → ℝ) (B : ℝ), Measurable φ → (∀ y, 0 ≤ φ y ∧ φ y ≤ B) →
        chainMean P φ l z ≤ c * ∫ y, φ y ∂π + δ * B := by
  set r : ℝ := max (1 - ε) 0 with hr
  have hr0 : 0 ≤ r := le_max_right _ _
  have hr1 : r < 1 := max_lt (by linarith) one_pos
  obtain ⟨k₀, hk₀⟩ := (((tendsto_pow_atTop_nhds_zero_of_lt_one hr0 hr1).eventually
    (ge_mem_nhds (half_pos hδ))).exists)
  set δ' : ℝ := δ / (2 * (k₀ + 1)) with hδ'
  have hδ'0 : 0 < δ' := by positivity
  obtain ⟨c, hc, hcm⟩ := hmv δ' hδ'0
  -- one step
  have step : ∀ θ, ∀ z ∈ Z, ∀ (ψ : α → ℝ) (B : ℝ), Measurable ψ → (∀ y, 0 ≤ ψ y ∧ ψ y ≤ B) →
      stepMean (P θ) ψ z ≤ c * ∫ y, ψ y ∂π + δ' * B + r * ψ (R z) := by
    intro θ z hz ψ B hψ hB
    have hB0 : 0 ≤ B := (hB z).1.trans (hB z).2
    have hab : ∀ y, |ψ y| ≤ B := fun y => by rw [abs_of_nonneg (hB y).1]; exact (hB y).2
    obtain ⟨η, hη, hle⟩ := hcm θ z hz
    have hηf : IsFiniteMeasure η := ⟨hη.trans_lt ENNReal.ofReal_lt_top⟩
    have hcf : IsFiniteMeasure (ENNReal.ofReal c • π) := by
      refine ⟨?_⟩
      rw [Measure.smul_apply, measure_univ, smul_eq_mul, mul_one]
      exact ENNReal.ofReal_lt_top
    have hmf : IsFiniteMeasure (mv θ z) := isFiniteMeasure_of_le _ hle
    have hst := (hstay θ z hz).trans (ENNReal.ofReal_le_ofReal (le_max_left (1 - ε) 0))
    have hsf : IsFiniteMeasure (stay θ z • Measure.dirac (R z)) := by
      refine ⟨?_⟩
      rw [Measure.smul_apply, measure_univ, smul_eq_mul, mul_one]
      exact hst.trans_lt ENNReal.ofReal_lt_top
    have i := fun (μ : Measure α) (_ : IsFiniteMeasure μ) => bounded_integrable hψ hab μ
    unfold stepMean
    rw [hP, integral_add_measure (i _ hmf) (i _ hsf), integral_smul_measure, integral_dirac' _ _ hψ.stronglyMeasurable]
    have h1 : ∫ y, ψ y ∂mv θ z ≤ ∫ y, ψ y ∂(ENNReal.ofReal c • π + η) :=
      integral_mono_measure hle (Eventually.of_forall fun y => (hB y).1) (i _ inferInstance)
    rw [integral_add_measure (i _ hcf) (i _ hηf), integral_smul_measure, ENNReal.toReal_ofReal hc, smul_eq_mul] at h1
    have h2 : ∫ y, ψ y ∂η ≤ δ' * B := by
      have h3 := integral_mono (μ := η) (i _ hηf) (integrable_const B) fun y => (hB y).2
      rw [integral_const, smul_eq_mul] at h3
      refine h3.trans (mul_le_mul_of_nonneg_right ?_ hB0)
      exact ENNReal.toReal_le_of_le_ofReal hδ'0.le hη
    have h4 : (stay θ z).toReal • ψ (R z) ≤ r * ψ (R z) :=
      mul_le_mul_of_nonneg_right (ENNReal.toReal_le_of_le_ofReal hr0 hst) (hB _).1
    linarith
  -- several steps
  have steps : ∀ (l : List Θ), ∀ z ∈ Z, ∀ (ψ : α → ℝ) (B : ℝ), Measurable ψ → (∀ y, 0 ≤ ψ y ∧ ψ y ≤ B) →
      chainMean P ψ l z ≤ l.length * (c * ∫ y, ψ y ∂π + δ' * B) + r ^ l.length * B := by
    intro l
    induction l with
    | nil => intro z _ ψ B _ hB; simpa [chainMean] using (hB z).2
    | cons θ l ih =>
      intro z hz ψ B hψ hB
      have hab : ∀ y, |ψ y| ≤ B := fun y => by rw [abs_of_nonneg (hB y).1]; exact (hB y).2
      have hm := chainMean_measurable (P := P) hψ l
      have hb : ∀ y, 0 ≤ chainMean P ψ l y ∧ chainMean P ψ l y ≤ B := fun y =>
        ⟨chainMean_nonneg (fun y => (hB y).1) l y, (le_abs_self _).trans (chainMean_le hab l y)⟩
      have h1 := step θ z hz (chainMean P ψ l) B hm hb
      rw [chainMean_integral hinv hψ hab] at h1
      have h2 := ih (R z) (hR z hz) ψ B hψ hB
      show stepMean (P θ) (chainMean P ψ l) z ≤ _
      have hI : 0 ≤ c * ∫ y, ψ y ∂π + δ' * B := by
        have : 0 ≤ ∫ y, ψ y ∂π := integral_nonneg fun y => (hB y).1
        have hB0 : 0 ≤ B := (hB z).1.trans (hB z).2
        positivity
      have h3 := mul_le_mul_of_nonneg_left h2 hr0
      have h4 : r * (l.length * (c * ∫ y, ψ y ∂π + δ' * B)) ≤ l.length * (c * ∫ y, ψ y ∂π + δ' * B) :=
        mul_le_of_le_one_left (by positivity) hr1.le
      rw [List.length_cons]
      push_cast
      calc _ ≤ _ := h1
        _ ≤ (c * ∫ y, ψ y ∂π + δ' * B) + r * (l.length * (c * ∫ y, ψ y ∂π + δ' * B) + r ^ l.length * B) := by linarith
        _ = (c * ∫ y, ψ y ∂π + δ' * B) + r * (l.length * (c * ∫ y, ψ y ∂π + δ' * B)) + r ^ (l.length + 1) * B := by ring
        _ ≤ (c * ∫ y, ψ y ∂π + δ' * B) + l.length * (c * ∫ y, ψ y ∂π + δ' * B) + r ^ (l.length + 1) * B := by linarith
        _ = _ := by ring
  refine ⟨k₀, k₀ * c, by positivity, fun z hz l hl φ B hφ hB => ?_⟩
  have hab : ∀ y, |φ y| ≤ B := fun y => by rw [abs_of_nonneg (hB y).1]; exact (hB y).2
  have hB0 : 0 ≤ B := (hB z).1.trans (hB z).2
  have e : l = l.take k₀ ++ l.drop k₀ := (List.take_append_drop k₀ l).symm
  have hlen : (l.take k₀).length = k₀ := by rw [List.length_take]; omega
  rw [e, chainMean_append]
  have h1 := steps (l.take k₀) z hz (chainMean P φ (l.drop k₀)) B (chainMean_measurable hφ _) fun y =>
    ⟨chainMean_nonneg (fun y => (hB y).1) _ y, (le_abs_self _).trans (chainMean_le hab _ y)⟩
  rw [hlen, chainMean_integral hinv hφ hab] at h1
  refine h1.trans ?_
  have h2 : (k₀ : ℝ) * δ' ≤ δ / 2 := by
    have : δ' * (2 * (k₀ + 1)) = δ := by rw [hδ']; field_simp
    nlinarith
  have h3 := mul_le_mul_of_nonneg_right h2 hB0
  have h4 := mul_le_mul_of_nonneg_right hk₀ hB0
  linarith

end

end JaxSgmc
