import Verif.Spec.Thinning
import Mathlib.MeasureTheory.Measure.Prod
import Mathlib.Analysis.SpecialFunctions.Integrals.Basic
import Mathlib.MeasureTheory.Constructions.BorelSpace.Order
import Mathlib.Data.List.Sort

/-!
# Exponential races

The waiting times `-log u / p` of independent uniform numbers are exponentially distributed with rate
`p`; the order in which they finish is a weighted drawing without replacement.
-/

namespace JaxSgmc

open MeasureTheory ProbabilityTheory Spec

/-- The numbers `l` finish first, in this order, after the time `t`, all others of `S` later. -/
def Race (r : ℝ → ℝ → Prop) : Finset ℕ → List ℕ → ℝ → (ℕ → ℝ) → Prop
  | S, [], t, z => ∀ j ∈ S, r t (z j)
  | S, i :: l, t, z => r t (z i) ∧ Race r (S.erase i) l (z i) z

theorem race_congr (r : ℝ → ℝ → Prop) (l : List ℕ) (S : Finset ℕ) (t : ℝ) (z z' : ℕ → ℝ)
    (hl : ∀ i ∈ l, z i = z' i) (hS : ∀ i ∈ S, z i = z' i) : Race r S l t z ↔ Race r S l t z' := by
  induction l generalizing S t with
  | nil => 
    simp only [Race]
    exact forall₂_congr fun i hi => by rw [hS i hi]
  | cons i l ih =>
    simp only [Race]
    rw [← hl i (by simp), ih (S.erase i) (z i) (fun j hj => hl j (List.mem_cons_of_mem _ hj))
      (fun j hj => hS j (Finset.mem_of_mem_erase hj))]

theorem race_measurable (r : ℝ → ℝ → Prop) (hr : MeasurableSet {x : ℝ × ℝ | r x.1 x.2}) (l : List ℕ)
    (S : Finset ℕ) : MeasurableSet {x : ℝ × (ℕ → ℝ) | Race r S l x.1 x.2} := by
  induction l generalizing S with
  | nil =>
    simp only [Race]
    have : {x : ℝ × (ℕ → ℝ) | ∀ j ∈ S, r x.1 (x.2 j)} =
        ⋂ j ∈ S, (fun x : ℝ × (ℕ → ℝ) => (x.1, x.2 j)) ⁻¹' {x : ℝ × ℝ | r x.1 x.2} := by
      ext x; simp
    rw [this]
    apply Finset.measurableSet_biInter
    intro j _
    exact (measurable_fst.prodMk ((measurable_pi_apply j).comp measurable_snd)) hr
  | cons i l ih =>
    simp only [Race]
    have h1 : Measurable fun x : ℝ × (ℕ → ℝ) => (x.1, x.2 i) :=
      measurable_fst.prodMk ((measurable_pi_apply i).comp measurable_snd)
    have h2 : Measurable fun x : ℝ × (ℕ → ℝ) => (x.2 i, x.2) :=
      ((measurable_pi_apply i).comp measurable_snd).prodMk measurable_snd
    exact (h1 hr).inter (h2 (ih (S.erase i)))

/-- The waiting time. -/
noncomputable def waiting (p : ℕ → ℝ) (u : ℕ → ℝ) (i : ℕ) : ℝ := -Real.log (u i) / p i

theorem measurable_waiting (p : ℕ → ℝ) : Measurable (waiting p) := by
  apply measurable_pi_lambda
  intro i
  exact ((Real.measurable_log.comp (measurable_pi_apply i)).neg).div_const _

/-- The two relations between successive times. -/
def TimeRel (r : ℝ → ℝ → Prop) : Prop :=
  MeasurableSet {x : ℝ × ℝ | r x.1 x.2} ∧ (∀ a b, a < b → r a b) ∧ ∀ a b, r a b → a ≤ b

theorem timeRel_lt : TimeRel (fun a b => a < b) :=
  ⟨measurableSet_lt measurable_fst measurable_snd, fun _ _ h => h, fun _ _ h => h.le⟩

theorem timeRel_le : TimeRel (fun a b => a ≤ b) :=
  ⟨measurableSet_le measurable_fst measurable_snd, fun _ _ h => h.le, fun _ _ h => h⟩

/-- A power of a uniform number on the event that it is small. -/
theorem lintegral_unif_power (r : ℝ → ℝ → Prop) (hr : TimeRel r) (p a t C : ℝ) (hp : 0 < p)
    (ha : 0 ≤ a) (ht : 0 ≤ t) (hC : 0 ≤ C) :
    ∫⁻ u, Set.indicator {u | r t (-Real.log u / p)}
      (fun u => ENNReal.ofReal (C * Real.exp (-a * (-Real.log u / p)))) u ∂unif =
      ENNReal.ofReal (C * (p / (a + p)) * Real.exp (-(a + p) * t)) := by
  have hq : 0 ≤ a / p := div_nonneg ha hp.le
  set b := Real.exp (-(p * t)) with hb
  have hb0 : 0 < b := Real.exp_pos _
  have hb1 : b ≤ 1 := Real.exp_le_one_iff.2 (by nlinarith)
  have hae : (Set.indicator {u | r t (-Real.log u / p)}
      (fun u => ENNReal.ofReal (C * Real.exp (-a * (-Real.log u / p))))) =ᵐ[unif]
      (Set.indicator (Set.Ioc 0 b) (fun u => ENNReal.ofReal (C * u ^ (a / p)))) := by
    have h0 : ∀ᵐ u ∂(volume : Measure ℝ), u ≠ 0 ∧ u ≠ b := by
      rw [Filter.eventually_and]
      constructor <;> simp [ae_iff]
    filter_upwards [ae_restrict_of_ae h0, ae_restrict_mem measurableSet_Ico] with u hu hu1
    have hu0 : 0 < u := lt_of_le_of_ne hu1.1 (Ne.symm hu.1)
    have hval : C * Real.exp (-a * (-Real.log u / p)) = C * u ^ (a / p) := by
      rw [Real.rpow_def_of_pos hu0]
      congr 2
      field_simp
    have hiff : r t (-Real.log u / p) ↔ u ≤ b := by
      have e1 : ∀ x : ℝ, u < Real.exp x ↔ Real.log u < x := fun x => (Real.log_lt_iff_lt_exp hu0).symm
      constructor
      · intro h
        have h1 := hr.2.2 _ _ h
        rw [le_div_iff₀ hp] at h1
        have h2 : Real.log u ≤ -(p * t) := by nlinarith
        exact (Real.log_le_iff_le_exp hu0).1 h2
      · intro h
        have h1 : u < b := lt_of_le_of_ne h hu.2
        have h2 := (e1 _).1 h1
        apply hr.2.1
        rw [lt_div_iff₀ hp]
        nlinarith
    by_cases h : u ≤ b
    · rw [Set.indicator_of_mem (show u ∈ Set.Ioc 0 b from ⟨hu0, h⟩),
        Set.indicator_of_mem (show u ∈ {u | r t (-Real.log u / p)} from hiff.2 h), hval]
    · rw [Set.indicator_of_notMem (fun h' : u ∈ Set.Ioc 0 b => h h'.2),
        Set.indicator_of_notMem (fun h' : u ∈ {u | r t (-Real.log u / p)} => h (hiff.1 h'))]
  rw [lintegral_congr_ae hae, lintegral_indicator measurableSet_Ioc]
  have hres : unif.restrict (Set.Ioc 0 b) = (volume : Measure ℝ).restrict (Set.Ioc 0 b) := by
    rw [unif, Measure.restrict_restrict measurableSet_Ioc]
    apply Measure.restrict_congr_set
    have h1 : ∀ᵐ u ∂(volume : Measure ℝ), u ≠ 1 := by simp [ae_iff]
    filter_upwards [h1] with u hu
    apply propext
    constructor
    · exact fun h => h.1
    · intro h
      exact ⟨h, h.1.le, lt_of_le_of_ne (h.2.trans hb1) hu⟩
  rw [hres, ← ofReal_integral_eq_lintegral_ofReal]
  · congr 1
    rw [← intervalIntegral.integral_of_le hb0.le, intervalIntegral.integral_const_mul,
      integral_rpow (Or.inl (by linarith)), Real.zero_rpow (by linarith), hb, ← Real.exp_mul]
    have e : -(p * t) * (a / p + 1) = -(a + p) * t := by field_simp
    rw [e]
    have : a + p ≠ 0 := by positivity
    field_simp
    ring
  · have := (intervalIntegral.intervalIntegrable_rpow' (a := 0) (b := b) (r := a / p) (by linarith)).const_mul C
    rwa [intervalIntegrable_iff_integrableOn_Ioc_of_le hb0.le] at this
  · filter_upwards [ae_restrict_mem measurableSet_Ioc] with u hu
    have : 0 < u := hu.1
    simp only [Pi.zero_apply]
    positivity

section
variable {Ω : Type} [MeasurableSpace Ω] {prob : Measure Ω} [IsProbabilityMeasure prob]

omit [IsProbabilityMeasure prob] in
theorem race_event_measurable (r : ℝ → ℝ → Prop) (hr : TimeRel r) (U : ℕ → Ω → ℝ)
    (hU : ∀ i, Measurable (U i)) (p : ℕ → ℝ) (S : Finset ℕ) (l : List ℕ) (t : ℝ) :
    MeasurableSet {ω | Race r S l t (waiting p fun i => U i ω)} := by
  have h1 : Measurable fun ω => (t, waiting p fun i => U i ω) :=
    measurable_const.prodMk ((measurable_waiting p).comp (measurable_pi_lambda _ hU))
  exact h1 (race_measurable r hr.1 l S)

/-- One step of a race: condition on the time of the first. -/
theorem race_split (r : ℝ → ℝ → Prop) (hr : TimeRel r) (U : ℕ → Ω → ℝ) (hind : iIndepFun U prob)
    (hU : ∀ i, Measurable (U i)) (hlaw : ∀ i, prob.map (U i) = unif) (p : ℕ → ℝ) (S : Finset ℕ)
    (i : ℕ) (hi : i ∉ S) (l : List ℕ) (hl : ∀ j ∈ l, j ∈ S) (t : ℝ) :
    prob {ω | r t (waiting p (fun i => U i ω) i) ∧
        Race r S l (waiting p (fun i => U i ω) i) (waiting p fun i => U i ω)} =
      ∫⁻ u, Set.indicator {u | r t (-Real.log u / p i)}
        (fun u => prob {ω | Race r S l (-Real.log u / p i) (waiting p fun i => U i ω)}) u ∂unif := by
  classical
  set ext : (S → ℝ) → ℕ → ℝ := fun y j => if h : j ∈ S then y ⟨j, h⟩ else 0 with hext
  have hextm : Measurable ext := by
    apply measurable_pi_lambda
    intro j
    by_cases h : j ∈ S
    · simp only [hext, h, dite_true]; exact measurable_pi_apply _
    · simp only [hext, h, dite_false]; exact measurable_const
  set Y : Ω → S → ℝ := fun ω j => U j ω with hY
  have hYm : Measurable Y := measurable_pi_lambda _ fun j => hU j
  have hpair : IndepFun (U i) Y prob := by
    have h1 := hind.indepFun_finset {i} S (by simpa using hi) hU
    exact h1.comp (φ := fun x : ({i} : Finset ℕ) → ℝ => x ⟨i, by simp⟩) (ψ := id)
      (measurable_pi_apply (X := fun _ : ({i} : Finset ℕ) => ℝ) _) measurable_id
  have hmap : prob.map (fun ω => (U i ω, Y ω)) = unif.prod (prob.map Y) := by
    rw [(indepFun_iff_map_prod_eq_prod_map_map (hU i).aemeasurable hYm.aemeasurable).1 hpair, hlaw]
  set A : Set (ℝ × (S → ℝ)) := {x | r t (-Real.log x.1 / p i) ∧
    Race r S l (-Real.log x.1 / p i) (waiting p (ext x.2))} with hA
  have hcongr : ∀ ω s, Race r S l s (waiting p fun i => U i ω) ↔
      Race r S l s (waiting p (ext (Y ω))) := by
    intro ω s
    have : ∀ j ∈ S, waiting p (fun i => U i ω) j = waiting p (ext (Y ω)) j := by
      intro j hj
      simp only [waiting, hext, hj, dite_true, hY]
    exact race_congr r l S s _ _ (fun j hj => this j (hl j hj)) this
  have hset : {ω | r t (waiting p (fun i => U i ω) i) ∧
      Race r S l (waiting p (fun i => U i ω) i) (waiting p fun i => U i ω)} =
      (fun ω => (U i ω, Y ω)) ⁻¹' A := by
    ext ω
    simp only [Set.mem_ofPred_eq, hA, Set.mem_preimage]
    exact and_congr Iff.rfl (hcongr ω _)
  have hlogm : Measurable fun u : ℝ => -Real.log u / p i := Real.measurable_log.neg.div_const _
  have hAm : MeasurableSet A := by
    apply MeasurableSet.inter
    · exact (measurable_const.prodMk (hlogm.comp measurable_fst)) hr.1
    · exact ((hlogm.comp measurable_fst).prodMk
        ((measurable_waiting p).comp (hextm.comp measurable_snd))) (race_measurable r hr.1 l S)
  have : IsProbabilityMeasure (prob.map Y) := Measure.isProbabilityMeasure_map hYm.aemeasurable
  rw [hset, ← Measure.map_apply ((hU i).prodMk hYm) hAm, hmap, Measure.prod_apply hAm]
  apply lintegral_congr
  intro u
  by_cases h : r t (-Real.log u / p i)
  · rw [Set.indicator_of_mem (show u ∈ {u | r t (-Real.log u / p i)} from h)]
    rw [Measure.map_apply hYm (measurable_prodMk_left hAm)]
    congr 1
    ext ω
    simp only [Set.mem_preimage, hA, Set.mem_ofPred_eq, h, true_and]
    exact (hcongr ω _).symm
  · rw [Set.indicator_of_notMem (show u ∉ {u | r t (-Real.log u / p i)} from h)]
    have : Prod.mk u ⁻¹' A = ∅ := by
      ext y; simp [hA, h]
    rw [this, measure_empty]

/-- All of `S` finish after `t`. -/
theorem race_nil (r : ℝ → ℝ → Prop) (hr : TimeRel r) (U : ℕ → Ω → ℝ) (hind : iIndepFun U prob)
    (hU : ∀ i, Measurable (U i)) (hlaw : ∀ i, prob.map (U i) = unif) (p : ℕ → ℝ) (S : Finset ℕ)
    (hp : ∀ i ∈ S, 0 < p i) (t : ℝ) (ht : 0 ≤ t) :
    prob {ω | Race r S [] t (waiting p fun i => U i ω)} =
      ENNReal.ofReal (Real.exp (-(∑ i ∈ S, p i) * t)) := by
  classical
  induction S using Finset.induction_on with
  | empty => simp [Race]
  | insert i S hi ih =>
    have hp' : ∀ j ∈ S, 0 < p j := fun j hj => hp j (Finset.mem_insert_of_mem hj)
    have hlogm : Measurable fun u : ℝ => -Real.log u / p i := Real.measurable_log.neg.div_const _
    -- independence of the two events
    have h1 := hind.indepFun_finset {i} S (by simpa using hi) hU
    have hset : {ω | Race r (insert i S) [] t (waiting p fun i => U i ω)} =
        {ω | r t (-Real.log (U i ω) / p i)} ∩ {ω | Race r S [] t (waiting p fun i => U i ω)} := by
      ext ω
      simp [Race, waiting]
    have hm : MeasurableSet {x : S → ℝ | ∀ j : S, r t (-Real.log (x j) / p j)} := by
      have : {x : S → ℝ | ∀ j : S, r t (-Real.log (x j) / p j)} =
          ⋂ j : S, (fun x : S → ℝ => (t, -Real.log (x j) / p j)) ⁻¹' {x : ℝ × ℝ | r x.1 x.2} := by
        ext x; simp
      rw [this]
      apply MeasurableSet.iInter
      intro j
      exact (measurable_const.prodMk
        (((Real.measurable_log.comp (measurable_pi_apply j)).neg).div_const _)) hr.1
    have hm1 : MeasurableSet {u : ℝ | r t (-Real.log u / p i)} :=
      (measurable_const.prodMk hlogm) hr.1
    have h2 : prob ({ω | r t (-Real.log (U i ω) / p i)} ∩
        {ω | Race r S [] t (waiting p fun i => U i ω)}) =
        prob {ω | r t (-Real.log (U i ω) / p i)} *
          prob {ω | Race r S [] t (waiting p fun i => U i ω)} := by
      have h3 : IndepFun (U i) (fun ω (j : S) => U j ω) prob :=
        h1.comp (φ := fun x : ({i} : Finset ℕ) → ℝ => x ⟨i, by simp⟩) (ψ := id)
          (measurable_pi_apply (X := fun _ : ({i} : Finset ℕ) => ℝ) _) measurable_id
      have h4 := h3.measure_inter_preimage_eq_mul _ _ hm1 hm
      have e : (fun ω (j : S) => U j ω) ⁻¹' {x : S → ℝ | ∀ j : S, r t (-Real.log (x j) / p j)} =
          {ω | Race r S [] t (waiting p fun i => U i ω)} := by
        ext ω
        simp [Race, waiting]
      rw [e] at h4
      exact h4
    have h5 : prob {ω | r t (-Real.log (U i ω) / p i)} = ENNReal.ofReal (Real.exp (-(p i) * t)) := by
      have h6 := lintegral_unif_power r hr (p i) 0 t 1 (hp i (Finset.mem_insert_self _ _)) le_rfl ht
        zero_le_one
      have hpi : p i ≠ 0 := (hp i (Finset.mem_insert_self _ _)).ne'
      simp only [neg_zero, zero_mul, Real.exp_zero, mul_one, ENNReal.ofReal_one, zero_add, one_mul,
        div_self hpi] at h6
      rw [← h6, lintegral_indicator hm1, lintegral_const, one_mul, Measure.restrict_apply_univ, ← hlaw i,
        Measure.map_apply (hU i) hm1]
      rfl
    rw [hset, h2, h5, ih hp', ← ENNReal.ofReal_mul (Real.exp_nonneg _), ← Real.exp_add,
      Finset.sum_insert hi]
    congr 2
    ring

theorem drawProb_nonneg (p : ℕ → ℝ) (S : Finset ℕ) (hp : ∀ i ∈ S, 0 < p i) (l : List ℕ) :
    0 ≤ drawProb p S l := by
  induction l generalizing S with
  | nil => exact zero_le_one
  | cons i l ih =>
    simp only [drawProb]
    apply mul_nonneg
    · split
      · rename_i h
        exact div_nonneg (hp i h).le (Finset.sum_nonneg fun j hj => (hp j hj).le)
      · exact le_rfl
    · exact ih _ fun j hj => hp j (Finset.mem_of_mem_erase hj)

/-- **The probability of an order of arrival.** -/
theorem race_prob (r : ℝ → ℝ → Prop) (hr : TimeRel r) (U : ℕ → Ω → ℝ) (hind : iIndepFun U prob)
    (hU : ∀ i, Measurable (U i)) (hlaw : ∀ i, prob.map (U i) = unif) (p : ℕ → ℝ) (S : Finset ℕ)
    (hp : ∀ i ∈ S, 0 < p i) (l : List ℕ) (hl : ∀ i ∈ l, i ∈ S) (hnd : l.Nodup) (t : ℝ) (ht : 0 ≤ t) :
    prob {ω | Race r S l t (waiting p fun i => U i ω)} =
      ENNReal.ofReal (drawProb p S l * Real.exp (-(∑ i ∈ S, p i) * t)) := by
  classical
  induction l generalizing S t with
  | nil => rw [race_nil r hr U hind hU hlaw p S hp t ht, drawProb, one_mul]
  | cons i l ih =>
    have hi : i ∈ S := hl i (by simp)
    have hp' : ∀ j ∈ S.erase i, 0 < p j := fun j hj => hp j (Finset.mem_of_mem_erase hj)
    have hnd' := List.nodup_cons.1 hnd
    have hl' : ∀ j ∈ l, j ∈ S.erase i := fun j hj => Finset.mem_erase.2
      ⟨fun e => hnd'.1 (e ▸ hj), hl j (List.mem_cons_of_mem _ hj)⟩
    have hsum : ∑ j ∈ S, p j = (∑ j ∈ S.erase i, p j) + p i := (Finset.sum_erase_add S p hi).symm
    have ha : 0 ≤ ∑ j ∈ S.erase i, p j := Finset.sum_nonneg fun j hj => (hp' j hj).le
    simp only [Race]
    rw [race_split r hr U hind hU hlaw p (S.erase i) i (by simp) l hl' t]
    have hpow := lintegral_unif_power r hr (p i) (∑ j ∈ S.erase i, p j) t
      (drawProb p (S.erase i) l) (hp i hi) ha ht (drawProb_nonneg p _ hp' l)
    rw [show drawProb p S (i :: l) * Real.exp (-(∑ j ∈ S, p j) * t) =
      drawProb p (S.erase i) l * (p i / (∑ j ∈ S.erase i, p j + p i)) *
        Real.exp (-(∑ j ∈ S.erase i, p j + p i) * t) by
      simp only [drawProb, hi, if_true, hsum]; ring, ← hpow]
    apply lintegral_congr_ae
    filter_upwards [ae_restrict_mem measurableSet_Ico] with u hu
    have hs : 0 ≤ -Real.log u / p i :=
      div_nonneg (neg_nonneg.2 (Real.log_nonpos hu.1 hu.2.le)) (hp i hi).le
    by_cases h : u ∈ {u | r t (-Real.log u / p i)}
    · rw [Set.indicator_of_mem h, Set.indicator_of_mem h, ih (S.erase i) hp' hl' hnd'.2 _ hs]
    · rw [Set.indicator_of_notMem h, Set.indicator_of_notMem h]

end

end JaxSgmc
