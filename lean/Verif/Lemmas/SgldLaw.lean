import Verif.Lemmas.LangevinCoupling
import Verif.Lemmas.Oracle

/-! # The distribution of the samples of SGLD with ideal random numbers -/

namespace JaxSgmc

open MeasureTheory ProbabilityTheory

variable {ι κ δ β μ Ω : Type} [Fintype ι]

/-! ## One update -/

section
variable (P : Prng κ) (lay : Layout ι) (data : δ → δ × β) (d₀ : δ) (sg : StochGradLik ι β μ) (ms : μ) (x₀ : ι → ℝ) (key : κ)

theorem sgldState_snoc (prms : List Params) (p : Params) :
    Spec.sgldState P lay data d₀ sg ms x₀ key (prms ++ [p]) =
      langevinUpdate P lay none data sg (Spec.sgldState P lay data d₀ sg ms x₀ key prms) p := by
  unfold Spec.sgldState
  rw [List.foldl_append, List.foldl_cons, List.foldl_nil]

theorem sgldState_key (prms : List Params) :
    (Spec.sgldState P lay data d₀ sg ms x₀ key prms).key = (fun k => P.split k 2 0)^[prms.length] key := by
  induction prms using List.reverseRecOn with
  | nil => rfl
  | append_singleton prms p ih =>
    rw [sgldState_snoc, List.length_append, List.length_singleton, Function.iterate_succ_apply', ← ih]
    rfl

theorem sgldState_data (prms : List Params) :
    (Spec.sgldState P lay data d₀ sg ms x₀ key prms).dataState = (fun d => (data d).1)^[prms.length] d₀ := by
  induction prms using List.reverseRecOn with
  | nil => rfl
  | append_singleton prms p ih =>
    rw [sgldState_snoc, List.length_append, List.length_singleton, Function.iterate_succ_apply', ← ih]
    rfl

/-- The noise vector of update `n`. -/
def sgldNoise (sp : κ → ℕ → ℕ → κ) (n : ℕ) (i : ι) : ℝ :=
  P.normal (noiseKey (splitPrng sp) key lay.leaves n (lay.leaf i)) (lay.size (lay.leaf i)) (lay.pos i)

/-- The update of a sample. -/
theorem sgldSample_snoc {g : (ι → ℝ) → β → (ι → ℝ)} (hg : ∀ x b m, (sg x b m).2 = g x b) (prms : List Params) (p : Params) :
    Spec.sgldSample P lay data d₀ sg ms x₀ key (prms ++ [p]) =
      Spec.sgldSample P lay data d₀ sg ms x₀ key prms
        - p.stepSize • g (Spec.sgldSample P lay data d₀ sg ms x₀ key prms) (Spec.nthBatch data d₀ prms.length)
        + Real.sqrt (2 * p.temperature * p.stepSize) • sgldNoise P lay key P.split prms.length := by
  have hk := sgldState_key P lay data d₀ sg ms x₀ key prms
  have hd := sgldState_data P lay data d₀ sg ms x₀ key prms
  unfold Spec.sgldSample
  rw [sgldState_snoc]
  generalize Spec.sgldState P lay data d₀ sg ms x₀ key prms = s at *
  have e : (langevinUpdate P lay none data sg s p).latent = vadd s.latent (vadd (vscale (-p.stepSize)
      (sg s.latent (data s.dataState).2 s.modelState).2)
      (vscale (Real.sqrt (2 * p.temperature * p.stepSize)) (randomTree P lay (P.split s.key 2 1)).1)) := rfl
  show (langevinUpdate P lay none data sg s p).latent = _
  rw [e, hg, hk, hd]
  funext i
  simp only [vadd, vscale, Pi.add_apply, Pi.sub_apply, Pi.smul_apply, smul_eq_mul, langevinGet]
  have e1 : (randomTree P lay (P.split ((fun k => P.split k 2 0)^[prms.length] key) 2 1)).1 i =
      sgldNoise P lay key P.split prms.length i := rfl
  have e2 : (data ((fun d => (data d).1)^[prms.length] d₀)).2 = Spec.nthBatch data d₀ prms.length := rfl
  rw [e1, e2]
  ring

end

/-! ## Independence -/

section
variable [MeasurableSpace Ω] [MeasurableSpace β] {prob : Measure Ω} [IsProbabilityMeasure prob]
  {P : Ω → Prng κ} {data : Ω → δ → δ × β} {d₀ : δ} {w : β → ENNReal} {sp : κ → ℕ → ℕ → κ}
  (hR : Spec.IdealRandom prob P data d₀ 1 (fun b => w (b 0)) sp) {lay : Layout ι} (hlay : Spec.Layout.Valid lay) (key : κ)

/-- The keys and mini-batches used in the updates in `T`. -/
def sgldKeys (lay : Layout ι) (sp : κ → ℕ → ℕ → κ) (key : κ) (T : Set ℕ) : Set (κ ⊕ ℕ) :=
  {j | ∃ t ∈ T, ∃ l < lay.leaves, j = .inl (noiseKey (splitPrng sp) key lay.leaves t l)} ∪ Sum.inr '' T

omit [Fintype ι] in
theorem sgldKeys_mono {T T' : Set ℕ} (h : T ⊆ T') : sgldKeys lay sp key T ⊆ sgldKeys lay sp key T' := by
  rintro j (⟨t, ht, hj⟩ | ⟨t, ht, hj⟩)
  · exact Or.inl ⟨t, h ht, hj⟩
  · exact Or.inr ⟨t, h ht, hj⟩

omit [Fintype ι] in
theorem sgldKeys_disjoint (hs : Spec.IdealSplit (splitPrng sp)) {T T' : Set ℕ} (h : Disjoint T T') :
    Disjoint (sgldKeys lay sp key T) (sgldKeys lay sp key T') := by
  rw [Set.disjoint_left]
  rintro j (⟨t, ht, l, hl, rfl⟩ | ⟨t, ht, rfl⟩) (⟨u, hu, l', hl', e⟩ | ⟨u, hu, e⟩)
  · obtain ⟨rfl, -⟩ := noiseKey_inj hs _ hl hl' (Sum.inl.inj e)
    exact Set.disjoint_left.1 h ht hu
  · exact nomatch e
  · exact nomatch e
  · rw [Sum.inr.inj e] at hu
    exact Set.disjoint_left.1 h ht hu

omit [Fintype ι] [MeasurableSpace Ω] in
include hlay in
theorem sgldNoise_measurable {T : Set ℕ} {n : ℕ} (hn : n ∈ T) :
    Measurable[known P data d₀ 1 (sgldKeys lay sp key T)] fun ω => sgldNoise (P ω) lay key sp n := by
  refine @measurable_pi_lambda _ _ _ (known P data d₀ 1 (sgldKeys lay sp key T)) _ _ fun i => ?_
  exact (normal_measurable _ _ _).mono (drawn_le_known (Or.inl ⟨n, hn, _, hlay.leaf_lt i, rfl⟩)) le_rfl

omit [Fintype ι] [MeasurableSpace Ω] in
theorem sgldBatch_measurable {T : Set ℕ} {n : ℕ} (hn : n ∈ T) :
    Measurable[known P data d₀ 1 (sgldKeys lay sp key T)] fun ω => Spec.nthBatch (data ω) d₀ n := by
  have h1 : Measurable[known P data d₀ 1 (sgldKeys lay sp key T)] fun ω => Spec.updateBatches (data ω) d₀ 1 n :=
    (batch_measurable _).mono (drawn_le_known (Or.inr ⟨n, hn, rfl⟩)) le_rfl
  have h2 := (measurable_pi_apply (0 : Fin 1)).comp h1
  have e : (fun ω => Spec.nthBatch (data ω) d₀ n) = (fun b : Fin 1 → β => b 0) ∘ fun ω => Spec.updateBatches (data ω) d₀ 1 n := by
    funext ω
    simp [Spec.updateBatches]
  rw [e]
  exact h2

include hR hlay in
/-- The entries of the noise vector are independent standard normal numbers. -/
theorem sgldNoise_law (n : ℕ) : prob.map (fun ω => sgldNoise (P ω) lay key sp n) = Spec.normals ι := by
  have hs := splitPrng_ideal hR
  let X : (l : Fin lay.leaves) → (j : Fin (lay.size l)) → Ω → ℝ := fun l j ω =>
    (P ω).normal (noiseKey (splitPrng sp) key lay.leaves n l) (lay.size l) j
  have mX : ∀ i j, Measurable (X i j) := fun i j =>
    (normal_measurable (data := data) (d₀ := d₀) (L := 1) _ _ _).mono (hR.measurable _) le_rfl
  let g : Fin lay.leaves → κ ⊕ ℕ := fun l => .inl (noiseKey (splitPrng sp) key lay.leaves n l)
  have hg : Function.Injective g := by
    intro l l' e
    exact Fin.ext (noiseKey_inj hs _ l.2 l'.2 (Sum.inl.inj e)).2
  have h1 : iIndepFun (fun i ω => (X i · ω)) prob := by
    refine iIndep_of_iIndep_of_le (hR.independent.precomp hg) fun i => ?_
    exact Measurable.comap_le (@measurable_pi_lambda _ _ _ (Spec.drawn P data d₀ 1 (g i)) _ _
      fun j => normal_measurable _ _ _)
  have hl : ∀ i j, prob.map (X i j) = gaussianReal 0 1 := by
    intro i j
    have h2 := hR.normal_law (noiseKey (splitPrng sp) key lay.leaves n i) (lay.size i)
    have h3 := congrArg (fun ν => ν.map (fun x : Fin (lay.size i) → ℝ => x j)) h2
    rw [Measure.map_map (measurable_pi_apply j) (measurable_pi_lambda _ (mX i))] at h3
    rw [show X i j = (fun x : Fin (lay.size i) → ℝ => x j) ∘ (fun ω j => X i j ω) from rfl]
    refine h3.trans ?_
    exact (measurePreserving_eval (fun _ : Fin (lay.size i) => gaussianReal 0 1) j).map_eq
  have h2 : ∀ i, iIndepFun (X i) prob := by
    intro i
    rw [iIndepFun_iff_map_fun_eq_pi_map fun j => (mX i j).aemeasurable]
    simp only [hl]
    exact hR.normal_law _ _
  have h3 := iIndepFun_uncurry mX h1 h2
  let e : ι → (i : Fin lay.leaves) × Fin (lay.size i) := fun j =>
    ⟨⟨lay.leaf j, hlay.leaf_lt j⟩, ⟨lay.pos j, hlay.pos_lt j⟩⟩
  have he : Function.Injective e := by
    intro i i' h
    simp only [e, Sigma.mk.injEq, Fin.mk.injEq] at h
    obtain ⟨h5, h6⟩ := h
    have h7 : lay.pos i = lay.pos i' := by
      have : ∀ (m m' a b : ℕ) (ha : a < m) (hb : b < m'), m = m' → HEq (⟨a, ha⟩ : Fin m) (⟨b, hb⟩ : Fin m') → a = b := by
        intro m m' a b ha hb hm h
        subst hm
        exact Fin.mk.inj (eq_of_heq h)
      exact this _ _ _ _ _ _ (by rw [h5]) h6
    exact hlay.injective _ _ h5 h7
  have h4 := h3.precomp he
  have h5 := (iIndepFun_iff_map_fun_eq_pi_map fun j => (mX (e j).1 (e j).2).aemeasurable).1 h4
  simp only [hl] at h5
  exact h5

include hR in
omit [IsProbabilityMeasure prob] in
theorem sgldBatch_law [Countable β] [MeasurableSingletonClass β] (n : ℕ) :
    prob.map (fun ω => Spec.nthBatch (data ω) d₀ n) = batchLaw w := by
  have h1 := runBatch_law hR n
  have hm : Measurable fun ω => Spec.updateBatches (data ω) d₀ 1 n :=
    (batch_measurable (P := P) n).mono (hR.measurable _) le_rfl
  have e : (fun ω => Spec.nthBatch (data ω) d₀ n) = (fun b : Fin 1 → β => b 0) ∘ fun ω => Spec.updateBatches (data ω) d₀ 1 n := by
    funext ω
    simp [Spec.updateBatches]
  rw [e, ← Measure.map_map (measurable_pi_apply 0) hm, h1]
  refine Measure.ext_of_singleton fun b => ?_
  have hs : (fun b : Fin 1 → β => b 0) ⁻¹' {b} = {fun _ => b} := by
    ext c
    simp only [Set.mem_preimage, Set.mem_singleton_iff]
    constructor
    · intro h; funext i; rw [← h]; congr 1; exact Subsingleton.elim _ _
    · rintro rfl; rfl
  rw [Measure.map_apply (measurable_pi_apply 0) (measurableSet_singleton b), hs, batchLaw,
    Measure.sum_apply _ (measurableSet_singleton _), Measure.sum_apply _ (measurableSet_singleton _),
    tsum_eq_single (fun _ => b), tsum_eq_single b]
  · simp
  · intro b' hb; simp [hb]
  · intro b' hb; simp [hb]

variable {sg : StochGradLik ι β μ} {g : (ι → ℝ) → β → (ι → ℝ)} (hsg : ∀ x b m, (sg x b m).2 = g x b)
  [Countable β] [MeasurableSingletonClass β] (hgm : ∀ b, Measurable fun x => g x b) {ms : μ} {x₀ : ι → ℝ}

omit [Fintype ι] in
include hgm in
theorem sgldMove_measurable (h T : ℝ) : Measurable fun q : (ι → ℝ) × (β × (ι → ℝ)) =>
    q.1 - h • g q.1 q.2.1 + Real.sqrt (2 * T * h) • q.2.2 := by
  have h1 : Measurable fun q : β × (ι → ℝ) => g q.2 q.1 := measurable_from_prod_countable_right fun b => hgm b
  have h2 : Measurable fun q : (ι → ℝ) × (β × (ι → ℝ)) => g q.1 q.2.1 :=
    h1.comp (by fun_prop : Measurable fun q : (ι → ℝ) × (β × (ι → ℝ)) => (q.2.1, q.1))
  have h3 : Measurable fun q : (ι → ℝ) × (β × (ι → ℝ)) => q.2.2 := by fun_prop
  exact (measurable_fst.sub (h2.const_smul h)).add (h3.const_smul (Real.sqrt (2 * T * h)))

include hR hsg in
omit [IsProbabilityMeasure prob] [Countable β] [MeasurableSingletonClass β] in
theorem sgldSample_next (prms : List Params) (p : Params) (ω : Ω) :
    Spec.sgldSample (P ω) lay (data ω) d₀ sg ms x₀ key (prms ++ [p]) =
      (fun q : (ι → ℝ) × (β × (ι → ℝ)) => q.1 - p.stepSize • g q.1 q.2.1 + Real.sqrt (2 * p.temperature * p.stepSize) • q.2.2)
        (Spec.sgldSample (P ω) lay (data ω) d₀ sg ms x₀ key prms, Spec.nthBatch (data ω) d₀ prms.length,
          sgldNoise (P ω) lay key sp prms.length) := by
  rw [sgldSample_snoc (hg := hsg), hR.split_eq ω]

include hR hlay hsg hgm in
/-- The sample is determined by the numbers drawn so far. -/
theorem sgldSample_known (prms : List Params) :
    Measurable[known P data d₀ 1 (sgldKeys lay sp key (Set.Iio prms.length))] fun ω =>
      Spec.sgldSample (P ω) lay (data ω) d₀ sg ms x₀ key prms := by
  induction prms using List.reverseRecOn with
  | nil => exact @measurable_const _ _ _ (known P data d₀ 1 _) x₀
  | append_singleton prms p ih =>
    have hl : (prms ++ [p]).length = prms.length + 1 := by simp
    simp only [sgldSample_next hR key hsg]
    have h1 := ih.mono (known_mono (sgldKeys_mono key (Set.Iio_subset_Iio (by omega : prms.length ≤ (prms ++ [p]).length)))) le_rfl
    have hn : prms.length ∈ Set.Iio (prms ++ [p]).length := by rw [Set.mem_Iio]; omega
    have h2 := sgldBatch_measurable (P := P) (data := data) (d₀ := d₀) (lay := lay) (sp := sp) key hn
    have h3 := sgldNoise_measurable (P := P) (data := data) (d₀ := d₀) (sp := sp) hlay key hn
    exact (sgldMove_measurable hgm p.stepSize p.temperature).comp (h1.prodMk (h2.prodMk h3))

include hR hlay hsg hgm in
/-- The law of the next sample. -/
theorem sgldSample_law_next (prms : List Params) (p : Params) :
    prob.map (fun ω => Spec.sgldSample (P ω) lay (data ω) d₀ sg ms x₀ key (prms ++ [p])) =
      ((prob.map fun ω => Spec.sgldSample (P ω) lay (data ω) d₀ sg ms x₀ key prms).prod ((batchLaw w).prod (Spec.normals ι))).map
        fun q => q.1 - p.stepSize • g q.1 q.2.1 + Real.sqrt (2 * p.temperature * p.stepSize) • q.2.2 := by
  have hs := splitPrng_ideal hR
  have hX := sgldSample_known hR hlay key hsg hgm (ms := ms) (x₀ := x₀) prms
  have hB := sgldBatch_measurable (P := P) (data := data) (d₀ := d₀) (lay := lay) (sp := sp) key (Set.mem_singleton prms.length)
  have hN := sgldNoise_measurable (P := P) (data := data) (d₀ := d₀) (sp := sp) hlay key (Set.mem_singleton prms.length)
  have hdis : Disjoint (Set.Iio prms.length) {prms.length} := by simp
  have i1 := known_indepFun hR (sgldKeys_disjoint key hs hdis (lay := lay)) hX (hB.prodMk hN)
  have hB' : Measurable[known P data d₀ 1 (Sum.inr '' {prms.length})] fun ω => Spec.nthBatch (data ω) d₀ prms.length := by
    have h1 := runBatch_measurable (P := P) (data := data) (d₀ := d₀) (L := 1) (Set.mem_singleton prms.length) subset_rfl
    have h2 := (measurable_pi_apply (0 : Fin 1)).comp h1
    have e : (fun ω => Spec.nthBatch (data ω) d₀ prms.length) =
        (fun b : Fin 1 → β => b 0) ∘ fun ω => Spec.updateBatches (data ω) d₀ 1 prms.length := by
      funext ω
      simp [Spec.updateBatches]
    rw [e]
    exact h2
  have hN' : Measurable[known P data d₀ 1 {j | ∃ l < lay.leaves, j = .inl (noiseKey (splitPrng sp) key lay.leaves prms.length l)}]
      fun ω => sgldNoise (P ω) lay key sp prms.length := by
    refine @measurable_pi_lambda _ _ _ (known P data d₀ 1 _) _ _ fun i => ?_
    exact (normal_measurable _ _ _).mono (drawn_le_known ⟨_, hlay.leaf_lt i, rfl⟩) le_rfl
  have i2 := known_indepFun hR (S := Sum.inr '' {prms.length})
    (T := {j | ∃ l < lay.leaves, j = .inl (noiseKey (splitPrng sp) key lay.leaves prms.length l)}) (by
      rw [Set.disjoint_left]
      rintro j ⟨t, ht, rfl⟩ ⟨l, hl, e⟩
      exact nomatch e) hB' hN'
  have mX := hX.mono (known_le hR _) le_rfl
  have mB := hB.mono (known_le hR _) le_rfl
  have mN := hN.mono (known_le hR _) le_rfl
  have e1 := i1.map_prod_eq_prod_map_map mX.aemeasurable (mB.prodMk mN).aemeasurable
  have e2 := i2.map_prod_eq_prod_map_map mB.aemeasurable mN.aemeasurable
  rw [sgldBatch_law hR, sgldNoise_law hR hlay] at e2
  rw [e2] at e1
  rw [← e1, Measure.map_map (sgldMove_measurable hgm p.stepSize p.temperature) (mX.prodMk (mB.prodMk mN))]
  simp only [sgldSample_next hR key hsg]
  rfl

end

end JaxSgmc
