import Verif.Spec.Oracle
import Mathlib.Probability.Independence.InfinitePi

/-!
# Lemmas: independence of the numbers drawn in a run
-/

namespace JaxSgmc

open MeasureTheory ProbabilityTheory

variable {ι κ δ β Ω : Type}

/-! ## Keys -/

section
variable {P : Prng κ} (hP : Spec.IdealSplit P)

theorem derived_iterate (P : Prng κ) (k : κ) (t : ℕ) : Spec.Derived P k ((fun k => P.split k 2 0)^[t] k) := by
  induction t with
  | zero => exact Relation.ReflTransGen.refl
  | succ t ih =>
    rw [Function.iterate_succ_apply']
    exact ih.tail ⟨2, 0, by norm_num, rfl⟩

theorem derived_split (P : Prng κ) (k : κ) {n i : ℕ} (h : i < n) : Spec.Derived P k (P.split k n i) :=
  Relation.ReflTransGen.single ⟨n, i, h, rfl⟩

/-- The key of leaf `l` of the noise vector `t` of a chain of splits starting at `k`. -/
def noiseKey (P : Prng κ) (k : κ) (n t l : ℕ) : κ := P.split (P.split ((fun k => P.split k 2 0)^[t] k) 2 1) n l

theorem noiseKey_derived (P : Prng κ) (k : κ) {n t l : ℕ} (hl : l < n) : Spec.Derived P k (noiseKey P k n t l) :=
  ((derived_iterate P k t).trans (derived_split P _ (by norm_num))).trans (derived_split P _ hl)

theorem noiseKey_later (P : Prng κ) (k : κ) {n t t' l : ℕ} (h : t < t') (hl : l < n) :
    Spec.Derived P (P.split ((fun k => P.split k 2 0)^[t] k) 2 0) (noiseKey P k n t' l) := by
  obtain ⟨d, rfl⟩ := Nat.exists_eq_add_of_lt h
  have e : noiseKey P k n (t + d + 1) l =
      noiseKey P (P.split ((fun k => P.split k 2 0)^[t] k) 2 0) n d l := by
    unfold noiseKey
    rw [show t + d + 1 = d + (t + 1) by ring, Function.iterate_add_apply, Function.iterate_succ_apply']
  rw [e]
  exact noiseKey_derived P _ hl

include hP in
theorem noiseKey_lt_ne (k : κ) {n t t' l l' : ℕ} (h : t < t') (hl : l < n) (hl' : l' < n) :
    noiseKey P k n t l ≠ noiseKey P k n t' l' := by
  intro e
  have h1 := noiseKey_later P k h hl'
  rw [← e] at h1
  exact hP ((fun k => P.split k 2 0)^[t] k) 2 0 1 (by norm_num) (by norm_num) (by norm_num) _
    ⟨h1, derived_split P _ hl⟩

include hP in
theorem noiseKey_inj (k : κ) {n t t' l l' : ℕ} (hl : l < n) (hl' : l' < n)
    (e : noiseKey P k n t l = noiseKey P k n t' l') : t = t' ∧ l = l' := by
  rcases lt_trichotomy t t' with h | rfl | h
  · exact absurd e (noiseKey_lt_ne hP k h hl hl')
  · refine ⟨rfl, ?_⟩
    by_contra hne
    refine hP (P.split ((fun k => P.split k 2 0)^[t] k) 2 1) n l l' hl hl' hne (noiseKey P k n t l)
      ⟨Relation.ReflTransGen.refl, ?_⟩
    rw [e]
    exact Relation.ReflTransGen.refl
  · exact absurd e.symm (noiseKey_lt_ne hP k h hl' hl)

/-- The key of the uniform number of update `n` of a chain of splits starting at `k`. -/
def unifKey (P : Prng κ) (k : κ) (n : ℕ) : κ := P.split ((fun k => P.split k 2 0)^[n] k) 2 1

theorem unifKey_derived (P : Prng κ) (k : κ) (n : ℕ) : Spec.Derived P k (unifKey P k n) :=
  (derived_iterate P k n).trans (derived_split P _ (by norm_num))

include hP in
theorem unifKey_lt_ne (k : κ) {n n' : ℕ} (h : n < n') : unifKey P k n ≠ unifKey P k n' := by
  intro e
  obtain ⟨d, rfl⟩ := Nat.exists_eq_add_of_lt h
  have e' : unifKey P k (n + d + 1) = unifKey P (P.split ((fun k => P.split k 2 0)^[n] k) 2 0) d := by
    unfold unifKey
    rw [show n + d + 1 = d + (n + 1) by ring, Function.iterate_add_apply, Function.iterate_succ_apply']
  have h1 := unifKey_derived P (P.split ((fun k => P.split k 2 0)^[n] k) 2 0) d
  rw [← e', ← e] at h1
  exact hP ((fun k => P.split k 2 0)^[n] k) 2 0 1 (by norm_num) (by norm_num) (by norm_num) _
    ⟨h1, Relation.ReflTransGen.refl⟩

include hP in
theorem unifKey_inj (k : κ) {n n' : ℕ} (e : unifKey P k n = unifKey P k n') : n = n' := by
  rcases lt_trichotomy n n' with h | h | h
  · exact absurd e (unifKey_lt_ne hP k h)
  · exact h
  · exact absurd e.symm (unifKey_lt_ne hP k h)

include hP in
theorem noiseKey_ne_unifKey (k : κ) {n t l m : ℕ} (hl : l < n) :
    noiseKey P (P.split k 2 0) n t l ≠ unifKey P (P.split k 2 1) m := by
  intro e
  refine hP k 2 0 1 (by norm_num) (by norm_num) (by norm_num) (noiseKey P (P.split k 2 0) n t l)
    ⟨noiseKey_derived P _ hl, ?_⟩
  rw [e]
  exact unifKey_derived P _ m

end

/-! ## Random numbers of a run -/

/-- The law of batches, noises and uniform number of one update. -/
noncomputable def innovLaw (ι : Type) [Fintype ι] [MeasurableSpace β] (L : ℕ) (w : (Fin L → β) → ENNReal) :
    Measure ((Fin L → β) × (Fin L × ι → ℝ) × ℝ) :=
  (Measure.sum fun b => w b • Measure.dirac b).prod ((Spec.normals (Fin L × ι)).prod Spec.unif)

instance normals_prob (α : Type) [Fintype α] : IsProbabilityMeasure (Spec.normals α) := by
  unfold Spec.normals; infer_instance

instance unif_prob : IsProbabilityMeasure Spec.unif := ⟨by
  unfold Spec.unif
  rw [Measure.restrict_apply_univ, Real.volume_Ico]
  simp⟩

/-- The splitting of keys as a generator (which draws no random numbers). -/
def splitPrng (sp : κ → ℕ → ℕ → κ) : Prng κ := ⟨sp, fun _ _ _ => 0, fun _ => 0⟩

section
variable [MeasurableSpace β] {P : Ω → Prng κ} {data : Ω → δ → δ × β} {d₀ : δ} {L : ℕ}

theorem normal_measurable (k : κ) (n i : ℕ) :
    Measurable[Spec.drawn P data d₀ L (.inl k)] fun ω => (P ω).normal k n i := by
  have h : Measurable[Spec.drawn P data d₀ L (.inl k)] fun ω => ((P ω).normal k, (P ω).uniform k) :=
    comap_measurable _
  exact (measurable_pi_apply i).comp ((measurable_pi_apply n).comp (measurable_fst.comp h))

theorem uniform_measurable (k : κ) : Measurable[Spec.drawn P data d₀ L (.inl k)] fun ω => (P ω).uniform k := by
  have h : Measurable[Spec.drawn P data d₀ L (.inl k)] fun ω => ((P ω).normal k, (P ω).uniform k) :=
    comap_measurable _
  exact measurable_snd.comp h

theorem batch_measurable (n : ℕ) :
    Measurable[Spec.drawn P data d₀ L (.inr n)] fun ω => Spec.updateBatches (data ω) d₀ L n := comap_measurable _

/-- What can be known from the draws of a set. -/
@[instance_reducible]
def known (P : Ω → Prng κ) (data : Ω → δ → δ × β) (d₀ : δ) (L : ℕ) (S : Set (κ ⊕ ℕ)) : MeasurableSpace Ω :=
  ⨆ j ∈ S, Spec.drawn P data d₀ L j

theorem drawn_le_known {S : Set (κ ⊕ ℕ)} {j : κ ⊕ ℕ} (h : j ∈ S) :
    Spec.drawn P data d₀ L j ≤ known P data d₀ L S := le_iSup₂_of_le j h le_rfl

theorem known_mono {S S' : Set (κ ⊕ ℕ)} (h : S ⊆ S') : known P data d₀ L S ≤ known P data d₀ L S' :=
  biSup_mono h

/-- The noise vector `t` of a run which starts with `key`. -/
def runNoise (lay : Layout ι) (sp : κ → ℕ → ℕ → κ) (key : κ) (t : ℕ) (P : Prng κ) (i : ι) : ℝ :=
  P.normal (noiseKey (splitPrng sp) (sp key 2 0) lay.leaves t (lay.leaf i)) (lay.size (lay.leaf i)) (lay.pos i)

/-- The uniform number of update `n` of a run which starts with `key`. -/
def runUnif (sp : κ → ℕ → ℕ → κ) (key : κ) (n : ℕ) (P : Prng κ) : ℝ :=
  P.uniform (unifKey (splitPrng sp) (sp key 2 1) n)

/-- The random numbers of update `n`. -/
def runInnov (lay : Layout ι) (sp : κ → ℕ → ℕ → κ) (key : κ) (d₀ : δ) (L n : ℕ) (P : Prng κ) (data : δ → δ × β) :
    (Fin L → β) × (Fin L × ι → ℝ) × ℝ :=
  (Spec.updateBatches data d₀ L n, (fun j => runNoise lay sp key (1 + n * L + j.1) P j.2), runUnif sp key n P)

/-- The keys of the noise vectors in `T`. -/
def noiseKeys (lay : Layout ι) (sp : κ → ℕ → ℕ → κ) (key : κ) (T : Set ℕ) : Set (κ ⊕ ℕ) :=
  {j | ∃ t ∈ T, ∃ l < lay.leaves, j = .inl (noiseKey (splitPrng sp) (sp key 2 0) lay.leaves t l)}

/-- The keys of the uniform numbers in `T`. -/
def unifKeys (sp : κ → ℕ → ℕ → κ) (key : κ) (T : Set ℕ) : Set (κ ⊕ ℕ) :=
  {j | ∃ t ∈ T, j = .inl (unifKey (splitPrng sp) (sp key 2 1) t)}

/-- All keys and batches used for the noise vectors in `T` and the updates in `T'`. -/
def usedKeys (lay : Layout ι) (sp : κ → ℕ → ℕ → κ) (key : κ) (T T' : Set ℕ) : Set (κ ⊕ ℕ) :=
  noiseKeys lay sp key T ∪ (unifKeys sp key T' ∪ Sum.inr '' T')

variable {lay : Layout ι} {sp : κ → ℕ → ℕ → κ} {key : κ}

theorem usedKeys_mono {T T' U U' : Set ℕ} (h : T ⊆ U) (h' : T' ⊆ U') :
    usedKeys lay sp key T T' ⊆ usedKeys lay sp key U U' := by
  rintro j (⟨t, ht, hj⟩ | ⟨t, ht, hj⟩ | ⟨t, ht, hj⟩)
  · exact Or.inl ⟨t, h ht, hj⟩
  · exact Or.inr (Or.inl ⟨t, h' ht, hj⟩)
  · exact Or.inr (Or.inr ⟨t, h' ht, hj⟩)

theorem noiseKeys_disjoint (hs : Spec.IdealSplit (splitPrng sp)) {T U : Set ℕ} (h : Disjoint T U) :
    Disjoint (noiseKeys lay sp key T) (noiseKeys lay sp key U) := by
  rw [Set.disjoint_left]
  rintro j ⟨t, ht, l, hl, rfl⟩ ⟨u, hu, l', hl', e⟩
  obtain ⟨rfl, -⟩ := noiseKey_inj hs _ hl hl' (Sum.inl.inj e)
  exact Set.disjoint_left.1 h ht hu

theorem unifKeys_disjoint (hs : Spec.IdealSplit (splitPrng sp)) {T U : Set ℕ} (h : Disjoint T U) :
    Disjoint (unifKeys sp key T) (unifKeys sp key U) := by
  rw [Set.disjoint_left]
  rintro j ⟨t, ht, rfl⟩ ⟨u, hu, e⟩
  obtain rfl := unifKey_inj hs _ (Sum.inl.inj e)
  exact Set.disjoint_left.1 h ht hu

theorem noiseKeys_unifKeys (hs : Spec.IdealSplit (splitPrng sp)) (T U : Set ℕ) :
    Disjoint (noiseKeys lay sp key T) (unifKeys sp key U) := by
  rw [Set.disjoint_left]
  rintro j ⟨t, ht, l, hl, rfl⟩ ⟨u, hu, e⟩
  exact noiseKey_ne_unifKey hs key hl (Sum.inl.inj e)

theorem inl_inr_disjoint (T : Set ℕ) : Disjoint (noiseKeys lay sp key T) (Sum.inr '' U) ∧
    Disjoint (unifKeys sp key T) (Sum.inr '' U) := by
  constructor <;> rw [Set.disjoint_left]
  · rintro j ⟨t, ht, l, hl, rfl⟩ ⟨u, hu, e⟩
    exact nomatch e
  · rintro j ⟨t, ht, rfl⟩ ⟨u, hu, e⟩
    exact nomatch e

theorem usedKeys_disjoint (hs : Spec.IdealSplit (splitPrng sp)) {T T' U U' : Set ℕ} (h : Disjoint T U)
    (h' : Disjoint T' U') : Disjoint (usedKeys lay sp key T T') (usedKeys lay sp key U U') := by
  unfold usedKeys
  simp only [Set.disjoint_union_left, Set.disjoint_union_right]
  refine ⟨⟨noiseKeys_disjoint hs h, ?_, ?_⟩, ⟨?_, unifKeys_disjoint hs h', ?_⟩, ?_, ?_, ?_⟩
  · exact (noiseKeys_unifKeys hs U T').symm
  · exact (inl_inr_disjoint (lay := lay) U).1.symm
  · exact noiseKeys_unifKeys hs T U'
  · exact (inl_inr_disjoint (lay := lay) U').2.symm
  · exact (inl_inr_disjoint (lay := lay) T).1
  · exact (inl_inr_disjoint (lay := lay) T').2
  · exact (Set.disjoint_image_iff Sum.inr_injective).2 h'

theorem runNoise_measurable (hlay : Spec.Layout.Valid lay) {T : Set ℕ} {t : ℕ} (ht : t ∈ T) {S : Set (κ ⊕ ℕ)}
    (hS : noiseKeys lay sp key T ⊆ S) :
    Measurable[known P data d₀ L S] fun ω => runNoise lay sp key t (P ω) := by
  refine @measurable_pi_lambda _ _ _ (known P data d₀ L S) _ _ fun i => ?_
  exact (normal_measurable _ _ _).mono (drawn_le_known (hS ⟨t, ht, _, hlay.leaf_lt i, rfl⟩)) le_rfl

theorem runUnif_measurable {T : Set ℕ} {t : ℕ} (ht : t ∈ T) {S : Set (κ ⊕ ℕ)} (hS : unifKeys sp key T ⊆ S) :
    Measurable[known P data d₀ L S] fun ω => runUnif sp key t (P ω) :=
  (uniform_measurable _).mono (drawn_le_known (hS ⟨t, ht, rfl⟩)) le_rfl

theorem runBatch_measurable {T : Set ℕ} {t : ℕ} (ht : t ∈ T) {S : Set (κ ⊕ ℕ)} (hS : Sum.inr '' T ⊆ S) :
    Measurable[known P data d₀ L S] fun ω => Spec.updateBatches (data ω) d₀ L t :=
  (batch_measurable _).mono (drawn_le_known (hS ⟨t, ht, rfl⟩)) le_rfl

theorem runInnov_measurable (hlay : Spec.Layout.Valid lay) {T T' : Set ℕ} {n : ℕ}
    (hT : ∀ j < L, 1 + n * L + j ∈ T) (hn : n ∈ T') :
    Measurable[known P data d₀ L (usedKeys lay sp key T T')]
      fun ω => runInnov lay sp key d₀ L n (P ω) (data ω) := by
  have h1 : Measurable[known P data d₀ L (usedKeys lay sp key T T')] fun ω => Spec.updateBatches (data ω) d₀ L n :=
    runBatch_measurable hn (Set.subset_union_right.trans Set.subset_union_right)
  have h2 : Measurable[known P data d₀ L (usedKeys lay sp key T T')] fun ω (j : Fin L × ι) =>
      runNoise lay sp key (1 + n * L + j.1) (P ω) j.2 := by
    refine @measurable_pi_lambda _ _ _ (known P data d₀ L (usedKeys lay sp key T T')) _ _ fun j => ?_
    exact (measurable_pi_apply j.2).comp
      (runNoise_measurable hlay (hT j.1 j.1.2) Set.subset_union_left)
  have h3 : Measurable[known P data d₀ L (usedKeys lay sp key T T')] fun ω => runUnif sp key n (P ω) :=
    runUnif_measurable hn (Set.subset_union_left.trans Set.subset_union_right)
  exact h1.prodMk (h2.prodMk h3)

end

section
variable [MeasurableSpace Ω] [MeasurableSpace β] {prob : Measure Ω} [IsProbabilityMeasure prob]
  {P : Ω → Prng κ} {data : Ω → δ → δ × β} {d₀ : δ} {L : ℕ} {w : (Fin L → β) → ENNReal} {sp : κ → ℕ → ℕ → κ}
  (hR : Spec.IdealRandom prob P data d₀ L w sp) {lay : Layout ι} (hlay : Spec.Layout.Valid lay) (key : κ)

include hR in
omit [IsProbabilityMeasure prob] in
theorem known_le (S : Set (κ ⊕ ℕ)) : known P data d₀ L S ≤ (inferInstance : MeasurableSpace Ω) :=
  iSup₂_le fun j _ => hR.measurable j

include hR in
theorem splitPrng_ideal : Spec.IdealSplit (splitPrng sp) := by
  obtain ⟨ω⟩ : Nonempty Ω := by
    by_contra h
    rw [not_nonempty_iff] at h
    have := measure_univ (μ := prob)
    rw [Set.univ_eq_empty_iff.2 h, measure_empty] at this
    exact zero_ne_one this
  have h1 := hR.ideal ω
  have h2 := hR.split_eq ω
  generalize P ω = Q at h1 h2
  subst h2
  exact h1

include hR in
omit [IsProbabilityMeasure prob] in
theorem known_indep {S T : Set (κ ⊕ ℕ)} (h : Disjoint S T) :
    Indep (known P data d₀ L S) (known P data d₀ L T) prob :=
  indep_iSup_of_disjoint hR.measurable hR.independent h

include hR in
omit [IsProbabilityMeasure prob] in
theorem known_indepFun {S T : Set (κ ⊕ ℕ)} (h : Disjoint S T) {α α' : Type} [MeasurableSpace α] [MeasurableSpace α']
    {f : Ω → α} {g : Ω → α'} (hf : Measurable[known P data d₀ L S] f) (hg : Measurable[known P data d₀ L T] g) :
    IndepFun f g prob :=
  indep_of_indep_of_le (known_indep hR h) hf.comap_le hg.comap_le

include hR hlay in
/-- The entries of the noise vectors are independent standard normal numbers. -/
theorem runNoise_law [Fintype ι] {n : ℕ} (t : Fin n → ℕ) (ht : Function.Injective t) :
    prob.map (fun ω (j : Fin n × ι) => runNoise lay sp key (t j.1) (P ω) j.2) = Spec.normals (Fin n × ι) := by
  have hs := splitPrng_ideal hR
  -- the numbers drawn with the keys of all leaves
  let X : (i : Fin n × Fin lay.leaves) → (j : Fin (lay.size i.2)) → Ω → ℝ := fun i j ω =>
    (P ω).normal (noiseKey (splitPrng sp) (sp key 2 0) lay.leaves (t i.1) i.2) (lay.size i.2) j
  have mX : ∀ i j, Measurable (X i j) := fun i j =>
    (normal_measurable (data := data) (d₀ := d₀) (L := L) _ _ _).mono (hR.measurable _) le_rfl
  let g : Fin n × Fin lay.leaves → κ ⊕ ℕ := fun i =>
    .inl (noiseKey (splitPrng sp) (sp key 2 0) lay.leaves (t i.1) i.2)
  have hg : Function.Injective g := by
    rintro ⟨a, l⟩ ⟨b, l'⟩ e
    obtain ⟨h1, h2⟩ := noiseKey_inj hs _ l.2 l'.2 (Sum.inl.inj e)
    exact Prod.ext (ht h1) (Fin.ext h2)
  have h1 : iIndepFun (fun i ω => (X i · ω)) prob := by
    refine iIndep_of_iIndep_of_le (hR.independent.precomp hg) fun i => ?_
    exact Measurable.comap_le (@measurable_pi_lambda _ _ _ (Spec.drawn P data d₀ L (g i)) _ _
      fun j => normal_measurable _ _ _)
  have hl : ∀ i j, prob.map (X i j) = gaussianReal 0 1 := by
    intro i j
    have h2 := hR.normal_law (noiseKey (splitPrng sp) (sp key 2 0) lay.leaves (t i.1) i.2) (lay.size i.2)
    have h3 := congrArg (fun ν => ν.map (fun x : Fin (lay.size i.2) → ℝ => x j)) h2
    rw [Measure.map_map (measurable_pi_apply j) (measurable_pi_lambda _ (mX i))] at h3
    rw [show X i j = (fun x : Fin (lay.size i.2) → ℝ => x j) ∘ (fun ω j => X i j ω) from rfl]
    refine h3.trans ?_
    exact (measurePreserving_eval (fun _ : Fin (lay.size i.2) => gaussianReal 0 1) j).map_eq
  have h2 : ∀ i, iIndepFun (X i) prob := by
    intro i
    rw [iIndepFun_iff_map_fun_eq_pi_map fun j => (mX i j).aemeasurable]
    simp only [hl]
    exact hR.normal_law _ _
  have h3 := iIndepFun_uncurry mX h1 h2
  let e : Fin n × ι → (i : Fin n × Fin lay.leaves) × Fin (lay.size i.2) := fun j =>
    ⟨(j.1, ⟨lay.leaf j.2, hlay.leaf_lt j.2⟩), ⟨lay.pos j.2, hlay.pos_lt j.2⟩⟩
  have he : Function.Injective e := by
    rintro ⟨a, i⟩ ⟨b, i'⟩ h
    simp only [e, Sigma.mk.injEq, Prod.mk.injEq, Fin.mk.injEq] at h
    obtain ⟨⟨h4, h5⟩, h6⟩ := h
    have h7 : lay.pos i = lay.pos i' := by
      have : ∀ (m m' a b : ℕ) (ha : a < m) (hb : b < m'), m = m' → HEq (⟨a, ha⟩ : Fin m) (⟨b, hb⟩ : Fin m') → a = b := by
        intro m m' a b ha hb hm h
        subst hm
        exact Fin.mk.inj (eq_of_heq h)
      exact this _ _ _ _ _ _ (by rw [h5]) h6
    rw [h4, hlay.injective _ _ h5 h7]
  have h4 := h3.precomp he
  have h5 := (iIndepFun_iff_map_fun_eq_pi_map fun j => (mX (e j).1 (e j).2).aemeasurable).1 h4
  simp only [hl] at h5
  exact h5

include hR in
omit [IsProbabilityMeasure prob] in
theorem runBatch_law [Countable β] [MeasurableSingletonClass β] (n : ℕ) :
    prob.map (fun ω => Spec.updateBatches (data ω) d₀ L n) = Measure.sum fun b => w b • Measure.dirac b := by
  have hm : Measurable fun ω => Spec.updateBatches (data ω) d₀ L n :=
    (batch_measurable (P := P) n).mono (hR.measurable _) le_rfl
  refine Measure.ext_of_singleton fun b => ?_
  rw [Measure.map_apply hm (measurableSet_singleton b), Measure.sum_apply _ (measurableSet_singleton b)]
  rw [show (fun ω => Spec.updateBatches (data ω) d₀ L n) ⁻¹' {b} =
    {ω | Spec.updateBatches (data ω) d₀ L n = b} from rfl, hR.batch_law n b, tsum_eq_single b]
  · simp
  · intro b' hb
    simp [hb]

include hR hlay in
/-- The random numbers of an update have the ideal law. -/
theorem runInnov_law [Fintype ι] [Countable β] [MeasurableSingletonClass β] (n : ℕ) :
    prob.map (fun ω => runInnov lay sp key d₀ L n (P ω) (data ω)) = innovLaw ι L w := by
  have hs := splitPrng_ideal hR
  have k1 : Measurable[known P data d₀ L (Sum.inr '' {n})] fun ω => Spec.updateBatches (data ω) d₀ L n :=
    runBatch_measurable (Set.mem_singleton n) subset_rfl
  have k2 : Measurable[known P data d₀ L (noiseKeys lay sp key Set.univ)] fun ω (j : Fin L × ι) =>
      runNoise lay sp key (1 + n * L + j.1) (P ω) j.2 := by
    refine @measurable_pi_lambda _ _ _ (known P data d₀ L (noiseKeys lay sp key Set.univ)) _ _ fun j => ?_
    exact (measurable_pi_apply j.2).comp (runNoise_measurable hlay (Set.mem_univ _) subset_rfl)
  have k3 : Measurable[known P data d₀ L (unifKeys sp key {n})] fun ω => runUnif sp key n (P ω) :=
    runUnif_measurable (Set.mem_singleton n) subset_rfl
  have m1 := k1.mono (known_le hR _) le_rfl
  have m2 := k2.mono (known_le hR _) le_rfl
  have m3 := k3.mono (known_le hR _) le_rfl
  have i23 := known_indepFun hR (noiseKeys_unifKeys hs _ _) k2 k3
  have k2' := k2.mono (known_mono (Set.subset_union_left (t := unifKeys sp key {n}))) le_rfl
  have k3' := k3.mono (known_mono (Set.subset_union_right (s := noiseKeys lay sp key Set.univ))) le_rfl
  have i1 := known_indepFun hR (Disjoint.symm (Set.disjoint_union_left.2
    ⟨(inl_inr_disjoint (U := {n}) Set.univ).1, (inl_inr_disjoint (lay := lay) (U := {n}) {n}).2⟩)) k1 (k2'.prodMk k3')
  have e1 := i1.map_prod_eq_prod_map_map m1.aemeasurable (m2.prodMk m3).aemeasurable
  have e2 := i23.map_prod_eq_prod_map_map m2.aemeasurable m3.aemeasurable
  unfold runInnov innovLaw
  rw [e1, e2, runBatch_law hR]
  congr 2
  · refine runNoise_law hR hlay key (fun j : Fin L => 1 + n * L + j) fun a b h => Fin.ext ?_
    simpa using h
  · exact hR.uniform_law _

end

end JaxSgmc
