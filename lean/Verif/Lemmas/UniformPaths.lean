import Verif.Lemmas.Irreducible

/-!
# Bounds on paths of the reversible leapfrog integrator, uniform over step sizes and mini-batches
-/

namespace JaxSgmc

open MeasureTheory

variable {ι : Type} [Fintype ι]

/-! ## Volumes -/

theorem affine_lintegral {A : (ι → ℝ) →ₗ[ℝ] (ι → ℝ)} (hA : LinearMap.det A ≠ 0) (c : ι → ℝ)
    {H : (ι → ℝ) → ENNReal} (hH : Measurable H) :
    ∫⁻ a, H (c + A a) = ENNReal.ofReal |(LinearMap.det A)⁻¹| * ∫⁻ y, H y := by
  have hAm : Measurable A := (LinearMap.continuous_of_finiteDimensional A).measurable
  have h1 : Measurable fun y => H (c + y) := hH.comp (measurable_const_add c)
  rw [← lintegral_map (μ := (volume : Measure (ι → ℝ))) h1 hAm,
    Measure.map_linearMap_addHaar_eq_smul_addHaar (volume : Measure (ι → ℝ)) hA, lintegral_smul_measure, smul_eq_mul,
    lintegral_add_left_eq_self (μ := (volume : Measure (ι → ℝ))) H c]

/-- The last two steps change volumes by a bounded factor. -/
theorem lastTwo_volume {γ l u : ℝ} (hγ : 0 < γ) (hl : 0 < l) {m : MassMatrix ι} (hm : Spec.MassOk m) :
    ∃ J₀ J₁ : ℝ, 0 < J₀ ∧ 0 < J₁ ∧ ∀ h, l ≤ h → h ≤ u → ∀ (g₁ g₂ : (ι → ℝ) → (ι → ℝ)) (s : (ι → ℝ) × (ι → ℝ))
      (H : (ι → ℝ) × (ι → ℝ) → ENNReal), Measurable H →
      ENNReal.ofReal J₀ * ∫⁻ z, H z ≤ ∫⁻ a, ∫⁻ b, H (lastTwo γ h m g₁ g₂ s a b) ∧
      ∫⁻ a, ∫⁻ b, H (lastTwo γ h m g₁ g₂ s a b) ≤ ENNReal.ofReal J₁ * ∫⁻ z, H z := by
  set Sq : (ι → ℝ) →ₗ[ℝ] (ι → ℝ) :=
    { toFun := m.sqrt.mul, map_add' := m.sqrt.mul_add, map_smul' := m.sqrt.mul_smul } with hSq
  set In : (ι → ℝ) →ₗ[ℝ] (ι → ℝ) :=
    { toFun := m.inv.mul, map_add' := m.inv.mul_add, map_smul' := m.inv.mul_smul } with hIn
  have hSd : LinearMap.det Sq ≠ 0 := massOk_sqrt_det hm
  have hId : LinearMap.det In ≠ 0 := massOk_inv_bij hm
  have hmeas := m.inv.measurable_mul
  -- the factor
  set c : ℝ → ℝ := fun h => 1 / (1 + h * γ) * Real.sqrt (4 * γ * h) with hc
  set d := Module.finrank ℝ (ι → ℝ) with hd
  set J : ℝ → ℝ → ℝ := fun c h => (c ^ d * |LinearMap.det Sq|)⁻¹ * (h ^ d * (|LinearMap.det In| * (c ^ d * |LinearMap.det Sq|)))⁻¹
    with hJ
  have hS0 : 0 < |LinearMap.det Sq| := abs_pos.2 hSd
  have hI0 : 0 < |LinearMap.det In| := abs_pos.2 hId
  have hanti : ∀ c c' h h', 0 < c → 0 < h → c ≤ c' → h ≤ h' → J c' h' ≤ J c h := by
    intro c c' h h' hc hh hcc hhh
    have hc' : 0 < c' := hc.trans_le hcc
    have hh' : 0 < h' := hh.trans_le hhh
    simp only [hJ]
    gcongr
  set cl : ℝ := 1 / (1 + max u l * γ) * Real.sqrt (4 * γ * l) with hcl
  set cu : ℝ := Real.sqrt (4 * γ * max u l) with hcu
  have hu0 : 0 < max u l := hl.trans_le (le_max_right _ _)
  have hcl0 : 0 < cl := by
    have : 0 < Real.sqrt (4 * γ * l) := Real.sqrt_pos.2 (by positivity)
    positivity
  have hcu0 : 0 < cu := Real.sqrt_pos.2 (by positivity)
  refine ⟨J cu (max u l), J cl l, by positivity, by positivity, fun h hlh hhu g₁ g₂ s H hH => ?_⟩
  have hh : 0 < h := hl.trans_le hlh
  have hhu' : h ≤ max u l := hhu.trans (le_max_left _ _)
  have hden : 0 < 1 + h * γ := by positivity
  have hcpos : 0 < c h := by
    have : 0 < Real.sqrt (4 * γ * h) := Real.sqrt_pos.2 (by positivity)
    simp only [hc]
    positivity
  have hc1 : cl ≤ c h := by
    simp only [hcl, hc]
    gcongr
  have hc2 : c h ≤ cu := by
    have h1 : 1 / (1 + h * γ) ≤ 1 := by
      rw [div_le_one hden]
      have : 0 < h * γ := by positivity
      linarith
    have h2 : Real.sqrt (4 * γ * h) ≤ Real.sqrt (4 * γ * max u l) := Real.sqrt_le_sqrt (by gcongr)
    simp only [hc, hcu]
    calc _ ≤ 1 * Real.sqrt (4 * γ * max u l) := by gcongr
      _ = _ := one_mul _
  have hkick : ∀ p g a, kick γ h m p g a = (1 / (1 + h * γ)) • ((1 - h * γ) • p + (-h) • g) + (c h • Sq) a := by
    intro p g a
    show (1 / (1 + h * γ)) • (_ + Real.sqrt (4 * γ * h) • m.sqrt.mul a) = _ + c h • m.sqrt.mul a
    rw [smul_add, smul_smul]
  have e1 : LinearMap.det (c h • Sq) = c h ^ d * LinearMap.det Sq := LinearMap.det_smul _ _
  have e2 : LinearMap.det (h • (In ∘ₗ (c h • Sq))) = h ^ d * (LinearMap.det In * (c h ^ d * LinearMap.det Sq)) := by
    rw [LinearMap.det_smul, LinearMap.det_comp, e1]
  have hdet1 : LinearMap.det (c h • Sq) ≠ 0 := by
    rw [e1]
    exact mul_ne_zero (pow_ne_zero _ hcpos.ne') hSd
  have hdet2 : LinearMap.det (h • (In ∘ₗ (c h • Sq))) ≠ 0 := by
    rw [e2]
    exact mul_ne_zero (pow_ne_zero _ hh.ne') (mul_ne_zero hId (mul_ne_zero (pow_ne_zero _ hcpos.ne') hSd))
  have hsh : MeasurePreserving (fun z : (ι → ℝ) × (ι → ℝ) => (z.1 + (h / 2) • m.inv.mul z.2, z.2))
      volume volume := by
    have h1 : MeasurePreserving (fun z : (ι → ℝ) × (ι → ℝ) => (z.1, z.2 + (h / 2) • m.inv.mul z.1))
        ((volume : Measure (ι → ℝ)).prod volume) ((volume : Measure (ι → ℝ)).prod volume) := by
      refine MeasurePreserving.skew_product (f := id) (MeasurePreserving.id _)
        (g := fun p q => q + (h / 2) • m.inv.mul p) ?_ (Filter.Eventually.of_forall fun p => ?_)
      · show Measurable fun z : (ι → ℝ) × (ι → ℝ) => z.2 + (h / 2) • m.inv.mul z.1
        fun_prop
      · exact (measurePreserving_add_right volume ((h / 2) • m.inv.mul p)).map_eq
    exact (Measure.measurePreserving_swap (μ := (volume : Measure (ι → ℝ)))
      (ν := (volume : Measure (ι → ℝ)))).comp (h1.comp (Measure.measurePreserving_swap
        (μ := (volume : Measure (ι → ℝ))) (ν := (volume : Measure (ι → ℝ)))))
  have hHs : Measurable fun z : (ι → ℝ) × (ι → ℝ) => H (z.1 + (h / 2) • m.inv.mul z.2, z.2) := hH.comp hsh.measurable
  have hΦ : Measurable fun q : ι → ℝ => ∫⁻ p : ι → ℝ, H (q + (h / 2) • m.inv.mul p, p) := hHs.lintegral_prod_right'
  have total : ∫⁻ a, ∫⁻ b, H (lastTwo γ h m g₁ g₂ s a b) = ENNReal.ofReal (J (c h) h) * ∫⁻ z, H z := by
    have inner : ∀ a, ∫⁻ b, H (lastTwo γ h m g₁ g₂ s a b) = ENNReal.ofReal |(LinearMap.det (c h • Sq))⁻¹| *
        ∫⁻ p : ι → ℝ, H ((s.1 + h • m.inv.mul ((1 / (1 + h * γ)) • ((1 - h * γ) • s.2 + (-h) • g₁ s.1)) +
          (h • (In ∘ₗ (c h • Sq))) a) + (h / 2) • m.inv.mul p, p) := by
      intro a
      have e : s.1 + h • m.inv.mul ((1 / (1 + h * γ)) • ((1 - h * γ) • s.2 + (-h) • g₁ s.1)) +
          (h • (In ∘ₗ (c h • Sq))) a = s.1 + h • m.inv.mul (kick γ h m s.2 (g₁ s.1) a) := by
        rw [hkick]
        generalize (1 / (1 + h * γ)) • ((1 - h * γ) • s.2 + (-h) • g₁ s.1) = v
        rw [m.inv.mul_add, smul_add, ← add_assoc]
        rfl
      rw [e]
      have := affine_lintegral hdet1 ((1 / (1 + h * γ)) • ((1 - h * γ) • kick γ h m s.2 (g₁ s.1) a +
        (-h) • g₂ (s.1 + h • m.inv.mul (kick γ h m s.2 (g₁ s.1) a))))
        (H := fun p => H (s.1 + h • m.inv.mul (kick γ h m s.2 (g₁ s.1) a) + (h / 2) • m.inv.mul p, p))
        (hHs.comp (by fun_prop : Measurable fun p : ι → ℝ => (s.1 + h • m.inv.mul (kick γ h m s.2 (g₁ s.1) a), p)))
      rw [← this]
      refine lintegral_congr fun b => ?_
      rw [← hkick]
      rfl
    rw [lintegral_congr inner, lintegral_const_mul' _ _ ENNReal.ofReal_ne_top,
      affine_lintegral hdet2 _ (H := fun q => ∫⁻ p : ι → ℝ, H (q + (h / 2) • m.inv.mul p, p)) hΦ, ← mul_assoc,
      ← ENNReal.ofReal_mul (abs_nonneg _)]
    congr 1
    · congr 1
      rw [e1, e2, abs_inv, abs_inv, abs_mul, abs_mul, abs_mul, abs_mul, abs_pow, abs_pow, abs_of_pos hcpos, abs_of_pos hh]
    · rw [← hsh.lintegral_comp hH, Measure.volume_eq_prod, lintegral_prod _ hHs.aemeasurable]
  rw [total]
  constructor
  · exact mul_le_mul_left (ENNReal.ofReal_le_ofReal (hanti _ _ _ _ hcpos hh hc2 hhu')) _
  · exact mul_le_mul_left (ENNReal.ofReal_le_ofReal (hanti _ _ _ _ hcl0 hl hc1 hlh)) _

/-! ## Bounded families of maps -/

/-- A family of maps which is uniformly bounded on bounded sets. -/
def BoundedMaps {I X Y : Type*} [Norm X] [Norm Y] (T : I → X → Y) : Prop :=
  ∀ R : ℝ, ∃ R' : ℝ, ∀ i x, ‖x‖ ≤ R → ‖T i x‖ ≤ R'

section
variable {I X Y W : Type*} [SeminormedAddCommGroup X] [SeminormedAddCommGroup Y] [SeminormedAddCommGroup W]

theorem BoundedMaps.comp {S : I → X → Y} {T : I → Y → W} (hT : BoundedMaps T) (hS : BoundedMaps S) :
    BoundedMaps fun i x => T i (S i x) := by
  intro R
  obtain ⟨R₁, h₁⟩ := hS R
  obtain ⟨R₂, h₂⟩ := hT R₁
  exact ⟨R₂, fun i x hx => h₂ i _ (h₁ i x hx)⟩

theorem BoundedMaps.id : BoundedMaps fun (_ : I) (x : X) => x := fun R => ⟨R, fun _ _ h => h⟩

theorem BoundedMaps.add {S T : I → X → Y} (hS : BoundedMaps S) (hT : BoundedMaps T) :
    BoundedMaps fun i x => S i x + T i x := by
  intro R
  obtain ⟨R₁, h₁⟩ := hS R
  obtain ⟨R₂, h₂⟩ := hT R
  exact ⟨R₁ + R₂, fun i x hx => (norm_add_le _ _).trans (add_le_add (h₁ i x hx) (h₂ i x hx))⟩

theorem BoundedMaps.neg {S : I → X → Y} (hS : BoundedMaps S) : BoundedMaps fun i x => -S i x := by
  intro R
  obtain ⟨R₁, h₁⟩ := hS R
  exact ⟨R₁, fun i x hx => by rw [norm_neg]; exact h₁ i x hx⟩

theorem BoundedMaps.prodMk {S : I → X → Y} {T : I → X → W} (hS : BoundedMaps S) (hT : BoundedMaps T) :
    BoundedMaps fun i x => (S i x, T i x) := by
  intro R
  obtain ⟨R₁, h₁⟩ := hS R
  obtain ⟨R₂, h₂⟩ := hT R
  exact ⟨max R₁ R₂, fun i x hx => max_le_max (h₁ i x hx) (h₂ i x hx)⟩

theorem BoundedMaps.fst {S : I → X → Y × W} (hS : BoundedMaps S) : BoundedMaps fun i x => (S i x).1 := by
  intro R
  obtain ⟨R₁, h₁⟩ := hS R
  exact ⟨R₁, fun i x hx => (norm_fst_le _).trans (h₁ i x hx)⟩

theorem BoundedMaps.snd {S : I → X → Y × W} (hS : BoundedMaps S) : BoundedMaps fun i x => (S i x).2 := by
  intro R
  obtain ⟨R₁, h₁⟩ := hS R
  exact ⟨R₁, fun i x hx => (norm_snd_le _).trans (h₁ i x hx)⟩

theorem BoundedMaps.smul [NormedSpace ℝ Y] {S : I → X → Y} (hS : BoundedMaps S) {c : I → ℝ} {C : ℝ} (hc : ∀ i, |c i| ≤ C) :
    BoundedMaps fun i x => c i • S i x := by
  intro R
  obtain ⟨R₁, h₁⟩ := hS R
  refine ⟨C * R₁, fun i x hx => (norm_smul_le _ _).trans ?_⟩
  have h0 := (abs_nonneg _).trans (hc i)
  exact mul_le_mul (hc i) (h₁ i x hx) (norm_nonneg _) h0

theorem BoundedMaps.reindex {κ κ' : Type*} [Fintype κ] [Fintype κ'] {S : I → X → (κ → ℝ)} (hS : BoundedMaps S)
    (e : κ' → κ) : BoundedMaps fun i x => (fun j => S i x (e j) : κ' → ℝ) := by
  intro R
  obtain ⟨R₁, h₁⟩ := hS R
  refine ⟨max R₁ 0, fun i x hx => (pi_norm_le_iff_of_nonneg (le_max_right _ _)).2 fun j => ?_⟩
  exact ((norm_le_pi_norm (S i x) (e j)).trans (h₁ i x hx)).trans (le_max_left _ _)

theorem BoundedMaps.linear {S : I → X → (ι → ℝ)} (hS : BoundedMaps S) (A : (ι → ℝ) →ₗ[ℝ] (ι → ℝ)) :
    BoundedMaps fun i x => A (S i x) := by
  intro R
  obtain ⟨R₁, h₁⟩ := hS R
  set B := LinearMap.toContinuousLinearMap A with hB
  refine ⟨‖B‖ * R₁, fun i x hx => ?_⟩
  have := B.le_opNorm (S i x)
  exact this.trans (mul_le_mul_of_nonneg_left (h₁ i x hx) (norm_nonneg _))

theorem BoundedMaps.tensor {S : I → X → (ι → ℝ)} (hS : BoundedMaps S) (A : VTensor ι) :
    BoundedMaps fun i x => A.mul (S i x) :=
  hS.linear { toFun := A.mul, map_add' := A.mul_add, map_smul' := A.mul_smul }

end

/-! ## Bounded paths -/

section
variable {I X : Type*} [SeminormedAddCommGroup X] {L : ℕ} {γ l u : ℝ} (hγ : 0 < γ) (hl : 0 < l) {h : I → ℝ}
  (hh : ∀ i, l ≤ h i ∧ h i ≤ u) (m : MassMatrix ι) (w : (ι → ℝ) →ₗ[ℝ] (ι → ℝ))

include hl hh in
omit [Fintype ι] in
theorem steps_abs (i : I) : |h i| ≤ u := by rw [abs_of_pos (hl.trans_le (hh i).1)]; exact (hh i).2

include hγ hl hh in
theorem kick_bounded {S T ξ : I → X → (ι → ℝ)} (hS : BoundedMaps S) (hT : BoundedMaps T) (hξ : BoundedMaps ξ) :
    BoundedMaps fun i x => kick γ (h i) m (S i x) (T i x) (ξ i x) := by
  have h1 : ∀ i, |1 / (1 + h i * γ)| ≤ 1 := fun i => by
    have : 0 < h i * γ := mul_pos (hl.trans_le (hh i).1) hγ
    rw [abs_of_pos (by positivity), div_le_one (by positivity)]
    linarith
  have h2 : ∀ i, |1 - h i * γ| ≤ 1 + u * γ := fun i => by
    have h0 := hl.trans_le (hh i).1
    have : h i * γ ≤ u * γ := by have := (hh i).2; gcongr
    have : 0 < h i * γ := by positivity
    rw [abs_le]
    constructor <;> linarith
  have h3 : ∀ i, |-(h i)| ≤ u := fun i => by rw [abs_neg]; exact steps_abs hl hh i
  have h4 : ∀ i, |Real.sqrt (4 * γ * h i)| ≤ Real.sqrt (4 * γ * u) := fun i => by
    rw [abs_of_nonneg (Real.sqrt_nonneg _)]
    have := (hh i).2
    exact Real.sqrt_le_sqrt (by gcongr)
  exact ((((hS.smul h2).add (hT.smul h3)).add ((hξ.tensor m.sqrt).smul h4))).smul h1

theorem drift_bounded {t : I → ℝ} {C : ℝ} (ht : ∀ i, |t i| ≤ C) {S : I → X → PathSpace ι L} (hS : BoundedMaps S) :
    BoundedMaps fun i x => drift (t i) m (S i x) :=
  (BoundedMaps.prodMk (hS.fst.fst.add ((hS.fst.snd.tensor m.inv).smul ht)) hS.fst.snd).prodMk hS.snd

include hγ hl hh in
theorem kickMap_bounded {g : I → (ι → ℝ) → (ι → ℝ)} (hg : BoundedMaps g) (n : Fin L) {S : I → X → PathSpace ι L}
    (hS : BoundedMaps S) : BoundedMaps fun i x => kickMap γ (h i) m w (g i) n (S i x) := by
  have hξ : BoundedMaps fun i x => (fun k => (S i x).2 (n, k) : ι → ℝ) := hS.snd.reindex fun k => (n, k)
  have hk := kick_bounded hγ hl hh m hS.fst.snd (hg.comp hS.fst.fst) hξ
  refine (hS.fst.fst.prodMk hk).prodMk ?_
  have hs : ∀ i, |-(Real.sqrt (h i * γ))| ≤ Real.sqrt (u * γ) := fun i => by
    rw [abs_neg, abs_of_nonneg (Real.sqrt_nonneg _)]
    have := (hh i).2
    exact Real.sqrt_le_sqrt (by gcongr)
  have hrev : BoundedMaps fun i x => kickRev γ (h i) (w ((S i x).1.2 + kick γ (h i) m (S i x).1.2 (g i (S i x).1.1)
      (fun k => (S i x).2 (n, k)))) (fun k => (S i x).2 (n, k)) :=
    hξ.add (((hS.fst.snd.add hk).linear w).smul hs)
  intro R
  obtain ⟨R₁, h₁⟩ := hrev R
  obtain ⟨R₂, h₂⟩ := hS.snd R
  refine ⟨max (max R₁ R₂) 0, fun i x hx => (pi_norm_le_iff_of_nonneg (le_max_right _ _)).2 fun j => ?_⟩
  refine le_trans ?_ (le_max_left _ _)
  dsimp only
  split
  · exact ((norm_le_pi_norm _ _).trans (h₁ i x hx)).trans (le_max_left _ _)
  · exact ((norm_le_pi_norm _ _).trans (h₂ i x hx)).trans (le_max_right _ _)

include hγ hl hh in
theorem leapFlow_bounded {g : I → ℕ → (ι → ℝ) → (ι → ℝ)} (hg : ∀ n, BoundedMaps fun i => g i n) (n : ℕ)
    {S : I → X → PathSpace ι L} (hS : BoundedMaps S) : BoundedMaps fun i x => leapFlow γ (h i) m w (g i) n (S i x) := by
  induction n with
  | zero => exact hS
  | succ n ih =>
    by_cases hn : n < L
    · by_cases h0 : n = 0
      · subst h0
        have := kickMap_bounded hγ hl hh m w (hg 0) ⟨0, hn⟩ ih
        simpa only [leapFlow, dif_pos hn, if_true] using this
      · have := kickMap_bounded hγ hl hh m w (hg n) ⟨n, hn⟩ (drift_bounded m (steps_abs hl hh) ih)
        simpa only [leapFlow, hn, h0, dif_pos, if_false] using this
    · simpa only [leapFlow, hn, dif_neg, not_false_iff] using ih

include hl hh in
omit [Fintype ι] in
theorem half_steps_abs (i : I) : |h i / 2| ≤ u := by
  have h0 := hl.trans_le (hh i).1
  have := (hh i).2
  rw [abs_of_pos (by positivity)]
  linarith

include hγ hl hh in
theorem leapMap_bounded {g : I → ℕ → (ι → ℝ) → (ι → ℝ)} (hg : ∀ n, BoundedMaps fun i => g i n) :
    BoundedMaps fun i (x : PathSpace ι L) => leapMap γ (h i) m w (g i) x := by
  have h2 := half_steps_abs hl hh
  have h1 := drift_bounded m h2 (leapFlow_bounded hγ hl hh m w hg L
    (drift_bounded m h2 (BoundedMaps.id (I := I) (X := PathSpace ι L))))
  have h3 := (h1.fst.fst.prodMk h1.fst.snd.neg).prodMk (h1.snd.reindex fun j : Fin L × ι => (Fin.rev j.1, j.2))
  simpa only [leapMap, flipMap] using h3

theorem glue_norm {n : ℕ} (y : (Fin n × ι → ℝ) × ((ι → ℝ) × (ι → ℝ))) : ‖glue y‖ ≤ ‖y‖ := by
  refine (pi_norm_le_iff_of_nonneg (norm_nonneg _)).2 fun j => ?_
  unfold glue
  split
  · exact (norm_le_pi_norm y.1 _).trans (norm_fst_le y)
  · split
    · exact ((norm_le_pi_norm y.2.1 _).trans (norm_fst_le y.2)).trans (norm_snd_le y)
    · exact ((norm_le_pi_norm y.2.2 _).trans (norm_snd_le y.2)).trans (norm_snd_le y)

include hγ hl hh in
theorem beforeTwo_bounded {g : I → ℕ → (ι → ℝ) → (ι → ℝ)} (hg : ∀ n, BoundedMaps fun i => g i n) (n : ℕ) :
    BoundedMaps fun i (x : ((ι → ℝ) × (ι → ℝ)) × (Fin n × ι → ℝ)) => beforeTwo γ (h i) m w (g i) n x.1 x.2 := by
  have h0 : BoundedMaps fun (_ : I) (x : ((ι → ℝ) × (ι → ℝ)) × (Fin n × ι → ℝ)) =>
      ((x.1, glue (x.2, ((0 : ι → ℝ), (0 : ι → ℝ)))) : PathSpace ι (n + 2)) := by
    intro R
    refine ⟨max R 0, fun _ x hx => max_le ((norm_fst_le x).trans (hx.trans (le_max_left _ _))) ((glue_norm _).trans ?_)⟩
    refine max_le ((norm_snd_le x).trans (hx.trans (le_max_left _ _))) ?_
    simp
  have h1 := leapFlow_bounded hγ hl hh m w hg n (drift_bounded m (half_steps_abs hl hh) h0)
  by_cases hn : n = 0
  · simpa only [beforeTwo, if_pos hn] using h1.fst
  · simpa only [beforeTwo, if_neg hn] using
      (h1.fst.fst.add ((h1.fst.snd.tensor m.inv).smul (steps_abs hl hh))).prodMk h1.fst.snd

include hγ hl hh in
/-- Bounded ends of paths have bounded noises. -/
theorem lastTwo_noise {m : MassMatrix ι} (hm : Spec.MassOk m) {g₁ g₂ : I → (ι → ℝ) → (ι → ℝ)} (hg₁ : BoundedMaps g₁)
    (hg₂ : BoundedMaps g₂) (R : ℝ) : ∃ R' : ℝ, ∀ i s a b, ‖s‖ ≤ R → ‖lastTwo γ (h i) m (g₁ i) (g₂ i) s a b‖ ≤ R →
      ‖a‖ ≤ R' ∧ ‖b‖ ≤ R' := by
  classical
  -- inverses
  set Sq : (ι → ℝ) →ₗ[ℝ] (ι → ℝ) :=
    { toFun := m.sqrt.mul, map_add' := m.sqrt.mul_add, map_smul' := m.sqrt.mul_smul } with hSq
  set In : (ι → ℝ) →ₗ[ℝ] (ι → ℝ) :=
    { toFun := m.inv.mul, map_add' := m.inv.mul_add, map_smul' := m.inv.mul_smul } with hIn
  have inverse : ∀ A : (ι → ℝ) →ₗ[ℝ] (ι → ℝ), LinearMap.det A ≠ 0 → ∃ B : (ι → ℝ) →ₗ[ℝ] (ι → ℝ), ∀ x, B (A x) = x := by
    intro A hA
    have hu : IsUnit A := by
      rw [LinearMap.isUnit_iff_isUnit_det]; exact isUnit_iff_ne_zero.2 hA
    obtain ⟨u, rfl⟩ := hu
    exact ⟨(u⁻¹).1, fun x => LinearMap.congr_fun (Units.inv_mul u) x⟩
  obtain ⟨V, hV⟩ := inverse Sq (massOk_sqrt_det hm)
  obtain ⟨W, hW⟩ := inverse In (massOk_inv_bij hm)
  -- the noise of a momentum update
  have hnoise : ∀ i p g a, a = (1 / Real.sqrt (4 * γ * h i)) • V ((1 + h i * γ) • kick γ (h i) m p g a +
      (-(1 - h i * γ)) • p + h i • g) := by
    intro i p g a
    have h0 := hl.trans_le (hh i).1
    have hs : Real.sqrt (4 * γ * h i) ≠ 0 := (Real.sqrt_pos.2 (by positivity)).ne'
    have hd : 1 + h i * γ ≠ 0 := by positivity
    have e : (1 + h i * γ) • kick γ (h i) m p g a + (-(1 - h i * γ)) • p + h i • g = Real.sqrt (4 * γ * h i) • Sq a := by
      show (1 + h i * γ) • ((1 / (1 + h i * γ)) • ((1 - h i * γ) • p + (-(h i)) • g + Real.sqrt (4 * γ * h i) • m.sqrt.mul a)) +
        (-(1 - h i * γ)) • p + h i • g = Real.sqrt (4 * γ * h i) • m.sqrt.mul a
      rw [smul_smul, mul_one_div_cancel hd, one_smul, neg_smul, neg_smul]
      abel
    rw [e, V.map_smul, hV, smul_smul, one_div_mul_cancel hs, one_smul]
  have c1 : ∀ i, |1 / Real.sqrt (4 * γ * h i)| ≤ 1 / Real.sqrt (4 * γ * l) := fun i => by
    have h0 := hl.trans_le (hh i).1
    have hs : 0 < Real.sqrt (4 * γ * l) := Real.sqrt_pos.2 (by positivity)
    rw [abs_of_nonneg (by positivity)]
    have h2 := (hh i).1
    exact one_div_le_one_div_of_le hs (Real.sqrt_le_sqrt (by gcongr))
  have c2 : ∀ i, |1 + h i * γ| ≤ 1 + u * γ := fun i => by
    have h0 := hl.trans_le (hh i).1
    have : h i * γ ≤ u * γ := by have := (hh i).2; gcongr
    rw [abs_of_pos (by positivity)]
    linarith
  have c3 : ∀ i, |-(1 - h i * γ)| ≤ 1 + u * γ := fun i => by
    have h0 := hl.trans_le (hh i).1
    have : h i * γ ≤ u * γ := by have := (hh i).2; gcongr
    have : 0 < h i * γ := by positivity
    rw [abs_le]
    constructor <;> linarith
  have c4 : ∀ i, |1 / h i| ≤ 1 / l := fun i => by
    have h0 := hl.trans_le (hh i).1
    rw [abs_of_pos (by positivity)]
    exact one_div_le_one_div_of_le hl (hh i).1
  -- the state in between and the noises as functions of the ends
  let Z := ((ι → ℝ) × (ι → ℝ)) × ((ι → ℝ) × (ι → ℝ))
  have hid : BoundedMaps fun (_ : I) (x : Z) => x := BoundedMaps.id
  have hc5 : ∀ i, |-(h i / 2)| ≤ u := fun i => by rw [abs_neg]; exact half_steps_abs hl hh i
  have hq₂ := hid.snd.fst.add ((hid.snd.snd.tensor m.inv).smul hc5)
  have hp₁ := ((hq₂.add hid.fst.fst.neg).smul c4).linear W
  have ha := (((((hp₁.smul c2).add (hid.fst.snd.smul c3)).add
    ((hg₁.comp hid.fst.fst).smul (steps_abs hl hh))).linear V).smul c1)
  have hb := (((((hid.snd.snd.smul c2).add (hp₁.smul c3)).add
    ((hg₂.comp hq₂).smul (steps_abs hl hh))).linear V).smul c1)
  obtain ⟨R₁, h₁⟩ := ha R
  obtain ⟨R₂, h₂⟩ := hb R
  refine ⟨max R₁ R₂, fun i s a b hs he => ?_⟩
  have h0 := hl.trans_le (hh i).1
  set e := lastTwo γ (h i) m (g₁ i) (g₂ i) s a b with hedef
  have hz : ‖((s, e) : Z)‖ ≤ R := max_le hs he
  have eq₂ : e.1 + (-(h i / 2)) • m.inv.mul e.2 = s.1 + h i • m.inv.mul (kick γ (h i) m s.2 (g₁ i s.1) a) := by
    rw [hedef, neg_smul]
    exact add_neg_cancel_right _ _
  have ep₁ : W ((1 / h i) • (e.1 + (-(h i / 2)) • m.inv.mul e.2 + -s.1)) = kick γ (h i) m s.2 (g₁ i s.1) a := by
    rw [eq₂, add_comm s.1, add_neg_cancel_right, smul_smul, one_div_mul_cancel h0.ne', one_smul]
    exact hW _
  constructor
  · have := h₁ i (s, e) hz
    dsimp only at this
    rw [ep₁, ← hnoise] at this
    exact this.trans (le_max_left _ _)
  · have := h₂ i (s, e) hz
    dsimp only at this
    rw [ep₁, eq₂] at this
    have e2 : e.2 = kick γ (h i) m (kick γ (h i) m s.2 (g₁ i s.1) a)
        (g₂ i (s.1 + h i • m.inv.mul (kick γ (h i) m s.2 (g₁ i s.1) a))) b := rfl
    rw [e2, ← hnoise] at this
    exact this.trans (le_max_right _ _)

end

end JaxSgmc
