import Verif.Lemmas.LeapfrogMap
import Verif.Lemmas.Obabo

/-! # The path map of the OBABO integrator -/

namespace JaxSgmc

open MeasureTheory

variable {ι β μ : Type} [Fintype ι] {N : ℕ}

/-! ## Compositions of maps and their reversal -/

/-- The composition of the first `n` maps. -/
def compFlow {X : Type} (A : ℕ → X → X) : ℕ → X → X
  | 0, x => x
  | n + 1, x => A n (compFlow A n x)

/-- If every map is reversed by a map of the second sequence, taken in reversed order, up to the
involution `R`, so is the composition. -/
theorem compFlow_reverse {X : Type} (A A' : ℕ → X → X) (R : X → X) (L : ℕ) (hR : ∀ x, R (R x) = x)
    (h : ∀ k < L, ∀ x, R (A' (L - 1 - k) (R (A k x))) = x) (x : X) :
    R (compFlow A' L (R (compFlow A L x))) = x := by
  have key : ∀ i ≤ L, compFlow A' i (R (compFlow A L x)) = R (compFlow A (L - i) x) := by
    intro i
    induction i with
    | zero => intro _; rfl
    | succ i ih =>
      intro hi
      have e : L - i = (L - (i + 1)) + 1 := by omega
      have hk := h (L - (i + 1)) (by omega) (compFlow A (L - (i + 1)) x)
      rw [show L - 1 - (L - (i + 1)) = i by omega] at hk
      show A' i (compFlow A' i _) = _
      rw [ih (by omega), e]
      show A' i (R (A (L - (i + 1)) (compFlow A (L - (i + 1)) x))) = _
      rw [← hR (A' i _), hk]
  rw [key L le_rfl, Nat.sub_self, hR]
  rfl

/-! ## The parts of an OBABO step -/

/-- Refreshment of the momentum with noise `n`, replacing this noise by the one of the reversed
refreshment. -/
noncomputable def refreshMap (γ : ℝ) (prm : Params) (m : MassMatrix ι) (w : (ι → ℝ) →ₗ[ℝ] (ι → ℝ))
    (n : Fin N) (x : PathSpace ι N) : PathSpace ι N :=
  ((x.1.1, momentumResampling γ prm m x.1.2 (fun i => x.2 (n, i))),
    fun j => if j.1 = n then refreshRev γ prm (w x.1.2) (fun i => x.2 (n, i)) j.2 else x.2 j)

/-- Momentum update with gradient. -/
def pushMap (t : ℝ) (g : (ι → ℝ) → (ι → ℝ)) (x : PathSpace ι N) : PathSpace ι N :=
  ((x.1.1, x.1.2 + (-t) • g x.1.1), x.2)

theorem flipMap_flipMap (x : PathSpace ι N) : flipMap (flipMap x) = x := by
  refine Prod.ext (Prod.ext rfl ?_) ?_
  · show -(-x.1.2) = _
    rw [neg_neg]
  · funext j
    show x.2 (Fin.rev (Fin.rev j.1), j.2) = _
    rw [Fin.rev_rev]

theorem drift_reverse (t : ℝ) (m : MassMatrix ι) (x : PathSpace ι N) :
    flipMap (drift t m (flipMap (drift t m x))) = x := by
  refine Prod.ext (Prod.ext ?_ ?_) ?_
  · show (x.1.1 + t • m.inv.mul x.1.2) + t • m.inv.mul (-x.1.2) = _
    rw [VTensor.mul_neg, smul_neg, add_neg_cancel_right]
  · show -(-x.1.2) = _
    rw [neg_neg]
  · funext j
    show x.2 (Fin.rev (Fin.rev j.1), j.2) = _
    rw [Fin.rev_rev]

theorem pushMap_reverse (t : ℝ) (g : (ι → ℝ) → (ι → ℝ)) (x : PathSpace ι N) :
    flipMap (pushMap t g (flipMap (pushMap t g x))) = x := by
  refine Prod.ext (Prod.ext rfl ?_) ?_
  · show -(-(x.1.2 + (-t) • g x.1.1) + (-t) • g x.1.1) = _
    abel
  · funext j
    show x.2 (Fin.rev (Fin.rev j.1), j.2) = _
    rw [Fin.rev_rev]

/-- A right inverse of the square root of the mass is a left inverse. -/
theorem sqrt_left_inverse {m : MassMatrix ι} {w : (ι → ℝ) →ₗ[ℝ] (ι → ℝ)}
    (hw : ∀ r, m.sqrt.mul (w r) = r) (v : ι → ℝ) : w (m.sqrt.mul v) = v := by
  let A : (ι → ℝ) →ₗ[ℝ] (ι → ℝ) :=
    { toFun := m.sqrt.mul, map_add' := m.sqrt.mul_add, map_smul' := m.sqrt.mul_smul }
  have h1 : A * w = 1 := LinearMap.ext fun r => hw r
  have h2 : w * A = 1 := mul_eq_one_comm.1 h1
  exact LinearMap.congr_fun h2 v

section
variable {γ : ℝ} (hγ : 0 ≤ γ) {prm : Params} (hh : 0 ≤ prm.stepSize) (hT : 0 < prm.temperature)
  {m : MassMatrix ι} {w : (ι → ℝ) →ₗ[ℝ] (ι → ℝ)} (hw : ∀ r, m.sqrt.mul (w r) = r)

include hγ hh hT hw in
theorem refreshRev_reverse (r ξ : ι → ℝ) :
    refreshRev γ prm (w (-momentumResampling γ prm m r ξ)) (refreshRev γ prm (w r) ξ) = ξ := by
  rw [resampling_eq, refreshRev, refreshRev, w.map_neg, w.map_add, w.map_smul, w.map_smul,
    sqrt_left_inverse hw]
  have ha := Real.mul_self_sqrt (Real.exp_pos (-γ * prm.stepSize)).le
  have hc : Real.sqrt ((1 - Real.exp (-γ * prm.stepSize)) * prm.temperature) *
      Real.sqrt ((1 - Real.exp (-γ * prm.stepSize)) / prm.temperature) =
      1 - Real.exp (-γ * prm.stepSize) := by
    have h1 : 0 ≤ 1 - Real.exp (-γ * prm.stepSize) := sub_nonneg.mpr (permanence_le hγ hh)
    rw [← Real.sqrt_mul (mul_nonneg h1 hT.le)]
    have : (1 - Real.exp (-γ * prm.stepSize)) * prm.temperature *
        ((1 - Real.exp (-γ * prm.stepSize)) / prm.temperature) =
        (1 - Real.exp (-γ * prm.stepSize)) ^ 2 := by
      field_simp
    rw [this, Real.sqrt_sq h1]
  set a := Real.exp (-γ * prm.stepSize)
  set b := Real.sqrt a
  set c := Real.sqrt ((1 - a) * prm.temperature)
  set d := Real.sqrt ((1 - a) / prm.temperature)
  funext i
  simp only [Pi.add_apply, Pi.smul_apply, Pi.neg_apply, smul_eq_mul]
  linear_combination (ξ i) * ha + ξ i * hc

include hγ hh hT hw in
theorem refreshMap_reverse (n : Fin N) (x : PathSpace ι N) :
    flipMap (refreshMap γ prm m w (Fin.rev n) (flipMap (refreshMap γ prm m w n x))) = x := by
  have hξ : (fun i => (flipMap (refreshMap γ prm m w n x)).2 (Fin.rev n, i)) =
      refreshRev γ prm (w x.1.2) (fun i => x.2 (n, i)) := by
    funext i
    simp [flipMap, refreshMap, Fin.rev_rev]
  have hp : (flipMap (refreshMap γ prm m w n x)).1.2 =
      -momentumResampling γ prm m x.1.2 (fun i => x.2 (n, i)) := rfl
  refine Prod.ext (Prod.ext rfl ?_) ?_
  · show -momentumResampling γ prm m (flipMap (refreshMap γ prm m w n x)).1.2
      (fun i => (flipMap (refreshMap γ prm m w n x)).2 (Fin.rev n, i)) = _
    rw [hξ, hp, resampling_reverse hγ hh hT m _ _ _ (hw _), neg_neg]
  · funext j
    show (if Fin.rev j.1 = Fin.rev n then refreshRev γ prm
      (w (flipMap (refreshMap γ prm m w n x)).1.2)
      (fun i => (flipMap (refreshMap γ prm m w n x)).2 (Fin.rev n, i)) j.2 else
      (flipMap (refreshMap γ prm m w n x)).2 (Fin.rev j.1, j.2)) = _
    rw [hξ, hp, refreshRev_reverse hγ hh hT hw]
    by_cases hj : j.1 = n
    · rw [if_pos (by rw [hj]), ← hj]
    · rw [if_neg (fun h => hj (Fin.rev_injective h))]
      show (if Fin.rev (Fin.rev j.1) = n then _ else x.2 (Fin.rev (Fin.rev j.1), j.2)) = _
      rw [Fin.rev_rev, if_neg hj]

/-! ## Volume preservation -/

variable (γ prm m w) in
/-- The refreshment of the momentum, composed with a momentum flip. -/
noncomputable def refreshLin (n : Fin N) :
    ((ι → ℝ) × (Fin N × ι → ℝ)) →ₗ[ℝ] ((ι → ℝ) × (Fin N × ι → ℝ)) where
  toFun v := (-momentumResampling γ prm m v.1 (fun i => v.2 (n, i)),
    fun j => if j.1 = n then refreshRev γ prm (w v.1) (fun i => v.2 (n, i)) j.2 else v.2 j)
  map_add' a b := by
    refine Prod.ext ?_ ?_
    · show -momentumResampling γ prm m (a.1 + b.1) ((fun i => a.2 (n, i)) + fun i => b.2 (n, i)) =
        -momentumResampling γ prm m a.1 (fun i => a.2 (n, i)) +
          -momentumResampling γ prm m b.1 (fun i => b.2 (n, i))
      simp only [resampling_eq, VTensor.mul_add, smul_add]
      abel
    · funext j
      simp only [Prod.snd_add, Prod.fst_add, Pi.add_apply]
      by_cases hj : j.1 = n
      · simp only [hj, if_true, refreshRev, w.map_add, Pi.add_apply, Pi.smul_apply, smul_eq_mul]
        ring
      · simp only [hj, if_false]
  map_smul' c a := by
    refine Prod.ext ?_ ?_
    · show -momentumResampling γ prm m (c • a.1) (c • fun i => a.2 (n, i)) =
        c • -momentumResampling γ prm m a.1 (fun i => a.2 (n, i))
      simp only [resampling_eq, VTensor.mul_smul, smul_neg, smul_add, smul_smul, mul_comm c]
    · funext j
      simp only [Prod.smul_snd, Prod.smul_fst, Pi.smul_apply, RingHom.id_apply]
      by_cases hj : j.1 = n
      · simp only [hj, if_true, refreshRev, w.map_smul, Pi.add_apply, Pi.smul_apply, smul_eq_mul]
        ring
      · simp only [hj, if_false]

include hγ hh hT hw in
theorem refreshLin_involution (n : Fin N) (v : (ι → ℝ) × (Fin N × ι → ℝ)) :
    refreshLin γ prm m w n (refreshLin γ prm m w n v) = v := by
  have hξ : (fun i => (refreshLin γ prm m w n v).2 (n, i)) =
      refreshRev γ prm (w v.1) (fun i => v.2 (n, i)) := by
    funext i; simp [refreshLin]
  refine Prod.ext ?_ ?_
  · show -momentumResampling γ prm m (-momentumResampling γ prm m v.1 (fun i => v.2 (n, i)))
      (fun i => (refreshLin γ prm m w n v).2 (n, i)) = _
    rw [hξ, resampling_reverse hγ hh hT m _ _ _ (hw _), neg_neg]
  · funext j
    show (if j.1 = n then refreshRev γ prm
      (w (-momentumResampling γ prm m v.1 (fun i => v.2 (n, i))))
      (fun i => (refreshLin γ prm m w n v).2 (n, i)) j.2 else (refreshLin γ prm m w n v).2 j) = _
    rw [hξ, refreshRev_reverse hγ hh hT hw]
    by_cases hj : j.1 = n
    · rw [if_pos hj, ← hj]
    · rw [if_neg hj]
      show (if j.1 = n then _ else v.2 j) = _
      rw [if_neg hj]

include hγ hh hT hw in
theorem refreshMap_measurePreserving (n : Fin N) :
    MeasurePreserving (refreshMap γ prm m w n : PathSpace ι N → PathSpace ι N) volume volume := by
  have hlin := involution_measurePreserving (volume : Measure ((ι → ℝ) × (Fin N × ι → ℝ)))
    (refreshLin γ prm m w n) (refreshLin_involution hγ hh hT hw n)
  have hneg : MeasurePreserving (fun v : ((ι → ℝ) × (Fin N × ι → ℝ)) => (-v.1, v.2)) volume volume :=
    (Measure.measurePreserving_neg (volume : Measure (ι → ℝ))).prod
      (MeasurePreserving.id (volume : Measure (Fin N × ι → ℝ)))
  have hprod := (MeasurePreserving.id (volume : Measure (ι → ℝ))).prod (hneg.comp hlin)
  have ha := measurePreserving_prodAssoc (volume : Measure (ι → ℝ)) (volume : Measure (ι → ℝ))
    (volume : Measure (Fin N × ι → ℝ))
  refine mp_congr ((ha.symm MeasurableEquiv.prodAssoc).comp (hprod.comp ha)) fun x => ?_
  refine Prod.ext (Prod.ext rfl ?_) rfl
  show -(-momentumResampling γ prm m x.1.2 (fun i => x.2 (n, i))) = _
  rw [neg_neg]; rfl

end

theorem pushMap_measurePreserving (t : ℝ) {g : (ι → ℝ) → (ι → ℝ)} (hg : Measurable g) :
    MeasurePreserving (pushMap t g : PathSpace ι N → PathSpace ι N) volume volume := by
  have h1 : MeasurePreserving (fun z : (ι → ℝ) × (ι → ℝ) => (z.1, z.2 + (-t) • g z.1))
      ((volume : Measure (ι → ℝ)).prod volume) ((volume : Measure (ι → ℝ)).prod volume) := by
    refine MeasurePreserving.skew_product (f := id) (MeasurePreserving.id _)
      (g := fun q p => p + (-t) • g q) ?_ (Filter.Eventually.of_forall fun q => ?_)
    · show Measurable fun z : (ι → ℝ) × (ι → ℝ) => z.2 + (-t) • g z.1
      fun_prop
    · exact (measurePreserving_add_right volume ((-t) • g q)).map_eq
  exact h1.prod (MeasurePreserving.id (volume : Measure (Fin N × ι → ℝ)))

/-! ## Energies -/

/-- Kinetic energy and noises. -/
noncomputable def kinNoise (T : ℝ) (m : MassMatrix ι) (x : PathSpace ι N) : ℝ :=
  Spec.kinetic m x.1.2 / T + (∑ j, x.2 j * x.2 j) / 2

/-- The refreshment of the momentum does not change the energy. -/
theorem refreshMap_energy {γ : ℝ} (hγ : 0 ≤ γ) {prm : Params} (hh : 0 ≤ prm.stepSize)
    (hT : 0 < prm.temperature) {m : MassMatrix ι} (hm : Spec.MassOk m) {w : (ι → ℝ) →ₗ[ℝ] (ι → ℝ)}
    (hw : ∀ r, m.sqrt.mul (w r) = r) (n : Fin N) (x : PathSpace ι N) :
    kinNoise prm.temperature m (refreshMap γ prm m w n x) = kinNoise prm.temperature m x := by
  classical
  have h := resampling_energy hγ hh hT hm x.1.2 (fun i => x.2 (n, i)) (w x.1.2) (hw _)
  unfold kinNoise
  have hs : ∀ y : Fin N × ι → ℝ, ∑ j, y j * y j = ∑ i, y (n, i) * y (n, i) +
      ∑ k ∈ Finset.univ.erase n, ∑ i, y (k, i) * y (k, i) := by
    intro y
    rw [Fintype.sum_prod_type, ← Finset.add_sum_erase _ _ (Finset.mem_univ n)]
  rw [hs x.2, hs (refreshMap γ prm m w n x).2]
  have e1 : ∀ i, (refreshMap γ prm m w n x).2 (n, i) =
      refreshRev γ prm (w x.1.2) (fun i => x.2 (n, i)) i := fun i => by simp [refreshMap]
  have e2 : ∑ k ∈ Finset.univ.erase n, ∑ i, (refreshMap γ prm m w n x).2 (k, i) *
      (refreshMap γ prm m w n x).2 (k, i) =
      ∑ k ∈ Finset.univ.erase n, ∑ i, x.2 (k, i) * x.2 (k, i) := by
    refine Finset.sum_congr rfl fun k hk => Finset.sum_congr rfl fun i _ => ?_
    have : (refreshMap γ prm m w n x).2 (k, i) = x.2 (k, i) := by
      simp [refreshMap, (Finset.mem_erase.1 hk).1]
    rw [this]
  rw [e2]
  simp only [e1]
  have e3 : (refreshMap γ prm m w n x).1.2 = momentumResampling γ prm m x.1.2 (fun i => x.2 (n, i)) := rfl
  rw [e3]
  linarith

/-! ## Steps and proposals -/

section
variable {L : ℕ} (γ : ℝ) (prm : Params) (m : MassMatrix ι) (w : (ι → ℝ) →ₗ[ℝ] (ι → ℝ))
  (g : ℕ → (ι → ℝ) → (ι → ℝ))

/-- One OBABO step. -/
noncomputable def obaboBody (k : ℕ) (x : PathSpace ι (2 * L)) : PathSpace ι (2 * L) :=
  if hk : k < L then
    refreshMap γ prm m w ⟨2 * k + 1, by omega⟩ (pushMap (prm.stepSize / 2) (g (2 * k + 1))
      (drift prm.stepSize m (pushMap (prm.stepSize / 2) (g (2 * k))
        (refreshMap γ prm m w ⟨2 * k, by omega⟩ x))))
  else x

/-- A whole proposal, followed by momentum flip and reversal of the noises. -/
noncomputable def obaboMap (x : PathSpace ι (2 * L)) : PathSpace ι (2 * L) :=
  flipMap (compFlow (obaboBody γ prm m w g) L x)

end

section
variable {L : ℕ} {γ : ℝ} (hγ : 0 ≤ γ) {prm : Params} (hh : 0 ≤ prm.stepSize)
  (hT : 0 < prm.temperature) {m : MassMatrix ι} {w : (ι → ℝ) →ₗ[ℝ] (ι → ℝ)}
  (hw : ∀ r, m.sqrt.mul (w r) = r) {g g' : ℕ → (ι → ℝ) → (ι → ℝ)}

include hγ hh hT hw in
theorem obaboMap_measurePreserving (hg : ∀ n, Measurable (g n)) :
    MeasurePreserving (obaboMap γ prm m w g : PathSpace ι (2 * L) → PathSpace ι (2 * L))
      volume volume := by
  have hflow : ∀ n, MeasurePreserving
      (compFlow (obaboBody γ prm m w g) n : PathSpace ι (2 * L) → PathSpace ι (2 * L))
      volume volume := by
    intro n
    induction n with
    | zero => exact MeasurePreserving.id _
    | succ n ih =>
      by_cases hn : n < L
      · have h1 := refreshMap_measurePreserving (N := 2 * L) hγ hh hT hw ⟨2 * n, by omega⟩
        have h2 := refreshMap_measurePreserving (N := 2 * L) hγ hh hT hw ⟨2 * n + 1, by omega⟩
        refine mp_congr (h2.comp ((pushMap_measurePreserving (prm.stepSize / 2)
          (hg (2 * n + 1))).comp ((drift_measurePreserving prm.stepSize m).comp
          ((pushMap_measurePreserving (prm.stepSize / 2) (hg (2 * n))).comp (h1.comp ih)))))
          fun x => ?_
        show _ = obaboBody γ prm m w g n (compFlow (obaboBody γ prm m w g) n x)
        rw [obaboBody, dif_pos hn]
        rfl
      · refine mp_congr ih fun x => ?_
        show _ = obaboBody γ prm m w g n (compFlow (obaboBody γ prm m w g) n x)
        rw [obaboBody, dif_neg hn]
  exact flipMap_measurePreserving.comp (hflow L)

include hγ hh hT hw in
/-- The path map with mini-batches in reversed order inverts the path map. -/
theorem obaboMap_inverse (hg : ∀ k < 2 * L, g' (2 * L - 1 - k) = g k) (x : PathSpace ι (2 * L)) :
    obaboMap γ prm m w g' (obaboMap γ prm m w g x) = x := by
  refine compFlow_reverse (obaboBody γ prm m w g) (obaboBody γ prm m w g') flipMap L flipMap_flipMap
    (fun k hk x => ?_) x
  have hk' : L - 1 - k < L := by omega
  have g1 : g' (2 * (L - 1 - k)) = g (2 * k + 1) := by
    rw [← hg (2 * k + 1) (by omega)]; congr 1; omega
  have g2 : g' (2 * (L - 1 - k) + 1) = g (2 * k) := by
    rw [← hg (2 * k) (by omega)]; congr 1; omega
  have n1 : (⟨2 * (L - 1 - k), by omega⟩ : Fin (2 * L)) = Fin.rev ⟨2 * k + 1, by omega⟩ :=
    Fin.ext (by rw [Fin.val_rev]; show 2 * (L - 1 - k) = 2 * L - (2 * k + 1 + 1); omega)
  have n2 : (⟨2 * (L - 1 - k) + 1, by omega⟩ : Fin (2 * L)) = Fin.rev ⟨2 * k, by omega⟩ :=
    Fin.ext (by rw [Fin.val_rev]; show 2 * (L - 1 - k) + 1 = 2 * L - (2 * k + 1); omega)
  rw [show obaboBody γ prm m w g k x = _ from dif_pos hk,
    show obaboBody γ prm m w g' (L - 1 - k) _ = _ from dif_pos hk', g1, g2, n1, n2]
  have undo : ∀ (A A' : PathSpace ι (2 * L) → PathSpace ι (2 * L)),
      (∀ y, flipMap (A' (flipMap (A y))) = y) → ∀ y, A' (flipMap (A y)) = flipMap y := by
    intro A A' hA y
    rw [← flipMap_flipMap (A' _), hA]
  rw [undo _ _ (refreshMap_reverse hγ hh hT hw _), undo _ _ (pushMap_reverse _ _),
    undo _ _ (drift_reverse _ _), undo _ _ (pushMap_reverse _ _),
    undo _ _ (refreshMap_reverse hγ hh hT hw _), flipMap_flipMap]

/-- The initial state of the integrator with scripted noises. -/
noncomputable def obaboStart (x : PathSpace ι N) (ms : μ) (pot : ℝ) : ObaboState ι ℝ Spec.SKey ℕ μ :=
  ⟨pot, .main 0, x.1.1, x.1.2, 0, ms, 0, 0, []⟩

include hγ hh hT hw in
/-- The path map in terms of the states of the integrator. -/
theorem obaboFlow_eq {lay : Layout ι} (hl : Spec.Layout.Injective lay) (hm : Spec.MassOk m)
    (b : ℕ → β) (sg : StochGrad ι β μ) {G : (ι → ℝ) → β → (ι → ℝ)}
    (hG : ∀ x b ms, (sg x b ms).2 = G x b) (u : ℝ) (ms : μ) (pot : ℝ) (x : PathSpace ι (2 * L))
    (n : ℕ) (hn : n ≤ L) :
    let S := obaboSt (Spec.scripted lay (Spec.noiseSeq x.2) u) lay γ (Spec.batchSource b) sg prm m
      (obaboStart x ms pot) n
    let y := compFlow (obaboBody γ prm m w (fun k q => G q (b k))) n x
    y.1 = (S.positions, S.momentum) ∧ (∀ j, 2 * n ≤ (j.1 : ℕ) → y.2 j = x.2 j) ∧
    kinNoise prm.temperature m y = kinNoise prm.temperature m x +
      (S.kineticEnd - S.kineticStart) / prm.temperature := by
  induction n with
  | zero =>
    intro S y
    refine ⟨rfl, fun _ _ => rfl, ?_⟩
    show kinNoise _ _ x = _ + ((0 : ℝ) - 0) / _
    simp
  | succ n ih =>
    intro S y
    obtain ⟨i1, i2, i3⟩ := ih (by omega)
    set S₀ := obaboSt (Spec.scripted lay (Spec.noiseSeq x.2) u) lay γ (Spec.batchSource b) sg prm m
      (obaboStart x ms pot) n with hS₀
    set y₀ := compFlow (obaboBody γ prm m w (fun k q => G q (b k))) n x with hy₀
    have hn' : n < L := by omega
    have hp := obaboSt_pure (Spec.scripted lay (Spec.noiseSeq x.2) u) lay γ (Spec.batchSource b) sg prm m
      (obaboStart x ms pot) hG n
    have hb : ∀ k, Spec.nthBatch (Spec.batchSource b) (obaboStart x ms pot).dataState k = b k :=
      fun k => Spec.batchSource_nth b k
    have hnoise : ∀ k (hk : k < 2 * L), 2 * n ≤ k →
        Spec.obaboNoise (Spec.scripted lay (Spec.noiseSeq x.2) u) lay
        (obaboStart x ms pot).key k = fun i => y₀.2 (⟨k, hk⟩, i) := by
      intro k hk hle
      show Spec.obaboNoise (Spec.scripted lay (Spec.noiseSeq x.2) u) lay (.main 0) k = _
      rw [Spec.scripted_obaboNoise hl]
      funext i
      rw [i2 _ hle]
      simp [Spec.noiseSeq, hk]
    dsimp only at hp
    rw [hb, hb, hnoise (2 * n) (by omega) le_rfl, hnoise (2 * n + 1) (by omega) (by omega), ← hS₀] at hp
    obtain ⟨p1, p2, p3, p4⟩ := hp
    have hq : S₀.positions = y₀.1.1 := by rw [i1]
    have hr : S₀.momentum = y₀.1.2 := by rw [i1]
    rw [hq, hr] at p1 p2 p3 p4
    set y₁ := refreshMap γ prm m w ⟨2 * n, by omega⟩ y₀ with hy₁
    set y₂ := pushMap (prm.stepSize / 2) (fun q => G q (b (2 * n))) y₁ with hy₂
    set y₃ := drift prm.stepSize m y₂ with hy₃
    set y₄ := pushMap (prm.stepSize / 2) (fun q => G q (b (2 * n + 1))) y₃ with hy₄
    have hy : y = refreshMap γ prm m w ⟨2 * n + 1, by omega⟩ y₄ := by
      show obaboBody _ _ _ _ _ n y₀ = _
      rw [obaboBody, dif_pos hn']
    have h42 : ∀ j, y₄.2 j = y₁.2 j := fun _ => rfl
    have hξ : (fun i => y₄.2 ((⟨2 * n + 1, by omega⟩ : Fin (2 * L)), i)) =
        fun i => y₀.2 (⟨2 * n + 1, by omega⟩, i) := by
      funext i
      rw [h42, hy₁]
      simp [refreshMap]
    refine ⟨Prod.ext ?_ ?_, fun j hj => ?_, ?_⟩
    · rw [hy]
      exact p1.symm
    · rw [hy]
      show momentumResampling γ prm m y₄.1.2 (fun i => y₄.2 ((⟨2 * n + 1, by omega⟩ : Fin (2 * L)), i))
        = S.momentum
      rw [hξ]
      exact p2.symm
    · rw [hy]
      have a1 : j.1 ≠ (⟨2 * n + 1, by omega⟩ : Fin (2 * L)) := fun h => by
        rw [h] at hj; simp only at hj; omega
      have a2 : j.1 ≠ (⟨2 * n, by omega⟩ : Fin (2 * L)) := fun h => by
        rw [h] at hj; simp only at hj; omega
      show (if j.1 = _ then _ else y₄.2 j) = _
      rw [if_neg a1, h42]
      show (if j.1 = _ then _ else y₀.2 j) = _
      rw [if_neg a2]
      exact i2 j (by omega)
    · have e1 : kinNoise prm.temperature m y = kinNoise prm.temperature m y₄ := by
        rw [hy]; exact refreshMap_energy hγ hh hT hm hw _ _
      have e2 : kinNoise prm.temperature m y₁ = kinNoise prm.temperature m y₀ :=
        refreshMap_energy hγ hh hT hm hw _ _
      have e3 : kinNoise prm.temperature m y₄ - kinNoise prm.temperature m y₁ =
          Spec.kinetic m y₄.1.2 / prm.temperature - Spec.kinetic m y₁.1.2 / prm.temperature := by
        unfold kinNoise
        simp only [h42]
        ring
      have k1 : S.kineticStart = S₀.kineticStart + Spec.kinetic m y₁.1.2 := p3
      have k2 : S.kineticEnd = S₀.kineticEnd + Spec.kinetic m y₄.1.2 := p4
      rw [e1, k1, k2]
      have e4 := i3
      simp only [sub_div, add_div] at e4 ⊢
      linarith

end

end JaxSgmc
