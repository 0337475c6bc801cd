import Verif.Lemmas.Leapfrog

/-! # The path of `obabo` and its reversal -/

namespace JaxSgmc

variable {ι κ δ β μ : Type} [Fintype ι]

/-- The noise of the reversed refreshment of the momentum `r = sqrt * w`. -/
noncomputable def refreshRev (γ : ℝ) (prm : Params) (w ξ : ι → ℝ) : ι → ℝ :=
  Real.sqrt (Real.exp (-γ * prm.stepSize)) • ξ +
    (-Real.sqrt ((1 - Real.exp (-γ * prm.stepSize)) / prm.temperature)) • w

theorem resampling_eq (γ : ℝ) (prm : Params) (m : MassMatrix ι) (r ξ : ι → ℝ) :
    momentumResampling γ prm m r ξ = Real.sqrt (Real.exp (-γ * prm.stepSize)) • r +
      Real.sqrt ((1 - Real.exp (-γ * prm.stepSize)) * prm.temperature) • m.sqrt.mul ξ := rfl

theorem permanence_le {γ : ℝ} (hγ : 0 ≤ γ) {prm : Params} (hh : 0 ≤ prm.stepSize) :
    Real.exp (-γ * prm.stepSize) ≤ 1 := by
  rw [Real.exp_le_one_iff]
  nlinarith [mul_nonneg hγ hh]

theorem resampling_reverse {γ : ℝ} (hγ : 0 ≤ γ) {prm : Params} (hh : 0 ≤ prm.stepSize)
    (hT : 0 < prm.temperature) (m : MassMatrix ι) (r ξ w : ι → ℝ) (hw : m.sqrt.mul w = r) :
    momentumResampling γ prm m (-momentumResampling γ prm m r ξ) (refreshRev γ prm w ξ) = -r := by
  rw [resampling_eq, resampling_eq, refreshRev, VTensor.mul_add, VTensor.mul_smul, VTensor.mul_smul, hw]
  have ha := Real.mul_self_sqrt (Real.exp_pos (-γ * prm.stepSize)).le
  have hc : Real.sqrt ((1 - Real.exp (-γ * prm.stepSize)) * prm.temperature) *
      Real.sqrt ((1 - Real.exp (-γ * prm.stepSize)) / prm.temperature) =
      1 - Real.exp (-γ * prm.stepSize) := by
    have h1 : 0 ≤ 1 - Real.exp (-γ * prm.stepSize) := sub_nonneg.mpr (permanence_le hγ hh)
    rw [← Real.sqrt_mul (mul_nonneg h1 hT.le)]
    have : (1 - Real.exp (-γ * prm.stepSize)) * prm.temperature *
        ((1 - Real.exp (-γ * prm.stepSize)) / prm.temperature) =
        (1 - Real.exp (-γ * prm.stepSize)) ^ 2 := by
      field_simp
    rw [this, Real.sqrt_sq h1]
  set a := Real.exp (-γ * prm.stepSize)
  set b := Real.sqrt a
  set c := Real.sqrt ((1 - a) * prm.temperature)
  set d := Real.sqrt ((1 - a) / prm.temperature)
  funext i
  simp only [Pi.add_apply, Pi.smul_apply, Pi.neg_apply, smul_eq_mul]
  linear_combination (-r i) * ha - r i * hc

theorem resampling_energy {γ : ℝ} (hγ : 0 ≤ γ) {prm : Params} (hh : 0 ≤ prm.stepSize)
    (hT : 0 < prm.temperature) {m : MassMatrix ι} (hm : Spec.MassOk m) (r ξ w : ι → ℝ)
    (hw : m.sqrt.mul w = r) :
    Spec.kinetic m r / prm.temperature + (∑ i, ξ i * ξ i) / 2 =
      Spec.kinetic m (momentumResampling γ prm m r ξ) / prm.temperature +
        (∑ i, refreshRev γ prm w ξ i * refreshRev γ prm w ξ i) / 2 := by
  have ha := Real.mul_self_sqrt (Real.exp_pos (-γ * prm.stepSize)).le
  have h1 : 0 ≤ 1 - Real.exp (-γ * prm.stepSize) := sub_nonneg.mpr (permanence_le hγ hh)
  have sym : ∀ x y, bil m x y = bil m y x := hm.symm
  have hww : bil m r r = ∑ i, w i * w i := by rw [← hw]; exact hm.root w w
  have hwx : bil m r (m.sqrt.mul ξ) = ∑ i, w i * ξ i := by rw [← hw]; exact hm.root w ξ
  have hxx : bil m (m.sqrt.mul ξ) (m.sqrt.mul ξ) = ∑ i, ξ i * ξ i := hm.root ξ ξ
  have hcc := Real.mul_self_sqrt (mul_nonneg h1 hT.le)
  have hdd := Real.mul_self_sqrt (div_nonneg h1 hT.le)
  have hcd : Real.sqrt ((1 - Real.exp (-γ * prm.stepSize)) * prm.temperature) =
      prm.temperature * Real.sqrt ((1 - Real.exp (-γ * prm.stepSize)) / prm.temperature) := by
    have : (1 - Real.exp (-γ * prm.stepSize)) * prm.temperature = prm.temperature ^ 2 *
        ((1 - Real.exp (-γ * prm.stepSize)) / prm.temperature) := by field_simp
    rw [this, Real.sqrt_mul (by positivity), Real.sqrt_sq hT.le]
  rw [kinetic_eq_bil, kinetic_eq_bil, resampling_eq]
  simp only [bil_add_left, bil_add_right, bil_smul_left, bil_smul_right]
  rw [sym (m.sqrt.mul ξ) r, hwx, hxx, hww]
  have e3 : ∑ i, refreshRev γ prm w ξ i * refreshRev γ prm w ξ i =
      Real.exp (-γ * prm.stepSize) * ∑ i, ξ i * ξ i -
      2 * Real.sqrt (Real.exp (-γ * prm.stepSize)) *
        Real.sqrt ((1 - Real.exp (-γ * prm.stepSize)) / prm.temperature) * ∑ i, w i * ξ i +
      (1 - Real.exp (-γ * prm.stepSize)) / prm.temperature * ∑ i, w i * w i := by
    rw [Finset.mul_sum, Finset.mul_sum, Finset.mul_sum, ← Finset.sum_sub_distrib,
      ← Finset.sum_add_distrib]
    refine Finset.sum_congr rfl fun i _ => ?_
    simp only [refreshRev, Pi.add_apply, Pi.smul_apply, smul_eq_mul]
    linear_combination (ξ i * ξ i) * ha + (w i * w i) * hdd
  rw [e3]
  set X := ∑ i, ξ i * ξ i
  set Y := ∑ i, w i * ξ i
  set Z := ∑ i, w i * w i
  set a := Real.exp (-γ * prm.stepSize)
  set b := Real.sqrt a
  set c := Real.sqrt ((1 - a) * prm.temperature)
  set d := Real.sqrt ((1 - a) / prm.temperature)
  have e4 : b * (b * Z + c * Y) + c * (b * Y + c * X) =
      a * Z + 2 * b * c * Y + (1 - a) * prm.temperature * X := by
    linear_combination Z * ha + X * hcc
  have e5 : b * (b * Z) + b * (c * Y) + (c * (b * Y) + c * (c * X)) =
      a * Z + 2 * b * c * Y + (1 - a) * prm.temperature * X := by
    linear_combination e4
  have e6 : b * (b * Z) + c * (b * Y) + (b * (c * Y) + c * (c * X)) =
      a * Z + 2 * b * c * Y + (1 - a) * prm.temperature * X := by
    linear_combination e4
  first
    | rw [e5]
    | rw [e6]
    | (have e7 : b * (b * Z + c * Y) + c * (b * Y + c * X) = _ := e4
       rw [e7])
  rw [hcd]
  field_simp
  ring

/-- One OBABO step: position, momentum, kinetic energies after the first and before the second
refreshment. -/
noncomputable def obaboPure (γ : ℝ) (prm : Params) (m : MassMatrix ι) (G : (ι → ℝ) → β → (ι → ℝ))
    (q p : ι → ℝ) (b₁ b₂ : β) (ξ₁ ξ₂ : ι → ℝ) : (ι → ℝ) × (ι → ℝ) × ℝ × ℝ :=
  let r := momentumResampling γ prm m p ξ₁
  let f := r + (-(prm.stepSize / 2)) • G q b₁
  let q' := q + prm.stepSize • m.inv.mul f
  let r' := f + (-(prm.stepSize / 2)) • G q' b₂
  (q', momentumResampling γ prm m r' ξ₂, Spec.kinetic m r, Spec.kinetic m r')

/-- Reversal of one OBABO step. -/
theorem obaboPure_reverse {γ : ℝ} (hγ : 0 ≤ γ) {prm : Params} (hh : 0 ≤ prm.stepSize)
    (hT : 0 < prm.temperature) {m : MassMatrix ι} (hm : Spec.MassOk m) (G : (ι → ℝ) → β → (ι → ℝ))
    (q p : ι → ℝ) (b₁ b₂ : β) (ξ₁ ξ₂ : ι → ℝ) :
    let o := obaboPure γ prm m G q p b₁ b₂ ξ₁ ξ₂
    ∃ ζ₁ ζ₂ : ι → ℝ,
      obaboPure γ prm m G o.1 (-o.2.1) b₂ b₁ ζ₂ ζ₁ = (q, -p, o.2.2.2, o.2.2.1) ∧
      Spec.kinetic m p / prm.temperature + (∑ i, ξ₁ i * ξ₁ i) / 2 + (∑ i, ξ₂ i * ξ₂ i) / 2 =
        Spec.kinetic m o.2.1 / prm.temperature + (∑ i, ζ₁ i * ζ₁ i) / 2 + (∑ i, ζ₂ i * ζ₂ i) / 2 +
          (o.2.2.1 - o.2.2.2) / prm.temperature := by
  intro o
  obtain ⟨w₁, hw₁⟩ := hm.surj p
  let r := momentumResampling γ prm m p ξ₁
  let f := r + (-(prm.stepSize / 2)) • G q b₁
  let q' := q + prm.stepSize • m.inv.mul f
  let r' := f + (-(prm.stepSize / 2)) • G q' b₂
  obtain ⟨w₂, hw₂⟩ := hm.surj r'
  have ho : o = (q', momentumResampling γ prm m r' ξ₂, Spec.kinetic m r, Spec.kinetic m r') := rfl
  refine ⟨refreshRev γ prm w₁ ξ₁, refreshRev γ prm w₂ ξ₂, ?_, ?_⟩
  · rw [ho]
    simp only [obaboPure]
    rw [resampling_reverse hγ hh hT m r' ξ₂ w₂ hw₂]
    have e1 : -r' + (-(prm.stepSize / 2)) • G q' b₂ = -f := by
      simp only [r']; rw [neg_add, neg_smul, neg_neg, add_assoc, add_neg_cancel, add_zero]
    have e2 : q' + prm.stepSize • m.inv.mul (-f) = q := by
      rw [VTensor.mul_neg, smul_neg]; simp only [q']; rw [add_neg_cancel_right]
    have e3 : -f + (-(prm.stepSize / 2)) • G q b₁ = -r := by
      simp only [f]; rw [neg_add, neg_smul, neg_neg, add_assoc, add_neg_cancel, add_zero]
    rw [e1, e2, e3, kinetic_neg, kinetic_neg, resampling_reverse hγ hh hT m p ξ₁ w₁ hw₁]
  · rw [ho]
    have h1 := resampling_energy hγ hh hT hm p ξ₁ w₁ hw₁
    have h2 := resampling_energy hγ hh hT hm r' ξ₂ w₂ hw₂
    simp only
    rw [sub_div]
    linarith

/-- States along `lax.scan`. -/
noncomputable def obaboSt (P : Prng κ) (lay : Layout ι) (γ : ℝ) (getData : δ → δ × β)
    (sg : StochGrad ι β μ) (prm : Params) (m : MassMatrix ι) (s : ObaboState ι ℝ κ δ μ) (n : ℕ) :
    ObaboState ι ℝ κ δ μ :=
  (List.range n).foldl (obaboStep P lay γ getData sg prm m) s

section
variable (P : Prng κ) (lay : Layout ι) (γ : ℝ) (getData : δ → δ × β) (sg : StochGrad ι β μ)
  (prm : Params) (m : MassMatrix ι) (s : ObaboState ι ℝ κ δ μ)

theorem obaboSt_succ (n : ℕ) : obaboSt P lay γ getData sg prm m s (n + 1) =
    obaboStep P lay γ getData sg prm m (obaboSt P lay γ getData sg prm m s n) n := by
  simp [obaboSt, List.range_succ, List.foldl_append]

theorem obaboSt_key (n : ℕ) : (obaboSt P lay γ getData sg prm m s n).key =
    (fun k => P.split k 3 0)^[n] s.key := by
  induction n with
  | zero => rfl
  | succ n ih => rw [obaboSt_succ, Function.iterate_succ_apply', ← ih]; rfl

theorem obaboSt_data (n : ℕ) : (obaboSt P lay γ getData sg prm m s n).dataState =
    (fun d => (getData d).1)^[2 * n] s.dataState := by
  induction n with
  | zero => rfl
  | succ n ih =>
    rw [obaboSt_succ, Nat.mul_succ, Function.iterate_succ_apply', Function.iterate_succ_apply', ← ih]
    rfl

/-- One step of the scan is the pure step with the noises and mini-batches of the run. -/
theorem obaboSt_pure {G : (ι → ℝ) → β → (ι → ℝ)} (hG : ∀ x b ms, (sg x b ms).2 = G x b) (n : ℕ) :
    let o := obaboPure γ prm m G (obaboSt P lay γ getData sg prm m s n).positions
      (obaboSt P lay γ getData sg prm m s n).momentum
      (Spec.nthBatch getData s.dataState (2 * n)) (Spec.nthBatch getData s.dataState (2 * n + 1))
      (Spec.obaboNoise P lay s.key (2 * n)) (Spec.obaboNoise P lay s.key (2 * n + 1))
    (obaboSt P lay γ getData sg prm m s (n + 1)).positions = o.1 ∧
    (obaboSt P lay γ getData sg prm m s (n + 1)).momentum = o.2.1 ∧
    (obaboSt P lay γ getData sg prm m s (n + 1)).kineticStart =
      (obaboSt P lay γ getData sg prm m s n).kineticStart + o.2.2.1 ∧
    (obaboSt P lay γ getData sg prm m s (n + 1)).kineticEnd =
      (obaboSt P lay γ getData sg prm m s n).kineticEnd + o.2.2.2 := by
  intro o
  have c1 : (0.5 : ℝ) = 1 / 2 := by norm_num
  have c2 : (-1.0 : ℝ) = -1 := by norm_num
  have h1 : ∀ (g r : ι → ℝ), momentumUpdate (0.5 * prm.stepSize) g r =
      r + (-(prm.stepSize / 2)) • g := by
    intro g r
    funext i
    simp only [momentumUpdate, vadd, vscale, Pi.add_apply, Pi.smul_apply, smul_eq_mul, c1, c2]
    ring
  have h2 : ∀ r : ι → ℝ, kineticEnergy m r = Spec.kinetic m r := by
    intro r; simp only [kineticEnergy, Spec.kinetic, vdot, c1]; ring
  have hd1 : Spec.nthBatch getData s.dataState (2 * n) =
      (getData (obaboSt P lay γ getData sg prm m s n).dataState).2 := by
    rw [obaboSt_data]; rfl
  have hd2 : Spec.nthBatch getData s.dataState (2 * n + 1) =
      (getData (getData (obaboSt P lay γ getData sg prm m s n).dataState).1).2 := by
    rw [obaboSt_data, Spec.nthBatch, Function.iterate_succ_apply']
  have hn1 : Spec.obaboNoise P lay s.key (2 * n) =
      (randomTree P lay (P.split (obaboSt P lay γ getData sg prm m s n).key 3 1)).1 := by
    rw [obaboSt_key, Spec.obaboNoise, Nat.mul_div_cancel_left n two_pos, Nat.mul_mod_right]
  have hn2 : Spec.obaboNoise P lay s.key (2 * n + 1) =
      (randomTree P lay (P.split (obaboSt P lay γ getData sg prm m s n).key 3 2)).1 := by
    rw [obaboSt_key, Spec.obaboNoise]
    have a1 : (2 * n + 1) / 2 = n := by omega
    have a2 : 1 + (2 * n + 1) % 2 = 2 := by omega
    rw [a1, a2]
  simp only [o]
  rw [hd1, hd2, hn1, hn2, obaboSt_succ]
  simp only [obaboStep, obaboPure, h1, h2, hG, positionUpdate, vscale_eq, vadd_eq, and_self]

end

/-- Reversing noises and energy balance along a path. -/
theorem obabo_energy (P : Prng κ) (lay : Layout ι) {γ : ℝ} (hγ : 0 ≤ γ) (getData : δ → δ × β)
    (sg : StochGrad ι β μ) (prm : Params) (hh : 0 ≤ prm.stepSize) (hT : 0 < prm.temperature)
    {m : MassMatrix ι} (hm : Spec.MassOk m) (s : ObaboState ι ℝ κ δ μ) {G : (ι → ℝ) → β → (ι → ℝ)}
    (hG : ∀ x b ms, (sg x b ms).2 = G x b) (hs : s.kineticStart = 0) (he : s.kineticEnd = 0) :
    ∃ ζ : ℕ → ι → ℝ,
      (∀ n, let a := obaboSt P lay γ getData sg prm m s n
        let o := obaboSt P lay γ getData sg prm m s (n + 1)
        obaboPure γ prm m G o.positions (-o.momentum)
          (Spec.nthBatch getData s.dataState (2 * n + 1)) (Spec.nthBatch getData s.dataState (2 * n))
          (ζ (2 * n + 1)) (ζ (2 * n)) = (a.positions, -a.momentum, o.kineticEnd - a.kineticEnd,
            o.kineticStart - a.kineticStart)) ∧
      ∀ n, Spec.kinetic m s.momentum / prm.temperature +
          Spec.noiseEnergy (Spec.obaboNoise P lay s.key) (2 * n) =
        Spec.kinetic m (obaboSt P lay γ getData sg prm m s n).momentum / prm.temperature +
          Spec.noiseEnergy ζ (2 * n) +
          ((obaboSt P lay γ getData sg prm m s n).kineticStart -
            (obaboSt P lay γ getData sg prm m s n).kineticEnd) / prm.temperature := by
  have h := fun n => obaboPure_reverse hγ hh hT hm G (obaboSt P lay γ getData sg prm m s n).positions
      (obaboSt P lay γ getData sg prm m s n).momentum
      (Spec.nthBatch getData s.dataState (2 * n)) (Spec.nthBatch getData s.dataState (2 * n + 1))
      (Spec.obaboNoise P lay s.key (2 * n)) (Spec.obaboNoise P lay s.key (2 * n + 1))
  choose z₁ z₂ hz hE using h
  have hp := fun n => obaboSt_pure P lay γ getData sg prm m s hG n
  refine ⟨fun k => if k % 2 = 0 then z₁ (k / 2) else z₂ (k / 2), fun n => ?_, fun n => ?_⟩
  · have a1 : (2 * n + 1) % 2 = 1 := by omega
    have a2 : (2 * n) % 2 = 0 := by omega
    have a3 : (2 * n + 1) / 2 = n := by omega
    have a4 : (2 * n) / 2 = n := by omega
    obtain ⟨p1, p2, p3, p4⟩ := hp n
    dsimp only
    rw [p1, p2, p3, p4, a1, a2, a3, a4, if_pos rfl, if_neg (by norm_num), hz n]
    simp
  · induction n with
    | zero => simp [Spec.noiseEnergy, obaboSt, hs, he]
    | succ n ih =>
      have a1 : (2 * n + 1) % 2 = 1 := by omega
      have a2 : (2 * n) % 2 = 0 := by omega
      have a3 : (2 * n + 1) / 2 = n := by omega
      have a4 : (2 * n) / 2 = n := by omega
      obtain ⟨p1, p2, p3, p4⟩ := hp n
      have hEn := hE n
      rw [p2, p3, p4]
      rw [Nat.mul_succ]
      simp only [Spec.noiseEnergy, Finset.sum_range_succ, a1, a2, a3, a4, if_pos,
        one_ne_zero, if_false] at ih ⊢
      simp only [sub_div, add_div] at ih hEn ⊢
      linarith

/-- Along the reversed path, the run passes through the same states with negated momentum. -/
theorem obabo_states {κ' δ' μ' : Type} (P : Prng κ) (lay : Layout ι) {γ : ℝ} (getData : δ → δ × β)
    (sg : StochGrad ι β μ) (prm : Params) {m : MassMatrix ι} (s : ObaboState ι ℝ κ δ μ)
    {G : (ι → ℝ) → β → (ι → ℝ)} (ζ : ℕ → ι → ℝ)
    (hζ : ∀ n, let a := obaboSt P lay γ getData sg prm m s n
        let o := obaboSt P lay γ getData sg prm m s (n + 1)
        obaboPure γ prm m G o.positions (-o.momentum)
          (Spec.nthBatch getData s.dataState (2 * n + 1)) (Spec.nthBatch getData s.dataState (2 * n))
          (ζ (2 * n + 1)) (ζ (2 * n)) = (a.positions, -a.momentum, o.kineticEnd - a.kineticEnd,
            o.kineticStart - a.kineticStart))
    (L : ℕ) (P' : Prng κ') (getData' : δ' → δ' × β) (sg' : StochGrad ι β μ')
    (hG' : ∀ x b ms, (sg' x b ms).2 = G x b) (s' : ObaboState ι ℝ κ' δ' μ')
    (hx : s'.positions = (obaboSt P lay γ getData sg prm m s L).positions)
    (hp : s'.momentum = -(obaboSt P lay γ getData sg prm m s L).momentum)
    (hs : s'.kineticStart = 0) (he : s'.kineticEnd = 0)
    (hb : ∀ i < 2 * L, Spec.nthBatch getData' s'.dataState i =
      Spec.nthBatch getData s.dataState (2 * L - 1 - i))
    (hn : ∀ i < 2 * L, Spec.obaboNoise P' lay s'.key i = ζ (2 * L - 1 - i)) :
    ∀ i ≤ L,
      (obaboSt P' lay γ getData' sg' prm m s' i).positions =
        (obaboSt P lay γ getData sg prm m s (L - i)).positions ∧
      (obaboSt P' lay γ getData' sg' prm m s' i).momentum =
        -(obaboSt P lay γ getData sg prm m s (L - i)).momentum ∧
      (obaboSt P' lay γ getData' sg' prm m s' i).kineticStart =
        (obaboSt P lay γ getData sg prm m s L).kineticEnd -
          (obaboSt P lay γ getData sg prm m s (L - i)).kineticEnd ∧
      (obaboSt P' lay γ getData' sg' prm m s' i).kineticEnd =
        (obaboSt P lay γ getData sg prm m s L).kineticStart -
          (obaboSt P lay γ getData sg prm m s (L - i)).kineticStart := by
  intro i
  induction i with
  | zero =>
    intro _
    refine ⟨by simpa [obaboSt] using hx, by simpa [obaboSt] using hp, ?_, ?_⟩
    · simp [obaboSt, hs]
    · simp [obaboSt, he]
  | succ i ih =>
    intro hi
    obtain ⟨h1, h2, h3, h4⟩ := ih (by omega)
    obtain ⟨j, rfl⟩ : ∃ j, L = i + 1 + j := ⟨L - (i + 1), by omega⟩
    have a1 : i + 1 + j - (i + 1) = j := by omega
    have a2 : i + 1 + j - i = j + 1 := by omega
    rw [a2] at h1 h2 h3 h4
    rw [a1]
    obtain ⟨p1, p2, p3, p4⟩ := obaboSt_pure P' lay γ getData' sg' prm m s' hG' i
    have b1 : 2 * (i + 1 + j) - 1 - 2 * i = 2 * j + 1 := by omega
    have b2 : 2 * (i + 1 + j) - 1 - (2 * i + 1) = 2 * j := by omega
    have hj := hζ j
    dsimp only at hj
    rw [h1, h2, hb _ (by omega), hb _ (by omega), hn _ (by omega), hn _ (by omega), b1, b2, hj]
      at p1 p2 p3 p4
    refine ⟨p1, p2, ?_, ?_⟩
    · rw [p3, h3]; simp only; ring
    · rw [p4, h4]; simp only; ring

end JaxSgmc
