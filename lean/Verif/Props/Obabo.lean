import Verif.Lemmas.Obabo
import Verif.Lemmas.Solver
import Verif.Props.Integrator
import Mathlib.MeasureTheory.Function.L2Space
import Mathlib.MeasureTheory.Integral.Bochner.SumMeasure

/-!
# Properties of the OBABO integrator and SGGMC: C66, C80
-/

namespace JaxSgmc

variable {ι κ δ β μ κ' δ' μ' : Type} [Fintype ι]

/-! ## C66 -/

theorem resampling_zero (prm : Params) (m : MassMatrix ι) (r ξ : ι → ℝ) :
    momentumResampling 0 prm m r ξ = r := by
  rw [resampling_eq]; simp

theorem obaboIntegrate_eq (P : Prng κ) (lay : Layout ι) (γ : ℝ) (cm : Option (ι → ℝ)) (L : ℕ)
    (getData : δ → δ × β) (sg : StochGrad ι β μ) (s : ObaboState ι ℝ κ δ μ) (prm : Params)
    (mass : Option (MassMatrix ι)) :
    obaboIntegrate P lay γ cm L getData sg s prm mass =
      obaboSt P lay γ getData sg prm (Spec.usedMass mass cm) s L := by
  rw [← resolveMass_eq]; rfl

/-- C66, first part: without friction (only the BAB part of the steps acts on the variables), a run of `L`
steps started at the final position with negated momentum, which gets the mini-batches in reversed order,
returns to the initial position with negated momentum, for all noises, masses, step sizes and
temperatures. -/
theorem c66_bab (P : Prng κ) (lay : Layout ι) (cm : Option (ι → ℝ)) (L : ℕ)
    (getData : δ → δ × β) (sg : StochGrad ι β μ) {G : (ι → ℝ) → β → (ι → ℝ)}
    (hG : ∀ x b ms, (sg x b ms).2 = G x b) (s : ObaboState ι ℝ κ δ μ) (prm : Params)
    (mass : Option (MassMatrix ι)) (P' : Prng κ') (getData' : δ' → δ' × β) (sg' : StochGrad ι β μ')
    (s' : ObaboState ι ℝ κ' δ' μ') (hG' : ∀ x b ms, (sg' x b ms).2 = G x b)
    (hpos : s'.positions = (obaboIntegrate P lay 0 cm L getData sg s prm mass).positions)
    (hmom : s'.momentum = -(obaboIntegrate P lay 0 cm L getData sg s prm mass).momentum)
    (hb : ∀ i < 2 * L, Spec.nthBatch getData' s'.dataState i =
      Spec.nthBatch getData s.dataState (2 * L - 1 - i)) :
    let e' := obaboIntegrate P' lay 0 cm L getData' sg' s' prm mass
    e'.positions = s.positions ∧ e'.momentum = -s.momentum := by
  intro e'
  set m := resolveMass mass cm with hmdef
  let s0 : ObaboState ι ℝ κ' δ' μ' := { s' with kineticStart := 0, kineticEnd := 0 }
  -- the kinetic energies do not influence positions and momentum
  have hk : ∀ i, (obaboSt P' lay 0 getData' sg' prm m s' i).positions =
        (obaboSt P' lay 0 getData' sg' prm m s0 i).positions ∧
      (obaboSt P' lay 0 getData' sg' prm m s' i).momentum =
        (obaboSt P' lay 0 getData' sg' prm m s0 i).momentum := by
    intro i
    induction i with
    | zero => exact ⟨rfl, rfl⟩
    | succ i ih =>
      obtain ⟨p1, p2, -, -⟩ := obaboSt_pure P' lay 0 getData' sg' prm m s' hG' i
      obtain ⟨r1, r2, -, -⟩ := obaboSt_pure P' lay 0 getData' sg' prm m s0 hG' i
      rw [p1, p2, r1, r2, ih.1, ih.2]
      exact ⟨rfl, rfl⟩
  have hζ : ∀ n, let a := obaboSt P lay 0 getData sg prm m s n
        let o := obaboSt P lay 0 getData sg prm m s (n + 1)
        obaboPure 0 prm m G o.positions (-o.momentum)
          (Spec.nthBatch getData s.dataState (2 * n + 1)) (Spec.nthBatch getData s.dataState (2 * n))
          (Spec.obaboNoise P' lay s0.key (2 * L - 1 - (2 * n + 1)))
          (Spec.obaboNoise P' lay s0.key (2 * L - 1 - 2 * n)) =
          (a.positions, -a.momentum, o.kineticEnd - a.kineticEnd,
            o.kineticStart - a.kineticStart) := by
    intro n
    obtain ⟨p1, p2, p3, p4⟩ := obaboSt_pure P lay 0 getData sg prm m s hG n
    dsimp only
    rw [p1, p2, p3, p4]
    simp only [obaboPure, resampling_zero]
    set a := obaboSt P lay 0 getData sg prm m s n
    set b₁ := Spec.nthBatch getData s.dataState (2 * n)
    set b₂ := Spec.nthBatch getData s.dataState (2 * n + 1)
    set f := a.momentum + (-(prm.stepSize / 2)) • G a.positions b₁ with hf
    set q' := a.positions + prm.stepSize • m.inv.mul f with hq
    set r' := f + (-(prm.stepSize / 2)) • G q' b₂ with hr
    have e1 : -r' + (-(prm.stepSize / 2)) • G q' b₂ = -f := by
      rw [hr, neg_add, neg_smul, neg_neg, add_assoc, add_neg_cancel, add_zero]
    have e2 : q' + prm.stepSize • m.inv.mul (-f) = a.positions := by
      rw [VTensor.mul_neg, smul_neg, hq, add_neg_cancel_right]
    have e3 : -f + (-(prm.stepSize / 2)) • G a.positions b₁ = -a.momentum := by
      rw [hf, neg_add, neg_smul, neg_neg, add_assoc, add_neg_cancel, add_zero]
    rw [e1, e2, e3, kinetic_neg, kinetic_neg]
    simp
  obtain ⟨h1, h2, -, -⟩ := obabo_states P lay getData sg prm s
    (fun n => Spec.obaboNoise P' lay s0.key (2 * L - 1 - n)) hζ L P' getData' sg' hG' s0 hpos hmom
    rfl rfl hb
    (fun i hi => by
      show _ = Spec.obaboNoise P' lay s0.key (2 * L - 1 - (2 * L - 1 - i)); congr 1; omega)
    L le_rfl
  rw [Nat.sub_self] at h1 h2
  obtain ⟨k1, k2⟩ := hk L
  exact ⟨k1.trans h1, k2.trans h2⟩

/-- A case of `c66_bab`: the quadratic potential with mini-batch dependent gradients in two dimensions. -/
example : ∃ (P : Prng Spec.SKey) (getData getData' : ℕ → ℕ × ℕ) (sg : StochGrad (Fin 2) ℕ Unit)
    (G : (Fin 2 → ℝ) → ℕ → (Fin 2 → ℝ)) (s s' : ObaboState (Fin 2) ℝ Spec.SKey ℕ Unit) (prm : Params),
    (∀ x b ms, (sg x b ms).2 = G x b) ∧ s.momentum ≠ 0 ∧
    s'.positions = (obaboIntegrate P (Spec.vectorLayout 2) 0 none 2 getData sg s prm none).positions ∧
    s'.momentum = -(obaboIntegrate P (Spec.vectorLayout 2) 0 none 2 getData sg s prm none).momentum ∧
    (∀ i < 2 * 2, Spec.nthBatch getData' s'.dataState i =
      Spec.nthBatch getData s.dataState (2 * 2 - 1 - i)) := by
  refine ⟨Spec.scripted (Spec.vectorLayout 2) (fun n i => n + i) 0, Spec.batchSource fun i => i,
    Spec.batchSource fun i => 3 - i, fun x b _ => ((0, ()), fun i => x i + (b : ℝ)),
    fun x b i => x i + (b : ℝ), ⟨0, .main 0, 0, 1, 0, (), 0, 0, []⟩, ⟨0, .main 0, _, _, 0, (), 0, 0, []⟩,
    ⟨1, 1⟩, fun _ _ _ => rfl, one_ne_zero, rfl, rfl, fun i _ => ?_⟩
  rw [Spec.batchSource_nth, Spec.batchSource_nth]

omit [Fintype ι] in
/-- A tensor acts as the matrix of its columns. -/
theorem VTensor.mul_eq_sum [Fintype ι] [DecidableEq ι] (t : VTensor ι) (v : ι → ℝ) (i : ι) :
    t.mul v i = ∑ k, t.mul (Pi.single k 1) i * v k := by
  cases t with
  | diag d =>
    simp only [VTensor.mul]
    rw [Finset.sum_eq_single i]
    · simp
    · intro k _ hk; simp [Pi.single_apply, Ne.symm hk]
    · simp
  | full M =>
    simp only [VTensor.mul, Matrix.mulVec_single_one]
    rfl

open MeasureTheory in
/-- C66, second part: the refreshment of the momentum keeps mean zero and the covariance
`temperature * sqrt sqrtᵀ` (the mass matrix is `sqrt sqrtᵀ`), if the noise is standard normal and
uncorrelated with the momentum. -/
theorem c66_refresh [DecidableEq ι] {Ω : Type} [MeasurableSpace Ω] {ℙ : Measure Ω} {γ : ℝ} (hγ : 0 ≤ γ)
    (prm : Params) (hh : 0 ≤ prm.stepSize) (hT : 0 ≤ prm.temperature) (m : MassMatrix ι)
    (p ξ : Ω → ι → ℝ) (hp : ∀ i, MemLp (fun ω => p ω i) 2 ℙ) (hξ : ∀ i, MemLp (fun ω => ξ ω i) 2 ℙ)
    (noiseMean : ∀ i, ∫ ω, ξ ω i ∂ℙ = 0)
    (noiseCov : ∀ i j, ∫ ω, ξ ω i * ξ ω j ∂ℙ = if i = j then 1 else 0)
    (uncorrelated : ∀ i j, ∫ ω, p ω i * ξ ω j ∂ℙ = 0)
    (mean : ∀ i, ∫ ω, p ω i ∂ℙ = 0)
    (cov : ∀ i j, ∫ ω, p ω i * p ω j ∂ℙ =
      prm.temperature * ∑ k, m.sqrt.mul (Pi.single k 1) i * m.sqrt.mul (Pi.single k 1) j)
    [IsFiniteMeasure ℙ] :
    let p' := fun ω => momentumResampling γ prm m (p ω) (ξ ω)
    (∀ i, ∫ ω, p' ω i ∂ℙ = 0) ∧
    ∀ i j, ∫ ω, p' ω i * p' ω j ∂ℙ =
      prm.temperature * ∑ k, m.sqrt.mul (Pi.single k 1) i * m.sqrt.mul (Pi.single k 1) j := by
  intro p'
  set a := Real.exp (-γ * prm.stepSize) with ha
  have ha1 : 0 ≤ 1 - a := sub_nonneg.mpr (permanence_le hγ hh)
  set S : ι → ι → ℝ := fun i k => m.sqrt.mul (Pi.single k 1) i with hS
  set b := Real.sqrt a
  set c := Real.sqrt ((1 - a) * prm.temperature)
  have hbb : b * b = a := Real.mul_self_sqrt (Real.exp_pos _).le
  have hcc : c * c = (1 - a) * prm.temperature := Real.mul_self_sqrt (mul_nonneg ha1 hT)
  have hp' : ∀ i, (fun ω => p' ω i) = fun ω => b * p ω i + c * ∑ k, S i k * ξ ω k := by
    intro i; funext ω
    simp only [p']
    rw [resampling_eq, Pi.add_apply, Pi.smul_apply, Pi.smul_apply, VTensor.mul_eq_sum]
    rfl
  have ip : ∀ i, Integrable (fun ω => p ω i) ℙ := fun i => (hp i).integrable (by norm_num)
  have iξ : ∀ i, Integrable (fun ω => ξ ω i) ℙ := fun i => (hξ i).integrable (by norm_num)
  have ipp : ∀ i j, Integrable (fun ω => p ω i * p ω j) ℙ := fun i j => (hp i).integrable_mul (hp j)
  have ipξ : ∀ i j, Integrable (fun ω => p ω i * ξ ω j) ℙ := fun i j => (hp i).integrable_mul (hξ j)
  have iξξ : ∀ i j, Integrable (fun ω => ξ ω i * ξ ω j) ℙ := fun i j => (hξ i).integrable_mul (hξ j)
  refine ⟨fun i => ?_, fun i j => ?_⟩
  · rw [hp' i, integral_add ((ip i).const_mul b)
      ((integrable_finsetSum _ fun k _ => (iξ k).const_mul _).const_mul c),
      integral_const_mul, integral_const_mul, mean,
      integral_finsetSum _ fun k _ => (iξ k).const_mul _]
    simp only [integral_const_mul, noiseMean, mul_zero, Finset.sum_const_zero, add_zero]
  · have h0 : (fun ω => p' ω i * p' ω j) = fun ω => b * b * (p ω i * p ω j) +
        ∑ k, b * c * S j k * (p ω i * ξ ω k) + ∑ k, b * c * S i k * (p ω j * ξ ω k) +
        ∑ k, ∑ l, c * c * (S i k * S j l) * (ξ ω k * ξ ω l) := by
      funext ω
      have e1 := congrFun (hp' i) ω
      have e2 := congrFun (hp' j) ω
      rw [e1, e2]
      have e3 : ∑ k, ∑ l, c * c * (S i k * S j l) * (ξ ω k * ξ ω l) =
          c * c * ((∑ k, S i k * ξ ω k) * ∑ l, S j l * ξ ω l) := by
        rw [Finset.sum_mul_sum, Finset.mul_sum]
        refine Finset.sum_congr rfl fun k _ => ?_
        rw [Finset.mul_sum]
        exact Finset.sum_congr rfl fun l _ => by ring
      have e4 : ∀ x : ℝ, ∀ j, ∑ k, b * c * S j k * (x * ξ ω k) = b * c * x * ∑ k, S j k * ξ ω k := by
        intro x j
        rw [Finset.mul_sum]
        exact Finset.sum_congr rfl fun k _ => by ring
      rw [e3, e4, e4]
      ring
    have i1 : Integrable (fun ω => b * b * (p ω i * p ω j)) ℙ := (ipp i j).const_mul _
    have i2 : ∀ i j, Integrable (fun ω => ∑ k, b * c * S j k * (p ω i * ξ ω k)) ℙ := fun i j =>
      integrable_finsetSum _ fun k _ => (ipξ i k).const_mul _
    have i3' : ∀ k, Integrable (fun ω => ∑ l, c * c * (S i k * S j l) * (ξ ω k * ξ ω l)) ℙ :=
      fun k => integrable_finsetSum _ fun l _ => (iξξ k l).const_mul _
    have i3 : Integrable (fun ω => ∑ k, ∑ l, c * c * (S i k * S j l) * (ξ ω k * ξ ω l)) ℙ :=
      integrable_finsetSum _ fun k _ => i3' k
    have i12 : Integrable (fun ω => b * b * (p ω i * p ω j) +
        ∑ k, b * c * S j k * (p ω i * ξ ω k)) ℙ := i1.add (i2 i j)
    have i123 : Integrable (fun ω => b * b * (p ω i * p ω j) +
        ∑ k, b * c * S j k * (p ω i * ξ ω k) + ∑ k, b * c * S i k * (p ω j * ξ ω k)) ℙ :=
      i12.add (i2 j i)
    rw [h0, integral_add i123 i3, integral_add i12 (i2 j i),
      integral_add i1 (i2 i j), integral_const_mul, cov,
      integral_finsetSum _ fun k _ => (ipξ i k).const_mul _,
      integral_finsetSum _ fun k _ => (ipξ j k).const_mul _,
      integral_finsetSum _ fun k _ => i3' k]
    simp only [integral_const_mul, uncorrelated, mul_zero, Finset.sum_const_zero, add_zero]
    have e5 : ∀ k, ∫ ω, ∑ l, c * c * (S i k * S j l) * (ξ ω k * ξ ω l) ∂ℙ = c * c * (S i k * S j k) := by
      intro k
      rw [integral_finsetSum _ fun l _ => (iξξ k l).const_mul _]
      simp only [integral_const_mul, noiseCov]
      simp
    simp only [e5]
    rw [← Finset.mul_sum, hbb, hcc]
    ring

open MeasureTheory in
/-- A case of `c66_refresh`: one variable of mass one, temperature one, momentum and noise are
independent random signs. -/
example : ∃ (ℙ : Measure (Bool × Bool)) (_ : IsFiniteMeasure ℙ) (p ξ : Bool × Bool → Unit → ℝ),
    (∀ i, MemLp (fun ω => p ω i) 2 ℙ) ∧ (∀ i, MemLp (fun ω => ξ ω i) 2 ℙ) ∧
    (∀ i, ∫ ω, ξ ω i ∂ℙ = 0) ∧ (∀ i j, ∫ ω, ξ ω i * ξ ω j ∂ℙ = if i = j then 1 else 0) ∧
    (∀ i j, ∫ ω, p ω i * ξ ω j ∂ℙ = 0) ∧ (∀ i, ∫ ω, p ω i ∂ℙ = 0) ∧
    (∀ i j, ∫ ω, p ω i * p ω j ∂ℙ =
      (1 : ℝ) * ∑ k, (initMass fun _ : Unit => 1).sqrt.mul (Pi.single k 1) i *
      (initMass fun _ : Unit => 1).sqrt.mul (Pi.single k 1) j) := by
  let s : Bool → ℝ := fun b => if b then 1 else -1
  have hq : ∀ f : Bool × Bool → ℝ, ∫ ω, f ω ∂((4 : ENNReal)⁻¹ • Measure.count) =
      (f (true, true) + f (true, false) + f (false, true) + f (false, false)) / 4 := by
    intro f
    rw [integral_smul_measure, integral_count, Fintype.sum_prod_type]
    simp
    ring
  have hfin : IsFiniteMeasure ((4 : ENNReal)⁻¹ • (Measure.count : Measure (Bool × Bool))) := by
    refine ⟨?_⟩
    simp only [Measure.smul_apply, smul_eq_mul]
    refine ENNReal.mul_lt_top (by simp) ?_
    rw [Measure.count_univ]; simp
  refine ⟨(4 : ENNReal)⁻¹ • Measure.count, hfin, fun ω _ => s ω.1, fun ω _ => s ω.2, fun _ => ?_,
    fun _ => ?_,
    fun _ => ?_, fun _ _ => ?_, fun _ _ => ?_, fun _ => ?_, fun _ _ => ?_⟩
  · exact MemLp.of_discrete
  · exact MemLp.of_discrete
  all_goals rw [hq]; simp [s, initMass, VTensor.mul]; try norm_num

/-! ## C80 -/

section
variable {φ Ms φ' : Type}

/-- C80: SGGMC satisfies detailed balance pathwise.  `s` is any state of SGGMC whose stored potential
is the full potential `U`; the proposal is `q` with acceptance ratio `α`.  There are noises `ξ'` such that
every SGGMC state `s'` at the proposed position with negated momentum which gets the mini-batches in
reversed order and the noises `ξ'` proposes the initial position with negated momentum, with an acceptance
ratio `α'` satisfying `exp(-(U + K)/T - ½Σξ²) α = exp(-(U' + K')/T - ½Σξ'²) α'`. -/
theorem c80_sggmc (P : Prng κ) (lay : Layout ι) {γ : ℝ} (hγ : 0 ≤ γ) (cm : Option (ι → ℝ)) (L : ℕ)
    (getData : δ → δ × β) (sg : StochGrad ι β μ) {G : (ι → ℝ) → β → (ι → ℝ)}
    (hG : ∀ x b ms, (sg x b ms).2 = G x b) (fullPot : FullPotFn ι φ μ) (U : (ι → ℝ) → ℝ)
    (hU : ∀ x f ms, (fullPot x f ms).1 = .fin (U x)) (s : SggmcState ι κ δ μ φ Ms)
    (hs : s.potential = .fin (U s.integratorState.positions)) (prm : Params)
    (hh : 0 ≤ prm.stepSize) (hT : 0 < prm.temperature) (hm : Spec.MassOk (Spec.usedMass none cm)) :
    let m := Spec.usedMass none cm
    let q := obaboForSggmc P lay γ cm L getData sg s.integratorState prm none
    ∃ (ξ' : ℕ → ι → ℝ) (α : ℝ),
      (sggmcUpdate P none (obaboForSggmc P lay γ cm L getData sg) fullPot s prm).2 = .fin α ∧
      ∀ (κ' δ' μ' : Type) (P' : Prng κ') (getData' : δ' → δ' × β) (sg' : StochGrad ι β μ')
        (fullPot' : FullPotFn ι φ' μ') (s' : SggmcState ι κ' δ' μ' φ' Ms),
        (∀ x b ms, (sg' x b ms).2 = G x b) →
        (∀ x f ms, (fullPot' x f ms).1 = .fin (U x)) →
        s'.potential = .fin (U s'.integratorState.positions) →
        s'.integratorState.positions = q.positions →
        s'.integratorState.momentum = -q.momentum →
        (∀ i < 2 * L, Spec.nthBatch getData' s'.integratorState.dataState i =
          Spec.nthBatch getData s.integratorState.dataState (2 * L - 1 - i)) →
        (∀ i < 2 * L, Spec.obaboNoise P' lay s'.integratorState.key i = ξ' i) →
        let q' := obaboForSggmc P' lay γ cm L getData' sg' s'.integratorState prm none
        q'.positions = s.integratorState.positions ∧
        q'.momentum = -s.integratorState.momentum ∧
        ∃ α' : ℝ,
          (sggmcUpdate P' none (obaboForSggmc P' lay γ cm L getData' sg') fullPot' s' prm).2 =
            .fin α' ∧
          Real.exp (-(U s.integratorState.positions + Spec.kinetic m s.integratorState.momentum) /
                prm.temperature -
              Spec.noiseEnergy (Spec.obaboNoise P lay s.integratorState.key) (2 * L)) * α =
            Real.exp (-(U q.positions + Spec.kinetic m q.momentum) / prm.temperature -
              Spec.noiseEnergy ξ' (2 * L)) * α' := by
  rw [← resolveMass_eq] at hm ⊢
  intro m q
  let s0 : ObaboState ι ℝ κ δ μ := ⟨s.integratorState.potential, s.integratorState.key,
    s.integratorState.positions, s.integratorState.momentum, s.integratorState.dataState,
    s.integratorState.modelState, 0, 0, s.integratorState.drawn⟩
  obtain ⟨ζ, hζ, hE⟩ := obabo_energy P lay hγ getData sg prm hh hT hm s0 hG rfl rfl
  set e := obaboSt P lay γ getData sg prm m s0 L with he
  have hα := sggmc_ratio P (obaboForSggmc P lay γ cm L getData sg) fullPot s prm
    (U s.integratorState.positions) (U e.positions) e.kineticStart e.kineticEnd hT.ne' hs
    ⟨hU _ _ _, rfl, rfl⟩
  refine ⟨fun i => ζ (2 * L - 1 - i), _, hα,
    fun κ' δ' μ' P' getData' sg' fullPot' s' hG' hU' hs' hpos hmom hb hn => ?_⟩
  let s0' : ObaboState ι ℝ κ' δ' μ' := ⟨s'.integratorState.potential, s'.integratorState.key,
    s'.integratorState.positions, s'.integratorState.momentum, s'.integratorState.dataState,
    s'.integratorState.modelState, 0, 0, s'.integratorState.drawn⟩
  obtain ⟨h1, h2, h3, h4⟩ := obabo_states P lay getData sg prm s0 ζ hζ L P' getData' sg' hG' s0'
    hpos hmom rfl rfl hb hn L le_rfl
  rw [Nat.sub_self] at h1 h2 h3 h4
  set e' := obaboSt P' lay γ getData' sg' prm m s0' L with he'
  have hα' := sggmc_ratio P' (obaboForSggmc P' lay γ cm L getData' sg') fullPot' s' prm
    (U s'.integratorState.positions) (U e'.positions) e'.kineticStart e'.kineticEnd hT.ne' hs'
    ⟨hU' _ _ _, rfl, rfl⟩
  refine ⟨h1, h2, _, hα', ?_⟩
  have hsum : Spec.noiseEnergy (fun i => ζ (2 * L - 1 - i)) (2 * L) = Spec.noiseEnergy ζ (2 * L) := by
    unfold Spec.noiseEnergy
    congr 1
    exact Finset.sum_range_reflect (fun k => ∑ i, ζ k i * ζ k i) (2 * L)
  have h5 : e'.kineticStart = e.kineticEnd := by rw [h3]; show _ - (0 : ℝ) = _; rw [sub_zero]
  have h6 : e'.kineticEnd = e.kineticStart := by rw [h4]; show _ - (0 : ℝ) = _; rw [sub_zero]
  have h1' : e'.positions = s.integratorState.positions := h1
  have hp : s'.integratorState.positions = e.positions := hpos
  rw [h5, h6, h1', hp, hsum]
  show _ = Real.exp (-(U e.positions + Spec.kinetic m e.momentum) / prm.temperature -
    Spec.noiseEnergy ζ (2 * L)) * _
  have hx : (U s.integratorState.positions - U e.positions + e.kineticStart - e.kineticEnd) /
      prm.temperature =
      -((U e.positions - U s.integratorState.positions + e.kineticEnd - e.kineticStart) /
        prm.temperature) := by ring
  rw [hx, ← Spec.acceptProb_neg, ← mul_assoc, ← Real.exp_add]
  congr 2
  have hE' := hE L
  have hE'' : Spec.kinetic m s.integratorState.momentum / prm.temperature +
      Spec.noiseEnergy (Spec.obaboNoise P lay s.integratorState.key) (2 * L) =
      Spec.kinetic m e.momentum / prm.temperature + Spec.noiseEnergy ζ (2 * L) +
        (e.kineticStart - e.kineticEnd) / prm.temperature := hE'
  simp only [neg_div, add_div, sub_div] at hE'' ⊢
  linarith

/-- The hypotheses of `c80_sggmc` about the reversed run can be met for all noises `ξ'`. -/
theorem sggmc_reversed_exists {lay : Layout ι} (hl : Spec.Layout.Injective lay) (L : ℕ)
    (getData : δ → δ × β) (d : δ) (q : ObaboState ι XF κ δ μ) (ξ' : ℕ → ι → ℝ) (u : ℝ) (ms : μ')
    (fd : φ') (U : (ι → ℝ) → ℝ) (ar : XF × ℝ × XF) (mst : Option Ms) :
    let s' : SggmcState ι Spec.SKey ℕ μ' φ' Ms :=
      ⟨⟨0, .main 0, q.positions, -q.momentum, 0, ms, .fin 0, .fin 0, []⟩, .fin (U q.positions), fd,
        .main 0, ar, mst, []⟩
    s'.potential = .fin (U s'.integratorState.positions) ∧
    (∀ i < 2 * L, Spec.nthBatch (Spec.batchSource fun i => Spec.nthBatch getData d (2 * L - 1 - i))
      s'.integratorState.dataState i = Spec.nthBatch getData d (2 * L - 1 - i)) ∧
    ∀ i < 2 * L, Spec.obaboNoise (Spec.scripted lay ξ' u) lay s'.integratorState.key i = ξ' i :=
  ⟨rfl, fun i _ => Spec.batchSource_nth _ i, fun i _ => by rw [Spec.scripted_obaboNoise hl]⟩

end

end JaxSgmc
