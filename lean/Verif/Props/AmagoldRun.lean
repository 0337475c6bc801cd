import Verif.Lemmas.Driven
import Verif.Lemmas.OracleExists
import Mathlib.Probability.Distributions.Uniform
import Verif.Props.AmagoldErgodic

/-!
# C131: runs of AMAGOLD with ideal random numbers
-/

namespace JaxSgmc

open MeasureTheory ProbabilityTheory Filter Topology

variable {ι κ δ β μ φ Ω Acc : Type} [Fintype ι]

attribute [local irreducible] Spec.amagoldNext leapMap Spec.amagoldExpect

/-! ## The random numbers used by the code -/

theorem drawnNoise_run {P : Prng κ} {sp : κ → ℕ → ℕ → κ} (hsp : P.split = sp) (lay : Layout ι) (key : κ) (L t : ℕ) :
    drawnNoise P lay ((fun k => P.split k 2 0)^[t] (P.split key 2 0)) L =
      fun j : Fin L × ι => runNoise lay sp key (t + j.1) P j.2 := by
  subst hsp
  funext j
  unfold drawnNoise Spec.leapNoise runNoise noiseKey randomTree splitPrng
  dsimp only
  rw [← Function.iterate_add_apply, Nat.add_comm]

theorem amagold_keys [Inhabited β] (P : Prng κ) (lay : Layout ι) (γ : ℝ) (cm : Option (ι → ℝ)) (L : ℕ) (data : δ → δ × β)
    (sg : StochGrad ι β μ) (fullPot : FullPotFn ι φ μ) (s : AmagoldState ι κ δ μ φ Unit) (p : Params) :
    let s' := (amagoldUpdate P none (revForAmagold P lay γ cm L data sg) fullPot s p).1
    s'.key = P.split s.key 2 0 ∧ s'.integratorState.key = (fun k => P.split k 2 0)^[L] s.integratorState.key ∧
      s'.integratorState.dataState = (fun d => (data d).1)^[L] s.integratorState.dataState := by
  refine ⟨rfl, ?_, ?_⟩
  · exact revState_key P lay γ data sg p _ _ L
  · exact revState_data P lay γ data sg p _ _ L

section
variable [Inhabited β]

/-- The transition of AMAGOLD as a function of its random numbers. -/
noncomputable def amagoldDrive (lay : Layout ι) (γ : ℝ) (cm : Option (ι → ℝ)) (L : ℕ) (sg : StochGrad ι β μ)
    (fullPot : FullPotFn ι φ μ) (U : (ι → ℝ) → ℝ) (f₀ : φ) (ms : μ) (p : Params)
    (v : (Fin L → β) × (Fin L × ι → ℝ) × ℝ) (z : (ι → ℝ) × (ι → ℝ)) : (ι → ℝ) × (ι → ℝ) :=
  Spec.amagoldNext lay γ none cm L sg fullPot U f₀ ms p v.1 z v.2.1 (max v.2.2 0)

/-- The states visited by a run from a given state. -/
noncomputable def visitedFrom (P : Prng κ) (lay : Layout ι) (γ : ℝ) (cm : Option (ι → ℝ)) (L : ℕ) (data : δ → δ × β)
    (sg : StochGrad ι β μ) (fullPot : FullPotFn ι φ μ) :
    AmagoldState ι κ δ μ φ Unit → List Params → List ((ι → ℝ) × (ι → ℝ))
  | _, [] => []
  | s, p :: ps =>
    let s' := (amagoldUpdate P none (revForAmagold P lay γ cm L data sg) fullPot s p).1
    (s'.integratorState.positions, s'.integratorState.momentum) :: visitedFrom P lay γ cm L data sg fullPot s' ps

omit [Inhabited β] in
theorem visitedFrom_eq (P : Prng κ) (lay : Layout ι) (γ : ℝ) (cm : Option (ι → ℝ)) (L : ℕ) (data : δ → δ × β)
    (sg : StochGrad ι β μ) (fullPot : FullPotFn ι φ μ) (prms : List Params) :
    ∀ s : AmagoldState ι κ δ μ φ Unit, visitedFrom P lay γ cm L data sg fullPot s prms =
      (List.range prms.length).map fun k =>
        let s' := amagoldRun P none (revForAmagold P lay γ cm L data sg) fullPot s (prms.take (k + 1))
        (s'.integratorState.positions, s'.integratorState.momentum) := by
  induction prms with
  | nil => intro s; rfl
  | cons p ps ih =>
    intro s
    rw [visitedFrom, ih, List.length_cons, List.range_succ_eq_map, List.map_cons, List.map_map]
    rfl

/-- The code is driven by the random numbers of its keys. -/
theorem code_drive {P : Prng κ} {sp : κ → ℕ → ℕ → κ} (hsp : P.split = sp) {lay : Layout ι}
    (hl : Spec.Layout.Injective lay) (γ : ℝ) (cm : Option (ι → ℝ)) (L : ℕ) (data : δ → δ × β) (d₀ : δ)
    (sg : StochGrad ι β μ) {G : (ι → ℝ) → β → (ι → ℝ)} (hG : ∀ x b ms, (sg x b ms).2 = G x b)
    (fullPot : FullPotFn ι φ μ) {U : (ι → ℝ) → ℝ} {D : Set (ι → ℝ)} (hfp : Spec.PotentialOn fullPot U D)
    (f₀ : φ) (ms : μ) (key : κ) (hu : ∀ n, 0 ≤ runUnif sp key n P) (acc : Acc → (ι → ℝ) × (ι → ℝ) → Acc)
    (prms : List Params) :
    ∀ (n : ℕ) (s : AmagoldState ι κ δ μ φ Unit) (a : Acc), s.integratorState.positions ∈ D →
      s.potential = .fin (U s.integratorState.positions) →
      s.integratorState.key = (fun k => P.split k 2 0)^[1 + n * L] (P.split key 2 0) →
      s.key = (fun k => P.split k 2 0)^[n] (P.split key 2 1) →
      s.integratorState.dataState = (fun d => (data d).1)^[n * L] d₀ →
      (drive (amagoldDrive lay γ cm L sg fullPot U f₀ ms) acc prms n
        (fun m => runInnov lay sp key d₀ L m P data) (a, (s.integratorState.positions, s.integratorState.momentum))).1 =
      (visitedFrom P lay γ cm L data sg fullPot s prms).foldl acc a := by
  induction prms with
  | nil => intros; rfl
  | cons p ps ih =>
    intro n s a hD hpot hk1 hk2 hd
    obtain ⟨e1, e2, e3⟩ := amagold_code_step P hl γ none cm L data sg hG fullPot hfp s hD hpot p f₀ ms
    obtain ⟨k1, k2, k3⟩ := amagold_keys P lay γ cm L data sg fullPot s p
    have hv : amagoldDrive lay γ cm L sg fullPot U f₀ ms p (runInnov lay sp key d₀ L n P data)
        (s.integratorState.positions, s.integratorState.momentum) =
        (((amagoldUpdate P none (revForAmagold P lay γ cm L data sg) fullPot s p).1).integratorState.positions,
          ((amagoldUpdate P none (revForAmagold P lay γ cm L data sg) fullPot s p).1).integratorState.momentum) := by
      rw [e1]
      unfold amagoldDrive runInnov
      dsimp only
      rw [max_eq_left (hu n)]
      have h1 : (fun i : Fin L => Spec.nthBatch data s.integratorState.dataState i) = Spec.updateBatches data d₀ L n := by
        funext i
        unfold Spec.updateBatches Spec.nthBatch
        rw [hd, ← Function.iterate_add_apply, Nat.add_comm]
      have h2 : P.uniform (P.split s.key 2 1) = runUnif sp key n P := by
        rw [hk2]
        subst hsp
        rfl
      have h3 := drawnNoise_run hsp lay key L (1 + n * L)
      rw [← hk1] at h3
      rw [h1, h2, h3]
      rfl
    rw [drive, visitedFrom]
    dsimp only
    rw [hv, List.foldl_cons]
    refine ih (n + 1) _ _ e2 e3 ?_ ?_ ?_
    · rw [k2, hk1, ← Function.iterate_add_apply]
      congr 1
      ring
    · rw [k1, hk2, Function.iterate_succ_apply']
    · rw [k3, hd, ← Function.iterate_add_apply]
      congr 1
      ring

end

section
variable [Inhabited β] [Countable β] [MeasurableSpace β] [MeasurableSingletonClass β] {lay : Layout ι}
  (hl : Spec.Layout.Injective lay) {γ : ℝ} (hγ : 0 ≤ γ)
  (cm : Option (ι → ℝ)) (hm : Spec.MassOk (Spec.usedMass none cm)) {L : ℕ}
  (sg : StochGrad ι β μ) {G : (ι → ℝ) → β → (ι → ℝ)} (hG : ∀ x b ms, (sg x b ms).2 = G x b)
  (hGm : ∀ b, Measurable fun x => G x b) (fullPot : FullPotFn ι φ μ) {U : (ι → ℝ) → ℝ}
  (hU : Measurable U) {D : Set (ι → ℝ)} (hD : MeasurableSet D) (hfp : Spec.PotentialOn fullPot U D)
  (f₀ : φ) (ms : μ)

include hl hγ hm hG hGm hU hD hfp in
theorem amagoldDrive_measurable (p : Params) (hp : 0 ≤ p.stepSize) :
    Measurable fun q : ((Fin L → β) × (Fin L × ι → ℝ) × ℝ) × ((ι → ℝ) × (ι → ℝ)) =>
      amagoldDrive lay γ cm L sg fullPot U f₀ ms p q.1 q.2 := by
  obtain ⟨v, hv⟩ := exists_sqrt_inverse hm
  have key : Measurable fun q : (((Fin L × ι → ℝ) × ℝ) × ((ι → ℝ) × (ι → ℝ))) × (Fin L → β) =>
      amagoldDrive lay γ cm L sg fullPot U f₀ ms p (q.2, q.1.1) q.1.2 := by
    refine measurable_from_prod_countable_left fun b => ?_
    have hT := (leapMap_measurePreserving (L := L) hγ hp hv
      (g := fun n q => G q (Spec.batchSeq b n)) (fun n => hGm _)).measurable
    set T := (leapMap γ p.stepSize (Spec.usedMass none cm) v (fun n q => G q (Spec.batchSeq b n)) :
      PathSpace ι L → PathSpace ι L) with hTd
    have hE := pathEnergy_measurable (L := L) (Spec.usedMass none cm) hU
    have e : ∀ q : ((Fin L × ι → ℝ) × ℝ) × ((ι → ℝ) × (ι → ℝ)),
        amagoldDrive lay γ cm L sg fullPot U f₀ ms p (b, q.1) q.2 =
          if max q.1.2 0 < pathAccept (Spec.usedMass none cm) U D T q.2 q.1.1 then
            pathEnd T q.2 q.1.1 else (q.2.1, -q.2.2) := fun q =>
      amagoldNext_eq hl hγ none cm hm sg hG fullPot hfp f₀ ms p hp hv b q.2 q.1.1 (max q.1.2 0) (le_max_right _ _)
    have h0 : Measurable fun q : ((Fin L × ι → ℝ) × ℝ) × ((ι → ℝ) × (ι → ℝ)) => ((q.2, q.1.1) : PathSpace ι L) := by
      fun_prop
    have h1 : Measurable fun q : ((Fin L × ι → ℝ) × ℝ) × ((ι → ℝ) × (ι → ℝ)) => T (q.2, q.1.1) := hT.comp h0
    have hs : MeasurableSet {q : ((Fin L × ι → ℝ) × ℝ) × ((ι → ℝ) × (ι → ℝ)) | (T (q.2, q.1.1)).1.1 ∈ D} :=
      (measurable_fst.comp (measurable_fst.comp h1)) hD
    have hacc : Measurable fun q : ((Fin L × ι → ℝ) × ℝ) × ((ι → ℝ) × (ι → ℝ)) =>
        pathAccept (Spec.usedMass none cm) U D T q.2 q.1.1 :=
      Measurable.indicator (s := {q : ((Fin L × ι → ℝ) × ℝ) × ((ι → ℝ) × (ι → ℝ)) | (T (q.2, q.1.1)).1.1 ∈ D})
        (Spec.acceptProb_measurable.comp ((hE.comp h1).sub (hE.comp h0))) hs
    have hend : Measurable fun q : ((Fin L × ι → ℝ) × ℝ) × ((ι → ℝ) × (ι → ℝ)) => pathEnd T q.2 q.1.1 :=
      (measurable_fst.comp (measurable_fst.comp h1)).prodMk (measurable_snd.comp (measurable_fst.comp h1)).neg
    have hu : Measurable fun q : ((Fin L × ι → ℝ) × ℝ) × ((ι → ℝ) × (ι → ℝ)) => max q.1.2 0 := by fun_prop
    have hst : Measurable fun q : ((Fin L × ι → ℝ) × ℝ) × ((ι → ℝ) × (ι → ℝ)) => (q.2.1, -q.2.2) := by fun_prop
    show Measurable fun q : ((Fin L × ι → ℝ) × ℝ) × ((ι → ℝ) × (ι → ℝ)) =>
      amagoldDrive lay γ cm L sg fullPot U f₀ ms p (b, q.1) q.2
    rw [funext e]
    exact Measurable.ite (measurableSet_lt hu hacc) hend hst
  exact key.comp (by fun_prop : Measurable fun q : ((Fin L → β) × (Fin L × ι → ℝ) × ℝ) × ((ι → ℝ) × (ι → ℝ)) =>
    ((q.1.2, q.2), q.1.1))

omit [Inhabited β] [Countable β] [MeasurableSingletonClass β] in
/-- Integrals over the numbers of an update. -/
theorem innovLaw_lintegral (w : (Fin L → β) → ENNReal) {Ψ : (Fin L → β) × (Fin L × ι → ℝ) × ℝ → ENNReal}
    (hΨ : Measurable Ψ) :
    ∫⁻ v, Ψ v ∂innovLaw ι L w = ∑' b, w b * ∫⁻ x, ∫⁻ u, Ψ (b, x, u) ∂Spec.unif ∂Spec.normals (Fin L × ι) := by
  unfold innovLaw
  rw [lintegral_prod _ hΨ.aemeasurable, lintegral_sum_measure]
  refine tsum_congr fun b => ?_
  rw [lintegral_smul_measure, lintegral_dirac' _ hΨ.lintegral_prod_right', smul_eq_mul, lintegral_prod]
  exact (hΨ.comp (by fun_prop : Measurable fun q : (Fin L × ι → ℝ) × ℝ => (b, q))).aemeasurable

omit [Fintype ι] [Inhabited β] [Countable β] [MeasurableSpace β] [MeasurableSingletonClass β] in
theorem unif_nonneg : ∀ᵐ u ∂Spec.unif, 0 ≤ u := by
  unfold Spec.unif
  filter_upwards [ae_restrict_mem measurableSet_Ico] with u hu
  exact hu.1

include hl hγ hm hG hGm hU hD hfp in
/-- The driven chain has the path law of the specification. -/
theorem drivePath_eq (w : (Fin L → β) → ENNReal) [SFinite (innovLaw ι L w)] [MeasurableSpace Acc] {acc : Acc → (ι → ℝ) × (ι → ℝ) → Acc}
    (hacc : Measurable fun q : Acc × ((ι → ℝ) × (ι → ℝ)) => acc q.1 q.2) {F : Acc → ENNReal} (hF : Measurable F) (a₀ : Acc)
    (prms : List Params) (hp : ∀ p ∈ prms, 0 ≤ p.stepSize) :
    ∀ (past : List ((ι → ℝ) × (ι → ℝ))) (z : (ι → ℝ) × (ι → ℝ)),
      drivePath (amagoldDrive lay γ cm L sg fullPot U f₀ ms) acc (innovLaw ι L w) F prms (past.foldl acc a₀, z) =
        Spec.amagoldPath lay γ none cm L sg fullPot U f₀ ms w (fun zs => F (zs.foldl acc a₀)) prms past z := by
  induction prms with
  | nil => intro past z; rfl
  | cons p ps ih =>
    intro past z
    have hps : ∀ q ∈ ps, 0 ≤ q.stepSize := fun q hq => hp q (List.mem_cons_of_mem _ hq)
    have hn := amagoldDrive_measurable (L := L) hl hγ cm hm sg hG hGm fullPot hU hD hfp f₀ ms
    have hst := driveStep_measurable hacc (hn p (hp p List.mem_cons_self))
    have hmeas := drivePath_measurable hacc (lam := innovLaw ι L w) hF ps fun q hq => hn q (hps q hq)
    refine (innovLaw_lintegral w ((hmeas.comp hst).comp
      (by fun_prop : Measurable fun v : (Fin L → β) × (Fin L × ι → ℝ) × ℝ => ((past.foldl acc a₀, z), v)))).trans ?_
    show _ = ∑' b, w b * ∫⁻ x, ∫⁻ u, Spec.amagoldPath lay γ none cm L sg fullPot U f₀ ms w
      (fun zs => F (zs.foldl acc a₀)) ps (past ++ [Spec.amagoldNext lay γ none cm L sg fullPot U f₀ ms p b z x u])
      (Spec.amagoldNext lay γ none cm L sg fullPot U f₀ ms p b z x u) ∂Spec.unif ∂Spec.normals (Fin L × ι)
    refine tsum_congr fun b => ?_
    congr 1
    refine lintegral_congr fun x => lintegral_congr_ae ?_
    filter_upwards [unif_nonneg] with u hu
    rw [← ih hps, List.foldl_append]
    show drivePath _ _ _ _ _ (acc _ (Spec.amagoldNext lay γ none cm L sg fullPot U f₀ ms p b z x (max u 0)),
      Spec.amagoldNext lay γ none cm L sg fullPot U f₀ ms p b z x (max u 0)) = _
    rw [max_eq_left hu]
    rfl

end

theorem tensor_mul_measurable (m : VTensor ι) : Measurable m.mul := by
  let A : (ι → ℝ) →ₗ[ℝ] (ι → ℝ) := { toFun := m.mul, map_add' := m.mul_add, map_smul' := m.mul_smul }
  exact (LinearMap.continuous_of_finiteDimensional A).measurable

section
variable [Inhabited β] (lay : Layout ι) (γ : ℝ) (am : Option (MassMatrix ι)) (cm : Option (ι → ℝ)) (L : ℕ)
  (sg : StochGrad ι β μ) (fullPot : FullPotFn ι φ μ) (U : (ι → ℝ) → ℝ) (f₀ : φ) (ms : μ) (w : (Fin L → β) → ENNReal)

theorem amagoldPath_const (hw1 : ∑' b, w b = 1) (c : ENNReal) (prms : List Params) :
    ∀ (past : List ((ι → ℝ) × (ι → ℝ))) (z : (ι → ℝ) × (ι → ℝ)),
      Spec.amagoldPath lay γ am cm L sg fullPot U f₀ ms w (fun _ => c) prms past z = c := by
  induction prms with
  | nil => intro past z; rfl
  | cons p ps ih =>
    intro past z
    show ∑' b, w b * ∫⁻ x, ∫⁻ u, Spec.amagoldPath lay γ am cm L sg fullPot U f₀ ms w (fun _ => c) ps _ _ ∂Spec.unif
      ∂Spec.normals (Fin L × ι) = c
    simp only [ih, lintegral_const, measure_univ, mul_one]
    rw [ENNReal.tsum_mul_right, hw1, one_mul]

end

/-! ## C131 -/

section
variable [Inhabited β] [Countable β] [MeasurableSpace β] [MeasurableSingletonClass β] [MeasurableSpace Ω]
  {prob : Measure Ω} [IsProbabilityMeasure prob]
  {P : Ω → Prng κ} {data : Ω → δ → δ × β} {d₀ : δ} {L : ℕ} {w : (Fin L → β) → ENNReal} {sp : κ → ℕ → ℕ → κ}
  (hR : Spec.IdealRandom prob P data d₀ L w sp) {lay : Layout ι} (hlay : Spec.Layout.Valid lay) (key : κ)
  {γ : ℝ} (cm : Option (ι → ℝ)) (hm : Spec.MassOk (Spec.usedMass none cm))
  (sg : StochGrad ι β μ) {G : (ι → ℝ) → β → (ι → ℝ)} (hG : ∀ x b ms, (sg x b ms).2 = G x b)
  (hGm : ∀ b, Measurable fun x => G x b) (fullPot : FullPotFn ι φ μ) {U : (ι → ℝ) → ℝ}
  (hU : Measurable U) {D : Set (ι → ℝ)} (hD : MeasurableSet D) (hfp : Spec.PotentialOn fullPot U D)
  (f₀ : φ) (ms : μ) {x₀ : ι → ℝ} (hx₀ : x₀ ∈ D)

include hR in
omit [Fintype ι] [Inhabited β] [Countable β] [MeasurableSingletonClass β] [IsProbabilityMeasure prob] in
theorem runUnif_nonneg : ∀ᵐ ω ∂prob, ∀ n, 0 ≤ runUnif sp key n (P ω) := by
  rw [ae_all_iff]
  intro n
  have hmeas : Measurable fun ω => runUnif sp key n (P ω) :=
    (uniform_measurable (data := data) (d₀ := d₀) (L := L) _).mono (hR.measurable _) le_rfl
  have h := unif_nonneg
  rw [← hR.uniform_law (unifKey (splitPrng sp) (sp key 2 1) n)] at h
  exact ae_of_ae_map hmeas.aemeasurable h

include hR hlay in
omit [Inhabited β] [Countable β] [MeasurableSingletonClass β] in
/-- The law of the initial noise vector. -/
theorem firstNoise_law : prob.map (fun ω => runNoise lay sp key 0 (P ω)) = Spec.normals ι := by
  have h := runNoise_law hR hlay key (n := 1) (fun _ => 0) (fun a b _ => Subsingleton.elim a b)
  have h2 : Measurable fun (x : Fin 1 × ι → ℝ) (i : ι) => x (0, i) := by fun_prop
  have hm1 : ∀ j : Fin 1 × ι, Measurable fun ω => runNoise lay sp key 0 (P ω) j.2 := fun j =>
    (normal_measurable (data := data) (d₀ := d₀) (L := L) _ _ _).mono (hR.measurable _) le_rfl
  have h3 := congrArg (fun ν => ν.map (fun (x : Fin 1 × ι → ℝ) (i : ι) => x (0, i))) h
  rw [Measure.map_map h2 (measurable_pi_lambda _ hm1)] at h3
  refine h3.trans ?_
  unfold Spec.normals
  rw [← Measure.infinitePi_eq_pi, ← Measure.infinitePi_eq_pi]
  exact Measure.map_infinitePi_infinitePi_of_inj (f := fun i : ι => ((0, i) : Fin 1 × ι))
    (fun a b h => (Prod.mk.inj h).2)

include hR hlay hG hfp hx₀ in
omit [Countable β] [MeasurableSingletonClass β] [IsProbabilityMeasure prob] in
/-- A run of the code is driven by independent numbers. -/
theorem visited_drive (acc : Acc → (ι → ℝ) × (ι → ℝ) → Acc) (a₀ : Acc) (prms : List Params) :
    ∀ᵐ ω ∂prob, (Spec.amagoldVisited (P ω) lay γ cm L (data ω) d₀ sg fullPot f₀ ms x₀ key prms).foldl acc a₀ =
      (drive (amagoldDrive lay γ cm L sg fullPot U f₀ ms) acc prms 0
        (fun m => runInnov lay sp key d₀ L m (P ω) (data ω))
        (a₀, (x₀, (Spec.usedMass none cm).sqrt.mul (runNoise lay sp key 0 (P ω))))).1 := by
    filter_upwards [runUnif_nonneg hR key] with ω hω
    have hsp := hR.split_eq ω
    have hmom : (amagoldInit (P ω) none (revInitForAmagold (P ω) lay cm d₀) fullPot f₀ x₀ key ms :
        AmagoldState ι κ δ μ φ Unit).integratorState.momentum =
        (Spec.usedMass none cm).sqrt.mul (runNoise lay sp key 0 (P ω)) := by
      show (resolveMass none cm).sqrt.mul _ = _
      rw [resolveMass_eq]
      congr 1
      rw [← hsp]
      rfl
    have := code_drive hsp hlay.injective γ cm L (data ω) d₀ sg hG fullPot hfp f₀ ms key hω acc prms 0
      (amagoldInit (P ω) none (revInitForAmagold (P ω) lay cm d₀) fullPot f₀ x₀ key ms) a₀ hx₀
      (hfp.fin _ _ _ hx₀) (by rw [Nat.zero_mul]; rfl) rfl (by rw [Nat.zero_mul]; rfl)
    rw [hmom] at this
    refine Eq.trans ?_ this.symm
    rw [visitedFrom_eq]
    rfl

include hR hlay hm hG hGm hU hD hfp hx₀ in
/-- **C131.** With ideal random numbers, the states visited by a run of the code have the path law of the
specification (`Spec.amagoldPath`): for every statistic which is accumulated over the visited states
(initial value `a₀`, accumulated by `acc`), every function `F` of it and every schedule, the expectation over the
random numbers of the run is the expectation over the path of the specification, started at the initial
sample with a momentum from N(0, M). -/
theorem c131_run_law (hγ : 0 ≤ γ) [MeasurableSpace Acc] {acc : Acc → (ι → ℝ) × (ι → ℝ) → Acc}
    (hacc : Measurable fun q : Acc × ((ι → ℝ) × (ι → ℝ)) => acc q.1 q.2) {F : Acc → ENNReal} (hF : Measurable F)
    (a₀ : Acc) (prms : List Params) (hp : ∀ p ∈ prms, 0 ≤ p.stepSize) :
    ∫⁻ ω, F ((Spec.amagoldVisited (P ω) lay γ cm L (data ω) d₀ sg fullPot f₀ ms x₀ key prms).foldl acc a₀) ∂prob =
      ∫⁻ ξ, Spec.amagoldPath lay γ none cm L sg fullPot U f₀ ms w (fun zs => F (zs.foldl acc a₀)) prms []
        (x₀, (Spec.usedMass none cm).sqrt.mul ξ) ∂Spec.normals ι := by
  have hpr := innovLaw_prob hR hlay key
  have hn := amagoldDrive_measurable (L := L) hlay.injective hγ cm hm sg hG hGm fullPot hU hD hfp f₀ ms
  have hsq := tensor_mul_measurable (Spec.usedMass none cm).sqrt
  have h0 : Measurable[known P data d₀ L (pastKeys lay sp key L 0)] fun ω => runNoise lay sp key 0 (P ω) :=
    runNoise_measurable hlay (T := Set.Iio (1 + 0 * L)) (by simp) Set.subset_union_left
  have hH : Measurable[known P data d₀ L (pastKeys lay sp key L 0)] fun ω =>
      ((a₀, (x₀, (Spec.usedMass none cm).sqrt.mul (runNoise lay sp key 0 (P ω)))) : Acc × ((ι → ℝ) × (ι → ℝ))) :=
    (by fun_prop : Measurable fun p : ι → ℝ => ((a₀, (x₀, p)) : Acc × ((ι → ℝ) × (ι → ℝ)))).comp (hsq.comp h0)
  have hd := drive_law hR hlay key hacc hF prms (fun p hq => hn p (hp p hq)) 0 _ hH
  have e1 : ∫⁻ ω, F ((Spec.amagoldVisited (P ω) lay γ cm L (data ω) d₀ sg fullPot f₀ ms x₀ key prms).foldl acc a₀) ∂prob =
      ∫⁻ ω, F (drive (amagoldDrive lay γ cm L sg fullPot U f₀ ms) acc prms 0
        (fun m => runInnov lay sp key d₀ L m (P ω) (data ω))
        (a₀, (x₀, (Spec.usedMass none cm).sqrt.mul (runNoise lay sp key 0 (P ω))))).1 ∂prob := by
    refine lintegral_congr_ae ?_
    filter_upwards [visited_drive (γ := γ) hR hlay key cm sg hG fullPot hfp f₀ ms hx₀ acc a₀ prms] with ω hω
    rw [hω]
  rw [e1, hd]
  have hpath := drivePath_eq (L := L) hlay.injective hγ cm hm sg hG hGm fullPot hU hD hfp f₀ ms w hacc hF a₀ prms hp []
  simp only [List.foldl_nil] at hpath
  simp only [hpath]
  have hpm : Measurable fun ξ : ι → ℝ => Spec.amagoldPath lay γ none cm L sg fullPot U f₀ ms w
      (fun zs => F (zs.foldl acc a₀)) prms [] (x₀, (Spec.usedMass none cm).sqrt.mul ξ) := by
    simp only [← hpath]
    exact (drivePath_measurable hacc hF prms fun p hq => hn p (hp p hq)).comp
      ((by fun_prop : Measurable fun p : ι → ℝ => ((a₀, (x₀, p)) : Acc × ((ι → ℝ) × (ι → ℝ)))).comp hsq)
  rw [← firstNoise_law hR hlay key, lintegral_map hpm (h0.mono (known_le hR _) le_rfl)]

omit [Inhabited β] [Countable β] [MeasurableSpace β] [MeasurableSingletonClass β] [MeasurableSpace Ω] in
theorem samples_sum (P : Prng κ) (data : δ → δ × β) (f : (ι → ℝ) → ℝ) (prms : List Params) :
    Spec.meanOver f (Spec.amagoldSamples P lay γ cm L data d₀ sg fullPot f₀ ms x₀ key prms) =
      (Spec.amagoldVisited P lay γ cm L data d₀ sg fullPot f₀ ms x₀ key prms).foldl
        (fun (a : ℝ) (z : (ι → ℝ) × (ι → ℝ)) => a + f z.1) 0 / prms.length := by
  have h : ∀ (l : List ((ι → ℝ) × (ι → ℝ))) (a : ℝ),
      l.foldl (fun (a : ℝ) (z : (ι → ℝ) × (ι → ℝ)) => a + f z.1) a = a + (l.map fun z => f z.1).sum := by
    intro l
    induction l with
    | nil => intro a; simp
    | cons z l ih => intro a; rw [List.foldl_cons, ih, List.map_cons, List.sum_cons, add_assoc]
  rw [h, zero_add]
  unfold Spec.meanOver Spec.amagoldSamples Spec.amagoldVisited
  rw [List.map_map, List.map_map, List.length_map, List.length_range]
  rfl

include hR hlay hm hG hGm hU hD hfp hx₀ in
/-- **C131.** The mean of every bounded function over the samples reported by a run of AMAGOLD with constant step
size converges in mean square to its posterior mean. -/
theorem c131_mean_square (hγ : 0 < γ) (hL : 2 ≤ L) (hw : ∀ b, w (fun i => b (Fin.rev i)) = w b)
    (hw1 : ∑' b, w b = 1) (prm : Params) (hh : 0 < prm.stepSize)
    (hZ0 : Spec.posterior U D Set.univ ≠ 0) (hZ : Spec.posterior U D Set.univ ≠ ⊤)
    {f : (ι → ℝ) → ℝ} (hf : Measurable f) {C : ℝ} (hC : ∀ q, |f q| ≤ C) :
    Tendsto (fun n => ∫⁻ ω, ENNReal.ofReal ((Spec.meanOver f (Spec.amagoldSamples (P ω) lay γ cm L (data ω) d₀ sg
      fullPot f₀ ms x₀ key (List.replicate n prm)) - Spec.posteriorMean U D f) ^ 2) ∂prob) atTop (𝓝 0) := by
  set M := Spec.posteriorMean U D f with hM
  have hpr := innovLaw_prob hR hlay key
  have hp : ∀ n, ∀ p ∈ List.replicate n prm, 0 ≤ p.stepSize := fun n p hq => by
    rw [List.eq_of_mem_replicate hq]; exact hh.le
  have hacc : Measurable fun q : ℝ × ((ι → ℝ) × (ι → ℝ)) => q.1 + f q.2.1 := by fun_prop
  have hF : ∀ n : ℕ, Measurable fun a : ℝ => ENNReal.ofReal ((a / n - M) ^ 2) := fun n => by fun_prop
  have hsum : ∀ (l : List ((ι → ℝ) × (ι → ℝ))) (a : ℝ),
      l.foldl (fun (a : ℝ) (z : (ι → ℝ) × (ι → ℝ)) => a + f z.1) a = a + (l.map fun z => f z.1).sum := by
    intro l
    induction l with
    | nil => intro a; simp
    | cons z l ih => intro a; rw [List.foldl_cons, ih, List.map_cons, List.sum_cons, add_assoc]
  -- the path of the specification
  let A : ℕ → (ι → ℝ) → ENNReal := fun n ξ => Spec.amagoldPath lay γ none cm L sg fullPot U f₀ ms w
      (fun zs => ENNReal.ofReal ((zs.foldl (fun (a : ℝ) (z : (ι → ℝ) × (ι → ℝ)) => a + f z.1) 0 / n - M) ^ 2))
      (List.replicate n prm) [] (x₀, (Spec.usedMass none cm).sqrt.mul ξ)
  have hlaw : ∀ n, ∫⁻ ω, ENNReal.ofReal ((Spec.meanOver f (Spec.amagoldSamples (P ω) lay γ cm L (data ω) d₀ sg
      fullPot f₀ ms x₀ key (List.replicate n prm)) - M) ^ 2) ∂prob = ∫⁻ ξ, A n ξ ∂Spec.normals ι := by
    intro n
    rw [← c131_run_law hR hlay key cm hm sg hG hGm fullPot hU hD hfp f₀ ms hx₀ hγ.le hacc (hF n) 0 _ (hp n)]
    refine lintegral_congr fun ω => ?_
    rw [samples_sum, List.length_replicate]
  simp only [hlaw]
  have hA : ∀ n ξ, A n ξ = Spec.amagoldPath lay γ none cm L sg fullPot U f₀ ms w
      (fun zs => ENNReal.ofReal ((Spec.average f zs - M) ^ 2)) (List.replicate n prm) []
      (x₀, (Spec.usedMass none cm).sqrt.mul ξ) := by
    intro n ξ
    have e : ∀ zs : List ((ι → ℝ) × (ι → ℝ)), zs.length = ([] : List ((ι → ℝ) × (ι → ℝ))).length +
        (List.replicate n prm).length →
        zs.foldl (fun (a : ℝ) (z : (ι → ℝ) × (ι → ℝ)) => a + f z.1) 0 / n = Spec.average f zs := by
      intro zs hzs
      have hlen : zs.length = n := by simpa using hzs
      rw [hsum, zero_add, Spec.average, hlen]
    exact le_antisymm
      (amagoldPath_mono lay γ none cm L sg fullPot U f₀ ms w _ _ _ fun zs hzs => by rw [e zs hzs])
      (amagoldPath_mono lay γ none cm L sg fullPot U f₀ ms w _ _ _ fun zs hzs => by rw [e zs hzs])
  have hC0 : 0 ≤ C := (abs_nonneg _).trans (hC 0)
  have havg : ∀ zs, |Spec.average f zs| ≤ C := by
    intro zs
    have h1 : |(zs.map fun z : (ι → ℝ) × (ι → ℝ) => f z.1).sum| ≤ zs.length * C := by
      induction zs with
      | nil => simp
      | cons z zs ih =>
        rw [List.map_cons, List.sum_cons, List.length_cons]
        push_cast
        calc _ ≤ |f z.1| + _ := abs_add_le _ _
          _ ≤ C + zs.length * C := add_le_add (hC _) ih
          _ = _ := by ring
    rw [Spec.average, abs_div, Nat.abs_cast]
    exact div_le_of_le_mul₀ (Nat.cast_nonneg _) hC0 (by rw [mul_comm]; exact h1)
  have hmeas : ∀ n, Measurable (A n) := by
    intro n
    have hn := amagoldDrive_measurable (L := L) hlay.injective hγ.le cm hm sg hG hGm fullPot hU hD hfp f₀ ms
    have hpath := drivePath_eq (L := L) (acc := fun (a : ℝ) (z : (ι → ℝ) × (ι → ℝ)) => a + f z.1) hlay.injective hγ.le
      cm hm sg hG hGm fullPot hU hD hfp f₀ ms w hacc (hF n) 0 _ (hp n) []
    simp only [List.foldl_nil] at hpath
    show Measurable fun ξ => A n ξ
    simp only [A, ← hpath]
    exact (drivePath_measurable (acc := fun (a : ℝ) (z : (ι → ℝ) × (ι → ℝ)) => a + f z.1) hacc (hF n) _ fun p hq => hn p (hp n p hq)).comp
      ((by fun_prop : Measurable fun p : ι → ℝ => (((0 : ℝ), (x₀, p)) : ℝ × ((ι → ℝ) × (ι → ℝ)))).comp
        (tensor_mul_measurable (Spec.usedMass none cm).sqrt))
  have key := tendsto_lintegral_of_dominated_convergence (μ := Spec.normals ι) (F := A) (f := fun _ => 0)
    (fun _ => ENNReal.ofReal ((C + |M|) ^ 2)) hmeas (fun n => Eventually.of_forall fun ξ => ?_) ?_
    (Eventually.of_forall fun ξ => ?_)
  · simpa using key
  · rw [hA]
    refine (amagoldPath_mono lay γ none cm L sg fullPot U f₀ ms w _ _ _
      (F' := fun _ => ENNReal.ofReal ((C + |M|) ^ 2)) fun zs _ => ENNReal.ofReal_le_ofReal ?_).trans
      (amagoldPath_const lay γ none cm L sg fullPot U f₀ ms w hw1 _ _ _ _).le
    rw [← sq_abs (Spec.average f zs - M)]
    exact pow_le_pow_left₀ (abs_nonneg _) ((abs_sub _ _).trans (add_le_add (havg zs) le_rfl)) 2
  · rw [lintegral_const, measure_univ, mul_one]
    exact ENNReal.ofReal_ne_top
  · simp only [hA]
    exact c130_mean_square hlay.injective hγ none cm hm hL sg hG hGm fullPot hU hD hfp f₀ ms w hw hw1 prm hh hZ0 hZ hf hC _

include hR hlay hm hG hGm hU hD hfp hx₀ in
/-- **C131.** The probability that the mean over the samples reported by a run of AMAGOLD differs from the posterior
mean by `ε` or more converges to zero as the number of updates grows. -/
theorem c131_probability (hγ : 0 < γ) (hL : 2 ≤ L) (hw : ∀ b, w (fun i => b (Fin.rev i)) = w b)
    (hw1 : ∑' b, w b = 1) (prm : Params) (hh : 0 < prm.stepSize)
    (hZ0 : Spec.posterior U D Set.univ ≠ 0) (hZ : Spec.posterior U D Set.univ ≠ ⊤)
    {f : (ι → ℝ) → ℝ} (hf : Measurable f) {C : ℝ} (hC : ∀ q, |f q| ≤ C) {ε : ℝ} (hε : 0 < ε) :
    Tendsto (fun n => prob {ω | ε ≤ |Spec.meanOver f (Spec.amagoldSamples (P ω) lay γ cm L (data ω) d₀ sg
      fullPot f₀ ms x₀ key (List.replicate n prm)) - Spec.posteriorMean U D f|}) atTop (𝓝 0) := by
  have h1 := c131_mean_square hR hlay key cm hm sg hG hGm fullPot hU hD hfp f₀ ms hx₀ hγ hL hw hw1 prm hh hZ0 hZ hf hC
  set M := Spec.posteriorMean U D f with hM
  have hε2 : ENNReal.ofReal (ε ^ 2) ≠ 0 := by
    rw [Ne, ENNReal.ofReal_eq_zero, not_le]; positivity
  have h2 := ENNReal.Tendsto.div_const h1 (Or.inr hε2)
  rw [ENNReal.zero_div] at h2
  refine tendsto_of_tendsto_of_tendsto_of_le_of_le tendsto_const_nhds h2 (fun n => bot_le) (fun n => ?_)
  have hacc : Measurable fun q : ℝ × ((ι → ℝ) × (ι → ℝ)) => q.1 + f q.2.1 := by fun_prop
  have hp : ∀ p ∈ List.replicate n prm, 0 ≤ p.stepSize := fun p hq => by
    rw [List.eq_of_mem_replicate hq]; exact hh.le
  have hn := amagoldDrive_measurable (L := L) hlay.injective hγ.le cm hm sg hG hGm fullPot hU hD hfp f₀ ms
  have h0 : Measurable fun ω => runNoise lay sp key 0 (P ω) :=
    (runNoise_measurable (data := data) (d₀ := d₀) (L := L) hlay (Set.mem_univ 0) subset_rfl).mono (known_le hR _) le_rfl
  have hH : Measurable fun ω =>
      (((0 : ℝ), (x₀, (Spec.usedMass none cm).sqrt.mul (runNoise lay sp key 0 (P ω)))) : ℝ × ((ι → ℝ) × (ι → ℝ))) :=
    (by fun_prop : Measurable fun p : ι → ℝ => (((0 : ℝ), (x₀, p)) : ℝ × ((ι → ℝ) × (ι → ℝ)))).comp
      ((tensor_mul_measurable (Spec.usedMass none cm).sqrt).comp h0)
  have hdm := measurable_fst.comp (drive_measurable (next := amagoldDrive lay γ cm L sg fullPot U f₀ ms)
    (acc := fun (a : ℝ) (z : (ι → ℝ) × (ι → ℝ)) => a + f z.1) hR hlay key hacc _ (fun p hq => hn p (hp p hq)) 0 _ hH)
  have hX : AEMeasurable (fun ω => ENNReal.ofReal ((Spec.meanOver f (Spec.amagoldSamples (P ω) lay γ cm L (data ω) d₀ sg
      fullPot f₀ ms x₀ key (List.replicate n prm)) - M) ^ 2)) prob := by
    refine ⟨_, (((hdm.div_const (n : ℝ)).sub_const M).pow_const 2).ennreal_ofReal, ?_⟩
    filter_upwards [visited_drive (γ := γ) hR hlay key cm sg hG fullPot hfp f₀ ms hx₀
      (fun (a : ℝ) (z : (ι → ℝ) × (ι → ℝ)) => a + f z.1) 0 (List.replicate n prm)] with ω hω
    rw [samples_sum, hω, List.length_replicate]
    rfl
  refine le_trans (measure_mono fun ω hω => ?_) (meas_ge_le_lintegral_div hX hε2 ENNReal.ofReal_ne_top)
  refine ENNReal.ofReal_le_ofReal ?_
  rw [← sq_abs (_ - M)]
  exact pow_le_pow_left₀ hε.le hω 2

end

/-- A gradient which depends on the mini-batch: 1 for one half of the observations, 0 for the other half. -/
def halfGrad : StochGrad (Fin 1) Bool Unit := fun _ b _ => ((0, ()), fun _ => if b then 1 else 0)

/-- The hypotheses can be met: ideal random numbers exist, with two mini-batches per update drawn independently from
two possible ones, and the mean over the samples of the run converges to the mean of the exponential distribution
truncated to the unit interval. -/
example (ε : ℝ) (hε : 0 < ε) :
    Tendsto (fun n => IdealSpace.law (PMF.uniformOfFintype (Fin 2 → Bool)) {ω | ε ≤
      |Spec.meanOver (fun q : Fin 1 → ℝ => max 0 (min 1 (q 0)))
          (Spec.amagoldSamples (IdealSpace.gen ω) (Spec.vectorLayout 1) 1 (some fun _ => 4) 2 (IdealSpace.batches ω) 0
            halfGrad truncPot () () 0 [] (List.replicate n ⟨1, 1⟩)) -
        Spec.posteriorMean (fun x : Fin 1 → ℝ => x 0) (Set.Icc 0 1) (fun q : Fin 1 → ℝ => max 0 (min 1 (q 0)))|})
      atTop (𝓝 0) := by
  have hm : Spec.MassOk (Spec.usedMass none (some fun _ : Fin 1 => (4 : ℝ))) := massOk_const fun _ => by norm_num
  have hU : Measurable fun x : Fin 1 → ℝ => x 0 := measurable_pi_apply 0
  have hf : Measurable fun q : Fin 1 → ℝ => max 0 (min 1 (q 0)) := by fun_prop
  have hv : Spec.Layout.Valid (Spec.vectorLayout 1) :=
    ⟨Spec.vectorLayout_injective 1, fun _ => Nat.one_pos, fun i => i.2⟩
  have hpr : IsProbabilityMeasure (IdealSpace.law (PMF.uniformOfFintype (Fin 2 → Bool))) := by
    unfold IdealSpace.law; infer_instance
  refine c131_probability (IdealSpace.ideal _) hv [] (some fun _ => 4) hm halfGrad (G := fun _ b _ => if b then 1 else 0)
    (fun _ _ _ => rfl) (fun _ => measurable_const) truncPot hU measurableSet_Icc truncPot_on () ()
    ⟨le_refl _, fun _ => zero_le_one⟩ one_pos le_rfl (fun b => by simp) (PMF.tsum_coe _) ⟨1, 1⟩ (one_pos (α := ℝ))
    trunc_proper.1 trunc_proper.2 hf (C := 1) (fun q => ?_) hε
  rw [abs_of_nonneg (le_max_left _ _)]
  exact max_le zero_le_one (min_le_left _ _)

end JaxSgmc
