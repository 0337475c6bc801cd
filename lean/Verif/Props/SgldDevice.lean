import Verif.Model.DeviceRun
import Verif.Lemmas.IdealKeys
import Verif.Lemmas.IdealKeysExists
import Verif.Props.DeviceLoader
import Verif.Props.Gradient
import Verif.Props.SgldAverage
import Mathlib.Analysis.Calculus.FDeriv.Measurable
import Mathlib.Algebra.Order.Chebyshev

/-!
# C137: SGLD with mini-batches drawn on the device samples the posterior of the data set
-/

namespace JaxSgmc

open MeasureTheory ProbabilityTheory Filter Topology

variable {ι κ ρ S Ω : Type}

/-! ## The mini-batches -/

theorem indexAll_arrays (data : List (String × List ρ)) (N : ℕ) (hwf : ∀ c ∈ data, c.2.length = N) (idx : List ℕ)
    (h : ∀ i ∈ idx, i < N) : ∃ out, indexAll idx data = .ok out ∧
      List.Forall₂ (fun c c' => c'.1 = c.1 ∧ Spec.RowsOf c.2 idx c'.2) data out := by
  induction data with
  | nil => exact ⟨[], rfl, List.Forall₂.nil⟩
  | cons c cs ih =>
    obtain ⟨n, d⟩ := c
    have hd : d.length = N := hwf (n, d) List.mem_cons_self
    obtain ⟨r, hr⟩ := npTake_ok d idx (by rw [hd]; exact h)
    obtain ⟨out, o1, o2⟩ := ih fun y hy => hwf y (List.mem_cons_of_mem _ hy)
    exact ⟨(n, r) :: out, by simp [indexAll, hr, o1], List.Forall₂.cons ⟨rfl, npTake_spec d idx r hr⟩ o2⟩

theorem observation_eq {data out : List (String × List ρ)} {idx : List ℕ} {j i : ℕ} (hi : idx[i]? = some j)
    (h : List.Forall₂ (fun c c' => c'.1 = c.1 ∧ Spec.RowsOf c.2 idx c'.2) data out) :
    ∀ {o : List (String × ρ)}, List.Forall₂ (fun c r => r.1 = c.1 ∧ c.2[j]? = some r.2) data o →
      out.filterMap (fun c => c.2[i]?.map fun r => (c.1, r)) = o := by
  induction h with
  | nil => intro o ho; cases ho; rfl
  | cons h1 _ ih =>
    intro o ho
    cases ho with
    | @cons _ r _ rs h2 h3 =>
      have e : ∀ {c : List ρ} {rows : List ρ}, Spec.RowsOf c idx rows → c[j]? = some r.2 → rows[i]? = some r.2 := by
        intro c rows hr hc
        have h4 := congrArg (fun l : List (Option ρ) => l[i]?) hr
        simp only [List.getElem?_map, hi, Option.map_some] at h4
        rw [hc] at h4
        obtain ⟨v, hv, hv2⟩ := Option.map_eq_some_iff.1 h4
        rw [hv]
        exact hv2
      rw [List.filterMap_cons, e h1.2 h2.2, ih h3]
      show (_, r.2) :: rs = r :: rs
      rw [h1.1, ← h2.1]

/-- The mini-batch delivered to the integrator. -/
theorem deviceGetData_eq (P : Prng κ) {I : Randint κ} (hI : I.Lawful) {data : List (String × List ρ)} {N : ℕ} (hN : 0 < N)
    {obs : Fin N → List (String × ρ)} (hd : Spec.IsDataset data N obs) (mb : ℕ) (s : κ) :
    deviceGetData P I data N mb s = (P.split s 2 0, (List.ofFn fun k =>
      obs (toIndices hN mb (I.randint (P.split s 2 1) mb N) k), ⟨N, mb, List.replicate mb true⟩)) := by
  have hlen := hI.length (P.split s 2 1) mb N hN
  have hlt := fun i => hI.lt (P.split s 2 1) mb N i hN
  obtain ⟨out, o1, o2⟩ := indexAll_arrays data N hd.length (I.randint (P.split s 2 1) mb N) hlt
  unfold deviceGetData deviceRandomGet
  dsimp only
  rw [o1]
  show (P.split s 2 0, (batchObservations out mb, (⟨N, mb, List.replicate mb true⟩ : BatchInfo))) = _
  congr 2
  unfold batchObservations
  refine List.ext_getElem (by simp) fun i h1 h2 => ?_
  have hi : i < mb := by simpa using h1
  have hi' : i < (I.randint (P.split s 2 1) mb N).length := by rw [hlen]; exact hi
  rw [List.getElem_map, List.getElem_range, List.getElem_ofFn]
  refine observation_eq (List.getElem?_eq_getElem hi') o2 ?_
  have := hd.rows (toIndices hN mb (I.randint (P.split s 2 1) mb N) ⟨i, hi⟩)
  have e : ((toIndices hN mb (I.randint (P.split s 2 1) mb N) ⟨i, hi⟩ : Fin N) : ℕ) = (I.randint (P.split s 2 1) mb N)[i] := by
    show (I.randint (P.split s 2 1) mb N).getD i 0 % N = _
    rw [List.getD_eq_getElem?_getD, List.getElem?_eq_getElem hi', Option.getD_some,
      Nat.mod_eq_of_lt (hlt _ (List.getElem_mem hi'))]
  rw [e] at this
  exact this

/-! ## The run -/

section
variable [Fintype ι] [DecidableEq ι]

/-- The mini-batch gradient of the data set. -/
noncomputable def dataGrad {N mb : ℕ} (ℓ : (ι → ℝ) → List (String × ρ) → ℝ) (prior : (ι → ℝ) → ℝ) (obs : Fin N → List (String × ρ))
    (x : ι → ℝ) (d : Fin mb → Fin N) (i : ι) : ℝ :=
  -((N : ℝ) / mb * (∑ k, Spec.partialDeriv (fun y => ℓ y (obs (d k))) x i) + Spec.partialDeriv prior x i)

/-- A gradient function of indices. -/
noncomputable def dataSg {N mb : ℕ} (ℓ : (ι → ℝ) → List (String × ρ) → ℝ) (prior : (ι → ℝ) → ℝ) (obs : Fin N → List (String × ρ)) :
    StochGradLik ι (Fin mb → Fin N) Unit := fun x d _ => ((0, ([], ())), dataGrad ℓ prior obs x d)

variable {prior : (ι → ℝ) → ℝ} {lik : Likelihood ℝ (List (String × ρ)) S (ι → ℝ)} {strategy : Strategy}
  {ℓ : (ι → ℝ) → List (String × ρ) → ℝ} (hℓ : ∀ y, Spec.LogLik lik y (ℓ y)) (hsm : ∀ x, Spec.SmoothAt ℓ prior x)
  {data : List (String × List ρ)} {N : ℕ} (hN : 0 < N) {obs : Fin N → List (String × ρ)} (hd : Spec.IsDataset data N obs)
  {mb : ℕ} (hmb : Spec.BatchFits lik mb) {lay : Layout ι} (hlay : Spec.Layout.Valid lay)

include hℓ hsm hmb in
theorem potentialGradLik_data {st : Option S} (hst : ∀ y, Spec.StateFits lik y st) (x : ι → ℝ) (d : Fin mb → Fin N) (mask : List Bool) :
    (potentialGradLik prior lik strategy 1 x (List.ofFn fun k => obs (d k), ⟨N, mb, mask⟩) st).2 = dataGrad ℓ prior obs x d ∧
    ∀ y, Spec.StateFits lik y (potentialGradLik prior lik strategy 1 x (List.ofFn fun k => obs (d k), ⟨N, mb, mask⟩) st).1.2.2 := by
  have hrows : Spec.BatchFits lik (List.ofFn fun k => obs (d k)).length := by rw [List.length_ofFn]; exact hmb
  obtain ⟨p, ls, st', h1, h2, -, -, h3⟩ := c105_gradient prior lik strategy 1 (List.ofFn fun k => obs (d k)) ⟨N, mb, mask⟩ st ℓ hℓ
    hst hrows x (hsm x)
  obtain ⟨st'', h4, h5⟩ := c26_formula prior lik strategy 1 x (List.ofFn fun k => obs (d k)) ⟨N, mb, mask⟩ st (ℓ x) (hℓ x)
    (hst x) hrows
  constructor
  · funext i
    rw [h3 i]
    unfold dataGrad
    simp [List.map_ofFn, List.sum_ofFn, Function.comp_def]
  · intro y
    rw [h2]
    rw [h1] at h5
    have h6 := congrArg (fun r => r.2.2) (Except.ok.inj h5)
    have h7 : st' = st'' := h6
    show Spec.StateFits lik y st'
    rw [h7]
    exact stateFits_congr lik y st st'' h4 (hst y)

include hℓ hsm hN hd hmb hlay in
/-- The run on the data set is a run with ideal random numbers. -/
theorem device_run (P : Prng κ) {I : Randint κ} (hI : I.Lawful) {sp : κ → ℕ → ℕ → κ} (hsp : P.split = sp) {ms : Option S}
    (hms : ∀ y, Spec.StateFits lik y ms) (x₀ : ι → ℝ) (key dk : κ) (prms : List Params) :
    let s := Spec.sgldState P lay (deviceGetData P I data N mb) dk (potentialGradLik prior lik strategy 1) ms x₀ key prms
    let s' := Spec.sgldState (chainPrng sp key P) lay (indexBatches sp hN mb I) dk (dataSg ℓ prior obs) () x₀ (chainRoot sp key) prms
    s.latent = s'.latent ∧ s.key = s'.key.1 ∧ s.dataState = s'.dataState ∧ ∀ y, Spec.StateFits lik y s.modelState := by
  induction prms using List.reverseRecOn with
  | nil => exact ⟨rfl, rfl, rfl, hms⟩
  | append_singleton prms p ih =>
    intro s s'
    set t := Spec.sgldState P lay (deviceGetData P I data N mb) dk (potentialGradLik prior lik strategy 1) ms x₀ key prms with ht
    set t' := Spec.sgldState (chainPrng sp key P) lay (indexBatches sp hN mb I) dk (dataSg ℓ prior obs) () x₀ (chainRoot sp key)
      prms with ht'
    obtain ⟨i1, i2, i3, i4⟩ := ih
    have es : s = langevinUpdate P lay none (deviceGetData P I data N mb) (potentialGradLik prior lik strategy 1) t p := by
      simp only [s, ht, Spec.sgldState, List.foldl_append, List.foldl_cons, List.foldl_nil]
    have es' : s' = langevinUpdate (chainPrng sp key P) lay none (indexBatches sp hN mb I) (dataSg ℓ prior obs) t' p := by
      simp only [s', ht', Spec.sgldState, List.foldl_append, List.foldl_cons, List.foldl_nil]
    have hdata := deviceGetData_eq P hI hN hd mb t.dataState
    obtain ⟨g1, g2⟩ := potentialGradLik_data (strategy := strategy) (obs := obs) hℓ hsm hmb i4 t.latent
      (toIndices hN mb (I.randint (P.split t.dataState 2 1) mb N)) (List.replicate mb true)
    have hnoise : (randomTree P lay (P.split t.key 2 1)).1 = (randomTree (chainPrng sp key P) lay
        ((chainPrng sp key P).split t'.key 2 1)).1 := by
      funext i
      show P.normal (P.split (P.split t.key 2 1) lay.leaves (lay.leaf i)) _ _ = P.normal
        ((chainPrng sp key P).split ((chainPrng sp key P).split t'.key 2 1) lay.leaves (lay.leaf i)).1 _ _
      rw [chainPrng_split P _ (hlay.leaf_lt i), chainPrng_split P _ (by norm_num), hsp, i2]
    rw [es, es']
    refine ⟨?_, ?_, ?_, ?_⟩
    · show vadd t.latent (vadd (vscale (-p.stepSize) (potentialGradLik prior lik strategy 1 t.latent
        (deviceGetData P I data N mb t.dataState).2 t.modelState).2) (vscale _ (randomTree P lay (P.split t.key 2 1)).1)) =
        vadd t'.latent (vadd (vscale (-p.stepSize) (dataGrad ℓ prior obs t'.latent
          (toIndices hN mb (I.randint (sp t'.dataState 2 1) mb N)))) (vscale _ (randomTree (chainPrng sp key P) lay
            ((chainPrng sp key P).split t'.key 2 1)).1))
      rw [hdata, g1, hnoise, i1, i3, hsp]
    · show P.split t.key 2 0 = ((chainPrng sp key P).split t'.key 2 0).1
      rw [chainPrng_split P _ (by norm_num), hsp, i2]
    · show (deviceGetData P I data N mb t.dataState).1 = sp t'.dataState 2 0
      rw [hdata, hsp, i3]
    · show ∀ y, Spec.StateFits lik y (potentialGradLik prior lik strategy 1 t.latent (deviceGetData P I data N mb t.dataState).2
        t.modelState).1.2.2
      rw [hdata]
      exact g2

/-! ## The gradient -/

theorem dataPotential_eq (y : ι → ℝ) : Spec.dataPotential ℓ prior obs y = Spec.exactPotential (ℓ y) (prior y) 1 (List.ofFn obs) := by
  unfold Spec.dataPotential Spec.exactPotential
  rw [List.map_ofFn, List.sum_ofFn, div_one]
  rfl

include hsm in
theorem dataPotential_partial (x : ι → ℝ) (i : ι) : Spec.partialDeriv (Spec.dataPotential ℓ prior obs) x i =
    -((∑ j, Spec.partialDeriv (fun y => ℓ y (obs j)) x i) + Spec.partialDeriv prior x i) := by
  have h := partial_exact (hsm x) 1 (List.ofFn obs) i
  rw [List.map_ofFn, List.sum_ofFn, div_one] at h
  rw [← show (fun y => Spec.exactPotential (ℓ y) (prior y) 1 (List.ofFn obs)) = Spec.dataPotential ℓ prior obs from
    funext fun y => (dataPotential_eq y).symm]
  exact h

include hsm in
theorem dataGrad_measurable (d : Fin mb → Fin N) : Measurable fun x => dataGrad ℓ prior obs x d := by
  have h : ∀ {f : (ι → ℝ) → ℝ}, (∀ x, DifferentiableAt ℝ f x) → ∀ i, Measurable fun x => Spec.partialDeriv f x i := by
    intro f hf i
    have e : (fun x => Spec.partialDeriv f x i) = fun x => fderiv ℝ f x (Pi.single i 1) :=
      funext fun x => (gradOf_eq_partial (hf x) i).symm
    rw [e]
    exact measurable_fderiv_apply_const ℝ f _
  refine measurable_pi_lambda _ fun i => ?_
  unfold dataGrad
  exact (((Finset.measurable_sum _ fun k _ => h (fun x => (hsm x).1 _) i).const_mul _).add (h (fun x => (hsm x).2) i)).neg

include hsm hN in
/-- The mini-batch gradient is unbiased, and its variance grows at most quadratically. -/
theorem dataGrad_unbiased (hmb : 0 < mb) {c : ℝ} (hc : 0 ≤ c) (hgrow : ∀ j x, ∑ i, Spec.partialDeriv (fun y => ℓ y (obs j)) x i ^ 2 ≤
      c * (1 + Spec.sqLen x)) {G : (ι → ℝ) → ι → ℝ} (hG : ∀ x i, G x i = Spec.partialDeriv (Spec.dataPotential ℓ prior obs) x i) :
    Spec.Unbiased (fun _ : Fin mb → Fin N => ((N : ENNReal) ^ mb)⁻¹) (fun x d => dataGrad ℓ prior obs x d) G (4 * N ^ 2 * c) where
  s_nonneg := by positivity
  probability := by
    rw [tsum_fintype, Finset.sum_const, Finset.card_univ, Fintype.card_fun, Fintype.card_fin, Fintype.card_fin, nsmul_eq_mul,
      Nat.cast_pow]
    exact ENNReal.mul_inv_cancel (pow_ne_zero _ (Nat.cast_ne_zero.2 hN.ne')) (ENNReal.pow_ne_top (ENNReal.natCast_ne_top _))
  mean x i := by
    have hN' : (N : ℝ) ≠ 0 := by positivity
    have hm' : (mb : ℝ) ≠ 0 := by positivity
    have h : ∑ d : Fin mb → Fin N, (((N : ENNReal) ^ mb)⁻¹).toReal * dataGrad ℓ prior obs x d i = G x i := by
      rw [hG, dataPotential_partial hsm, ← Finset.mul_sum]
      unfold dataGrad
      rw [Finset.sum_neg_distrib, Finset.sum_add_distrib, ← Finset.mul_sum,
        sum_draws N mb fun j => Spec.partialDeriv (fun y => ℓ y (obs j)) x i, ENNReal.toReal_inv, ENNReal.toReal_pow,
        ENNReal.toReal_natCast]
      simp only [Finset.sum_const, Finset.card_univ, Fintype.card_fun, Fintype.card_fin, nsmul_eq_mul, Nat.cast_pow]
      obtain ⟨m, rfl⟩ : ∃ m, mb = m + 1 := ⟨mb - 1, by omega⟩
      simp only [Nat.add_sub_cancel]
      field_simp
      ring
    have := hasSum_fintype fun d : Fin mb → Fin N => (((N : ENNReal) ^ mb)⁻¹).toReal * dataGrad ℓ prior obs x d i
    rwa [h] at this
  variance x := by
    have hm' : (0 : ℝ) < mb := by positivity
    have h0 := sqLen_nonneg x
    have key : ∀ d : Fin mb → Fin N, Spec.sqLen (dataGrad ℓ prior obs x d - G x) ≤ 4 * N ^ 2 * c * (1 + Spec.sqLen x) := by
      intro d
      have hi : ∀ i, (dataGrad ℓ prior obs x d - G x) i ^ 2 ≤
          2 * ((N : ℝ) / mb) ^ 2 * (mb * ∑ k, Spec.partialDeriv (fun y => ℓ y (obs (d k))) x i ^ 2) +
          2 * (N * ∑ j, Spec.partialDeriv (fun y => ℓ y (obs j)) x i ^ 2) := by
        intro i
        have e : (dataGrad ℓ prior obs x d - G x) i = (∑ j, Spec.partialDeriv (fun y => ℓ y (obs j)) x i) -
            (N : ℝ) / mb * ∑ k, Spec.partialDeriv (fun y => ℓ y (obs (d k))) x i := by
          rw [Pi.sub_apply, hG, dataPotential_partial hsm]
          unfold dataGrad
          ring
        have h1 := sq_sum_le_card_mul_sum_sq (s := Finset.univ) (f := fun k => Spec.partialDeriv (fun y => ℓ y (obs (d k))) x i)
        have h2 := sq_sum_le_card_mul_sum_sq (s := Finset.univ) (f := fun j => Spec.partialDeriv (fun y => ℓ y (obs j)) x i)
        rw [Finset.card_univ, Fintype.card_fin] at h1 h2
        rw [e]
        have h3 := mul_le_mul_of_nonneg_left h1 (sq_nonneg ((N : ℝ) / mb))
        nlinarith [sq_nonneg ((∑ j, Spec.partialDeriv (fun y => ℓ y (obs j)) x i) +
            (N : ℝ) / mb * ∑ k, Spec.partialDeriv (fun y => ℓ y (obs (d k))) x i)]
      calc Spec.sqLen (dataGrad ℓ prior obs x d - G x) ≤ ∑ i, (2 * ((N : ℝ) / mb) ^ 2 * (mb *
            ∑ k, Spec.partialDeriv (fun y => ℓ y (obs (d k))) x i ^ 2) +
            2 * (N * ∑ j, Spec.partialDeriv (fun y => ℓ y (obs j)) x i ^ 2)) := Finset.sum_le_sum fun i _ => hi i
        _ = 2 * ((N : ℝ) / mb) ^ 2 * (mb * ∑ k, ∑ i, Spec.partialDeriv (fun y => ℓ y (obs (d k))) x i ^ 2) +
            2 * (N * ∑ j, ∑ i, Spec.partialDeriv (fun y => ℓ y (obs j)) x i ^ 2) := by
          rw [Finset.sum_add_distrib, ← Finset.mul_sum, ← Finset.mul_sum, ← Finset.mul_sum, ← Finset.mul_sum, Finset.sum_comm,
            Finset.sum_comm (s := Finset.univ) (t := (Finset.univ : Finset (Fin N)))]
        _ ≤ 2 * ((N : ℝ) / mb) ^ 2 * (mb * ∑ k : Fin mb, c * (1 + Spec.sqLen x)) +
            2 * (N * ∑ j : Fin N, c * (1 + Spec.sqLen x)) := by
          have a1 := Finset.sum_le_sum fun (k : Fin mb) (_ : k ∈ Finset.univ) => hgrow (d k) x
          have a2 := Finset.sum_le_sum fun (j : Fin N) (_ : j ∈ Finset.univ) => hgrow j x
          gcongr
        _ = 4 * N ^ 2 * c * (1 + Spec.sqLen x) := by
          rw [Finset.sum_const, Finset.sum_const, Finset.card_univ, Finset.card_univ, Fintype.card_fin, Fintype.card_fin,
            nsmul_eq_mul, nsmul_eq_mul]
          field_simp
          ring
    rw [tsum_fintype]
    calc ∑ d : Fin mb → Fin N, ((N : ENNReal) ^ mb)⁻¹ * ENNReal.ofReal (Spec.sqLen (dataGrad ℓ prior obs x d - G x))
        ≤ ∑ _d : Fin mb → Fin N, ((N : ENNReal) ^ mb)⁻¹ * ENNReal.ofReal (4 * N ^ 2 * c * (1 + Spec.sqLen x)) :=
          Finset.sum_le_sum fun d _ => mul_le_mul_right (ENNReal.ofReal_le_ofReal (key d)) _
      _ = ENNReal.ofReal (4 * N ^ 2 * c * (1 + Spec.sqLen x)) := by
          rw [← Finset.sum_mul, Finset.sum_const, Finset.card_univ, Fintype.card_fun, Fintype.card_fin, Fintype.card_fin, nsmul_eq_mul,
            Nat.cast_pow, ENNReal.mul_inv_cancel (pow_ne_zero _ (Nat.cast_ne_zero.2 hN.ne'))
              (ENNReal.pow_ne_top (ENNReal.natCast_ne_top _)), one_mul]

/-! ## C137 -/

/-- The arrays a loader accepts form a data set. -/
theorem dataset_exists {σ : Type} {Ld : Loader σ ρ} (h : mkLoader data = .ok Ld) : ∃ obs, Spec.IsDataset data Ld.obsCount obs := by
  have hwf := (mkLoader_spec data Ld h).2.1
  refine ⟨fun j => data.filterMap fun c => c.2[(j : ℕ)]?.map fun r => (c.1, r), hwf, fun j => ?_⟩
  clear h
  induction data with
  | nil => exact List.Forall₂.nil
  | cons c cs ih =>
    have hj : (j : ℕ) < c.2.length := by rw [hwf c List.mem_cons_self]; exact j.2
    rw [List.filterMap_cons, List.getElem?_eq_getElem hj]
    refine List.Forall₂.cons ⟨rfl, ?_⟩ (ih fun y hy => hwf y (List.mem_cons_of_mem _ hy))
    exact List.getElem?_eq_getElem hj

variable [MeasurableSpace Ω] {prob : Measure Ω} [IsProbabilityMeasure prob] {P : Ω → Prng κ} {I : Ω → Randint κ}
  {sp : κ → ℕ → ℕ → κ} (hK : Spec.IdealKeys prob P I sp) {key dk : κ} (hind : Spec.KeysApart sp dk key)
  {ms : Option S} (hms : ∀ y, Spec.StateFits lik y ms) {G : (ι → ℝ) → ι → ℝ} {m L : ℝ}
  (hU : Spec.Convex (Spec.dataPotential ℓ prior obs) G m L) {c : ℝ} (hc : 0 ≤ c)
  (hgrow : ∀ j x, ∑ i, Spec.partialDeriv (fun y => ℓ y (obs j)) x i ^ 2 ≤ c * (1 + Spec.sqLen x)) {T : ℝ} (hT : 0 < T)

include hℓ hsm hd hmb hlay hK hms in
omit [IsProbabilityMeasure prob] in
theorem device_sample (x₀ : ι → ℝ) (prms : List Params) (ω : Ω) :
    Spec.sgldSample (P ω) lay (deviceGetData (P ω) (I ω) data N mb) dk (potentialGradLik prior lik strategy 1) ms x₀ key prms =
    Spec.sgldSample (chainPrng sp key (P ω)) lay (indexBatches sp hN mb (I ω)) dk (dataSg ℓ prior obs) () x₀ (chainRoot sp key) prms :=
  (device_run (strategy := strategy) hℓ hsm hN hd hmb hlay (P ω) (hK.lawful ω) (hK.split_eq ω) hms x₀ key dk prms).1

include hℓ hsm hN hd hmb hlay hK hind hms hU hc hgrow hT in
/-- **C137 (error bound).** SGLD on a data set, with mini-batches drawn by a `DeviceNumpyDataLoader` with replacement: there are
a largest step size `h₀` and a constant `C`, and for every initial sample a constant `D`, such that after `n` updates with step
sizes between `l` and `u ≤ h₀` at temperature `T` the expectation of every function with Lipschitz constant `Λ` differs from its
mean under the posterior of the data set (at temperature `T`) by at most `Λ √((1 - m l / 2)ⁿ D + C u)`. -/
theorem c137_bound : ∃ h₀ C : ℝ, 0 < h₀ ∧ m * h₀ ≤ 1 ∧ 0 ≤ C ∧ ∀ x₀ : ι → ℝ, ∃ D : ℝ, 0 ≤ D ∧
    ∀ l u : ℝ, 0 < l → l ≤ u → u ≤ h₀ → ∀ (prms : List Params),
      (∀ p ∈ prms, p.temperature = T ∧ l ≤ p.stepSize ∧ p.stepSize ≤ u) →
      ∀ (f : (ι → ℝ) → ℝ) (Λ : ℝ), Spec.Lipschitz f Λ →
      (∫ ω, f (Spec.sgldSample (P ω) lay (deviceGetData (P ω) (I ω) data N mb) dk (potentialGradLik prior lik strategy 1) ms x₀ key
          prms) ∂prob
        - Spec.posteriorMean (fun x => Spec.dataPotential ℓ prior obs x / T) Set.univ f) ^ 2 ≤
        Λ ^ 2 * ((1 - m * l / 2) ^ prms.length * D + C * u) := by
  obtain ⟨h₀, C, h1, h2, h3, h4⟩ := c135_bound hU (chain_ideal hK hind hN mb) hlay (sg := dataSg ℓ prior obs) (fun _ _ _ => rfl)
    (dataGrad_measurable hsm) (dataGrad_unbiased hsm hN hmb.pos hc hgrow hU.gradient) hT
  refine ⟨h₀, C, h1, h2, h3, fun x₀ => ?_⟩
  obtain ⟨D, hD, h5⟩ := h4 x₀
  refine ⟨D, hD, fun l u hl hlu hu prms hp f Λ hf => ?_⟩
  simp only [device_sample hℓ hsm hN hd hmb hlay hK hms]
  exact (h5 () (chainRoot sp key) l u hl hlu hu prms hp f Λ hf).2.2

include hℓ hsm hN hd hmb hlay hK hind hms hU hc hgrow hT in
/-- **C137 (accuracy).** Every accuracy is reached with a small enough step size and enough updates. -/
theorem c137_accuracy {f : (ι → ℝ) → ℝ} {Λ : ℝ} (hf : Spec.Lipschitz f Λ) {ε : ℝ} (hε : 0 < ε) :
    ∃ h₁ : ℝ, 0 < h₁ ∧ ∀ l, 0 < l → l ≤ h₁ → ∀ x₀ : ι → ℝ, ∃ n₀ : ℕ, ∀ prms : List Params, n₀ ≤ prms.length →
      (∀ p ∈ prms, p.temperature = T ∧ l ≤ p.stepSize ∧ p.stepSize ≤ h₁) →
      |∫ ω, f (Spec.sgldSample (P ω) lay (deviceGetData (P ω) (I ω) data N mb) dk (potentialGradLik prior lik strategy 1) ms x₀ key prms) ∂prob
        - Spec.posteriorMean (fun x => Spec.dataPotential ℓ prior obs x / T) Set.univ f| ≤ ε := by
  obtain ⟨h₁, h1, h2⟩ := c135_accuracy hU (chain_ideal hK hind hN mb) hlay (sg := dataSg ℓ prior obs) (fun _ _ _ => rfl)
    (dataGrad_measurable hsm) (dataGrad_unbiased hsm hN hmb.pos hc hgrow hU.gradient) hT hf hε
  refine ⟨h₁, h1, fun l hl hle x₀ => ?_⟩
  obtain ⟨n₀, h3⟩ := h2 l hl hle x₀
  refine ⟨n₀, fun prms hn hp => ?_⟩
  simp only [device_sample hℓ hsm hN hd hmb hlay hK hms]
  exact h3 prms hn hp () (chainRoot sp key)

include hℓ hsm hN hd hmb hlay hK hind hms hU hc hgrow hT in
/-- **C137 (decreasing step sizes).** If the step sizes are positive, tend to zero and are not summable, the expectations of
Lipschitz functions converge to the posterior means. -/
theorem c137_decreasing {h : ℕ → ℝ} (hh : ∀ n, 0 < h n) (hlim : Tendsto h atTop (𝓝 0)) (hsum : ¬ Summable h) (x₀ : ι → ℝ)
    {f : (ι → ℝ) → ℝ} {Λ : ℝ} (hf : Spec.Lipschitz f Λ) :
    Tendsto (fun n => ∫ ω, f (Spec.sgldSample (P ω) lay (deviceGetData (P ω) (I ω) data N mb) dk (potentialGradLik prior lik strategy 1) ms x₀ key ((List.range n).map fun k => ⟨h k, T⟩)) ∂prob)
      atTop (𝓝 (Spec.posteriorMean (fun x => Spec.dataPotential ℓ prior obs x / T) Set.univ f)) := by
  simp only [device_sample hℓ hsm hN hd hmb hlay hK hms]
  exact c135_decreasing hU (chain_ideal hK hind hN mb) hlay (sg := dataSg ℓ prior obs) (fun _ _ _ => rfl)
    (dataGrad_measurable hsm) (dataGrad_unbiased hsm hN hmb.pos hc hgrow hU.gradient) hT hh hlim hsum () x₀ (chainRoot sp key) hf

include hℓ hsm hN hd hmb hlay hK hind hms hU hc hgrow hT in
/-- **C137 (probabilities).** With decreasing step sizes the probability that the sample lies in a set with a boundary of
volume zero converges to the posterior probability of the set. -/
theorem c137_event {h : ℕ → ℝ} (hh : ∀ n, 0 < h n) (hlim : Tendsto h atTop (𝓝 0)) (hsum : ¬ Summable h) (x₀ : ι → ℝ)
    {A : Set (ι → ℝ)} (hA : MeasurableSet A) (hA0 : volume (frontier A) = 0) :
    Tendsto (fun n => prob {ω | Spec.sgldSample (P ω) lay (deviceGetData (P ω) (I ω) data N mb) dk (potentialGradLik prior lik strategy 1) ms x₀ key ((List.range n).map fun k => ⟨h k, T⟩) ∈ A})
      atTop (𝓝 (Spec.posterior (fun x => Spec.dataPotential ℓ prior obs x / T) Set.univ A /
        Spec.posterior (fun x => Spec.dataPotential ℓ prior obs x / T) Set.univ Set.univ)) := by
  simp only [device_sample hℓ hsm hN hd hmb hlay hK hms]
  exact c135_event hU (chain_ideal hK hind hN mb) hlay (sg := dataSg ℓ prior obs) (fun _ _ _ => rfl)
    (dataGrad_measurable hsm) (dataGrad_unbiased hsm hN hmb.pos hc hgrow hU.gradient) hT hh hlim hsum () x₀ (chainRoot sp key) hA hA0

include hℓ hsm hN hd hmb hlay hK hind hms hU hc hgrow hT in
/-- **C137 (averages).** The average of a Lipschitz function over the samples of one run after the burn in is an estimate of the
posterior mean: every mean square error is reached with small enough step sizes, a long enough burn in and enough samples. -/
theorem c137_average {f : (ι → ℝ) → ℝ} {Λ : ℝ} (hf : Spec.Lipschitz f Λ) {ε : ℝ} (hε : 0 < ε) :
    ∃ h₁ : ℝ, 0 < h₁ ∧ ∀ l, 0 < l → ∀ x₀ : ι → ℝ, ∃ n₀ : ℕ, ∀ (prm : ℕ → Params) (J : Finset ℕ),
      n₀ ≤ J.card → (∀ i ∈ J, n₀ ≤ i) →
      (∀ i ∈ J, ∀ k < i, (prm k).temperature = T ∧ l ≤ (prm k).stepSize ∧ (prm k).stepSize ≤ h₁) →
      ∫ ω, ((∑ i ∈ J, f (Spec.sgldSample (P ω) lay (deviceGetData (P ω) (I ω) data N mb) dk (potentialGradLik prior lik strategy 1) ms x₀ key
          ((List.range i).map prm))) / J.card
        - Spec.posteriorMean (fun x => Spec.dataPotential ℓ prior obs x / T) Set.univ f) ^ 2 ∂prob ≤ ε := by
  obtain ⟨h₁, h1, h2⟩ := c136_accuracy hU (chain_ideal hK hind hN mb) hlay (sg := dataSg ℓ prior obs) (fun _ _ _ => rfl)
    (dataGrad_measurable hsm) (dataGrad_unbiased hsm hN hmb.pos hc hgrow hU.gradient) hT hf hε
  refine ⟨h₁, h1, fun l hl x₀ => ?_⟩
  obtain ⟨n₀, h3⟩ := h2 l hl x₀
  refine ⟨n₀, fun prm J hn hJ hp => ?_⟩
  simp only [device_sample hℓ hsm hN hd hmb hlay hK hms]
  exact (h3 () (chainRoot sp key) prm J hn hJ hp).2

end

/-! ## An example -/

/-- Log-likelihood of observations with unit variance around the unknown mean. -/
noncomputable def meanLik (y : Fin 1 → ℝ) (o : List (String × ℝ)) : ℝ := (o.map fun c => -(c.2 - y 0) ^ 2 / 2).sum

/-- Log-density of a standard normal prior. -/
noncomputable def meanPrior (y : Fin 1 → ℝ) : ℝ := -(y 0) ^ 2 / 2

/-- Two observations. -/
def meanData : List (String × List ℝ) := [("x", [1, 3])]

/-- The rows of the two observations. -/
def meanObs (j : Fin 2) : List (String × ℝ) := [("x", if j = 0 then 1 else 3)]

theorem meanData_dataset : Spec.IsDataset meanData 2 meanObs where
  length c hc := by
    rw [List.mem_singleton.1 hc]
    rfl
  rows j := by
    refine List.Forall₂.cons ⟨rfl, ?_⟩ List.Forall₂.nil
    fin_cases j <;> rfl

theorem meanPotential (y : Fin 1 → ℝ) : Spec.dataPotential meanLik meanPrior meanObs y = (1 - y 0) ^ 2 / 2 + (3 - y 0) ^ 2 / 2 + y 0 ^ 2 / 2 := by
  simp [Spec.dataPotential, meanLik, meanPrior, meanObs]
  ring

theorem partial_one {f : (Fin 1 → ℝ) → ℝ} {g : ℝ → ℝ} (h : ∀ y, f y = g (y 0)) {x : Fin 1 → ℝ} {g' : ℝ} (hg : HasDerivAt g g' (x 0)) :
    Spec.partialDeriv f x 0 = g' := by
  unfold Spec.partialDeriv
  have e : (fun t => f (Function.update x 0 t)) = g := by
    funext t
    rw [h]
    simp
  rw [e]
  exact hg.deriv

theorem mean_convex : Spec.Convex (Spec.dataPotential meanLik meanPrior meanObs) (fun x _ => 3 * x 0 - 4) 3 3 where
  differentiable := by
    have e : Spec.dataPotential meanLik meanPrior meanObs = fun y => (1 - y 0) ^ 2 / 2 + (3 - y 0) ^ 2 / 2 + y 0 ^ 2 / 2 :=
      funext meanPotential
    rw [e]
    fun_prop
  gradient x i := by
    rw [Subsingleton.elim i 0]
    refine (partial_one (g := fun t => (1 - t) ^ 2 / 2 + (3 - t) ^ 2 / 2 + t ^ 2 / 2) meanPotential ?_).symm
    have h : ∀ a : ℝ, HasDerivAt (fun t : ℝ => (a - t) ^ 2 / 2) (-(a - x 0)) (x 0) := by
      intro a
      have := (((hasDerivAt_id (x 0)).const_sub a).pow 2).div_const 2
      refine this.congr_deriv ?_
      simp only [id]
      ring
    have h2 : HasDerivAt (fun t : ℝ => t ^ 2 / 2) (x 0) (x 0) := by
      have := (hasDerivAt_pow 2 (x 0)).div_const 2
      simpa using this
    refine (((h 1).add (h 3)).add h2).congr_deriv ?_
    ring
  m_pos := by norm_num
  L_pos := by norm_num
  monotone x y := by
    simp [Spec.sqLen]
    exact le_of_eq (by ring)
  lipschitz x y := by
    simp [Spec.sqLen]
    exact le_of_eq (by ring)

theorem mean_smooth (x : Fin 1 → ℝ) : Spec.SmoothAt meanLik meanPrior x := by
  constructor
  · intro r
    unfold meanLik
    induction r with
    | nil => exact differentiableAt_const 0
    | cons c cs ih =>
      simp only [List.map_cons, List.sum_cons]
      exact DifferentiableAt.add (by fun_prop) ih
  · unfold meanPrior
    fun_prop

/-- The hypotheses of C137 can be met: with an ideal generator, SGLD with step sizes `1 / (1 + k)` and mini-batches of one
observation drawn from two observations samples the posterior of the mean of the observations. -/
example : Tendsto (fun n => ∫ ω, (Spec.sgldSample (IdealGenerator.gen ω) (Spec.vectorLayout 1)
      (deviceGetData (IdealGenerator.gen ω) (IdealGenerator.randints ω) meanData 2 1) [0]
      (potentialGradLik meanPrior (.plain meanLik) .vmap 1) (none : Option Unit) 0 [1]
      ((List.range n).map fun k : ℕ => ⟨1 / (1 + k : ℝ), 1⟩) 0) ∂IdealGenerator.law)
    atTop (𝓝 (Spec.posteriorMean (fun x => Spec.dataPotential meanLik meanPrior meanObs x / 1) Set.univ fun x => x 0)) := by
  have hv : Spec.Layout.Valid (Spec.vectorLayout 1) :=
    ⟨Spec.vectorLayout_injective 1, fun _ => Nat.one_pos, fun i => i.2⟩
  refine c137_decreasing (lik := .plain meanLik) (ℓ := meanLik) (fun y r => rfl) mean_smooth (by norm_num : 0 < 2) meanData_dataset
    (mb := 1) (le_refl 1) hv IdealGenerator.ideal (key := [1]) (dk := [0]) ?_ (fun y => rfl) mean_convex (c := 18) (by norm_num) ?_
    one_pos (fun n => by positivity) ?_ ?_ 0 (f := fun x => x 0) (Λ := 1) ?_
  · exact Spec.pathPrng_ideal (fun _ _ _ => 0) (fun _ => 0) [] 2 0 1 (by norm_num) (by norm_num) (by norm_num)
  · intro j x
    rw [Fintype.sum_unique, show (default : Fin 1) = 0 from rfl]
    have h : ∀ a : ℝ, HasDerivAt (fun t : ℝ => -(a - t) ^ 2 / 2) (a - x 0) (x 0) := by
      intro a
      have := (((hasDerivAt_id (x 0)).const_sub a).pow 2).neg.div_const 2
      refine this.congr_deriv ?_
      simp only [id]
      ring
    have e := partial_one (f := fun y => meanLik y (meanObs j)) (g := fun t => -((if j = 0 then (1 : ℝ) else 3) - t) ^ 2 / 2)
      (fun y => by simp [meanLik, meanObs]) (x := x) (h _)
    rw [e]
    have e2 : Spec.sqLen x = x 0 ^ 2 := by simp [Spec.sqLen]
    rw [e2]
    split <;> nlinarith [sq_nonneg (x 0 + 1), sq_nonneg (x 0 + 3)]
  · exact tendsto_one_div_add_atTop_nhds_zero_nat.congr fun n => by rw [add_comm]
  · intro h
    refine Real.not_summable_one_div_natCast ((summable_nat_add_iff 1).1 (h.congr fun n => ?_))
    push_cast
    rw [add_comm]
  · intro x y
    simp [Spec.sqLen]

end JaxSgmc
