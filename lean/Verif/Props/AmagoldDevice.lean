import Verif.Props.AmagoldNumpy
import Verif.Props.SgldDevice
import Verif.Props.Potential

/-!
# C142: AMAGOLD with a `DeviceNumpyDataLoader` samples the exact posterior of the data set
-/

namespace JaxSgmc

open MeasureTheory ProbabilityTheory Filter Topology

variable {ι κ ρ Ω : Type}

/-! ## Ideal random numbers, several mini-batches per update -/

section
variable [MeasurableSpace Ω] {prob : Measure Ω} [IsProbabilityMeasure prob] {P : Ω → Prng κ} {I : Ω → Randint κ}
  {sp : κ → ℕ → ℕ → κ} (hK : Spec.IdealKeys prob P I sp)

include hK in
/-- The noise of a chain and the mini-batches drawn with an independent key are ideal random numbers. -/
theorem chain_ideal_updates {key dk : κ} (hind : Spec.KeysApart sp dk key) {N : ℕ} (hN : 0 < N) (mb L : ℕ) :
    Spec.IdealRandom prob (fun ω => chainPrng sp key (P ω)) (fun ω => indexBatches sp hN mb (I ω)) dk L
      (fun _ : Fin L → Fin mb → Fin N => (((N : ENNReal) ^ mb) ^ L)⁻¹)
      (chainPrng sp key ⟨sp, fun _ _ _ => 0, fun _ => 0⟩).split := by
  have hs := idealKeys_split hK
  -- the key behind the random numbers of the run
  let e : ChainKey sp key ⊕ ℕ → κ := fun j => match j with
    | .inl k => k.1
    | .inr n => unifKey (splitPrng sp) dk n
  have he : Function.Injective e := by
    rintro (a | a) (b | b) h
    · exact congrArg _ (Subtype.ext h)
    · exact absurd ⟨unifKey_derived _ dk b, by have := a.2; rwa [show a.1 = _ from h] at this⟩ (hind _)
    · exact absurd ⟨unifKey_derived _ dk a, by have := b.2; rwa [show b.1 = _ from h.symm] at this⟩ (hind _)
    · exact congrArg _ (unifKey_inj hs dk h)
  have hub : ∀ (ω : Ω) (n : ℕ), Spec.updateBatches (indexBatches sp hN mb (I ω)) dk L n =
      fun i : Fin L => toIndices hN mb ((I ω).randint (unifKey (splitPrng sp) dk (n * L + i)) mb N) := by
    intro ω n
    funext i
    unfold Spec.updateBatches
    rw [indexBatches_nth]
  let m : ChainKey sp key ⊕ ℕ → MeasurableSpace Ω := fun j => Spec.keyDrawn P I (e j)
  have hm : iIndep m prob := hK.independent.precomp he
  have hmle : ∀ j, m j ≤ (inferInstance : MeasurableSpace Ω) := fun j => hK.measurable _
  let f : ChainKey sp key ⊕ ℕ → ChainKey sp key ⊕ ℕ := fun j => match j with
    | .inl k => .inl k
    | .inr t => .inr (t / L)
  have hle : ∀ j, Spec.drawn (fun ω => chainPrng sp key (P ω)) (fun ω => indexBatches sp hN mb (I ω)) dk L j ≤
      ⨆ i ∈ {i | f i = j}, m i := by
    rintro (k | n)
    · exact (numbers_le key k _ _ _).trans (le_biSup m (show (Sum.inl k : ChainKey sp key ⊕ ℕ) ∈ {i | f i = .inl k} from rfl))
    · refine Measurable.comap_le (m₁ := ⨆ i ∈ {i | f i = .inr n}, m i) ?_
      simp only [hub]
      refine @measurable_pi_lambda _ _ _ (⨆ i ∈ {i | f i = .inr n}, m i) _ _ fun i => ?_
      have hi : f (.inr (n * L + i)) = .inr n := by
        show Sum.inr ((n * L + i) / L) = Sum.inr n
        rw [Nat.mul_comm, Nat.mul_add_div i.pos, Nat.div_eq_of_lt i.2, Nat.add_zero]
      exact (indices_measurable (P := P) (I := I) hN mb (unifKey (splitPrng sp) dk (n * L + i))).mono (le_biSup m
        (show (Sum.inr (n * L + i) : ChainKey sp key ⊕ ℕ) ∈ {i | f i = .inr n} from hi)) le_rfl
  have hsup : ∀ j, (⨆ i ∈ {i | f i = j}, m i) ≤ (inferInstance : MeasurableSpace Ω) :=
    fun j => iSup₂_le fun i _ => hmle i
  refine ⟨fun ω => rfl, fun ω => chainPrng_ideal _ hs, fun j => (hle j).trans (hsup j), fun k n => hK.normal_law k.1 n,
    fun k => hK.uniform_law k.1, fun n b => ?_, iIndep_of_iIndep_of_le (iIndep_group hmle hm f) hle⟩
  have hset : {ω | Spec.updateBatches (indexBatches sp hN mb (I ω)) dk L n = b} =
      ⋂ i ∈ (Finset.univ : Finset (Fin L)), {ω | toIndices hN mb ((I ω).randint (unifKey (splitPrng sp) dk (n * L + i)) mb N) = b i} := by
    ext ω
    simp only [Set.mem_setOf_eq, hub, Finset.mem_univ, Set.iInter_true, Set.mem_iInter]
    exact ⟨fun h i => congrFun h i, fun h => funext h⟩
  have hinj : Function.Injective fun i : Fin L => (Sum.inr (n * L + i) : ChainKey sp key ⊕ ℕ) := by
    intro i j h
    have := Sum.inr.inj h
    exact Fin.ext (by omega)
  have hprod := (iIndep_iff _ _).1 (hm.precomp hinj) Finset.univ (f := fun i : Fin L =>
    {ω | toIndices hN mb ((I ω).randint (unifKey (splitPrng sp) dk (n * L + i)) mb N) = b i}) (fun i _ => by
      exact (indices_measurable (P := P) (I := I) hN mb _) (measurableSet_singleton (b i)))
  have hlaw : ∀ i : Fin L, prob {ω | toIndices hN mb ((I ω).randint (unifKey (splitPrng sp) dk (n * L + i)) mb N) = b i} =
      ((N : ENNReal) ^ mb)⁻¹ := by
    intro i
    rw [← hK.randint_law (unifKey (splitPrng sp) dk (n * L + i)) mb N (b i)]
    congr 1
    ext ω
    exact toIndices_eq_iff hN ((hK.lawful ω).length _ _ _ hN) (fun j hj => (hK.lawful ω).lt _ _ _ _ hN hj) (b i)
  rw [hset, hprod, Finset.prod_congr rfl fun (i : Fin L) _ => hlaw i, Finset.prod_const, Finset.card_univ, Fintype.card_fin]
  exact ENNReal.inv_pow.symm

end

/-! ## The run with the keys of the chain and drawn indices -/

section
variable {E δ β β' μ φ : Type}

/-- States of the integrator which agree up to the type of the keys. -/
structure SameUpToKeys {sp : κ → ℕ → ℕ → κ} {key : κ} (s : LeapfrogState ι E κ δ μ) (s' : LeapfrogState ι E (ChainKey sp key) δ μ) :
    Prop where
  potential : s.potential = s'.potential
  key : s.key = s'.key.1
  positions : s.positions = s'.positions
  momentum : s.momentum = s'.momentum
  dataState : s.dataState = s'.dataState
  modelState : s.modelState = s'.modelState

variable [Fintype ι] {sp : κ → ℕ → ℕ → κ} {key : κ} {P : Prng κ} (hsp : P.split = sp) {lay : Layout ι} (hlay : Spec.Layout.Valid lay)
  {g : δ → δ × β} {g' : δ → δ × β'} {sg : StochGrad ι β μ} {sg' : StochGrad ι β' μ} (hg : ∀ d, (g d).1 = (g' d).1)
  (hsg : ∀ d x ms, sg x (g d).2 ms = sg' x (g' d).2 ms)

include hsp hlay in
omit [Fintype ι] in
theorem randomTree_keys {k : κ} {k' : ChainKey sp key} (h : k = k'.1) :
    (randomTree P lay k).1 = (randomTree (chainPrng sp key P) lay k').1 := by
  funext i
  show P.normal (P.split k lay.leaves (lay.leaf i)) _ _ = P.normal ((chainPrng sp key P).split k' lay.leaves (lay.leaf i)).1 _ _
  rw [chainPrng_split P _ (hlay.leaf_lt i), hsp, h]

include hsp hlay hg hsg in
theorem revBody_keys (γ : ℝ) (prm : Params) (m : MassMatrix ι) (s : LeapfrogState ι ℝ κ δ μ)
    (s' : LeapfrogState ι ℝ (ChainKey sp key) δ μ) (i : ℕ) (hs : SameUpToKeys s s') :
    SameUpToKeys (revBody P lay γ g sg prm m s i) (revBody (chainPrng sp key P) lay γ g' sg' prm m s' i) := by
  obtain ⟨a, b, c, d, e, f, k⟩ := s
  obtain ⟨a', b', c', d', e', f', k'⟩ := s'
  obtain ⟨h1, h2, h3, h4, h5, h6⟩ := hs
  dsimp only at h1 h2 h3 h4 h5 h6
  subst h1 h3 h4 h5 h6
  have ht : (randomTree P lay (P.split b 2 1)).1 = (randomTree (chainPrng sp key P) lay ((chainPrng sp key P).split b' 2 1)).1 :=
    randomTree_keys hsp hlay (by rw [chainPrng_split P _ (by norm_num), hsp, h2])
  have hk : P.split b 2 0 = ((chainPrng sp key P).split b' 2 0).1 := by
    rw [chainPrng_split P _ (by norm_num), hsp, h2]
  constructor
  · simp only [revBody, ht, hsg]
  · exact hk
  · simp only [revBody]
  · simp only [revBody, ht, hsg]
  · exact hg e
  · simp only [revBody, hsg]

include hsp hlay hg hsg in
theorem revForAmagold_keys (γ : ℝ) (cm : Option (ι → ℝ)) (L : ℕ) (s : LeapfrogState ι XF κ δ μ)
    (s' : LeapfrogState ι XF (ChainKey sp key) δ μ) (prm : Params) (mass : Option (MassMatrix ι)) (hs : SameUpToKeys s s') :
    SameUpToKeys (revForAmagold P lay γ cm L g sg s prm mass) (revForAmagold (chainPrng sp key P) lay γ cm L g' sg' s' prm mass) := by
  obtain ⟨h1, h2, h3, h4, h5, h6⟩ := hs
  have hfold := foldl_sim SameUpToKeys _ _ (fun s s' i => revBody_keys hsp hlay hg hsg γ prm (resolveMass mass cm) s s' i)
    (List.range L) ⟨0, s.key, positionUpdate (0.5 * prm.stepSize) (resolveMass mass cm) s.positions s.momentum, s.momentum,
      s.dataState, s.modelState, s.drawn⟩
    ⟨0, s'.key, positionUpdate (0.5 * prm.stepSize) (resolveMass mass cm) s'.positions s'.momentum, s'.momentum,
      s'.dataState, s'.modelState, s'.drawn⟩ ⟨rfl, h2, by dsimp only; rw [h3, h4], h4, h5, h6⟩
  constructor
  · exact congrArg XF.fin hfold.potential
  · exact hfold.key
  · show positionUpdate _ _ _ _ = positionUpdate _ _ _ _
    rw [hfold.positions, hfold.momentum]
  · exact hfold.momentum
  · exact hfold.dataState
  · exact hfold.modelState

/-- States of AMAGOLD which agree up to the type of the keys. -/
structure SameRunUpToKeys {sp : κ → ℕ → ℕ → κ} {key : κ} (s : AmagoldState ι κ δ μ φ Unit)
    (s' : AmagoldState ι (ChainKey sp key) δ μ φ Unit) : Prop where
  integrator : SameUpToKeys s.integratorState s'.integratorState
  potential : s.potential = s'.potential
  full : s.fullDataState = s'.fullDataState
  key : s.key = s'.key.1
  mass : s.massState = s'.massState

include hsp hlay hg hsg in
theorem amagoldUpdate_keys (γ : ℝ) (cm : Option (ι → ℝ)) (L : ℕ) (fp : FullPotFn ι φ μ) (s : AmagoldState ι κ δ μ φ Unit)
    (s' : AmagoldState ι (ChainKey sp key) δ μ φ Unit) (prm : Params) (hs : SameRunUpToKeys s s') :
    SameRunUpToKeys (amagoldUpdate P none (revForAmagold P lay γ cm L g sg) fp s prm).1
      (amagoldUpdate (chainPrng sp key P) none (revForAmagold (chainPrng sp key P) lay γ cm L g' sg') fp s' prm).1 := by
  obtain ⟨h1, h2, h3, h4, h5⟩ := hs
  have hp := revForAmagold_keys hsp hlay hg hsg γ cm L s.integratorState s'.integratorState prm none h1
  have hu : P.uniform (P.split s.key 2 1) = (chainPrng sp key P).uniform ((chainPrng sp key P).split s'.key 2 1) := by
    show _ = P.uniform ((chainPrng sp key P).split s'.key 2 1).1
    rw [chainPrng_split P _ (by norm_num), hsp, h4]
  have hpot : fp (revForAmagold P lay γ cm L g sg s.integratorState prm none).positions s.fullDataState
      (revForAmagold P lay γ cm L g sg s.integratorState prm none).modelState =
      fp (revForAmagold (chainPrng sp key P) lay γ cm L g' sg' s'.integratorState prm none).positions s'.fullDataState
      (revForAmagold (chainPrng sp key P) lay γ cm L g' sg' s'.integratorState prm none).modelState := by
    rw [hp.positions, hp.modelState, h3]
  have hcond : ∀ u e, XF.Lt u (amagoldLogAlpha e (fp (revForAmagold P lay γ cm L g sg s.integratorState prm none).positions
      s.fullDataState (revForAmagold P lay γ cm L g sg s.integratorState prm none).modelState).1
      (revForAmagold P lay γ cm L g sg s.integratorState prm none).potential) ↔ XF.Lt u (amagoldLogAlpha e
      (fp (revForAmagold (chainPrng sp key P) lay γ cm L g' sg' s'.integratorState prm none).positions s'.fullDataState
      (revForAmagold (chainPrng sp key P) lay γ cm L g' sg' s'.integratorState prm none).modelState).1
      (revForAmagold (chainPrng sp key P) lay γ cm L g' sg' s'.integratorState prm none).potential) := by
    intro u e
    rw [hpot, hp.potential]
  have hc : ∀ m : Option Unit, currentMass (none : Option (MassAdaption ι Unit)) m = none := fun m => rfl
  unfold amagoldUpdate
  simp only [hc]
  rw [hpot, hu, hp.potential, h2]
  have hk : P.split s.key 2 0 = ((chainPrng sp key P).split s'.key 2 0).1 := by
    rw [chainPrng_split P _ (by norm_num), hsp, h4]
  split_ifs with h h' h'
  · exact ⟨⟨hp.potential, hp.key, hp.positions, congrArg (vscale _) hp.momentum, hp.dataState, rfl⟩, rfl, rfl, hk, rfl⟩
  · exact absurd ((hcond _ _).1 h) h'
  · exact absurd ((hcond _ _).2 h') h
  · exact ⟨⟨h1.potential, hp.key, h1.positions, congrArg (vscale _) h1.momentum, hp.dataState, h1.modelState⟩, rfl, rfl, hk, rfl⟩

include hsp hlay hg hsg in
theorem amagoldSamples_keys (γ : ℝ) (cm : Option (ι → ℝ)) (L : ℕ) (fp : FullPotFn ι φ μ) (d₀ : δ) (f₀ : φ) (ms : μ) (x₀ : ι → ℝ)
    (prms : List Params) : Spec.amagoldSamples P lay γ cm L g d₀ sg fp f₀ ms x₀ key prms =
      Spec.amagoldSamples (chainPrng sp key P) lay γ cm L g' d₀ sg' fp f₀ ms x₀ (chainRoot sp key) prms := by
  have hinit : SameRunUpToKeys (amagoldInit P none (revInitForAmagold P lay cm d₀) fp f₀ x₀ key ms)
      (amagoldInit (chainPrng sp key P) (none : Option (MassAdaption ι Unit)) (revInitForAmagold (chainPrng sp key P) lay cm d₀) fp f₀
        x₀ (chainRoot sp key) ms) := by
    have hk : ∀ i < 2, P.split key 2 i = ((chainPrng sp key P).split (chainRoot sp key) 2 i).1 := by
      intro i hi
      rw [chainPrng_split P _ hi, hsp]
      rfl
    have hk2 : ∀ i < 2, P.split (P.split key 2 0) 2 i = ((chainPrng sp key P).split ((chainPrng sp key P).split (chainRoot sp key) 2 0)
        2 i).1 := by
      intro i hi
      rw [chainPrng_split P _ hi, ← hk 0 (by norm_num), hsp]
    refine ⟨⟨rfl, hk2 0 (by norm_num), rfl, ?_, rfl, rfl⟩, rfl, rfl, hk 1 (by norm_num), rfl⟩
    show (resolveMass _ cm).sqrt.mul _ = (resolveMass _ cm).sqrt.mul _
    rw [randomTree_keys hsp hlay (hk2 1 (by norm_num))]
  unfold Spec.amagoldSamples
  refine List.map_congr_left fun k _ => ?_
  exact (foldl_sim SameRunUpToKeys _ _ (fun s s' p hs => amagoldUpdate_keys hsp hlay hg hsg γ cm L fp s s' p hs)
    (prms.take (k + 1)) _ _ hinit).integrator.positions

end

/-! ## The data set -/

section
variable [Fintype ι] [DecidableEq ι] {prior : (ι → ℝ) → ℝ} {lik : Likelihood ℝ (List (String × ρ)) Empty (ι → ℝ)} {strategy : Strategy}
  {ℓ : (ι → ℝ) → List (String × ρ) → ℝ} (hℓ : ∀ y, Spec.LogLik lik y (ℓ y)) (hsm : ∀ x, Spec.SmoothAt ℓ prior x)
  {data : List (String × List ρ)} {N : ℕ} (hN : 0 < N) {obs : Fin N → List (String × ρ)} (hd : Spec.IsDataset data N obs)
  {mb : ℕ} (hmb : Spec.BatchFits lik mb) {lay : Layout ι} (hlay : Spec.Layout.Valid lay)

/-- The mini-batch potential with its gradient as a function of the drawn indices. -/
noncomputable def drawGrad {N mb : ℕ} (prior : (ι → ℝ) → ℝ) (lik : Likelihood ℝ (List (String × ρ)) Empty (ι → ℝ))
    (strategy : Strategy) (obs : Fin N → List (String × ρ)) : StochGrad ι (Fin mb → Fin N) (Option Empty) := fun x d ms =>
  potentialGrad prior lik strategy 1 x (List.ofFn fun k => obs (d k), ⟨N, mb, List.replicate mb true⟩) ms

include hℓ hsm hmb in
theorem drawGrad_eq (hms : ∀ y, Spec.StateFits lik y none) (x : ι → ℝ) (d : Fin mb → Fin N) (ms : Option Empty) :
    (drawGrad prior lik strategy obs x d ms).2 = dataGrad ℓ prior obs x d := by
  have hn : ms = none := by
    cases ms with
    | none => rfl
    | some e => exact e.elim
  subst hn
  have hrows : Spec.BatchFits lik (List.ofFn fun k => obs (d k)).length := by rw [List.length_ofFn]; exact hmb
  obtain ⟨-, -, -, -, -, -, h, -⟩ := c105_gradient prior lik strategy 1 (List.ofFn fun k => obs (d k))
    ⟨N, mb, List.replicate mb true⟩ none ℓ hℓ hms hrows x (hsm x)
  unfold drawGrad
  rw [h]
  exact (potentialGradLik_data hℓ hsm hmb hms x d _).1

include hsm in
omit [DecidableEq ι] in
theorem rows_measurable : Measurable (Spec.dataPotential ℓ prior obs) := by
  have h : Continuous (Spec.dataPotential ℓ prior obs) := by
    unfold Spec.dataPotential
    refine Continuous.neg (Continuous.add (continuous_finsetSum _ fun j _ => ?_) ?_)
    · exact continuous_iff_continuousAt.2 fun x => ((hsm x).1 _).continuousAt
    · exact continuous_iff_continuousAt.2 fun x => (hsm x).2.continuousAt
  exact h.measurable

include hd in
omit [Fintype ι] [DecidableEq ι] in
theorem batchObservations_data : batchObservations data N = List.ofFn obs := by
  unfold batchObservations
  refine List.ext_getElem (by simp) fun i h1 h2 => ?_
  have hi : i < N := by simpa using h1
  rw [List.getElem_map, List.getElem_range, List.getElem_ofFn]
  have h := hd.rows ⟨i, hi⟩
  generalize obs ⟨i, hi⟩ = o at h
  clear h1 h2 hd
  dsimp only at h
  induction h with
  | nil => rfl
  | @cons c r _ _ h1 _ ih =>
    rw [List.filterMap_cons, h1.2, ih]
    show (c.1, r.2) :: _ = r :: _
    rw [← h1.1]

include hℓ hd in
omit [Fintype ι] [DecidableEq ι] in
/-- The potential of the full data, from every position in the data set. -/
theorem deviceFull_sim {bs : ℕ} (hbs : 0 < bs) (hms : ∀ y, Spec.StateFits lik y none) :
    SimFull (fun (line : ℕ) (_ : Unit) => line < N) (deviceFullPot prior lik strategy 1 data N bs)
      (Spec.exactFull (Spec.dataPotential ℓ prior obs)) := by
  have key : ∀ (x : ι → ℝ) (line : ℕ) (ms : Option Empty), line < N → ∃ line' < N,
      deviceFullPot prior lik strategy 1 data N bs x line ms = (.fin (Spec.dataPotential ℓ prior obs x), (line', ms)) := by
    intro x line ms hl
    have hn : ∀ m : Option Empty, m = none := fun m => by
      cases m with
      | none => rfl
      | some e => exact e.elim
    obtain ⟨st', -, line', h1, h2⟩ := c25_device prior lik strategy 1 (List.ofFn obs) bs line hbs (by simpa using hl)
      (fun _ => List.replicate bs true) x ms (ℓ x) (hℓ x) (hn ms ▸ hms x)
    rw [List.length_ofFn] at h1 h2
    refine ⟨line', h1, ?_⟩
    unfold deviceFullPot
    rw [batchObservations_data hd, h2, hn ms, hn st']
    unfold Spec.exactPotential Spec.dataPotential
    rw [div_one, List.map_ofFn, List.sum_ofFn]
    rfl
  constructor
  · intro x line _ ms hl
    obtain ⟨line', -, h⟩ := key x line ms hl
    rw [h]
    rfl
  · intro x line _ ms hl
    obtain ⟨line', h1, h⟩ := key x line ms hl
    rw [h]
    exact h1
  · intro x line _ ms hl
    obtain ⟨line', -, h⟩ := key x line ms hl
    rw [h]
    rfl

include hℓ hN hd hlay in
/-- The run on the data set is a run with drawn indices and the exact potential. -/
theorem device_amagold (P : Prng κ) {I : Randint κ} (hI : I.Lawful) {sp : κ → ℕ → ℕ → κ} (hsp : P.split = sp) {bs : ℕ} (hbs : 0 < bs)
    (hms : ∀ y, Spec.StateFits lik y none) (γ : ℝ) (cm : Option (ι → ℝ)) (L : ℕ) (x₀ : ι → ℝ) (key dk : κ) {offset : ℕ}
    (ho : offset < N) (prms : List Params) :
    Spec.amagoldSamples P lay γ cm L (deviceGetData P I data N mb) dk (potentialGrad prior lik strategy 1)
      (deviceFullPot prior lik strategy 1 data N bs) offset none x₀ key prms =
    Spec.amagoldSamples (chainPrng sp key P) lay γ cm L (indexBatches sp hN mb I) dk (drawGrad prior lik strategy obs)
      (Spec.exactFull (Spec.dataPotential ℓ prior obs)) () none x₀ (chainRoot sp key) prms := by
  rw [amagoldSamples_keys (sp := sp) (g' := indexBatches sp hN mb I) (sg' := drawGrad prior lik strategy obs) hsp hlay
    (fun d => by rw [deviceGetData_eq P hI hN hd, hsp]; rfl)
    (fun d x ms => by rw [deviceGetData_eq P hI hN hd, hsp]; rfl)]
  have hfull := deviceFull_sim (prior := prior) (strategy := strategy) hℓ hd hbs hms
  unfold Spec.amagoldSamples
  refine List.map_congr_left fun k _ => ?_
  have hi := amagoldInit_full hfull (chainPrng sp key P) (none : Option (MassAdaption ι Unit))
    (revInitForAmagold (chainPrng sp key P) lay cm dk) offset () ho x₀ (chainRoot sp key) none
  have h2 := amagoldRun_full hfull (chainPrng sp key P) none (revForAmagold (chainPrng sp key P) lay γ cm L (indexBatches sp hN mb I)
    (drawGrad prior lik strategy obs)) (prms.take (k + 1)) _ _ hi
  exact congrArg (fun s => s.positions) h2.1.symm

/-! ## C142 -/

variable [MeasurableSpace Ω] {prob : Measure Ω} [IsProbabilityMeasure prob] {P : Ω → Prng κ} {I : Ω → Randint κ}
  {sp : κ → ℕ → ℕ → κ} (hK : Spec.IdealKeys prob P I sp) {key dk : κ} (hind : Spec.KeysApart sp dk key)
  {bs : ℕ} (hbs : 0 < bs) {offset : ℕ} (ho : deviceInit N offset = .ok offset) (hms : ∀ y, Spec.StateFits lik y none)
  (hnorm : Spec.posterior (Spec.dataPotential ℓ prior obs) Set.univ Set.univ ≠ ⊤)
  {γ : ℝ} (hγ : 0 < γ) (cm : Option (ι → ℝ)) (hm : Spec.MassOk (Spec.usedMass none cm)) {L : ℕ} (hL : 2 ≤ L) (x₀ : ι → ℝ)
  (prm : Params) (hh : 0 < prm.stepSize) {f : (ι → ℝ) → ℝ} (hf : Measurable f) {C : ℝ} (hC : ∀ q, |f q| ≤ C)

include hℓ hsm hN hd hmb hlay hK hind hbs ho hms hnorm hγ hm hL hh hf hC in
/-- **C142 (mean square).** AMAGOLD with mini-batches and the full data map of a `DeviceNumpyDataLoader`, the mini-batches drawn
with a key independent of the key of the chain: the mean of every bounded function over the samples reported by a run with
constant step size converges in mean square to its mean under the exact posterior of the data set. -/
theorem c142_mean_square :
    Tendsto (fun n => ∫⁻ ω, ENNReal.ofReal ((Spec.meanOver f (Spec.amagoldSamples (P ω) lay γ cm L
        (deviceGetData (P ω) (I ω) data N mb) dk (potentialGrad prior lik strategy 1)
        (deviceFullPot prior lik strategy 1 data N bs) offset none x₀ key (List.replicate n prm)) -
      Spec.posteriorMean (Spec.dataPotential ℓ prior obs) Set.univ f) ^ 2) ∂prob) atTop (𝓝 0) := by
  have : Inhabited (Fin mb → Fin N) := ⟨fun _ => ⟨0, hN⟩⟩
  have hU := rows_measurable (obs := obs) hsm
  have ho' : offset < N := by
    by_contra h
    rw [(c19_offset N offset).2 (not_lt.1 h)] at ho
    cases ho
  have e := fun (ω : Ω) (prms : List Params) => device_amagold (prior := prior) (strategy := strategy) (mb := mb) hℓ hN hd hlay (P ω)
    (hK.lawful ω) (hK.split_eq ω) hbs hms γ cm L x₀ key dk ho' prms
  simp only [e]
  exact c131_mean_square (chain_ideal_updates hK hind hN mb L) hlay (chainRoot sp key) cm hm (drawGrad prior lik strategy obs)
    (fun x b ms => drawGrad_eq hℓ hsm hmb hms x b ms) (fun b => dataGrad_measurable hsm b)
    (Spec.exactFull (Spec.dataPotential ℓ prior obs)) hU MeasurableSet.univ ⟨fun _ _ _ _ => rfl, fun _ _ _ h => absurd trivial h⟩
    () none (Set.mem_univ x₀) hγ hL (fun _ => rfl) (uniform_draws_one hN mb L) prm hh (posterior_ne_zero hU) hnorm hf hC

include hℓ hsm hN hd hmb hlay hK hind hbs ho hms hnorm hγ hm hL hh hf hC in
/-- **C142 (probability).** The probability that the mean over the samples reported by such a run differs from the mean under the
posterior of the data set by `ε` or more converges to zero as the number of updates grows. -/
theorem c142_probability {ε : ℝ} (hε : 0 < ε) :
    Tendsto (fun n => prob {ω | ε ≤ |Spec.meanOver f (Spec.amagoldSamples (P ω) lay γ cm L
        (deviceGetData (P ω) (I ω) data N mb) dk (potentialGrad prior lik strategy 1)
        (deviceFullPot prior lik strategy 1 data N bs) offset none x₀ key (List.replicate n prm)) -
      Spec.posteriorMean (Spec.dataPotential ℓ prior obs) Set.univ f|}) atTop (𝓝 0) := by
  have : Inhabited (Fin mb → Fin N) := ⟨fun _ => ⟨0, hN⟩⟩
  have hU := rows_measurable (obs := obs) hsm
  have ho' : offset < N := by
    by_contra h
    rw [(c19_offset N offset).2 (not_lt.1 h)] at ho
    cases ho
  have e := fun (ω : Ω) (prms : List Params) => device_amagold (prior := prior) (strategy := strategy) (mb := mb) hℓ hN hd hlay (P ω)
    (hK.lawful ω) (hK.split_eq ω) hbs hms γ cm L x₀ key dk ho' prms
  simp only [e]
  exact c131_probability (chain_ideal_updates hK hind hN mb L) hlay (chainRoot sp key) cm hm (drawGrad prior lik strategy obs)
    (fun x b ms => drawGrad_eq hℓ hsm hmb hms x b ms) (fun b => dataGrad_measurable hsm b)
    (Spec.exactFull (Spec.dataPotential ℓ prior obs)) hU MeasurableSet.univ ⟨fun _ _ _ _ => rfl, fun _ _ _ h => absurd trivial h⟩
    () none (Set.mem_univ x₀) hγ hL (fun _ => rfl) (uniform_draws_one hN mb L) prm hh (posterior_ne_zero hU) hnorm hf hC hε

end

/-- The hypotheses of C142 can be met: an ideal generator, AMAGOLD with step size 1/2 and three leapfrog steps, mini-batches of
one of two observations, and the full potential in batches of two observations started at the second observation. -/
example (ε : ℝ) (hε : 0 < ε) :
    Tendsto (fun n => IdealGenerator.law {ω | ε ≤ |Spec.meanOver (fun q => max 0 (min 1 (q 0)))
        (Spec.amagoldSamples (IdealGenerator.gen ω) (Spec.vectorLayout 1) 1 (some fun _ => 4) 3
          (deviceGetData (IdealGenerator.gen ω) (IdealGenerator.randints ω) meanData 2 1) [0]
          (potentialGrad meanPrior (.plain meanLik) .vmap 1)
          (deviceFullPot meanPrior (.plain meanLik) .vmap 1 meanData 2 2) 1 (none : Option Empty) 0 [1]
          (List.replicate n ⟨1 / 2, 1⟩)) -
      Spec.posteriorMean (Spec.dataPotential meanLik meanPrior meanObs) Set.univ (fun q => max 0 (min 1 (q 0)))|})
    atTop (𝓝 0) := by
  have hv : Spec.Layout.Valid (Spec.vectorLayout 1) :=
    ⟨Spec.vectorLayout_injective 1, fun _ => Nat.one_pos, fun i => i.2⟩
  refine c142_probability (lik := .plain meanLik) (ℓ := meanLik) (fun y r => rfl) mean_smooth (by norm_num : 0 < 2) meanData_dataset
    (mb := 1) (le_refl 1) hv IdealGenerator.ideal (key := [1]) (dk := [0]) ?_ (by norm_num) (by decide) (fun y => rfl)
    (posterior_finite mean_convex) one_pos (some fun _ => 4) (massOk_const fun _ => by norm_num)
    (by norm_num) 0 ⟨1 / 2, 1⟩ (by norm_num) (by fun_prop) (C := 1) (fun q => ?_) hε
  · exact Spec.pathPrng_ideal (fun _ _ _ => 0) (fun _ => 0) [] 2 0 1 (by norm_num) (by norm_num) (by norm_num)
  · rw [abs_of_nonneg (le_max_left _ _)]
    exact max_le zero_le_one (min_le_left _ _)

end JaxSgmc
