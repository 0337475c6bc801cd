import Verif.Spec.Potential
import Verif.Props.FullData
import Mathlib.Algebra.BigOperators.Ring.Finset
import Mathlib.Algebra.BigOperators.Fin
import Mathlib.Data.Fintype.BigOperators
import Mathlib.Data.Rat.Defs
import Mathlib.Algebra.BigOperators.Field
import Mathlib.Data.Fintype.Perm
import Mathlib.Algebra.Group.End
import Mathlib.Algebra.CharZero.Defs
import Mathlib.Tactic.Ring
import Mathlib.Tactic.FieldSimp
import Mathlib.Tactic.NormNum

/-!
# C25-C29: potentials
-/

namespace JaxSgmc

open Spec

section
variable {K ρ S θ : Type} [Field K]

/-! ### Evaluation of a batch -/

theorem lmapLoop_eq (f : ρ → K × Option S) : ∀ (rows : List ρ) (acc : List (K × Option S)),
    lmapLoop f rows acc = acc.reverse ++ rows.map f
  | [], acc => by simp [lmapLoop]
  | r :: rs, acc => by rw [lmapLoop, lmapLoop_eq f rs]; simp

theorem vmapRows_eq (f : ρ → K × Option S) (rows : List ρ) : vmapRows f rows = rows.map f := by
  apply List.ext_getElem?
  intro i
  have h : vmapRows f rows = (List.range rows.length).filterMap (fun i => (rows.map f)[i]?) := by
    simp [vmapRows]
  rw [h, filterMap_rows _ _ (by simp)]
  by_cases hi : i < rows.length
  · simp [hi]
  · simp [hi, List.getElem?_eq_none (Nat.le_of_not_lt hi)]

/-- The observation likelihoods and the states of a batch. -/
def BatchEval.liks : BatchEval K S → List K
  | .each l _ => l
  | .whole l _ => l

theorem liks_eq (lik : Likelihood K ρ S θ) (strategy : Strategy) (st : Option S) (x : θ)
    (rows : List ρ) (ℓ : ρ → K) (h : LogLik lik x ℓ) :
    (batchedLikelihood lik strategy st x rows).liks = rows.map ℓ := by
  cases lik <;> simp only [LogLik] at h <;> cases strategy <;>
    simp [batchedLikelihood, BatchEval.liks, lmapLoop_eq, vmapRows_eq, h]

theorem newState_ok (lik : Likelihood K ρ S θ) (strategy : Strategy) (st : Option S) (x : θ)
    (rows : List ρ) (hne : rows ≠ []) (h : StateFits lik x st) :
    ∃ st', newState st (batchedLikelihood lik strategy st x rows) = .ok st' ∧
      st'.isSome = st.isSome := by
  obtain ⟨r, rs, rfl⟩ : ∃ r rs, rows = r :: rs := by
    cases rows with
    | nil => exact absurd rfl hne
    | cons r rs => exact ⟨r, rs, rfl⟩
  cases lik with
  | plain f =>
    simp only [StateFits] at h
    subst h
    exact ⟨none, by simp [batchedLikelihood, newState], rfl⟩
  | stateful f =>
    simp only [StateFits] at h
    cases st with
    | none => exact ⟨none, by cases strategy <;> simp [batchedLikelihood, newState], rfl⟩
    | some s =>
      have h1 := h (some s) r rfl
      cases hf : (f (some s) x r).2 with
      | none => simp [hf] at h1
      | some s' =>
        exact ⟨some s', by
          cases strategy <;> simp [batchedLikelihood, newState, lmapLoop_eq, vmapRows_eq, hf], rfl⟩
  | batched f =>
    simp only [StateFits] at h
    subst h
    exact ⟨none, by simp [batchedLikelihood, newState], rfl⟩
  | batchedStateful f =>
    simp only [StateFits] at h
    exact ⟨_, by simp only [batchedLikelihood, newState]; rfl, h st _ rfl⟩

theorem dotMask_eq (l : List ρ) (ℓ : ρ → K) : ∀ (m : List Bool),
    dotMask (l.map ℓ) m = ((valid l m).map ℓ).sum := by
  induction l with
  | nil => intro m; cases m <;> simp [dotMask, valid]
  | cons a l ih =>
    intro m
    cases m with
    | nil => simp [dotMask, valid]
    | cons b m => cases b <;> simp [dotMask, valid, ih]

theorem batchPotential_masked (lik : Likelihood K ρ S θ) (strategy : Strategy) (st : Option S) (x : θ)
    (rows : List ρ) (info : BatchInfo) (m : List Bool) (ℓ : ρ → K) (h : LogLik lik x ℓ)
    (hs : StateFits lik x st) (hne : rows ≠ []) :
    ∃ st', st'.isSome = st.isSome ∧ batchPotential lik strategy st x rows info (some m) =
      .ok (-(info.N : K) / (info.n : K) * ((valid rows m).map ℓ).sum, rows.map ℓ, st') := by
  obtain ⟨st', h1, h2⟩ := newState_ok lik strategy st x rows hne hs
  refine ⟨st', h2, ?_⟩
  have h3 := liks_eq lik strategy st x rows ℓ h
  simp only [batchPotential, h1]
  cases hev : batchedLikelihood lik strategy st x rows with
  | each l s => rw [hev] at h3; simp only [BatchEval.liks] at h3; simp [h3, dotMask_eq]
  | whole l s => rw [hev] at h3; simp only [BatchEval.liks] at h3; simp [h3, dotMask_eq]

theorem batchEvaluation_ok [CharZero K] (lik : Likelihood K ρ S θ) (strategy : Strategy)
    (st : Option S) (x : θ) (rows : List ρ) (info : BatchInfo) (m : List Bool) (ℓ : ρ → K)
    (h : LogLik lik x ℓ) (hs : StateFits lik x st) (hne : rows ≠ []) (hN : 0 < info.N)
    (hn : 0 < info.n) :
    ∃ st', st'.isSome = st.isSome ∧ batchEvaluation lik strategy x rows info m st =
      .ok (-((valid rows m).map ℓ).sum, st') := by
  obtain ⟨st', h1, h2⟩ := batchPotential_masked lik strategy st x rows info m ℓ h hs hne
  refine ⟨st', h1, ?_⟩
  simp only [batchEvaluation, minibatchPotential, h2, Except.ok.injEq, Prod.mk.injEq, and_true]
  have hN' : (info.N : K) ≠ 0 := Nat.cast_ne_zero.2 (by omega)
  have hn' : (info.n : K) ≠ 0 := Nat.cast_ne_zero.2 (by omega)
  field_simp
  ring

theorem stateFits_congr (lik : Likelihood K ρ S θ) (x : θ) (st st' : Option S)
    (h : st'.isSome = st.isSome) (hs : StateFits lik x st) : StateFits lik x st' := by
  cases lik with
  | plain f => simp only [StateFits] at hs ⊢; subst hs; simpa using h
  | stateful f => simpa only [StateFits, h] using hs
  | batched f => simp only [StateFits] at hs ⊢; subst hs; simpa using h
  | batchedStateful f => simpa only [StateFits, h] using hs

/-- Any source which supplies full batches: the full potential is the exact potential of the rows
with mask `true`. -/
theorem fullPotential_supplied [CharZero K] {Z β : Type} (prior : θ → K) (lik : Likelihood K ρ S θ)
    (strategy : Strategy) (T : K) (src : Z → Except PyErr β × Z) (rowsOf : β → List ρ)
    (infoMask : β → List Bool) (N bs : Nat) (hN : 0 < N) (hbs : 0 < bs) (x : θ) (z z' : Z)
    (st : Option S) (ℓ : ρ → K) (h : LogLik lik x ℓ) (hs : StateFits lik x st) (batches : List β)
    (hlen : batches.length = ceilDiv N bs) (hsup : Supplies src z batches z')
    (hrows : ∀ b ∈ batches, (rowsOf b).length = bs) :
    ∃ st', st'.isSome = st.isSome ∧
      fullPotential prior lik strategy T src rowsOf infoMask N bs x z st =
        (.ok (exactPotential ℓ (prior x) T ((batches.flatMap rowsOf).take N), st'), z') := by
  have gen : ∀ (bl : List β) (it : Nat) (z : Z) (st : Option S), StateFits lik x st →
      Supplies src z bl z' → (∀ b ∈ bl, (rowsOf b).length = bs) →
      ∃ rs st', st'.isSome = st.isSome ∧ scanBatches src (fun it b c =>
        batchEvaluation lik strategy x (rowsOf b) ⟨N, bs, infoMask b⟩ (iterMask N bs it) c)
          bl.length it z st = (.ok (rs, st'), z') ∧
        rs.sum = -((valid (bl.flatMap rowsOf)
          ((List.range bl.length).flatMap (fun j => iterMask N bs (it + j)))).map ℓ).sum := by
    intro bl
    induction bl with
    | nil =>
      intro it z st hs hsup _
      simp only [Supplies] at hsup
      subst hsup
      exact ⟨[], st, rfl, rfl, by simp [valid]⟩
    | cons b bl ih =>
      intro it z st hs hsup hr
      obtain ⟨z1, h1, hsup⟩ := hsup
      have hb := hr b List.mem_cons_self
      obtain ⟨st1, h2, h3⟩ := batchEvaluation_ok lik strategy st x (rowsOf b) ⟨N, bs, infoMask b⟩
        (iterMask N bs it) ℓ h hs (by intro h0; simp [h0] at hb; omega) hN hbs
      obtain ⟨rs, st2, h4, h5, h6⟩ := ih (it + 1) z1 st1 (stateFits_congr lik x st st1 h2 hs) hsup
        (fun b' hb' => hr b' (List.mem_cons_of_mem _ hb'))
      refine ⟨-((valid (rowsOf b) (iterMask N bs it)).map ℓ).sum :: rs, st2, h4.trans h2, by simp only [List.length_cons, scanBatches, h1, h3, h5], ?_⟩
      rw [List.sum_cons, h6, List.length_cons, List.range_succ_eq_map, List.flatMap_cons,
        List.flatMap_cons, valid_append _ _ _ _ (by simp [hb, iterMask]), List.map_append,
        List.sum_append, List.flatMap_map, Nat.add_zero]
      have : ∀ j, it + 1 + j = it + Nat.succ j := fun j => by simp only [Nat.succ_eq_add_one]; omega
      simp only [this]
      ring_nf
  obtain ⟨rs, st', h1, h2, h3⟩ := gen batches 0 z st hs hsup hrows
  refine ⟨st', h1, ?_⟩
  have hne : bs ≠ 0 := by omega
  rw [hlen] at h2
  simp only [fullPotential, numIterations, hne, if_false, h2, exactPotential, h3, hlen, Nat.zero_add]
  rw [valid_iterMask]
  · congr 4
    ring
  · rw [List.length_flatMap, ← hlen]
    have : batches.map (fun b => (rowsOf b).length) = batches.map (fun _ => bs) :=
      List.map_congr_left hrows
    rw [this]
    simp

/-- **C25** (numpy loaders on the host).  `v` is a data state of a full data map.  After any history
which draws from `v` only by complete passes, the full potential of any sample is the exact potential
of the dataset: every observation contributes exactly once and no filler contributes, whatever batch
size, cache size and number of previous evaluations.  The data state is left after another complete
pass, i.e. the theorem applies again. -/
theorem c25_host [CharZero K] {σ α : Type} (R : Rng σ) {devices : Nat} (hdev : 1 ≤ devices)
    {objs : Nat → Loader σ α} (hobjs : ∀ i, ∃ data, mkLoader data = .ok (objs i)) {s}
    (hs : PReachable (numpyHost R) devices objs s) {cb v : Nat}
    (hinit : (pstep (numpyHost R) devices s (.init cb .ordered v)).2 = .done)
    {cfg : Cfg} (hcfg : s.cfgs cb = some cfg) (hmb : 0 < cfg.mbSize)
    (ops : List (POp NumpyKw)) (hops : ∀ op ∈ ops, Respects [v] cb 1 op)
    (hdraws : ceilDiv (objs cfg.loader).obsCount cfg.mbSize ∣ numDraws v ops)
    (prior : θ → K) (lik : Likelihood K (List (String × Option α)) S θ) (strategy : Strategy) (T : K)
    (x : θ) (st : Option S) (ℓ : List (String × Option α) → K) (hℓ : LogLik lik x ℓ)
    (hst : StateFits lik x st) :
    let N := (objs cfg.loader).obsCount
    let start := (pstep (numpyHost R) devices s (.init cb .ordered v)).1
    ∃ st', st'.isSome = st.isSome ∧
      fullPotential prior lik strategy T (hostSource (numpyHost R) devices v 1)
        (fun b => (List.range cfg.mbSize).map (batchRow b.1)) (fun b => b.2) N cfg.mbSize x
        (prun (numpyHost R) devices start ops).1 st =
      (.ok (exactPotential ℓ (prior x) T ((List.range N).map (batchRow (objs cfg.loader).data)), st'),
       (prun (numpyHost R) devices start
          (ops ++ List.replicate (ceilDiv N cfg.mbSize) (.draw v 1))).1) := by
  intro N start
  obtain ⟨hwf, hle, hsup⟩ := host_pass R hdev hobjs hs hinit hcfg hmb ops hops hdraws
  obtain ⟨st', h1, h2⟩ := fullPotential_supplied prior lik strategy T
    (hostSource (numpyHost R) devices v 1) (fun b => (List.range cfg.mbSize).map (batchRow b.1))
    (fun b => b.2) N cfg.mbSize (lt_of_lt_of_le hmb hle) hmb x _ _ st ℓ hℓ hst _ (by simp [N]) hsup
    (by simp)
  refine ⟨st', h1, ?_⟩
  rw [h2]
  congr 4
  have hq := range_blocks (fun i => batchRow (objs cfg.loader).data (i % N)) cfg.mbSize
    (ceilDiv N cfg.mbSize)
  rw [List.flatMap_map]
  have e : (List.range (ceilDiv N cfg.mbSize)).flatMap (fun j => (List.range cfg.mbSize).map
      (batchRow (passRows (objs cfg.loader).data N cfg.mbSize j).1)) =
      (List.range (ceilDiv N cfg.mbSize)).flatMap (fun j => (List.range cfg.mbSize).map
        (fun i => batchRow (objs cfg.loader).data ((i + j * cfg.mbSize) % N))) := by
    congr 1
    funext j
    apply List.map_congr_left
    intro i hi
    exact passRows_row _ _ _ _ _ hwf hmb hle (List.mem_range.1 hi)
  rw [e, hq, ← List.map_take, List.take_range, Nat.min_eq_left (ceilDiv_le hmb)]
  apply List.map_congr_left
  intro i hi
  rw [Nat.mod_eq_of_lt (List.mem_range.1 hi)]

/-- **C25** (device data loaders): the full potential is the exact potential of the dataset from every
state of the data (offset `line`, e.g. after any number of earlier evaluations), for every batch
size. -/
theorem c25_device [CharZero K] (prior : θ → K) (lik : Likelihood K ρ S θ) (strategy : Strategy) (T : K)
    (data : List ρ) (bs line : Nat) (hbs : 0 < bs) (hline : line < data.length) (infoMask)
    (x : θ) (st : Option S) (ℓ : ρ → K) (hℓ : LogLik lik x ℓ) (hst : StateFits lik x st) :
    ∃ st', st'.isSome = st.isSome ∧ ∃ line' < data.length,
      fullPotential prior lik strategy T (deviceSource data bs) id infoMask data.length bs x line st =
      (.ok (exactPotential ℓ (prior x) T data, st'), line') := by
  have hN : 0 < data.length := by omega
  have hsup := device_supplies data bs hbs hN (ceilDiv data.length bs) line 0
  rw [Nat.zero_mul, Nat.add_zero, Nat.mod_eq_of_lt hline] at hsup
  obtain ⟨st', h1, h2⟩ := fullPotential_supplied prior lik strategy T
    (deviceSource data bs) id infoMask data.length bs hN hbs x _ _ st ℓ hℓ hst _ (by simp) hsup
    (by
      intro b hb
      obtain ⟨k, -, rfl⟩ := List.mem_map.1 hb
      exact deviceBatch_length data bs line _ hN)
  refine ⟨st', h1, _, Nat.mod_lt (line + (0 + ceilDiv data.length bs) * bs) hN, ?_⟩
  rw [h2]
  have e : (((List.range (ceilDiv data.length bs)).map
      (fun k => deviceBatch data bs line (0 + k))).flatMap id).take data.length = rotated data line := by
    rw [List.flatMap_id, deviceBatches_flatten]
    have : ceilDiv data.length bs * bs = data.length + (ceilDiv data.length bs * bs - data.length) := by
      have := ceilDiv_le (N := data.length) hbs
      omega
    rw [this, List.range_add, List.filterMap_append, List.take_append_of_le_length, List.take_of_length_le]
    · rfl
    · exact le_of_eq (by
        have := (rotated_perm data line hline).length_eq
        rw [rotated] at this
        omega)
    · have := (rotated_perm data line hline).length_eq
      rw [rotated] at this
      omega
  have e2 : exactPotential ℓ (prior x) T (rotated data line) = exactPotential ℓ (prior x) T data := by
    simp only [exactPotential]
    rw [((rotated_perm data line hline).map ℓ).sum_eq]
  rw [e, e2]

/-! ### C26 -/

theorem Spec.BatchFits.pos {lik : Likelihood K ρ S θ} {n : Nat} (h : BatchFits lik n) : 1 ≤ n := by
  cases lik <;> simp only [BatchFits] at h <;> omega

/-- **C26** (formula).  Without a mask argument, the stochastic potential of a batch is
`-(N * mean of the log-likelihoods + log-prior) / T` (at least one observation; a batched likelihood needs at
least two). -/
theorem c26_formula (prior : θ → K) (lik : Likelihood K ρ S θ) (strategy : Strategy) (T : K) (x : θ)
    (rows : List ρ) (info : BatchInfo) (st : Option S) (ℓ : ρ → K) (hℓ : LogLik lik x ℓ)
    (hst : StateFits lik x st) (hrows : BatchFits lik rows.length) :
    ∃ st', st'.isSome = st.isSome ∧ minibatchPotential prior lik strategy T x rows info st none =
      .ok (-((info.N : K) * ((rows.map ℓ).sum / (rows.length : K)) + prior x) / T, rows.map ℓ, st') := by
  obtain ⟨st', h1, h2⟩ := newState_ok lik strategy st x rows
    (by rintro rfl; cases lik <;> simp [BatchFits] at hrows) hst
  refine ⟨st', h2, ?_⟩
  have h3 := liks_eq lik strategy st x rows ℓ hℓ
  simp only [minibatchPotential, batchPotential, h1]
  cases hev : batchedLikelihood lik strategy st x rows with
  | each l s =>
    rw [hev] at h3
    simp only [BatchEval.liks] at h3
    simp only [h3, meanOf, List.length_map, Except.ok.injEq, Prod.mk.injEq, and_true]
    ring
  | whole l s =>
    rw [hev] at h3
    simp only [BatchEval.liks] at h3
    subst h3
    have hrows : 2 ≤ rows.length := by
      cases lik with
      | plain => exact absurd hev (by simp [batchedLikelihood])
      | stateful => exact absurd hev (by simp [batchedLikelihood])
      | batched => exact hrows
      | batchedStateful => exact hrows
    obtain ⟨a, b, rs, rfl⟩ : ∃ a b rs, rows = a :: b :: rs := by
      match rows, hrows with
      | a :: b :: rs, _ => exact ⟨a, b, rs, rfl⟩
    simp only [List.map_cons, meanOf, List.length_cons, List.length_map, Except.ok.injEq,
      Prod.mk.injEq, and_true]
    ring

/-- The same for one observation and a likelihood of single observations. -/
theorem c26_formula_single (prior : θ → K) (f : Option S → θ → ρ → K × Option S) (strategy : Strategy)
    (T : K) (x : θ) (r : ρ) (info : BatchInfo) (s : S) (s' : S) (hs : (f (some s) x r).2 = some s') :
    minibatchPotential prior (.stateful f) strategy T x [r] info (some s) none =
      .ok (-((info.N : K) * (f (some s) x r).1 + prior x) / T, [(f (some s) x r).1], some s') := by
  have h : -(info.N : K) * ((f (some s) x r).1 / 1) - prior x =
      -((info.N : K) * (f (some s) x r).1 + prior x) := by rw [div_one]; ring
  cases strategy <;>
    simp [minibatchPotential, batchPotential, batchedLikelihood, lmapLoop_eq, vmapRows_eq, newState,
      hs, meanOf] <;> (congr 1; ring)

/-- Averages over all index draws of `n` indices, with replacement. -/
theorem sum_draws [CharZero K] (N n : Nat) (g : Fin N → K) :
    ∑ d : Fin n → Fin N, ∑ i, g (d i) = n * (N : K) ^ (n - 1) * ∑ j, g j := by
  rw [Finset.sum_comm]
  have h : ∀ i : Fin n, ∑ d : Fin n → Fin N, g (d i) = (N : K) ^ (n - 1) * ∑ j, g j := by
    intro i
    obtain ⟨m, rfl⟩ : ∃ m, n = m + 1 := ⟨n - 1, by have := i.2; omega⟩
    rw [← (Fin.insertNthEquiv (fun _ => Fin N) i).sum_comp]
    rw [Fintype.sum_prod_type]
    simp [Finset.mul_sum]
  simp [h]
  ring

/-- **C26** (with replacement).  The average of the stochastic potential over all `N^n` equally likely
draws of `n` indices with replacement is the exact potential of the dataset. -/
theorem c26_unbiased [CharZero K] (prior : θ → K) (lik : Likelihood K ρ S θ) (strategy : Strategy)
    (T : K) (x : θ) (st : Option S) (ℓ : ρ → K) (hℓ : LogLik lik x ℓ) (hst : StateFits lik x st)
    (N n : Nat) (hN : 0 < N) (hfit : BatchFits lik n) (obs : Fin N → ρ) (mask : List Bool) :
    ∃ pot : (Fin n → Fin N) → K,
      (∀ d, ∃ ls st', minibatchPotential prior lik strategy T x (List.ofFn (fun i => obs (d i)))
        ⟨N, n, mask⟩ st none = .ok (pot d, ls, st')) ∧
      (∑ d, pot d) / ((N : K) ^ n) = exactPotential ℓ (prior x) T (List.ofFn obs) := by
  have hn := hfit.pos
  refine ⟨fun d => -((N : K) * ((∑ i, ℓ (obs (d i))) / (n : K)) + prior x) / T, ?_, ?_⟩
  · intro d
    obtain ⟨st', -, h⟩ := c26_formula prior lik strategy T x (List.ofFn (fun i => obs (d i)))
      ⟨N, n, mask⟩ st ℓ hℓ hst (by simpa using hfit)
    refine ⟨((List.ofFn (fun i : Fin n => obs (d i))).map ℓ), st', h.trans ?_⟩
    simp [List.map_ofFn, List.sum_ofFn]
  · simp only [exactPotential, List.map_ofFn, List.sum_ofFn, Function.comp_def]
    have h1 : ∑ d : Fin n → Fin N, (-((N : K) * ((∑ i, ℓ (obs (d i))) / (n : K)) + prior x) / T) =
        -((N : K) / n * (∑ d : Fin n → Fin N, ∑ i, ℓ (obs (d i))) + (N : K) ^ n * prior x) / T := by
      rw [← Finset.sum_div, Finset.sum_neg_distrib, Finset.sum_add_distrib, Finset.mul_sum]
      congr 3
      · apply Finset.sum_congr rfl
        intro d _
        ring
      · simp
    rw [h1, sum_draws N n (fun j => ℓ (obs j))]
    have hN' : (N : K) ≠ 0 := Nat.cast_ne_zero.2 (by omega)
    have hn' : (n : K) ≠ 0 := Nat.cast_ne_zero.2 (by omega)
    obtain ⟨m, rfl⟩ : ∃ m, n = m + 1 := ⟨n - 1, by omega⟩
    simp only [Nat.add_sub_cancel]
    by_cases hT : T = 0
    · simp [hT]
    · have := pow_ne_zero m hN'
      field_simp
      ring

/-- **C26** (without replacement, e.g. the first batch of a shuffled epoch).  The average over all
equally likely permutations of the potential of the batch of the first `n` permuted indices is the
exact potential. -/
theorem c26_unbiased_permuted [CharZero K] (prior : θ → K) (lik : Likelihood K ρ S θ)
    (strategy : Strategy)
    (T : K) (x : θ) (st : Option S) (ℓ : ρ → K) (hℓ : LogLik lik x ℓ) (hst : StateFits lik x st)
    (N n : Nat) (hfit : BatchFits lik n) (hnN : n ≤ N) (obs : Fin N → ρ) (mask : List Bool) :
    ∃ pot : Equiv.Perm (Fin N) → K,
      (∀ d, ∃ ls st', minibatchPotential prior lik strategy T x
        (List.ofFn (fun i : Fin n => obs (d (Fin.castLE hnN i)))) ⟨N, n, mask⟩ st none =
          .ok (pot d, ls, st')) ∧
      (∑ d, pot d) / (N.factorial : K) = exactPotential ℓ (prior x) T (List.ofFn obs) := by
  have hn := hfit.pos
  refine ⟨fun d => -((N : K) * ((∑ i : Fin n, ℓ (obs (d (Fin.castLE hnN i)))) / (n : K)) + prior x) / T,
    ?_, ?_⟩
  · intro d
    obtain ⟨st', -, h⟩ := c26_formula prior lik strategy T x
      (List.ofFn (fun i : Fin n => obs (d (Fin.castLE hnN i))))
      ⟨N, n, mask⟩ st ℓ hℓ hst (by simpa using hfit)
    refine ⟨((List.ofFn (fun i : Fin n => obs (d (Fin.castLE hnN i)))).map ℓ), st', h.trans ?_⟩
    simp [List.map_ofFn, List.sum_ofFn]
  · simp only [exactPotential, List.map_ofFn, List.sum_ofFn, Function.comp_def]
    have h1 : ∑ d : Equiv.Perm (Fin N),
        (-((N : K) * ((∑ i : Fin n, ℓ (obs (d (Fin.castLE hnN i)))) / (n : K)) + prior x) / T) =
        -((N : K) / n * (∑ d : Equiv.Perm (Fin N), ∑ i : Fin n, ℓ (obs (d (Fin.castLE hnN i)))) +
          (N.factorial : K) * prior x) / T := by
      rw [← Finset.sum_div, Finset.sum_neg_distrib, Finset.sum_add_distrib, Finset.mul_sum]
      congr 3
      · apply Finset.sum_congr rfl
        intro d _
        ring
      · simp [Fintype.card_perm]
    -- the sum over the permutations does not depend on the position
    have hpos : ∀ a b : Fin N, ∑ d : Equiv.Perm (Fin N), ℓ (obs (d a)) =
        ∑ d : Equiv.Perm (Fin N), ℓ (obs (d b)) := by
      intro a b
      rw [← Equiv.sum_comp (Equiv.mulRight (Equiv.swap a b))]
      simp
    have hN0 : 0 < N := by omega
    have hall : ∀ a : Fin N, (N : K) * ∑ d : Equiv.Perm (Fin N), ℓ (obs (d a)) =
        (N.factorial : K) * ∑ j, ℓ (obs j) := by
      intro a
      have e1 : ∑ b : Fin N, ∑ d : Equiv.Perm (Fin N), ℓ (obs (d b)) =
          (N : K) * ∑ d : Equiv.Perm (Fin N), ℓ (obs (d a)) := by
        rw [Finset.sum_congr rfl (fun b _ => hpos b a)]
        simp
      rw [← e1, Finset.sum_comm]
      have : ∀ d : Equiv.Perm (Fin N), ∑ b, ℓ (obs (d b)) = ∑ b, ℓ (obs b) := fun d =>
        Equiv.sum_comp d (fun b => ℓ (obs b))
      simp [this, Fintype.card_perm]
    have h2 : (N : K) * ∑ d : Equiv.Perm (Fin N), ∑ i : Fin n, ℓ (obs (d (Fin.castLE hnN i))) =
        n * ((N.factorial : K) * ∑ j, ℓ (obs j)) := by
      rw [Finset.sum_comm, Finset.mul_sum, Finset.sum_congr rfl (fun i _ => hall (Fin.castLE hnN i))]
      simp
    have hn' : (n : K) ≠ 0 := Nat.cast_ne_zero.2 (by omega)
    have hF : (N.factorial : K) ≠ 0 := Nat.cast_ne_zero.2 (Nat.factorial_ne_zero N)
    rw [h1, div_mul_eq_mul_div, h2]
    by_cases hT : T = 0
    · simp [hT]
    · field_simp

/-! ### C27 -/

/-- **C27.** The sequential and the vectorised evaluation of a likelihood are the same: potential,
likelihoods of the observations and model state, with and without mask, for every model state. -/
theorem c27_strategy (prior : θ → K) (lik : Likelihood K ρ S θ) (s s' : Strategy) (T : K) (x : θ)
    (rows : List ρ) (info : BatchInfo) (st : Option S) (mask : Option (List Bool)) :
    minibatchPotential prior lik s T x rows info st mask =
      minibatchPotential prior lik s' T x rows info st mask := by
  have : batchedLikelihood lik s st x rows = batchedLikelihood lik s' st x rows := by
    cases lik <;> cases s <;> cases s' <;> simp [batchedLikelihood, lmapLoop_eq, vmapRows_eq]
  simp only [minibatchPotential, batchPotential, this]

/-- **C27** (batched likelihoods without state): a batched likelihood which is the pointwise likelihood
of the observations gives the same result. -/
theorem c27_batched (prior : θ → K) (f : θ → ρ → K) (fb : θ → List ρ → List K)
    (hfb : ∀ x rows, fb x rows = rows.map (f x)) (s s' : Strategy) (T : K) (x : θ) (rows : List ρ)
    (hrows : rows.length ≠ 1) (info : BatchInfo) (mask : Option (List Bool)) :
    minibatchPotential (S := S) prior (.batched fb) s T x rows info none mask =
      minibatchPotential prior (.plain f) s' T x rows info none mask := by
  rw [c27_strategy _ (.plain f) s' .vmap]
  simp only [minibatchPotential, batchPotential, batchedLikelihood, newState, hfb, vmapRows_eq,
    List.map_map, Function.comp_def]
  cases mask with
  | some m => rfl
  | none =>
    match rows, hrows with
    | [], _ => rfl
    | _ :: _ :: _, _ => rfl

/-- **C27** (batched likelihoods with state): the same, if the batched likelihood returns the state of
the first observation. -/
theorem c27_batched_stateful (prior : θ → K) (f : Option S → θ → ρ → K × Option S)
    (fb : Option S → θ → List ρ → List K × Option S)
    (hfb : ∀ st x rows, (fb st x rows).1 = rows.map (fun r => (f st x r).1))
    (hfs : ∀ st x r rs, (fb st x (r :: rs)).2 = (f st x r).2)
    (hst : ∀ st x r, (f st x r).2.isSome = st.isSome)
    (s s' : Strategy) (T : K) (x : θ) (rows : List ρ)
    (hrows : 2 ≤ rows.length) (info : BatchInfo) (st : Option S) (mask : Option (List Bool)) :
    minibatchPotential prior (.batchedStateful fb) s T x rows info st mask =
      minibatchPotential prior (.stateful f) s' T x rows info st mask := by
  rw [c27_strategy _ (.stateful f) s' .vmap]
  match rows, hrows with
  | a :: b :: rs, _ =>
    have h1 := hst st x a
    have h2 := hfs st x a (b :: rs)
    have h3 := hfb st x (a :: b :: rs)
    simp only [minibatchPotential, batchPotential, batchedLikelihood, newState, h2, h3, vmapRows_eq,
      List.map_map, Function.comp_def, List.map_cons]
    cases hf : (f st x a).2 with
    | none =>
      rw [hf] at h1
      cases st with
      | some _ => simp at h1
      | none => cases mask <;> rfl
    | some s1 =>
      rw [hf] at h1
      cases st with
      | none => simp at h1
      | some _ => cases mask <;> rfl

/-! ### C28 -/

/-- The statement of C28: changing observations which are marked invalid in the batch information does
not change the stochastic potential. -/
def C28Statement (K : Type) [Field K] : Prop :=
  ∀ (ρ θ : Type) (prior : θ → K) (f : θ → ρ → K) (s : Strategy) (T : K) (x : θ) (rows rows' : List ρ)
    (info : BatchInfo), rows.length = info.mask.length → rows'.length = info.mask.length →
    valid rows info.mask = valid rows' info.mask →
    ∀ p ls st p' ls' st',
      minibatchPotential (S := Unit) prior (.plain f) s T x rows info none none = .ok (p, ls, st) →
      minibatchPotential (S := Unit) prior (.plain f) s T x rows' info none none = .ok (p', ls', st') →
      p = p'

/-- **C28 is false**: the mask in the batch information is never read. -/
theorem c28_false : ¬ C28Statement ℚ := by
  intro h
  have := h ℚ Unit (fun _ => 0) (fun _ r => r) .map 1 () [1, 2] [1, 3] ⟨5, 2, [true, false]⟩ rfl rfl rfl
    _ _ _ _ _ _ rfl rfl
  revert this
  decide +kernel

/-- What holds instead of C28 (1): if the mask is passed to the potential as an argument (as the full
potential does), masked observations do not influence it, nor their likelihoods. -/
theorem c28_explicit_mask_partial (prior : θ → K) (f : θ → ρ → K) (s : Strategy) (T : K) (x : θ)
    (rows rows' : List ρ) (info : BatchInfo) (m : List Bool) (h : valid rows m = valid rows' m) :
    ∃ p ls ls', minibatchPotential (S := S) prior (.plain f) s T x rows info none (some m) =
        .ok (p, ls, none) ∧
      minibatchPotential (S := S) prior (.plain f) s T x rows' info none (some m) =
        .ok (p, ls', none) := by
  have gen : ∀ rows : List ρ, minibatchPotential (S := S) prior (.plain f) s T x rows info none (some m) =
      .ok ((-(info.N : K) / (info.n : K) * ((valid rows m).map (f x)).sum - prior x) / T,
        rows.map (f x), none) := by
    intro rows
    rw [c27_strategy _ _ s .vmap]
    simp only [minibatchPotential, batchPotential, batchedLikelihood, newState, vmapRows_eq,
      List.map_map, Function.comp_def, dotMask_eq]
  exact ⟨_, _, _, gen rows, by rw [gen rows', h]⟩

/-- What holds instead of C28 (2): the potential without mask argument is the one of a batch in which
every observation counts, whatever the mask in the information says. -/
theorem c28_info_mask_unused_partial (prior : θ → K) (lik : Likelihood K ρ S θ) (s : Strategy) (T : K)
    (x : θ) (rows : List ρ) (N n : Nat) (m m' : List Bool) (st : Option S)
    (mask : Option (List Bool)) :
    minibatchPotential prior lik s T x rows ⟨N, n, m⟩ st mask =
      minibatchPotential prior lik s T x rows ⟨N, n, m'⟩ st mask := rfl

/-! ### C29 -/

/-- **C29.** For a likelihood of single observations with state: if the potential of a batch is
evaluated, every observation is evaluated with the incoming state, and the new state is the one
returned for the first observation; without incoming state it is `None`. -/
theorem c29_first_state (prior : θ → K) (f : Option S → θ → ρ → K × Option S) (s : Strategy) (T : K)
    (x : θ) (r : ρ) (rs : List ρ) (info : BatchInfo) (st : Option S) (mask : Option (List Bool))
    (p : K) (ls : List K) (st' : Option S)
    (h : minibatchPotential prior (.stateful f) s T x (r :: rs) info st mask = .ok (p, ls, st')) :
    ls = (r :: rs).map (fun r => (f st x r).1) ∧
    st' = (match st with | none => none | some s => (f (some s) x r).2) := by
  rw [c27_strategy _ _ s .vmap] at h
  simp only [minibatchPotential, batchPotential, batchedLikelihood, newState, vmapRows_eq,
    List.map_map, Function.comp_def, List.map_cons] at h
  cases st with
  | none =>
    cases mask <;>
    · simp only [Except.ok.injEq, Prod.mk.injEq] at h
      obtain ⟨-, rfl, rfl⟩ := h
      exact ⟨rfl, rfl⟩
  | some s0 =>
    simp only at h ⊢
    cases hf : (f (some s0) x r).2 with
    | none => simp [hf] at h
    | some s1 =>
      simp only [hf] at h
      cases mask <;>
      · simp only [Except.ok.injEq, Prod.mk.injEq] at h
        obtain ⟨-, rfl, rfl⟩ := h
        exact ⟨rfl, rfl⟩

/-- **C29**: it is evaluated whenever the likelihood returns states for states. -/
theorem c29_evaluated (prior : θ → K) (f : Option S → θ → ρ → K × Option S) (s : Strategy) (T : K)
    (x : θ) (r : ρ) (rs : List ρ) (info : BatchInfo) (st : Option S) (mask : Option (List Bool))
    (hst : st.isSome → (f st x r).2.isSome) :
    ∃ p ls st', minibatchPotential prior (.stateful f) s T x (r :: rs) info st mask =
      .ok (p, ls, st') := by
  rw [c27_strategy _ _ s .vmap]
  simp only [minibatchPotential, batchPotential, batchedLikelihood, newState, vmapRows_eq,
    List.map_map, Function.comp_def, List.map_cons]
  cases st with
  | none => cases mask <;> exact ⟨_, _, _, rfl⟩
  | some s0 =>
    have := hst rfl
    simp only
    cases hf : (f (some s0) x r).2 with
    | none => simp [hf] at this
    | some s1 => cases mask <;> exact ⟨_, _, _, rfl⟩

/-- **C29**: without state in the likelihood, `None` is returned. -/
theorem c29_stateless (prior : θ → K) (f : θ → ρ → K) (s : Strategy) (T : K)
    (x : θ) (rows : List ρ) (info : BatchInfo) (mask : Option (List Bool))
    (p : K) (ls : List K) (st' : Option S)
    (h : minibatchPotential prior (.plain f) s T x rows info none mask = .ok (p, ls, st')) :
    ls = rows.map (f x) ∧ st' = none := by
  rw [c27_strategy _ _ s .vmap] at h
  simp only [minibatchPotential, batchPotential, batchedLikelihood, newState, vmapRows_eq,
    List.map_map, Function.comp_def] at h
  cases mask <;>
  · simp only [Except.ok.injEq, Prod.mk.injEq] at h
    obtain ⟨-, rfl, rfl⟩ := h
    exact ⟨rfl, rfl⟩

end

/-! ### Non-vacuity -/

/-- A stateful likelihood which counts its evaluations. -/
def toyLik : Likelihood ℚ ℚ Nat ℚ := .stateful (fun st x r => (x * r, st.map (· + 1)))

example : LogLik toyLik 2 (fun r => 2 * r) ∧ StateFits toyLik 2 (some 3) ∧
    StateFits toyLik 2 none := by
  refine ⟨fun _ _ => rfl, ?_, ?_⟩ <;>
  · intro st' r h
    cases st' <;> simp_all

/-- The full potential over three observations with batch size two from offset one: the third batch
entry of the second batch is a filler. -/
example : (fullPotential (fun x => x) toyLik .vmap 2 (deviceSource [5, 7, 11] 2) id (fun _ => [])
    3 2 2 1 (some 0)).1.toOption = some (-((10 + 14 + 22) + 2) / 2, some 2) := by
  decide +kernel

end JaxSgmc
