import Verif.Model.MapperPotential
import Verif.Props.Mapper
import Verif.Props.Potential
import Verif.Spec.ModelState

/-!
# C155: the full potential evaluated with `full_data_mapper`
-/

namespace JaxSgmc

open Spec

section
variable {K S θ : Type} [Field K]

/-- The model state after a batch of the full potential. -/
theorem batchEvaluation_state {ρ : Type} (lik : Likelihood K ρ S θ) (strategy : Strategy) (x : θ) (rows : List ρ)
    (info : BatchInfo) (mask : List Bool) (st st' : Option S) (p : K)
    (h : batchEvaluation lik strategy x rows info mask st = .ok (p, st')) : st' = stateStep lik x st rows := by
  have key : newState st (batchedLikelihood lik strategy st x rows) = .ok st' := by
    simp only [batchEvaluation, minibatchPotential, batchPotential] at h
    cases hn : newState st (batchedLikelihood lik strategy st x rows) with
    | error e => simp [hn] at h
    | ok s1 =>
      simp only [hn, Except.ok.injEq, Prod.mk.injEq] at h
      rw [h.2]
  cases lik with
  | batched f =>
    simp only [batchedLikelihood, newState, Except.ok.injEq] at key
    exact key.symm
  | batchedStateful f =>
    simp only [batchedLikelihood, newState, Except.ok.injEq] at key
    exact key.symm
  | plain f =>
    cases strategy <;>
    · simp only [batchedLikelihood, newState, lmapLoop_eq, vmapRows_eq, List.map_map, Function.comp_def,
        List.reverse_nil, List.nil_append] at key
      cases st with
      | none => exact (Except.ok.inj key).symm
      | some s0 => cases rows <;> simp at key
  | stateful f =>
    cases strategy <;>
    · simp only [batchedLikelihood, newState, lmapLoop_eq, vmapRows_eq, List.map_map, Function.comp_def,
        List.reverse_nil, List.nil_append] at key
      cases st with
      | none => exact (Except.ok.inj key).symm
      | some s0 =>
        cases rows with
        | nil => simp at key
        | cons r rs =>
          simp only [List.map_cons] at key
          simp only [stateStep, Option.isSome_some, if_true, List.head?_cons, Option.bind_some]
          cases hf : (f (some s0) x r).2 with
          | none => simp [hf] at key
          | some s1 =>
            rw [hf] at key
            exact (Except.ok.inj key).symm

/-- **C29**, full potential: over any source, the model state returned by `full_potential` is passed on from batch to
batch, keeping the state of the first observation of every batch. -/
theorem c29_full {ρ Z β : Type} (prior : θ → K) (lik : Likelihood K ρ S θ) (strategy : Strategy) (T : K)
    (src : Z → Except PyErr β × Z) (rowsOf : β → List ρ) (infoMask : β → List Bool) (N bs : Nat) (x : θ)
    (z z' : Z) (st st' : Option S) (v : K) (batches : List β) (hbs : 0 < bs)
    (hlen : batches.length = ceilDiv N bs) (hsup : Supplies src z batches z')
    (h : (fullPotential prior lik strategy T src rowsOf infoMask N bs x z st).1 = .ok (v, st')) :
    st' = stateAfter lik x st (batches.map rowsOf) := by
  have gen : ∀ (bl : List β) (it : Nat) (z : Z) (st : Option S) (rs : List K) (st' : Option S),
      Supplies src z bl z' → (scanBatches src (fun it b c =>
        batchEvaluation lik strategy x (rowsOf b) ⟨N, bs, infoMask b⟩ (iterMask N bs it) c)
          bl.length it z st).1 = .ok (rs, st') → st' = stateAfter lik x st (bl.map rowsOf) := by
    intro bl
    induction bl with
    | nil =>
      intro it z st rs st' _ h
      simp only [List.length_nil, scanBatches, Except.ok.injEq, Prod.mk.injEq] at h
      exact h.2.symm
    | cons b bl ih =>
      intro it z st rs st' hsup h
      obtain ⟨z1, h1, h2⟩ := hsup
      simp only [List.length_cons, scanBatches, h1] at h
      cases hb : batchEvaluation lik strategy x (rowsOf b) ⟨N, bs, infoMask b⟩ (iterMask N bs it) st with
      | error e => simp [hb] at h
      | ok y =>
        obtain ⟨p, st1⟩ := y
        simp only [hb] at h
        cases hr : scanBatches src (fun it b c => batchEvaluation lik strategy x (rowsOf b)
            ⟨N, bs, infoMask b⟩ (iterMask N bs it) c) bl.length (it + 1) z1 st1 with
        | mk o w =>
          rw [hr] at h
          cases o with
          | error e => simp at h
          | ok u =>
            obtain ⟨ws, st2⟩ := u
            simp only [Except.ok.injEq, Prod.mk.injEq] at h
            rw [← h.2, ih (it + 1) z1 st1 ws st2 h2 (by rw [hr]), batchEvaluation_state _ _ _ _ _ _ _ _ _ hb]
            rfl
  simp only [fullPotential, numIterations, if_neg (show bs ≠ 0 by omega)] at h
  rw [← hlen] at h
  cases hsc : scanBatches src (fun it b c => batchEvaluation lik strategy x (rowsOf b)
      ⟨N, bs, infoMask b⟩ (iterMask N bs it) c) batches.length 0 z st with
  | mk o w =>
    rw [hsc] at h
    cases o with
    | error e => simp at h
    | ok u =>
      obtain ⟨ws, st2⟩ := u
      simp only [Except.ok.injEq, Prod.mk.injEq] at h
      rw [← h.2]
      exact gen batches 0 z st ws st2 hsup (by rw [hsc])

/-- A model state which counts: three batches of the full potential. -/
example : stateAfter (Likelihood.stateful (K := ℚ) (S := Nat) (fun st (_ : Unit) (r : Nat) =>
    ((0 : ℚ), st.map (· * 10 + r)))) () (some 0) [[1, 2], [3, 4], [5, 1]] = some 135 := by
  decide

/-- A source which delivers the elements of a list. -/
def listSource {β : Type} : List β → Except PyErr β × List β
  | [] => (.error .indexError, [])
  | b :: bs => (.ok b, bs)

theorem listSource_supplies {β : Type} : ∀ bs : List β, Supplies listSource bs bs []
  | [] => rfl
  | b :: bs => ⟨bs, rfl, listSource_supplies bs⟩

/-- Threading the body through the batches is the scan of `full_potential`. -/
theorem mapperBody_scan {ρ β : Type} (lik : Likelihood K ρ S θ) (strategy : Strategy) (N bs : Nat)
    (rowsOf : β → List ρ) (infoMask : β → List Bool) (x : θ) :
    ∀ (batches : List β) (it : Nat) (st : Option S) (rs : List K) (st' : Option S),
      (scanBatches listSource (fun it b c => batchEvaluation lik strategy x (rowsOf b) ⟨N, bs, infoMask b⟩
        (iterMask N bs it) c) batches.length it batches st).1 = .ok (rs, st') →
      thread (mapperBody lik strategy N bs rowsOf infoMask) batches ⟨x, it, .ok st⟩ =
        (rs.map (fun r => [r]), ⟨x, it + batches.length, .ok st'⟩)
  | [], it, st, rs, st', h => by
    simp only [List.length_nil, scanBatches, Except.ok.injEq, Prod.mk.injEq] at h
    simp [thread, ← h.1, ← h.2]
  | b :: batches, it, st, rs, st', h => by
    simp only [List.length_cons, scanBatches, listSource] at h
    cases hb : batchEvaluation lik strategy x (rowsOf b) ⟨N, bs, infoMask b⟩ (iterMask N bs it) st with
    | error e => simp [hb] at h
    | ok y =>
      obtain ⟨p, st1⟩ := y
      simp only [hb] at h
      cases hr : scanBatches listSource (fun it b c => batchEvaluation lik strategy x (rowsOf b)
          ⟨N, bs, infoMask b⟩ (iterMask N bs it) c) batches.length (it + 1) batches st1 with
      | mk o z =>
        rw [hr] at h
        cases o with
        | error e => simp at h
        | ok w =>
          obtain ⟨ws, st2⟩ := w
          simp only [Except.ok.injEq, Prod.mk.injEq] at h
          have ih := mapperBody_scan lik strategy N bs rowsOf infoMask x batches (it + 1) st1 ws st2
            (by rw [hr])
          have hbody : mapperBody lik strategy N bs rowsOf infoMask b ⟨x, it, .ok st⟩ =
              ([p], ⟨x, it + 1, .ok st1⟩) := by
            simp only [mapperBody, hb]
          simp only [thread, hbody, ih]
          rw [← h.1, ← h.2]
          simp [Nat.add_assoc, Nat.add_comm 1]

/-- **C155.** A mapper of a numpy data loader `l` is used to evaluate full potentials (`data_state=None`), by any
number of calls at the same time, each for its own sample and model state, in every interleaving with other
operations of the program.  Every call which has ended gives the exact negative log posterior of its sample over
all observations of the data set, whatever the batch size, the cache size and the evaluation strategy, and the model
state passed on through batches which contain the observations in their order. -/
theorem c155_concurrent [CharZero K] {σ α : Type} (R : Rng σ) {devices base : Nat} (hdev : 1 ≤ devices)
    {objs : Nat → Loader σ α} (hobjs : ∀ i, ∃ data, mkLoader data = .ok (objs i)) {s}
    (hs : PReachable (numpyHost R) devices objs s) {l : Nat} {cc mb : Int}
    {m0 : Mapper (Loader σ α) (NB α) (PotentialCarry S θ) K}
    (hm0 : mkMapper (numpyHost R) devices base .ordered s l cc mb = some m0)
    (prior : θ → K) (lik : Likelihood K (List (String × Option α)) S θ) (strategy : Strategy) (T : K)
    (ℓ : θ → List (String × Option α) → K)
    (ops : List (MOp NumpyKw (PotentialCarry S θ))) (hops : ∀ op ∈ ops, EnvOk base m0.cb op)
    (hstart : ∀ c carry, MOp.start c carry ∈ ops → carry.iteration = 0 ∧ ∃ st, carry.state = .ok st ∧
      LogLik lik carry.sample (ℓ carry.sample) ∧ StateFits lik carry.sample st) :
    let N := (objs l).obsCount
    let m := mrun (numpyHost R) devices base .ordered N (ceilDiv N mb.toNat)
      (mapperBody lik strategy N mb.toNat (fun b => (List.range mb.toNat).map (batchRow b.1)) (fun b => b.2))
      m0 ops
    ∀ c res carry, m.finished c = some (res, carry) →
      ∃ x st st', MOp.start c ⟨x, 0, .ok st⟩ ∈ ops ∧ st'.isSome = st.isSome ∧
        mapperPotential prior T res carry =
          .ok (exactPotential (ℓ x) (prior x) T ((List.range N).map (batchRow (objs l).data)), st') ∧
        ∃ batches : List (List (List (String × Option α))), batches.length = ceilDiv N mb.toNat ∧
          (∀ b ∈ batches, b.length = mb.toNat) ∧
          batches.flatten.take N = (List.range N).map (batchRow (objs l).data) ∧
          st' = stateAfter lik x st batches := by
  intro N m c res carry hfin
  obtain ⟨I0, -, -⟩ := MInv.init (fn := mapperBody lik strategy N mb.toNat
    (fun b => (List.range mb.toNat).map (batchRow b.1)) (fun b => b.2)) hobjs hs hm0
  have hmb : 0 < mb.toNat := I0.mbPos
  have hle : mb.toNat ≤ N := I0.mbLe
  obtain ⟨carry0, batches, h1, h2, h3, h4, h5⟩ := (c22_concurrent R hdev hobjs hs hm0 _ ops hops).2.2.1
    c res carry hfin
  obtain ⟨x, it, est⟩ := carry0
  obtain ⟨e1, st, e2, e3, e4⟩ := hstart c _ h1
  dsimp only at e1 e2 e3 e4
  subst e1 e2
  have hlen : batches.length = ceilDiv N mb.toNat := h2
  obtain ⟨st', g1, g2⟩ := fullPotential_supplied prior lik strategy T listSource
    (fun b : NB α => (List.range mb.toNat).map (batchRow b.1)) (fun b => b.2) N mb.toNat
    (lt_of_lt_of_le hmb hle) hmb x batches [] st (ℓ x) e3 e4 batches hlen (listSource_supplies batches)
    (by simp)
  have hflat : (batches.map (fun b : NB α => (List.range mb.toNat).map (batchRow b.1))).flatten.take N =
      (List.range N).map (batchRow (objs l).data) := by
    have hrows : ∀ r ∈ batches.map (fun b : NB α => (List.range mb.toNat).map (batchRow b.1)),
        r.length = mb.toNat := by
      intro r hr
      obtain ⟨b, -, rfl⟩ := List.mem_map.1 hr
      simp
    apply List.ext_getElem?
    intro i
    rw [List.getElem?_take]
    by_cases hi : i < N
    · obtain ⟨hb, hrow⟩ := h3 i hi
      rw [if_pos hi, flatten_get _ hmb _ hrows]
      simp [hb, hi, Nat.mod_lt _ hmb, hrow]
    · rw [if_neg hi, List.getElem?_eq_none (by simp; omega)]
  have hstate := c29_full prior lik strategy T listSource
    (fun b : NB α => (List.range mb.toNat).map (batchRow b.1)) (fun b => b.2) N mb.toNat x batches [] st st' _
    batches hmb hlen (listSource_supplies batches) (by rw [g2])
  refine ⟨x, st, st', h1, g1, ?_, batches.map (fun b : NB α => (List.range mb.toNat).map (batchRow b.1)),
    by simpa using hlen, ?_, hflat, hstate⟩
  swap
  · intro b hb
    obtain ⟨b', -, rfl⟩ := List.mem_map.1 hb
    simp
  -- the scan over the list of batches succeeds
  simp only [fullPotential, numIterations, if_neg (show mb.toNat ≠ 0 by omega)] at g2
  rw [← hlen] at g2
  cases hsc : scanBatches listSource (fun it b c => batchEvaluation lik strategy x
      ((fun b : NB α => (List.range mb.toNat).map (batchRow b.1)) b)
      ⟨N, mb.toNat, (fun b : NB α => b.2) b⟩ (iterMask N mb.toNat it) c) batches.length 0 batches st with
  | mk o z =>
    rw [hsc] at g2
    cases o with
    | error e => simp at g2
    | ok w =>
      obtain ⟨ws, st2⟩ := w
      simp only [Prod.mk.injEq, Except.ok.injEq] at g2
      obtain ⟨⟨g3, g4⟩, -⟩ := g2
      have hth := mapperBody_scan lik strategy N mb.toNat
        (fun b : NB α => (List.range mb.toNat).map (batchRow b.1)) (fun b => b.2) x batches 0 st ws st2
        (by rw [hsc])
      rw [hth] at h4 h5
      have hws : ws.length = batches.length := by
        have : (thread (mapperBody lik strategy N mb.toNat
          (fun b : NB α => (List.range mb.toNat).map (batchRow b.1)) (fun b => b.2)) batches
            ⟨x, 0, .ok st⟩).1.length = batches.length := by
          have gen : ∀ (bl : List (NB α)) (c : PotentialCarry S θ), (thread (mapperBody lik strategy N mb.toNat
              (fun b : NB α => (List.range mb.toNat).map (batchRow b.1)) (fun b => b.2)) bl c).1.length =
              bl.length := by
            intro bl
            induction bl with
            | nil => intro c; rfl
            | cons b bl ih => intro c; simp [thread, ih]
          exact gen batches _
        rw [hth] at this
        simpa using this
      have hq : ceilDiv N mb.toNat ≤ N := by
        have h6 : N + mb.toNat - 1 ≤ mb.toNat * N := by
          obtain ⟨k, hk⟩ : ∃ k, mb.toNat = k + 1 := ⟨mb.toNat - 1, by omega⟩
          obtain ⟨j, hj⟩ : ∃ j, N = j + 1 := ⟨N - 1, by omega⟩
          rw [hk, hj]
          have : (k + 1) * (j + 1) = k * j + (j + 1 + (k + 1) - 1) := by ring_nf; omega
          omega
        exact Nat.div_le_of_le_mul h6
      have hres : res = ws := by
        have hsing : (ws.map (fun r => [r])).flatten = ws := by
          rw [← List.flatMap_def]; simp
        rw [h5]
        dsimp only
        rw [hsing]
        exact List.take_of_length_le (by rw [hws, hlen]; exact hq)
      rw [h4, hres, mapperPotential]
      simp only [Except.bind]
      rw [g3, g4]
      congr 4

/-- **C155**, for one call: call `c` has been started once, with sample `x`.  If it has ended, its value is the exact
potential of `x`; and after it has been started it can always be continued to its end. -/
theorem c155_value [CharZero K] {σ α : Type} (R : Rng σ) {devices base : Nat} (hdev : 1 ≤ devices)
    {objs : Nat → Loader σ α} (hobjs : ∀ i, ∃ data, mkLoader data = .ok (objs i)) {s}
    (hs : PReachable (numpyHost R) devices objs s) {l : Nat} {cc mb : Int}
    {m0 : Mapper (Loader σ α) (NB α) (PotentialCarry S θ) K}
    (hm0 : mkMapper (numpyHost R) devices base .ordered s l cc mb = some m0)
    (prior : θ → K) (lik : Likelihood K (List (String × Option α)) S θ) (strategy : Strategy) (T : K)
    (ℓ : θ → List (String × Option α) → K)
    (ops : List (MOp NumpyKw (PotentialCarry S θ))) (hops : ∀ op ∈ ops, EnvOk base m0.cb op)
    (hstart : ∀ c carry, MOp.start c carry ∈ ops → carry.iteration = 0 ∧ ∃ st, carry.state = .ok st ∧
      LogLik lik carry.sample (ℓ carry.sample) ∧ StateFits lik carry.sample st)
    (c : Nat) (x : θ) (st : Option S) (honly : ∀ carry, MOp.start c carry ∈ ops → carry = ⟨x, 0, .ok st⟩) :
    let N := (objs l).obsCount
    let step := mstep (numpyHost R) devices base .ordered N (ceilDiv N mb.toNat)
      (mapperBody lik strategy N mb.toNat (fun b => (List.range mb.toNat).map (batchRow b.1)) (fun b => b.2))
    let m := mrun (numpyHost R) devices base .ordered N (ceilDiv N mb.toNat)
      (mapperBody lik strategy N mb.toNat (fun b => (List.range mb.toNat).map (batchRow b.1)) (fun b => b.2))
      m0 ops
    (∀ res carry, m.finished c = some (res, carry) → ∃ st', mapperPotential prior T res carry =
      .ok (exactPotential (ℓ x) (prior x) T ((List.range N).map (batchRow (objs l).data)), st')) ∧
    (∀ call, m.calls c = some call → call.iter < ceilDiv N mb.toNat →
      ∃ call', (step m (.iter c)).calls c = some call' ∧ call'.iter = call.iter + 1) ∧
    (∀ call, m.calls c = some call → call.iter = ceilDiv N mb.toNat →
      ((step m (.finish c)).finished c).isSome) := by
  intro N step m
  obtain ⟨-, -, -, -, -, k2, k3⟩ := c22_concurrent R hdev hobjs hs hm0
    (mapperBody lik strategy N mb.toNat (fun b => (List.range mb.toNat).map (batchRow b.1)) (fun b => b.2)) ops hops
  refine ⟨?_, k2 c, k3 c⟩
  intro res carry hfin
  obtain ⟨x', st1, st', h1, -, h2, -⟩ := c155_concurrent R hdev hobjs hs hm0 prior lik strategy T ℓ ops hops hstart
    c res carry hfin
  have := honly _ h1
  simp only [PotentialCarry.mk.injEq] at this
  rw [this.1] at h2
  exact ⟨st', h2⟩

/-- The log likelihood of the example: minus the product of the sample and the entry `x` of the observation. -/
def toyMapLik : Likelihood ℚ (List (String × Option Nat)) Unit ℚ :=
  .plain (fun x r => -x * (((r.lookup "x").join.getD 0 : Nat) : ℚ))

/-- Two potentials of the toy loader (observations 10, …, 14, batches of two) are evaluated at the same time, for the
samples 2 and 3. -/
example : ((mkMapper (numpyHost toyRng) 3 100 .ordered toyReady 1 2 2).map (fun m0 =>
    let m := mrun (numpyHost toyRng) 3 100 .ordered 5 3
      (mapperBody toyMapLik .map 5 2 (fun b => (List.range 2).map (batchRow b.1)) (fun b => b.2)) m0
      [.start 0 ⟨2, 0, .ok none⟩, .iter 0, .start 1 ⟨3, 0, .ok none⟩, .iter 1, .iter 0, .iter 0, .iter 1,
       .finish 0, .iter 1, .finish 1]
    [0, 1].map (fun c => (m.finished c).bind (fun r =>
      ((mapperPotential (fun x => x) 1 r.1 r.2).toOption.map (·.1)))))) =
    some [some (2 * 60 - 2), some (3 * 60 - 3)] := by
  decide +kernel

/-- The hypotheses about the starts hold in this history. -/
example : ∀ c carry, (MOp.start c carry : MOp NumpyKw (PotentialCarry Unit ℚ)) ∈
      [MOp.start 0 ⟨2, 0, .ok none⟩, .iter 0, .start 1 ⟨3, 0, .ok none⟩] →
    carry.iteration = 0 ∧ ∃ st, carry.state = .ok st ∧
      LogLik toyMapLik carry.sample (fun r => -carry.sample * (((r.lookup "x").join.getD 0 : Nat) : ℚ)) ∧
      StateFits toyMapLik carry.sample st := by
  intro c carry h
  simp only [List.mem_cons, MOp.start.injEq, List.not_mem_nil, or_false, reduceCtorEq, false_or] at h
  rcases h with ⟨-, rfl⟩ | ⟨-, rfl⟩ <;> exact ⟨rfl, none, rfl, fun _ => rfl, rfl⟩

end

end JaxSgmc
