import Verif.Props.HostRun
import Verif.Props.Potential
import Verif.Lemmas.FullSim
import Verif.Lemmas.FullData

/-!
# C106: the acceptance test of a run with a host data loader uses the exact potential
-/

namespace JaxSgmc

open Spec

section
variable {Λ κ μ : Type} {H : HostLoader Λ κ μ}

theorem hostFullSource_state (devices : Nat) (junk : μ) (d : HostData Λ κ μ) :
    (hostFullSource H devices d).2 = (hostDataSource H devices junk d).1 := rfl

theorem hostFull_iterate (devices : Nat) (d : HostData Λ κ μ) (h0 : d.calls = 0) (n : Nat) :
    (fun x => (hostFullSource H devices x).2)^[n] d
      = { d with sys := (prun H devices d.sys (chainOps d n)).1, calls := n } := by
  induction n with
  | zero =>
    obtain ⟨a, b, c, e⟩ := d
    simp only at h0
    subst h0
    rfl
  | succ n ih =>
    rw [Function.iterate_succ_apply', ih, chainOps_succ, (prun_append devices _ _ _).1,
      (prun_append devices _ _ _).1]
    rfl

end

section
variable {σ ρ : Type} {R : Rng σ} {devices : Nat} {objs : Nat → Loader σ ρ}

/-- The `n`-th call of the full data map on a new data state delivers batch `n % q` of the pass. -/
theorem hostFull_call (hdev : 1 ≤ devices) (hobjs : ∀ i, ∃ data, mkLoader data = .ok (objs i))
    {loader mb : Nat} (hmb : 0 < mb)
    {d : HostData (Loader σ ρ) NumpyKw (List (String × List ρ) × List Bool)}
    (hd : FullStreamOf R devices objs loader mb d) (n : Nat) :
    (hostFullSource (numpyHost R) devices ((fun x => (hostFullSource (numpyHost R) devices x).2)^[n] d)).1
      = .ok (passRows (objs loader).data (objs loader).obsCount mb
        (n % ceilDiv (objs loader).obsCount mb)) ∧
    DataWF (objs loader).data (objs loader).obsCount ∧ mb ≤ (objs loader).obsCount := by
  obtain ⟨s, cb, cfg, hs, hcfg, rfl, rfl, hinit, hsys, hcalls, henv⟩ := hd
  have hpos := (hs.ginv (numpyContract R)).cfgPos _ _ hcfg
  have hdat := numpy_data_const R hs cfg.loader
  have hwf : DataWF (s.host.objs cfg.loader).data (s.host.objs cfg.loader).obsCount := by
    obtain ⟨data, hd⟩ := hobjs cfg.loader
    obtain ⟨h1, h3, -⟩ := mkLoader_spec data _ hd
    rw [hdat.1, hdat.2, h1]
    exact h3
  obtain ⟨cfg', chain, L, resp, hc', hl, hreg, -, -⟩ :=
    init_spec (numpyContract R) (hs.ginv (numpyContract R)) devices cb .ordered d.var hinit
  rw [hcfg] at hc'
  cases hc'
  have hle := (numpy_register R _ _ _ _ _ _ hreg).2.1
  have hans := ordered_answers R _ L hwf _ _ hpos hmb chain hreg
  obtain ⟨k1, k2, -⟩ := c11_linear (numpyContract R) hdev hs hinit hcfg hreg hans (fun k => by simp)
    (chainOps d (n + 1)) (respects_chainOps d cb henv (n + 1))
  obtain ⟨k3, -⟩ := c11_linear (numpyContract R) hdev hs hinit hcfg hreg hans (fun k => by simp)
    (chainOps d n) (respects_chainOps d cb henv n)
  rw [← hsys] at k1 k2 k3
  rw [numDraws_chainOps d cb henv] at k1 k2 k3
  obtain ⟨b, hb, ho⟩ := k2 n (by omega)
  rw [drawOutcomes_chainOps devices d cb henv, List.getElem?_append_right (by omega), k3, Nat.sub_self,
    List.getElem?_cons_zero, Option.some.injEq] at ho
  rw [List.getElem?_map, List.getElem?_range (Nat.mod_lt _ hpos)] at hb
  simp only [Option.map_some, Option.some.injEq, hdat.1, hdat.2] at hb
  rw [Nat.div_add_mod'] at hb
  rw [hdat.1, hdat.2] at hwf
  rw [hdat.2] at hle
  refine ⟨?_, hwf, hle⟩
  rw [hostFull_iterate devices d hcalls]
  unfold hostFullSource
  dsimp only
  rw [ho, hb]

/-- `q` calls on a data state after `m` complete passes are another pass. -/
theorem hostFull_supplies (hdev : 1 ≤ devices) (hobjs : ∀ i, ∃ data, mkLoader data = .ok (objs i))
    {loader mb : Nat} (hmb : 0 < mb)
    {d : HostData (Loader σ ρ) NumpyKw (List (String × List ρ) × List Bool)}
    (hd : FullStreamOf R devices objs loader mb d) (m k : Nat) (hk : k ≤ ceilDiv (objs loader).obsCount mb) :
    Supplies (hostFullSource (numpyHost R) devices)
      ((fun x => (hostFullSource (numpyHost R) devices x).2)^[m * ceilDiv (objs loader).obsCount mb +
        (ceilDiv (objs loader).obsCount mb - k)] d)
      ((List.range k).map fun i => passRows (objs loader).data (objs loader).obsCount mb
        (ceilDiv (objs loader).obsCount mb - k + i))
      ((fun x => (hostFullSource (numpyHost R) devices x).2)^[(m + 1) * ceilDiv (objs loader).obsCount mb] d) := by
  set q := ceilDiv (objs loader).obsCount mb with hq
  induction k with
  | zero =>
    show _ = _
    rw [Nat.sub_zero]
    congr 1
    ring
  | succ k ih =>
    have h0 := (hostFull_call hdev hobjs hmb hd (m * q + (q - (k + 1)))).1
    rw [← hq] at h0
    rw [List.range_succ_eq_map, List.map_cons, List.map_map]
    rw [Nat.mul_comm m q, Nat.mul_add_mod, Nat.mod_eq_of_lt (by omega), Nat.mul_comm q m] at h0
    refine ⟨_, Prod.ext ?_ rfl, ?_⟩
    · exact h0
    · have e : m * q + (q - k) = m * q + (q - (k + 1)) + 1 := by omega
      have := ih (by omega)
      rw [e, Function.iterate_succ_apply'] at this
      convert this using 2
      funext i
      simp only [Function.comp_apply]
      congr 1
      omega

variable {ι : Type}

/-- **C106** (the potential).  Evaluating the full potential on the data state of a run gives the exact potential
of the dataset, for every sample, after any number of earlier evaluations and whatever the rest of the program
does with the host between and during the evaluations; it raises no exception. -/
theorem c106_potential (hdev : 1 ≤ devices) (hobjs : ∀ i, ∃ data, mkLoader data = .ok (objs i))
    {loader mb : Nat} (hmb : 0 < mb)
    {d : HostData (Loader σ ρ) NumpyKw (List (String × List ρ) × List Bool)}
    (hd : FullStreamOf R devices objs loader mb d)
    (prior : (ι → ℝ) → ℝ) (lik : Likelihood ℝ (List (String × Option ρ)) Empty (ι → ℝ)) (strategy : Strategy)
    (T : ℝ) (ℓ : (ι → ℝ) → List (String × Option ρ) → ℝ) (hℓ : ∀ y, LogLik lik y (ℓ y))
    (hst : ∀ y, StateFits lik y none) (m : Nat) (x : ι → ℝ) (ms : Option Empty) :
    let N := (objs loader).obsCount
    let after := fun m : Nat => (fun x => (hostFullSource (numpyHost R) devices x).2)^[m * ceilDiv N mb] d
    hostFullPot R prior lik strategy T devices N mb x (after m) ms =
      (.fin (exactPotential (ℓ x) (prior x) T ((List.range N).map (batchRow (objs loader).data))),
        (after (m + 1), ms)) := by
  intro N after
  obtain ⟨-, hwf, hle⟩ := hostFull_call hdev hobjs hmb hd 0
  have hsup := hostFull_supplies hdev hobjs hmb hd m (ceilDiv N mb) (le_refl _)
  rw [Nat.sub_self, Nat.add_zero] at hsup
  simp only [Nat.zero_add] at hsup
  have hms : ms = none := by
    cases ms with
    | none => rfl
    | some e => exact e.elim
  subst hms
  obtain ⟨st', -, h2⟩ := fullPotential_supplied prior lik strategy T (hostFullSource (numpyHost R) devices)
    (fun b => (List.range mb).map (batchRow b.1)) (fun b => b.2) N mb (lt_of_lt_of_le hmb hle) hmb x _ _ none
    (ℓ x) (hℓ x) (hst x) _ (by simp [N]) hsup (by simp)
  have hs' : st' = none := by
    cases st' with
    | none => rfl
    | some e => exact e.elim
  subst hs'
  have hrows : (((List.range (ceilDiv N mb)).map fun i => passRows (objs loader).data N mb i).flatMap
      fun b => (List.range mb).map (batchRow b.1)).take N = (List.range N).map (batchRow (objs loader).data) := by
    have hq := range_blocks (fun i => batchRow (objs loader).data (i % N)) mb (ceilDiv N mb)
    rw [List.flatMap_map]
    have e : (List.range (ceilDiv N mb)).flatMap (fun j => (List.range mb).map
        (batchRow (passRows (objs loader).data N mb j).1)) =
        (List.range (ceilDiv N mb)).flatMap (fun j => (List.range mb).map
          (fun i => batchRow (objs loader).data ((i + j * mb) % N))) := by
      congr 1
      funext j
      apply List.map_congr_left
      intro i hi
      exact passRows_row _ _ _ _ _ hwf hmb hle (List.mem_range.1 hi)
    rw [e, hq, ← List.map_take, List.take_range, Nat.min_eq_left (ceilDiv_le hmb)]
    apply List.map_congr_left
    intro i hi
    rw [Nat.mod_eq_of_lt (List.mem_range.1 hi)]
  unfold hostFullPot
  rw [h2]
  dsimp only
  rw [hrows]

/-- The full potential with a host data loader behaves as the exact formula. -/
theorem hostFull_sim (hdev : 1 ≤ devices) (hobjs : ∀ i, ∃ data, mkLoader data = .ok (objs i))
    {loader mb : Nat} (hmb : 0 < mb)
    {d : HostData (Loader σ ρ) NumpyKw (List (String × List ρ) × List Bool)}
    (hd : FullStreamOf R devices objs loader mb d)
    (prior : (ι → ℝ) → ℝ) (lik : Likelihood ℝ (List (String × Option ρ)) Empty (ι → ℝ)) (strategy : Strategy)
    (T : ℝ) (ℓ : (ι → ℝ) → List (String × Option ρ) → ℝ) (hℓ : ∀ y, LogLik lik y (ℓ y))
    (hst : ∀ y, StateFits lik y none) :
    SimFull (fun x (_ : Unit) => ∃ m : Nat, x = (fun x => (hostFullSource (numpyHost R) devices x).2)^[m *
        ceilDiv (objs loader).obsCount mb] d)
      (hostFullPot R prior lik strategy T devices (objs loader).obsCount mb)
      (exactFull fun x => exactPotential (ℓ x) (prior x) T
        ((List.range (objs loader).obsCount).map (batchRow (objs loader).data))) where
  value := by
    rintro x _ _ ms ⟨m, rfl⟩
    rw [c106_potential hdev hobjs hmb hd prior lik strategy T ℓ hℓ hst m x ms]
    rfl
  next := by
    rintro x _ _ ms ⟨m, rfl⟩
    rw [c106_potential hdev hobjs hmb hd prior lik strategy T ℓ hℓ hst m x ms]
    exact ⟨m + 1, rfl⟩
  model := by
    rintro x _ _ ms ⟨m, rfl⟩
    rw [c106_potential hdev hobjs hmb hd prior lik strategy T ℓ hℓ hst m x ms]
    rfl

variable {κ : Type} [Fintype ι]

/-- **C106** (`alias.amagold`).  With a host data loader, `amagold` returns the samples of the AMAGOLD
algorithm whose proposals use the mini-batches of the random chain and whose acceptance test uses the exact
negative log-posterior of the whole dataset. -/
theorem c106_amagold (hR : R.Lawful) (hdev : 1 ≤ devices)
    (hobjs : ∀ i, ∃ data, mkLoader data = .ok (objs i)) (loader mb : Nat) (hmb : 0 < mb)
    (prior : (ι → ℝ) → ℝ) (lik : Likelihood ℝ (List (String × Option ρ)) Empty (ι → ℝ)) (strategy : Strategy)
    (T : ℝ) (ℓ : (ι → ℝ) → List (String × Option ρ) → ℝ) (hℓ : ∀ y, LogLik lik y (ℓ y))
    (hst : ∀ y, StateFits lik y none)
    (junk : List (String × List ρ) × List Bool)
    (zero : OutLeaf ι (Option Empty) → OutLeaf ι (Option Empty)) (P : Prng κ) (key0 : κ)
    (lay : Layout ι) (friction : ℝ) (mass : Option (ι → ℝ)) (steps : ℕ)
    (sg : StochGrad ι (List (String × List ρ) × List Bool) (Option Empty))
    (gumbel : κ → Nat → ℝ) (first last : ℝ) (burnIn : Nat) (accepted : Option Nat) (bar : Bool) (its : Nat)
    (hl : 0 < last) (hfl : last < first) (hits : 2 ≤ its) (hbi : burnIn ≤ its)
    (hfit : burnIn + accepted.getD (its - burnIn) ≤ its) :
    ∃ (step : Nat → ℝ) (kept : List Nat),
      DecreasingSteps first last its step ∧ Thinned burnIn its (accepted.getD (its - burnIn)) kept ∧
      ∀ chains : List (HostChainFull ι σ ρ
          (HostData (Loader σ ρ) NumpyKw (List (String × List ρ) × List Bool))),
        (∀ c ∈ chains, StreamOf R devices objs c.1.2.1 c.2 ∧ FullStreamOf R devices objs loader mb c.1.2.2) →
        ∃ rs : List (SaveResult (OutLeaf ι (Option Empty))),
        runAmagold (noSave zero) P key0 lay friction mass steps (hostDataSource (numpyHost R) devices junk) sg
          (hostFullPot R prior lik strategy T devices (objs loader).obsCount mb) none gumbel first last burnIn
          accepted bar its () (chains.map Prod.fst) = .ok ((), rs) ∧
        List.Forall₂ (fun c r => ReturnedSamples (kept.map fun i => reportedAmagold
          (amagoldRun P (none : Option (MassAdaption ι Unit))
            (revForAmagold P lay friction mass steps (batchSource c.2) sg)
            (exactFull fun x => exactPotential (ℓ x) (prior x) T
              ((List.range (objs loader).obsCount).map (batchRow (objs loader).data)))
            (amagoldInit P none (revInitForAmagold P lay mass 0)
              (exactFull fun x => exactPotential (ℓ x) (prior x) T
                ((List.range (objs loader).obsCount).map (batchRow (objs loader).data))) () c.1.1 key0 none)
            (paramsUpTo step 1 (i + 1)))) r) chains rs := by
  obtain ⟨step, kept, hD, hT, hrun⟩ := c102_amagold hR hdev hobjs junk zero P key0 lay friction mass steps sg
    (hostFullPot R prior lik strategy T devices (objs loader).obsCount mb) none gumbel first last burnIn accepted
    bar its hl hfl hits hbi hfit
  refine ⟨step, kept, hD, hT, fun chains hc => ?_⟩
  obtain ⟨rs, h1, h2⟩ := hrun chains fun c hcm => (hc c hcm).1
  refine ⟨rs, h1, List.forall₂_iff_get.2 ⟨(List.forall₂_iff_get.1 h2).1, fun k hk1 hk2 => ?_⟩⟩
  have hr := (List.forall₂_iff_get.1 h2).2 k hk1 hk2
  have hmem : chains.get ⟨k, hk1⟩ ∈ chains := List.get_mem _ _
  set c := chains.get ⟨k, hk1⟩
  have hsim := hostFull_sim hdev hobjs hmb (hc c hmem).2 prior lik strategy T ℓ hℓ hst
  convert hr using 3 with i
  have hi := amagoldInit_full hsim P (none : Option (MassAdaption ι Unit)) (revInitForAmagold P lay mass 0)
    c.1.2.2 () ⟨0, by rw [Nat.zero_mul]; rfl⟩ c.1.1 key0 none
  have := amagoldRun_full hsim P none (revForAmagold P lay friction mass steps (batchSource c.2) sg)
    (paramsUpTo step 1 (i + 1)) _ _ hi
  unfold reportedAmagold
  rw [this.1, this.2.2.2.2.1]

/-- **C106** (`alias.sggmc`). -/
theorem c106_sggmc (hR : R.Lawful) (hdev : 1 ≤ devices)
    (hobjs : ∀ i, ∃ data, mkLoader data = .ok (objs i)) (loader mb : Nat) (hmb : 0 < mb)
    (prior : (ι → ℝ) → ℝ) (lik : Likelihood ℝ (List (String × Option ρ)) Empty (ι → ℝ)) (strategy : Strategy)
    (T : ℝ) (ℓ : (ι → ℝ) → List (String × Option ρ) → ℝ) (hℓ : ∀ y, LogLik lik y (ℓ y))
    (hst : ∀ y, StateFits lik y none)
    (junk : List (String × List ρ) × List Bool)
    (zero : OutLeaf ι (Option Empty) → OutLeaf ι (Option Empty)) (P : Prng κ) (key0 : κ)
    (lay : Layout ι) (friction : ℝ) (mass : Option (ι → ℝ)) (steps : ℕ)
    (sg : StochGrad ι (List (String × List ρ) × List Bool) (Option Empty))
    (gumbel : κ → Nat → ℝ) (first last : ℝ) (burnIn : Nat) (accepted : Option Nat) (bar : Bool) (its : Nat)
    (hl : 0 < last) (hfl : last < first) (hits : 2 ≤ its) (hbi : burnIn ≤ its)
    (hfit : burnIn + accepted.getD (its - burnIn) ≤ its) :
    ∃ (step : Nat → ℝ) (kept : List Nat),
      DecreasingSteps first last its step ∧ Thinned burnIn its (accepted.getD (its - burnIn)) kept ∧
      ∀ chains : List (HostChainFull ι σ ρ
          (HostData (Loader σ ρ) NumpyKw (List (String × List ρ) × List Bool))),
        (∀ c ∈ chains, StreamOf R devices objs c.1.2.1 c.2 ∧ FullStreamOf R devices objs loader mb c.1.2.2) →
        ∃ rs : List (SaveResult (OutLeaf ι (Option Empty))),
        runSggmc (noSave zero) P key0 lay friction mass steps (hostDataSource (numpyHost R) devices junk) sg
          (hostFullPot R prior lik strategy T devices (objs loader).obsCount mb) none gumbel first last burnIn
          accepted bar its () (chains.map Prod.fst) = .ok ((), rs) ∧
        List.Forall₂ (fun c r => ReturnedSamples (kept.map fun i => reportedSggmc
          (sggmcRun P (none : Option (MassAdaption ι Unit))
            (obaboForSggmc P lay friction mass steps (batchSource c.2) sg)
            (exactFull fun x => exactPotential (ℓ x) (prior x) T
              ((List.range (objs loader).obsCount).map (batchRow (objs loader).data)))
            (sggmcInit P none (obaboInitForSggmc 0)
              (exactFull fun x => exactPotential (ℓ x) (prior x) T
                ((List.range (objs loader).obsCount).map (batchRow (objs loader).data))) () c.1.1 key0 none)
            (paramsUpTo step 1 (i + 1)))) r) chains rs := by
  obtain ⟨step, kept, hD, hT, hrun⟩ := c102_sggmc hR hdev hobjs junk zero P key0 lay friction mass steps sg
    (hostFullPot R prior lik strategy T devices (objs loader).obsCount mb) none gumbel first last burnIn accepted
    bar its hl hfl hits hbi hfit
  refine ⟨step, kept, hD, hT, fun chains hc => ?_⟩
  obtain ⟨rs, h1, h2⟩ := hrun chains fun c hcm => (hc c hcm).1
  refine ⟨rs, h1, List.forall₂_iff_get.2 ⟨(List.forall₂_iff_get.1 h2).1, fun k hk1 hk2 => ?_⟩⟩
  have hr := (List.forall₂_iff_get.1 h2).2 k hk1 hk2
  have hmem : chains.get ⟨k, hk1⟩ ∈ chains := List.get_mem _ _
  set c := chains.get ⟨k, hk1⟩
  have hsim := hostFull_sim hdev hobjs hmb (hc c hmem).2 prior lik strategy T ℓ hℓ hst
  convert hr using 3 with i
  have hi := sggmcInit_full hsim P (none : Option (MassAdaption ι Unit)) (obaboInitForSggmc 0)
    c.1.2.2 () ⟨0, by rw [Nat.zero_mul]; rfl⟩ c.1.1 key0 none
  have := sggmcRun_full hsim P none (obaboForSggmc P lay friction mass steps (batchSource c.2) sg)
    (paramsUpTo step 1 (i + 1)) _ _ hi
  unfold reportedSggmc
  rw [this.1, this.2.1, this.2.2.2.2.1]

end

/-- The hypotheses of C106 are met by a chain of the toy loader with other chains running in between, and a
likelihood linear in the sample. -/
example : FullStreamOf toyRng 3 toyObjs 0 2 toyHostData ∧
    LogLik (.plain fun (y : Unit → ℝ) (r : List (String × Option Nat)) => y () * r.length :
      Likelihood ℝ (List (String × Option Nat)) Empty (Unit → ℝ)) (fun _ => 2) (fun r => 2 * r.length) := by
  constructor
  · refine ⟨toyReady, 0, ⟨0, 2, 2, false⟩, toyReady_reachable, rfl, rfl, rfl, by decide, rfl, rfl, ?_⟩
    intro n op hop
    simp only [toyHostData, List.mem_cons, List.not_mem_nil, or_false] at hop
    rcases hop with rfl | rfl
    · show (7 : Nat) ≠ 0; decide
    · show (7 : Nat) ≠ 0; decide
  · intro r
    rfl

end JaxSgmc
