import Verif.Lemmas.DataSim
import Verif.Spec.HostRun
import Verif.Spec.Scripted
import Verif.Props.Requests
import Verif.Props.AliasRun

/-!
# C102: runs which draw their data from the host
-/

namespace JaxSgmc

open Spec

section
variable {Λ κ μ : Type} {H : HostLoader Λ κ μ}

theorem prun_append (devices : Nat) (a b : List (POp κ)) (s : PSys Λ μ) :
    (prun H devices s (a ++ b)).1 = (prun H devices (prun H devices s a).1 b).1 ∧
      (prun H devices s (a ++ b)).2 = (prun H devices s a).2 ++ (prun H devices (prun H devices s a).1 b).2 := by
  induction a generalizing s with
  | nil => exact ⟨rfl, rfl⟩
  | cons op a ih =>
    obtain ⟨h1, h2⟩ := ih (pstep H devices s op).1
    exact ⟨h1, congrArg (List.cons _) h2⟩

theorem drawOutcomes_append (v : Nat) (a b : List (POp κ × POut μ)) :
    drawOutcomes v (a ++ b) = drawOutcomes v a ++ drawOutcomes v b := by
  induction a with
  | nil => rfl
  | cons x a ih =>
    obtain ⟨op, o⟩ := x
    cases op with
    | draw h dc =>
      simp only [List.cons_append, drawOutcomes]
      split_ifs <;> simp [ih]
    | setup => simpa only [List.cons_append, drawOutcomes] using ih
    | init => simpa only [List.cons_append, drawOutcomes] using ih
    | copy => simpa only [List.cons_append, drawOutcomes] using ih
    | release => simpa only [List.cons_append, drawOutcomes] using ih

theorem numDraws_append_ops (v : Nat) (a b : List (POp κ)) :
    numDraws v (a ++ b) = numDraws v a + numDraws v b := by
  induction a with
  | nil => simp [numDraws]
  | cons op a ih =>
    cases op with
    | draw h dc => simp only [List.cons_append, numDraws, ih]; omega
    | setup => simpa only [List.cons_append, numDraws] using ih
    | init => simpa only [List.cons_append, numDraws] using ih
    | copy => simpa only [List.cons_append, numDraws] using ih
    | release => simpa only [List.cons_append, numDraws] using ih

theorem elsewhere_draws (devices v cb : Nat) (ops : List (POp κ)) (h : ∀ op ∈ ops, Elsewhere v cb op)
    (s : PSys Λ μ) : drawOutcomes v (prun H devices s ops).2 = [] ∧ numDraws v ops = 0 := by
  induction ops generalizing s with
  | nil => exact ⟨rfl, rfl⟩
  | cons op ops ih =>
    obtain ⟨h1, h2⟩ := ih (fun o ho => h o (List.mem_cons_of_mem _ ho)) (pstep H devices s op).1
    have h0 := h op (by simp)
    cases op with
    | draw w dc =>
      have hw : w ≠ v := h0
      simp only [prun, drawOutcomes, numDraws, if_neg hw, h1, h2, Nat.add_zero, and_self]
    | setup => exact ⟨h1, h2⟩
    | init => exact ⟨h1, h2⟩
    | copy => exact ⟨h1, h2⟩
    | release => exact ⟨h1, h2⟩

/-- The operations up to and including the `n`-th call of a chain. -/
def chainOps (d : HostData Λ κ μ) (n : Nat) : List (POp κ) :=
  (List.range n).flatMap fun i => d.env i ++ [.draw d.var 1]

theorem chainOps_succ (d : HostData Λ κ μ) (n : Nat) :
    chainOps d (n + 1) = chainOps d n ++ (d.env n ++ [.draw d.var 1]) := by
  simp [chainOps, List.range_succ, List.flatMap_append]

theorem host_iterate (devices : Nat) (junk : μ) (d : HostData Λ κ μ) (h0 : d.calls = 0) (n : Nat) :
    (fun x => (hostDataSource H devices junk x).1)^[n] d
      = { d with sys := (prun H devices d.sys (chainOps d n)).1, calls := n } := by
  induction n with
  | zero =>
    obtain ⟨a, b, c, e⟩ := d
    simp only at h0
    subst h0
    rfl
  | succ n ih =>
    rw [Function.iterate_succ_apply', ih, chainOps_succ, (prun_append devices _ _ _).1,
      (prun_append devices _ _ _).1]
    rfl

theorem numDraws_chainOps (d : HostData Λ κ μ) (cb : Nat) (h : ∀ n, ∀ op ∈ d.env n, Elsewhere d.var cb op)
    (n : Nat) : numDraws d.var (chainOps d n) = n := by
  induction n with
  | zero => rfl
  | succ n ih =>
    rw [chainOps_succ, numDraws_append_ops, numDraws_append_ops, ih, (elsewhere_draws (H := (⟨fun _ => 0, fun L _ _ _ => .ok (0, L), fun L _ => (.ok [], L)⟩ : HostLoader Unit κ Unit)) 0 d.var cb _ (h n)
      (pinit fun _ => ())).2]
    simp [numDraws]

theorem respects_chainOps (d : HostData Λ κ μ) (cb : Nat) (h : ∀ n, ∀ op ∈ d.env n, Elsewhere d.var cb op)
    (n : Nat) : ∀ op ∈ chainOps d n, Respects [d.var] cb 1 op := by
  intro op hop
  simp only [chainOps, List.mem_flatMap, List.mem_append, List.mem_singleton] at hop
  obtain ⟨i, -, hop | rfl⟩ := hop
  · have := h i op hop
    cases op with
    | setup => trivial
    | init => simpa [Respects, Elsewhere] using this
    | copy => simpa [Respects, Elsewhere] using this
    | draw w dc =>
      have hw : w ≠ d.var := this
      intro hm
      exact absurd (List.mem_singleton.1 hm) hw
    | release => exact this
  · intro _; rfl

/-- The last outcome of the operations of a chain is what its last call returns. -/
theorem drawOutcomes_chainOps (devices : Nat) (d : HostData Λ κ μ) (cb : Nat)
    (h : ∀ n, ∀ op ∈ d.env n, Elsewhere d.var cb op) (n : Nat) :
    drawOutcomes d.var (prun H devices d.sys (chainOps d (n + 1))).2
      = drawOutcomes d.var (prun H devices d.sys (chainOps d n)).2 ++
        [(pstep H devices (prun H devices (prun H devices d.sys (chainOps d n)).1 (d.env n)).1
          (.draw d.var 1)).2] := by
  rw [chainOps_succ, (prun_append devices _ _ _).2, drawOutcomes_append, (prun_append devices _ _ _).2,
    drawOutcomes_append, (elsewhere_draws devices d.var cb _ (h n) _).1]
  simp [prun, drawOutcomes]

end

section
variable {σ ρ : Type} {R : Rng σ} {devices : Nat} {objs : Nat → Loader σ ρ}

/-- **C102** (the stream).  Whatever the rest of the program does in between, the `n`-th call of `batch_fn`
in a running chain raises no exception and returns the `n`-th mini-batch of the chain of the loader. -/
theorem c102_stream (hR : R.Lawful) (hdev : 1 ≤ devices) (hobjs : ∀ i, ∃ data, mkLoader data = .ok (objs i))
    (junk : List (String × List ρ) × List Bool)
    {d : HostData (Loader σ ρ) NumpyKw (List (String × List ρ) × List Bool)}
    {b : Nat → List (String × List ρ) × List Bool} (hd : StreamOf R devices objs d b) (n : Nat) :
    nthBatch (hostDataSource (numpyHost R) devices junk) d n = b n ∧
      ((fun x => (hostDataSource (numpyHost R) devices junk x).1)^[n] d).calls = n := by
  obtain ⟨s, cb, kw, cfg, chain, L, h1, h2, h3, h4, h5, h6, h7, h8⟩ := hd
  rw [nthBatch, host_iterate devices junk d h6]
  refine ⟨?_, rfl⟩
  obtain ⟨k1, k2⟩ := c11_numpy R hR hdev hobjs h1 h3 h2 h4 (chainOps d (n + 1))
    (respects_chainOps d cb h7 (n + 1))
  obtain ⟨k3, -⟩ := c11_numpy R hR hdev hobjs h1 h3 h2 h4 (chainOps d n)
    (respects_chainOps d cb h7 n)
  rw [← h5] at k1 k2 k3
  rw [numDraws_chainOps d cb h7] at k1 k2 k3
  obtain ⟨answer, a1, -, a3⟩ := k2 n (by omega)
  obtain ⟨answer', b1, b2⟩ := h8 n
  rw [a1] at b1
  obtain rfl := Except.ok.inj b1
  rw [drawOutcomes_chainOps devices d cb h7] at a3
  rw [List.getElem?_append_right (by omega), k3, Nat.sub_self, List.getElem?_cons_zero,
    Option.some.injEq] at a3
  simp only [hostDataSource]
  rw [a3, b2]

/-- The relation between the host and a stream of mini-batches. -/
def hostRel (R : Rng σ) (devices : Nat) (junk : List (String × List ρ) × List Bool)
    (d : HostData (Loader σ ρ) NumpyKw (List (String × List ρ) × List Bool))
    (x : HostData (Loader σ ρ) NumpyKw (List (String × List ρ) × List Bool)) (n : Nat) : Prop :=
  x = (fun x => (hostDataSource (numpyHost R) devices junk x).1)^[n] d

theorem host_same (hR : R.Lawful) (hdev : 1 ≤ devices) (hobjs : ∀ i, ∃ data, mkLoader data = .ok (objs i))
    (junk : List (String × List ρ) × List Bool)
    {d : HostData (Loader σ ρ) NumpyKw (List (String × List ρ) × List Bool)}
    {b : Nat → List (String × List ρ) × List Bool} (hd : StreamOf R devices objs d b) :
    SimData (hostRel R devices junk d) (hostDataSource (numpyHost R) devices junk) (batchSource b) where
  out := by
    rintro _ n rfl
    exact (c102_stream hR hdev hobjs junk hd n).1
  next := by
    rintro _ n rfl
    exact (Function.iterate_succ_apply' (fun x => (hostDataSource (numpyHost R) devices junk x).1) n d).symm

/-! ### The solvers -/

variable {ι κ μ φ A : Type} [Fintype ι]

/-- A chain of a run: its initial sample and its data source, together with the mini-batches the loader
holds for it. -/
abbrev HostChain (ι σ ρ : Type) :=
  ((ι → ℝ) × HostData (Loader σ ρ) NumpyKw (List (String × List ρ) × List Bool)) ×
    (Nat → List (String × List ρ) × List Bool)

theorem forall₂_map_fst {γ γ' ρ' : Type} {Q : γ → ρ' → Prop} {Q' : γ × γ' → ρ' → Prop} {l : List (γ × γ')}
    {rs : List ρ'} (h : List.Forall₂ Q (l.map Prod.fst) rs)
    (hq : ∀ c ∈ l, ∀ r, Q c.1 r → Q' c r) : List.Forall₂ Q' l rs := by
  induction l generalizing rs with
  | nil => cases h; exact .nil
  | cons c l ih =>
    cases h with
    | cons h1 h2 =>
      exact .cons (hq c (by simp) _ h1) (ih h2 fun c hc => hq c (List.mem_cons_of_mem _ hc))

/-- **C102** (`alias.sgld`).  With a host data loader, `sgld` returns the samples of the Langevin integrator
which uses the `i`-th mini-batch of the chain of the loader in iteration `i`, for all initial conditions of
the host and whatever the rest of the program (for example other chains) does with the host in the meantime. -/
theorem c102_sgld (hR : R.Lawful) (hdev : 1 ≤ devices) (hobjs : ∀ i, ∃ data, mkLoader data = .ok (objs i))
    (junk : List (String × List ρ) × List Bool) (zero : OutLeaf ι μ → OutLeaf ι μ) (P : Prng κ) (key0 : κ)
    (lay : Layout ι) (ad : Option (AdaptStrategy ι (List (String × List ρ) × List Bool) A))
    (sg : StochGradLik ι (List (String × List ρ) × List Bool) μ) (adaptInit : (ι → ℝ) → Option A) (ms : μ)
    (gumbel : κ → Nat → ℝ) (first last : ℝ) (burnIn accepted : Nat) (bar : Bool) (its : Nat)
    (hl : 0 < last) (hfl : last < first) (hits : 2 ≤ its) (hfit : burnIn + accepted ≤ its) :
    ∃ (step : Nat → ℝ) (kept : List Nat),
      DecreasingSteps first last its step ∧ Thinned burnIn its accepted kept ∧
      ∀ chains : List (HostChain ι σ ρ), (∀ c ∈ chains, StreamOf R devices objs c.1.2 c.2) →
        ∃ rs : List (SaveResult (OutLeaf ι μ)),
        runSgld (noSave zero) P key0 lay ad (hostDataSource (numpyHost R) devices junk) sg adaptInit ms gumbel
          first last burnIn accepted bar its () (chains.map Prod.fst) = .ok ((), rs) ∧
        List.Forall₂ (fun c r => ReturnedSamples (kept.map fun i => reportedLangevin
          (langevinRun P lay ad (batchSource c.2) sg (langevinInit 0 c.1.1 key0 (adaptInit c.1.1) ms)
            (paramsUpTo step 1 (i + 1)))) r) chains rs := by
  obtain ⟨step, kept, hD, hT, hrun⟩ := c92_sgld zero P key0 lay ad (hostDataSource (numpyHost R) devices junk) sg
    adaptInit ms gumbel first last burnIn accepted bar its hl hfl hits hfit
  refine ⟨step, kept, hD, hT, fun chains hc => ?_⟩
  obtain ⟨rs, h1, -, h3⟩ := hrun (chains.map Prod.fst)
  refine ⟨rs, h1, forall₂_map_fst h3 ?_⟩
  intro c hmem r hr
  convert hr using 3 with i
  have := langevinRun_sim (host_same hR hdev hobjs junk (hc c hmem)) P lay ad sg (paramsUpTo step 1 (i + 1))
    (langevinInit c.1.2 c.1.1 key0 (adaptInit c.1.1) ms) (langevinInit 0 c.1.1 key0 (adaptInit c.1.1) ms)
    ⟨rfl, rfl⟩
  rw [this.1]
  rfl

/-- **C102** (`alias.re_sgld`).  Both chains of a pair use their own mini-batches, one per iteration; a swap
exchanges the chains together with their data. -/
theorem c102_re_sgld (hR : R.Lawful) (hdev : 1 ≤ devices)
    (hobjs : ∀ i, ∃ data, mkLoader data = .ok (objs i))
    (junk : List (String × List ρ) × List Bool) (zero : OutLeaf ι μ → OutLeaf ι μ) (P : Prng κ) (key0 : κ)
    (lay : Layout ι) (sg : StochGradLik ι (List (String × List ρ) × List Bool) μ) (ms : μ)
    (gumbel : κ → Nat → ℝ) (temperature first last : ℝ) (burnIn accepted : Nat) (its : Nat)
    (hl : 0 < last) (hfl : last < first) (hits : 2 ≤ its) (hfit : burnIn + accepted ≤ its) :
    ∃ (step : Nat → ℝ) (kept : List Nat),
      DecreasingSteps first last its step ∧ Thinned burnIn its accepted kept ∧
      ∀ chains : List (HostChain ι σ ρ × HostChain ι σ ρ),
        (∀ c ∈ chains, StreamOf R devices objs c.1.1.2 c.1.2 ∧ StreamOf R devices objs c.2.1.2 c.2.2) →
        ∃ rs : List (SaveResult (OutLeaf ι μ)),
        runReSgld (noSave zero) P key0 lay (hostDataSource (numpyHost R) devices junk) sg ms gumbel temperature
          first last burnIn accepted its () (chains.map fun c => (c.1.1, c.2.1)) = .ok ((), rs) ∧
        List.Forall₂ (fun c r => ReturnedSamples (kept.map fun i => reportedLangevin
          (ptRun P (fun n => 1 / n)
            (langevinUpdate P lay (none : Option (AdaptStrategy ι _ Unit))
              (fun d : (Nat → List (String × List ρ) × List Bool) × Nat => ((d.1, d.2 + 1), d.1 d.2)) sg)
            { normal := langevinInit (c.1.2, 0) c.1.1.1 (P.split key0 3 1) none ms
              hot := langevinInit (c.2.2, 0) c.2.1.1 (P.split key0 3 2) none ms
              ssq := 0, F := 1, step := 0, key := P.split key0 3 0, drawn := [] }
            ((paramsUpTo step 1 (i + 1)).zip (paramsUpTo step temperature (i + 1)))).normal) r)
          chains rs := by
  obtain ⟨step, kept, hD, hT, hrun⟩ := c92_re_sgld zero P key0 lay (hostDataSource (numpyHost R) devices junk) sg
    ms gumbel temperature first last burnIn accepted its hl hfl hits hfit
  refine ⟨step, kept, hD, hT, fun chains hc => ?_⟩
  obtain ⟨rs, h1, -, h3⟩ := hrun (chains.map fun c => (c.1.1, c.2.1))
  refine ⟨rs, h1, ?_⟩
  have h4 := List.forall₂_map_left_iff.1 h3
  refine List.forall₂_iff_get.2 ⟨(List.forall₂_iff_get.1 h4).1, ?_⟩
  intro k hk1 hk2
  have hr := (List.forall₂_iff_get.1 h4).2 k hk1 hk2
  have hmem : chains.get ⟨k, hk1⟩ ∈ chains := List.get_mem _ _
  set c := chains.get ⟨k, hk1⟩ with hcdef
  obtain ⟨s1, s2⟩ := hc c hmem
  -- both chains draw from the host, each with its own stream
  let Rel : HostData (Loader σ ρ) NumpyKw (List (String × List ρ) × List Bool) →
      (Nat → List (String × List ρ) × List Bool) × Nat → Prop := fun x y =>
    ∃ d, StreamOf R devices objs d y.1 ∧ hostRel R devices junk d x y.2
  have hsame : SimData Rel (hostDataSource (numpyHost R) devices junk)
      (fun d : (Nat → List (String × List ρ) × List Bool) × Nat => ((d.1, d.2 + 1), d.1 d.2)) := by
    refine ⟨?_, ?_⟩
    · rintro x y ⟨d, hd, hx⟩
      exact (host_same hR hdev hobjs junk hd).out x y.2 hx
    · rintro x y ⟨d, hd, hx⟩
      exact ⟨d, hd, (host_same hR hdev hobjs junk hd).next x y.2 hx⟩
  convert hr using 3 with i
  have := foldl_sim (PtState.Same Rel) _ _
    (fun s s' (p : Params × Params) => ptUpdate_sim P (fun n => 1 / (n : ℝ)) _ _
      (fun s s' p => langevinUpdate_sim hsame P lay (none : Option (AdaptStrategy ι _ Unit)) sg s s' p)
      s s' p.1 p.2)
    ((paramsUpTo step 1 (i + 1)).zip (paramsUpTo step temperature (i + 1)))
    { normal := langevinInit c.1.1.2 c.1.1.1 (P.split key0 3 1) none ms
      hot := langevinInit c.2.1.2 c.2.1.1 (P.split key0 3 2) none ms
      ssq := 0, F := 1, step := 0, key := P.split key0 3 0, drawn := [] }
    { normal := langevinInit (c.1.2, 0) c.1.1.1 (P.split key0 3 1) none ms
      hot := langevinInit (c.2.2, 0) c.2.1.1 (P.split key0 3 2) none ms
      ssq := 0, F := 1, step := 0, key := P.split key0 3 0, drawn := [] }
    ⟨⟨rfl, ⟨_, s1, rfl⟩⟩, ⟨rfl, ⟨_, s2, rfl⟩⟩, rfl, rfl, rfl, rfl, rfl⟩
  obtain ⟨f1, f2, -, -, f5, -, -⟩ := this.1.fields
  unfold reportedLangevin ptRun
  rw [f1, f2, f5]

/-- **C102** (`alias.sghmc`): iteration `i` uses the mini-batches `i * integration_steps, …`. -/
theorem c102_sghmc (hR : R.Lawful) (hdev : 1 ≤ devices) (hobjs : ∀ i, ∃ data, mkLoader data = .ok (objs i))
    (junk : List (String × List ρ) × List Bool) (zero : OutLeaf ι μ → OutLeaf ι μ) (P : Prng κ) (key0 : κ)
    (lay : Layout ι) (nm : Option (NoiseFn ι (List (String × List ρ) × List Bool) μ))
    (friction : ℝ ⊕ (ι → ℝ)) (mass : Option (ι → ℝ)) (steps : ℕ)
    (sg : StochGrad ι (List (String × List ρ) × List Bool) μ) (ms : μ)
    (gumbel : κ → Nat → ℝ) (first last : ℝ) (burnIn accepted : Nat) (bar : Bool) (its : Nat)
    (hl : 0 < last) (hfl : last < first) (hits : 2 ≤ its) (hfit : burnIn + accepted ≤ its) :
    ∃ (step : Nat → ℝ) (kept : List Nat),
      DecreasingSteps first last its step ∧ Thinned burnIn its accepted kept ∧
      ∀ chains : List (HostChain ι σ ρ), (∀ c ∈ chains, StreamOf R devices objs c.1.2 c.2) →
        ∃ rs : List (SaveResult (OutLeaf ι μ)),
        runSghmc (noSave zero) P key0 lay nm friction mass steps (hostDataSource (numpyHost R) devices junk) sg ms
          gumbel first last burnIn accepted bar its () (chains.map Prod.fst) = .ok ((), rs) ∧
        List.Forall₂ (fun c r => ReturnedSamples (kept.map fun i => reportedLeapfrog
          ((paramsUpTo step 1 (i + 1)).foldl
            (fun s p => fricIntegrate P lay nm friction mass steps (batchSource c.2) sg s p none)
            (fricInit 0 c.1.1 key0 ms))) r) chains rs := by
  obtain ⟨step, kept, hD, hT, hrun⟩ := c92_sghmc zero P key0 lay nm friction mass steps
    (hostDataSource (numpyHost R) devices junk) sg ms gumbel first last burnIn accepted bar its hl hfl hits hfit
  refine ⟨step, kept, hD, hT, fun chains hc => ?_⟩
  obtain ⟨rs, h1, -, h3⟩ := hrun (chains.map Prod.fst)
  refine ⟨rs, h1, forall₂_map_fst h3 ?_⟩
  intro c hmem r hr
  convert hr using 3 with i
  have := foldl_sim (LeapfrogState.Same (hostRel R devices junk c.1.2)) _ _
    (fun s s' p => fricIntegrate_sim (host_same hR hdev hobjs junk (hc c hmem)) P lay nm friction mass steps sg
      s s' p none) (paramsUpTo step 1 (i + 1))
    (fricInit c.1.2 c.1.1 key0 ms) (fricInit 0 c.1.1 key0 ms) ⟨rfl, rfl⟩
  rw [this.1]
  rfl

/-- **C102** (`alias.obabo`): two mini-batches per integration step. -/
theorem c102_obabo (hR : R.Lawful) (hdev : 1 ≤ devices) (hobjs : ∀ i, ∃ data, mkLoader data = .ok (objs i))
    (junk : List (String × List ρ) × List Bool) (zero : OutLeaf ι μ → OutLeaf ι μ) (P : Prng κ) (key0 : κ)
    (lay : Layout ι) (friction : ℝ) (mass : Option (ι → ℝ)) (steps : ℕ)
    (sg : StochGrad ι (List (String × List ρ) × List Bool) μ) (ms : μ)
    (gumbel : κ → Nat → ℝ) (first last : ℝ) (burnIn accepted : Nat) (bar : Bool) (its : Nat)
    (hl : 0 < last) (hfl : last < first) (hits : 2 ≤ its) (hfit : burnIn + accepted ≤ its) :
    ∃ (step : Nat → ℝ) (kept : List Nat),
      DecreasingSteps first last its step ∧ Thinned burnIn its accepted kept ∧
      ∀ chains : List (HostChain ι σ ρ), (∀ c ∈ chains, StreamOf R devices objs c.1.2 c.2) →
        ∃ rs : List (SaveResult (OutLeaf ι μ)),
        runObabo (noSave zero) P key0 lay friction mass steps (hostDataSource (numpyHost R) devices junk) sg ms
          gumbel first last burnIn accepted bar its () (chains.map Prod.fst) = .ok ((), rs) ∧
        List.Forall₂ (fun c r => ReturnedSamples (kept.map fun i => reportedObabo
          ((paramsUpTo step 1 (i + 1)).foldl
            (fun s p => obaboIntegrate P lay friction mass steps (batchSource c.2) sg s p none)
            (obaboInit 0 c.1.1 key0 ms))) r) chains rs := by
  obtain ⟨step, kept, hD, hT, hrun⟩ := c92_obabo zero P key0 lay friction mass steps
    (hostDataSource (numpyHost R) devices junk) sg ms gumbel first last burnIn accepted bar its hl hfl hits hfit
  refine ⟨step, kept, hD, hT, fun chains hc => ?_⟩
  obtain ⟨rs, h1, -, h3⟩ := hrun (chains.map Prod.fst)
  refine ⟨rs, h1, forall₂_map_fst h3 ?_⟩
  intro c hmem r hr
  convert hr using 3 with i
  have := foldl_sim (ObaboState.Same (hostRel R devices junk c.1.2)) _ _
    (fun s s' p => obaboIntegrate_sim (host_same hR hdev hobjs junk (hc c hmem)) P lay friction mass steps sg
      s s' p none) (paramsUpTo step 1 (i + 1))
    (obaboInit c.1.2 c.1.1 key0 ms) (obaboInit 0 c.1.1 key0 ms) ⟨rfl, rfl⟩
  rw [this.1]
  rfl

/-- A chain of a run of a solver with Metropolis-Hastings step: additionally the data state of the full
potential. -/
abbrev HostChainFull (ι σ ρ φ : Type) :=
  ((ι → ℝ) × HostData (Loader σ ρ) NumpyKw (List (String × List ρ) × List Bool) × φ) ×
    (Nat → List (String × List ρ) × List Bool)

/-- **C102** (`alias.amagold`): the mini-batches of rejected proposals are used up as well. -/
theorem c102_amagold (hR : R.Lawful) (hdev : 1 ≤ devices)
    (hobjs : ∀ i, ∃ data, mkLoader data = .ok (objs i))
    (junk : List (String × List ρ) × List Bool) (zero : OutLeaf ι μ → OutLeaf ι μ) (P : Prng κ) (key0 : κ)
    (lay : Layout ι) (friction : ℝ) (mass : Option (ι → ℝ)) (steps : ℕ)
    (sg : StochGrad ι (List (String × List ρ) × List Bool) μ) (fullPot : FullPotFn ι φ μ) (ms : μ)
    (gumbel : κ → Nat → ℝ) (first last : ℝ) (burnIn : Nat) (accepted : Option Nat) (bar : Bool) (its : Nat)
    (hl : 0 < last) (hfl : last < first) (hits : 2 ≤ its) (hbi : burnIn ≤ its)
    (hfit : burnIn + accepted.getD (its - burnIn) ≤ its) :
    ∃ (step : Nat → ℝ) (kept : List Nat),
      DecreasingSteps first last its step ∧ Thinned burnIn its (accepted.getD (its - burnIn)) kept ∧
      ∀ chains : List (HostChainFull ι σ ρ φ), (∀ c ∈ chains, StreamOf R devices objs c.1.2.1 c.2) →
        ∃ rs : List (SaveResult (OutLeaf ι μ)),
        runAmagold (noSave zero) P key0 lay friction mass steps (hostDataSource (numpyHost R) devices junk) sg
          fullPot ms gumbel first last burnIn accepted bar its () (chains.map Prod.fst) = .ok ((), rs) ∧
        List.Forall₂ (fun c r => ReturnedSamples (kept.map fun i => reportedAmagold
          (amagoldRun P (none : Option (MassAdaption ι Unit))
            (revForAmagold P lay friction mass steps (batchSource c.2) sg) fullPot
            (amagoldInit P none (revInitForAmagold P lay mass 0) fullPot c.1.2.2 c.1.1 key0 ms)
            (paramsUpTo step 1 (i + 1)))) r) chains rs := by
  obtain ⟨step, kept, hD, hT, hrun⟩ := c92_amagold zero P key0 lay friction mass steps
    (hostDataSource (numpyHost R) devices junk) sg fullPot ms gumbel first last burnIn accepted bar its hl hfl hits
    hbi hfit
  refine ⟨step, kept, hD, hT, fun chains hc => ?_⟩
  obtain ⟨rs, h1, -, h3⟩ := hrun (chains.map Prod.fst)
  refine ⟨rs, h1, forall₂_map_fst h3 ?_⟩
  intro c hmem r hr
  convert hr using 3 with i
  have := amagoldRun_sim P (none : Option (MassAdaption ι Unit)) _ _
    (fun s s' p m => revForAmagold_sim (host_same hR hdev hobjs junk (hc c hmem)) P lay friction mass steps sg
      s s' p m) fullPot (paramsUpTo step 1 (i + 1))
    (amagoldInit P none (revInitForAmagold P lay mass c.1.2.1) fullPot c.1.2.2 c.1.1 key0 ms)
    (amagoldInit P none (revInitForAmagold P lay mass 0) fullPot c.1.2.2 c.1.1 key0 ms)
    ⟨⟨rfl, rfl⟩, rfl, rfl, rfl, rfl, rfl, rfl⟩
  obtain ⟨f1, -, -, -, f5, -, -⟩ := this
  obtain ⟨g1, -, g3, -, g5, -⟩ := f1.fields
  unfold reportedAmagold
  rw [f5, g1, g3, g5]

/-- **C102** (`alias.sggmc`). -/
theorem c102_sggmc (hR : R.Lawful) (hdev : 1 ≤ devices)
    (hobjs : ∀ i, ∃ data, mkLoader data = .ok (objs i))
    (junk : List (String × List ρ) × List Bool) (zero : OutLeaf ι μ → OutLeaf ι μ) (P : Prng κ) (key0 : κ)
    (lay : Layout ι) (friction : ℝ) (mass : Option (ι → ℝ)) (steps : ℕ)
    (sg : StochGrad ι (List (String × List ρ) × List Bool) μ) (fullPot : FullPotFn ι φ μ) (ms : μ)
    (gumbel : κ → Nat → ℝ) (first last : ℝ) (burnIn : Nat) (accepted : Option Nat) (bar : Bool) (its : Nat)
    (hl : 0 < last) (hfl : last < first) (hits : 2 ≤ its) (hbi : burnIn ≤ its)
    (hfit : burnIn + accepted.getD (its - burnIn) ≤ its) :
    ∃ (step : Nat → ℝ) (kept : List Nat),
      DecreasingSteps first last its step ∧ Thinned burnIn its (accepted.getD (its - burnIn)) kept ∧
      ∀ chains : List (HostChainFull ι σ ρ φ), (∀ c ∈ chains, StreamOf R devices objs c.1.2.1 c.2) →
        ∃ rs : List (SaveResult (OutLeaf ι μ)),
        runSggmc (noSave zero) P key0 lay friction mass steps (hostDataSource (numpyHost R) devices junk) sg
          fullPot ms gumbel first last burnIn accepted bar its () (chains.map Prod.fst) = .ok ((), rs) ∧
        List.Forall₂ (fun c r => ReturnedSamples (kept.map fun i => reportedSggmc
          (sggmcRun P (none : Option (MassAdaption ι Unit))
            (obaboForSggmc P lay friction mass steps (batchSource c.2) sg) fullPot
            (sggmcInit P none (obaboInitForSggmc 0) fullPot c.1.2.2 c.1.1 key0 ms)
            (paramsUpTo step 1 (i + 1)))) r) chains rs := by
  obtain ⟨step, kept, hD, hT, hrun⟩ := c92_sggmc zero P key0 lay friction mass steps
    (hostDataSource (numpyHost R) devices junk) sg fullPot ms gumbel first last burnIn accepted bar its hl hfl hits
    hbi hfit
  refine ⟨step, kept, hD, hT, fun chains hc => ?_⟩
  obtain ⟨rs, h1, -, h3⟩ := hrun (chains.map Prod.fst)
  refine ⟨rs, h1, forall₂_map_fst h3 ?_⟩
  intro c hmem r hr
  convert hr using 3 with i
  have := sggmcRun_sim P (none : Option (MassAdaption ι Unit)) _ _
    (fun s s' p m => obaboForSggmc_sim (host_same hR hdev hobjs junk (hc c hmem)) P lay friction mass steps sg
      s s' p m) fullPot (paramsUpTo step 1 (i + 1))
    (sggmcInit P none (obaboInitForSggmc c.1.2.1) fullPot c.1.2.2 c.1.1 key0 ms)
    (sggmcInit P none (obaboInitForSggmc 0) fullPot c.1.2.2 c.1.1 key0 ms)
    ⟨⟨rfl, rfl⟩, rfl, rfl, rfl, rfl, rfl, rfl⟩
  obtain ⟨f1, f2, -, -, f5, -, -⟩ := this
  obtain ⟨g1, -, g3, -, g5, -⟩ := f1.fields
  unfold reportedSggmc
  rw [f2, f5, g1, g3, g5]

end

/-! ### Every data state is used once

A data state of a host data loader must not be used twice (C12).  The data state after a run is the one
returned by the last call of `batch_fn`, and every call before was made with the data state returned by the
call before: also if a proposal is rejected. -/

section
variable {ι κ δ β μ φ A Ms : Type} [Fintype ι]

/-- The data state after `n` calls. -/
def afterCalls (getData : δ → δ × β) (n : Nat) (d : δ) : δ := (fun d => (getData d).1)^[n] d

theorem foldl_calls {S π : Type} (u : S → π → S) (data : S → δ) (getData : δ → δ × β) (k : Nat)
    (h : ∀ s p, data (u s p) = afterCalls getData k (data s)) (l : List π) (s : S) :
    data (l.foldl u s) = afterCalls getData (l.length * k) (data s) := by
  induction l generalizing s with
  | nil => simp [afterCalls]
  | cons p l ih =>
    rw [List.foldl_cons, ih, h, List.length_cons, Nat.add_mul, Nat.one_mul, afterCalls, afterCalls,
      afterCalls, Function.iterate_add_apply]

/-- **C102** (consumption, `langevin_diffusion`): one mini-batch per update. -/
theorem c102_consumed_langevin (P : Prng κ) (lay : Layout ι) (ad : Option (AdaptStrategy ι β A))
    (getData : δ → δ × β) (sg : StochGradLik ι β μ) (s : LangevinState ι κ δ μ A) (ps : List Params) :
    (langevinRun P lay ad getData sg s ps).dataState = afterCalls getData ps.length s.dataState := by
  have := foldl_calls (langevinUpdate P lay ad getData sg) (fun s => s.dataState) getData 1
    (fun s p => rfl) ps s
  rwa [Nat.mul_one] at this

theorem fricIntegrate_calls (P : Prng κ) (lay : Layout ι) (nm : Option (NoiseFn ι β μ))
    (friction : ℝ ⊕ (ι → ℝ)) (mass : Option (ι → ℝ)) (steps : ℕ) (getData : δ → δ × β)
    (sg : StochGrad ι β μ) (s : LeapfrogState ι ℝ κ δ μ) (p : Params) (m : Option (MassMatrix ι)) :
    (fricIntegrate P lay nm friction mass steps getData sg s p m).dataState
      = afterCalls getData steps s.dataState := by
  unfold fricIntegrate
  dsimp only
  have := foldl_calls (fricBody P lay nm getData sg p
    (match friction with | .inl f => fun _ => f | .inr f => f) (resolveMass m mass)) (fun s => s.dataState)
    getData 1 (fun s p => rfl) (List.range steps)
  simp only [List.length_range, Nat.mul_one] at this
  exact this _

/-- **C102** (consumption, `friction_leapfrog`): one mini-batch per integration step. -/
theorem c102_consumed_friction (P : Prng κ) (lay : Layout ι) (nm : Option (NoiseFn ι β μ))
    (friction : ℝ ⊕ (ι → ℝ)) (mass : Option (ι → ℝ)) (steps : ℕ) (getData : δ → δ × β)
    (sg : StochGrad ι β μ) (s : LeapfrogState ι ℝ κ δ μ) (ps : List Params) :
    (ps.foldl (fun s p => fricIntegrate P lay nm friction mass steps getData sg s p none) s).dataState
      = afterCalls getData (ps.length * steps) s.dataState :=
  foldl_calls _ (fun s => s.dataState) getData steps
    (fun s p => fricIntegrate_calls P lay nm friction mass steps getData sg s p none) ps s

theorem obaboIntegrate_calls (P : Prng κ) (lay : Layout ι) (friction : ℝ) (mass : Option (ι → ℝ))
    (steps : ℕ) (getData : δ → δ × β) (sg : StochGrad ι β μ) (s : ObaboState ι ℝ κ δ μ) (p : Params)
    (m : Option (MassMatrix ι)) :
    (obaboIntegrate P lay friction mass steps getData sg s p m).dataState
      = afterCalls getData (steps * 2) s.dataState := by
  have := foldl_calls (obaboStep P lay friction getData sg p (resolveMass m mass)) (fun s => s.dataState)
    getData 2 (fun s p => rfl) (List.range steps) s
  simp only [List.length_range] at this
  exact this

/-- **C102** (consumption, `obabo`): two mini-batches per integration step. -/
theorem c102_consumed_obabo (P : Prng κ) (lay : Layout ι) (friction : ℝ) (mass : Option (ι → ℝ))
    (steps : ℕ) (getData : δ → δ × β) (sg : StochGrad ι β μ) (s : ObaboState ι ℝ κ δ μ) (ps : List Params) :
    (ps.foldl (fun s p => obaboIntegrate P lay friction mass steps getData sg s p none) s).dataState
      = afterCalls getData (ps.length * (steps * 2)) s.dataState :=
  foldl_calls _ (fun s => s.dataState) getData (steps * 2)
    (fun s p => obaboIntegrate_calls P lay friction mass steps getData sg s p none) ps s

theorem revIntegrate_calls (P : Prng κ) (lay : Layout ι) (friction : ℝ) (mass : Option (ι → ℝ))
    (steps : ℕ) (getData : δ → δ × β) (sg : StochGrad ι β μ) (s : LeapfrogState ι ℝ κ δ μ) (p : Params)
    (m : Option (MassMatrix ι)) :
    (revIntegrate P lay friction mass steps getData sg s p m).dataState
      = afterCalls getData steps s.dataState := by
  have := foldl_calls (revBody P lay friction getData sg p (resolveMass m mass)) (fun s => s.dataState)
    getData 1 (fun s p => rfl) (List.range steps)
  simp only [List.length_range, Nat.mul_one] at this
  unfold revIntegrate
  exact this _

/-- **C102** (consumption, `amagold`): one mini-batch per integration step, whether or not the proposals are
accepted. -/
theorem c102_consumed_amagold (P : Prng κ) (ma : Option (MassAdaption ι Ms)) (lay : Layout ι) (friction : ℝ)
    (mass : Option (ι → ℝ)) (steps : ℕ) (getData : δ → δ × β) (sg : StochGrad ι β μ)
    (fullPot : FullPotFn ι φ μ) (s : AmagoldState ι κ δ μ φ Ms) (ps : List Params) :
    (amagoldRun P ma (revForAmagold P lay friction mass steps getData sg) fullPot s ps).integratorState.dataState
      = afterCalls getData (ps.length * steps) s.integratorState.dataState :=
  foldl_calls _ (fun s : AmagoldState ι κ δ μ φ Ms => s.integratorState.dataState) getData steps
    (fun s p => revIntegrate_calls P lay friction mass steps getData sg _ p _) ps s

/-- **C102** (consumption, `sggmc`): two mini-batches per integration step, whether or not the proposals are
accepted. -/
theorem c102_consumed_sggmc (P : Prng κ) (ma : Option (MassAdaption ι Ms)) (lay : Layout ι) (friction : ℝ)
    (mass : Option (ι → ℝ)) (steps : ℕ) (getData : δ → δ × β) (sg : StochGrad ι β μ)
    (fullPot : FullPotFn ι φ μ) (s : SggmcState ι κ δ μ φ Ms) (ps : List Params) :
    (sggmcRun P ma (obaboForSggmc P lay friction mass steps getData sg) fullPot s ps).integratorState.dataState
      = afterCalls getData (ps.length * (steps * 2)) s.integratorState.dataState :=
  foldl_calls _ (fun s : SggmcState ι κ δ μ φ Ms => s.integratorState.dataState) getData (steps * 2)
    (fun s p => obaboIntegrate_calls P lay friction mass steps getData sg _ p _) ps s

/-- **C102** (consumption, `parallel_tempering`): one mini-batch per update for each of the two chains; a swap
exchanges the data states with the chains. -/
theorem c102_consumed_tempering (P : Prng κ) (sa : ℕ → ℝ) (lay : Layout ι)
    (ad : Option (AdaptStrategy ι β A)) (getData : δ → δ × β) (sg : StochGradLik ι β μ)
    (s : PtState ι κ δ μ A) (ps : List (Params × Params)) :
    let r := ptRun P sa (langevinUpdate P lay ad getData sg) s ps
    (r.normal.dataState = afterCalls getData ps.length s.normal.dataState ∧
      r.hot.dataState = afterCalls getData ps.length s.hot.dataState) ∨
    (r.normal.dataState = afterCalls getData ps.length s.hot.dataState ∧
      r.hot.dataState = afterCalls getData ps.length s.normal.dataState) := by
  have step : ∀ (s : PtState ι κ δ μ A) (p : Params × Params),
      let r := ptUpdate P sa (langevinUpdate P lay ad getData sg) s p.1 p.2
      (r.normal.dataState = afterCalls getData 1 s.normal.dataState ∧
        r.hot.dataState = afterCalls getData 1 s.hot.dataState) ∨
      (r.normal.dataState = afterCalls getData 1 s.hot.dataState ∧
        r.hot.dataState = afterCalls getData 1 s.normal.dataState) := by
    intro s p
    unfold ptUpdate
    dsimp only
    split_ifs
    · exact Or.inl ⟨rfl, rfl⟩
    · exact Or.inr ⟨rfl, rfl⟩
  have add : ∀ n d, afterCalls getData n (afterCalls getData 1 d) = afterCalls getData (n + 1) d := by
    intro n d
    rw [afterCalls, afterCalls, afterCalls, Function.iterate_add_apply]
  unfold ptRun
  induction ps generalizing s with
  | nil => exact Or.inl ⟨rfl, rfl⟩
  | cons p ps ih =>
    rw [List.foldl_cons, List.length_cons]
    have h := ih (ptUpdate P sa (langevinUpdate P lay ad getData sg) s p.1 p.2)
    rcases step s p with ⟨e1, e2⟩ | ⟨e1, e2⟩
    · rw [e1, e2, add, add] at h
      exact h
    · rw [e1, e2, add, add] at h
      exact h.symm

end

/-- A chain of the toy loader while another chain is created and draws before every call. -/
def toyHostData : HostData (Loader Nat Nat) NumpyKw (List (String × List Nat) × List Bool) where
  sys := (pstep (numpyHost toyRng) 3 toyReady (.init 0 .ordered 0)).1
  var := 0
  env _ := [.init 0 .ordered 7, .draw 7 1]
  calls := 0

/-- The hypotheses of C102 are met, and the stream starts with the first two observations. -/
example : ∃ b, StreamOf toyRng 3 toyObjs toyHostData b ∧
    (b 0).1.lookup "x" = some [10, 11] ∧ (b 2).1.lookup "x" = some [14, 10] := by
  have hans := numpy_answers toyRng toyRng_lawful (toyReady.host.objs 0) _
      (by intro x hx; simp [toyReady, prun, pstep, setupFn, numpyHost, pinit, toyObjs, toyData] at hx ⊢
          rcases hx with rfl | rfl <;> rfl)
      2 2 (by omega) .ordered 0 rfl
  choose ans a1 a2 a3 a4 using hans
  have hs : StreamOf toyRng 3 toyObjs toyHostData (fun k => (ans (k / 2)).line (k % 2)) := by
    refine ⟨toyReady, 0, .ordered, ⟨0, 2, 2, false⟩, 0, _, toyReady_reachable, rfl, by decide, rfl, rfl, rfl,
      ?_, fun k => ⟨ans (k / 2), a1 (k / 2), rfl⟩⟩
    intro n op hop
    simp only [toyHostData, List.mem_cons, List.not_mem_nil, or_false] at hop
    rcases hop with rfl | rfl
    · show (7 : Nat) ≠ 0; decide
    · show (7 : Nat) ≠ 0; decide
  refine ⟨_, hs, ?_, ?_⟩
  · rw [← (c102_stream toyRng_lawful (by decide) (fun _ => ⟨toyData, rfl⟩) ([], []) hs 0).1]
    decide +kernel
  · rw [← (c102_stream toyRng_lawful (by decide) (fun _ => ⟨toyData, rfl⟩) ([], []) hs 2).1]
    decide +kernel

end JaxSgmc
