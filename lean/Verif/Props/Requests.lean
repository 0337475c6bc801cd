import Verif.Lemmas.RequestsNumpy
import Verif.Lemmas.RequestsStale
import Verif.Spec.ToyRng

/-!
# C11-C16: drawing batches inside programs (`random_reference_data`)
-/

namespace JaxSgmc

open Spec

variable {Λ κ μ χ : Type} {H : HostLoader Λ κ μ}

/-! ### The toy program used by the examples -/

/-- Loader objects: all hold `toyData`. -/
def toyObjs : Nat → Loader Nat Nat := fun _ => { data := toyData, obsCount := 5, chains := [] }

/-- The program state after `random_reference_data(loader, 2, 2)` (callback 0). -/
def toyReady : PSys (Loader Nat Nat) (List (String × List Nat) × List Bool) :=
  (prun (numpyHost toyRng) 3 (pinit toyObjs) [.setup 0 2 2 false]).1

theorem toyReady_reachable : PReachable (numpyHost toyRng) 3 toyObjs toyReady := ⟨_, rfl⟩

/-! ### C14 -/

/-- **C14.** `s` is any reachable state, a data state of callback `cb` is initialised into `v0` and
replicated to the variables `rest` (`d` devices in total).  Then for every continuation in which the
replicas are only drawn from with `device_count = d` (in any interleaving, devices running
arbitrarily far ahead, any other operations in between): the `k`-th draw of every replica returns
batch `k % n` of the data loader's `(k / n)`-th answer for the new chain, and the data loader has been
asked for this chain exactly once per set of batches: once at the initialisation and once per refresh
of the most advanced replica. -/
theorem c14_replicas (C : Contract H χ) {devices : Nat} {objs : Nat → Λ} {s : PSys Λ μ}
    (hs : PReachable H devices objs s) {cb : Nat} {kw : κ} {v0 : Nat} {rest : List Nat}
    (hnd : (v0 :: rest).Nodup) (hdev : (v0 :: rest).length ≤ devices)
    (hinit : (pstep H devices s (.init cb kw v0)).2 = .done)
    {cfg : Cfg} (hcfg : s.cfgs cb = some cfg) {chain : Nat} {L : Λ}
    (hreg : H.register (s.host.objs cfg.loader) cfg.cacheCount cfg.mbSize kw = .ok (chain, L))
    {r : Nat → List μ} (hr : ∀ k, nthAnswer H L chain k = .ok (r k))
    (hlen : ∀ k, (r k).length = cfg.cacheCount)
    (ops : List (POp κ)) (hops : ∀ op ∈ ops, Respects (v0 :: rest) cb (v0 :: rest).length op) :
    let run := prun H devices (pstep H devices s (.init cb kw v0)).1
      (rest.map (fun w => POp.copy v0 w) ++ ops)
    (∀ v ∈ v0 :: rest, (drawOutcomes v run.2).length = numDraws v ops ∧
      ∀ k < numDraws v ops, ∃ b, (r (k / cfg.cacheCount))[k % cfg.cacheCount]? = some b ∧
        (drawOutcomes v run.2)[k]? = some (.batch b)) ∧
    asked run.1 cfg.loader chain = asked s cfg.loader chain + 1 +
      maxOver (fun v => (numDraws v ops - 1) / cfg.cacheCount) (v0 :: rest) := by
  intro run
  have g := hs.ginv C
  obtain ⟨G, t, rfl, rfl, hl, hn, hvs, rfl, W, I, -, -, hasked⟩ :=
    GrpInv.start C g devices cb kw v0 rest hnd hinit hcfg hreg hr hlen
  have hrun : run.1 = (prun H devices (prun H devices (pstep H devices s (.init G.cb kw v0)).1
        (rest.map (fun w => POp.copy v0 w))).1 ops).1 ∧
      ∀ v, drawOutcomes v run.2 = drawOutcomes v (prun H devices (prun H devices
        (pstep H devices s (.init G.cb kw v0)).1 (rest.map (fun w => POp.copy v0 w))).1 ops).2 := by
    have gen : ∀ (rest : List Nat) (s : PSys Λ μ),
        (prun H devices s (rest.map (fun w => POp.copy v0 w) ++ ops)).1 =
          (prun H devices (prun H devices s (rest.map (fun w => POp.copy v0 w))).1 ops).1 ∧
        ∀ v, drawOutcomes v (prun H devices s (rest.map (fun w => POp.copy v0 w) ++ ops)).2 =
          drawOutcomes v (prun H devices (prun H devices s
            (rest.map (fun w => POp.copy v0 w))).1 ops).2 := by
      intro rest
      induction rest with
      | nil => intro s; exact ⟨rfl, fun _ => rfl⟩
      | cons a rest ih => intro s; exact ih _
    exact gen rest _
  have g1 : GInv C (prun H devices (pstep H devices s (.init G.cb kw v0)).1
      (rest.map (fun w => POp.copy v0 w))).1 := (g.step C devices _).run C devices _
  obtain ⟨h1, q, ln, t', P, I', h2⟩ := GrpInv.run W devices (by rw [hvs]; exact hdev) ops
    (by rw [hvs]; exact hops) g1 I
  refine ⟨?_, ?_⟩
  · intro v hv
    rw [hrun.2 v]
    obtain ⟨h3, h4⟩ := h1 v (by rw [hvs]; exact hv)
    refine ⟨h3, fun k hk => ?_⟩
    obtain ⟨b, hb, ho⟩ := h4 k hk
    rw [Nat.zero_add, hn] at hb
    exact ⟨b, hb, ho⟩
  · have hP := I'.P_eq W
    rw [hl] at h2
    rw [hrun.1]
    have hP' : P = maxOver (fun v => (numDraws v ops - 1) / cfg.cacheCount) (v0 :: rest) := by
      rw [hP, hvs, hn]
      simp only [Nat.zero_add]
    omega

/-- Hypotheses of C14 met by three replicas of a chain with cache size 2 of the toy loader. -/
example :
    (pstep (numpyHost toyRng) 3 toyReady (.init 0 (.random true true none) 0)).2 = .done ∧
    toyReady.cfgs 0 = some ⟨0, 2, 2, false⟩ ∧
    (∃ L, (numpyHost toyRng).register (toyReady.host.objs 0) 2 2 (.random true true none) =
      .ok (0, L) ∧ ∀ k, ∃ r, nthAnswer (numpyHost toyRng) L 0 k = .ok r ∧ r.length = 2) ∧
    (∀ op ∈ [POp.draw 2 3, .draw 2 3, .draw 2 3, .setup 1 1 1 true, .draw 0 3, .init 1 .ordered 7,
      .draw 7 1, .draw 1 3], Respects (κ := NumpyKw) [0, 1, 2] 0 3 op) := by
  refine ⟨by decide, rfl, ⟨_, rfl, fun k => ?_⟩, ?_⟩
  · obtain ⟨b, -, -, h1, h2⟩ := numpy_answers toyRng toyRng_lawful (toyReady.host.objs 0) _
      (by intro x hx; simp [toyReady, prun, pstep, setupFn, numpyHost, pinit, toyObjs, toyData] at hx ⊢
          rcases hx with rfl | rfl <;> rfl)
      2 2 (by omega) (.random true true none) 0 rfl k
    exact ⟨_, h1, h2⟩
  · simp [Respects]

/-! ### C11 -/

/-- **C11.** A data state used linearly: the `k`-th call of the batch function returns the `k`-th
batch of the chain (batch `k % n` of the loader's `(k / n)`-th answer), the loader is asked once at
initialisation and then once per `n` draws, and the position stays inside the cache. -/
theorem c11_linear (C : Contract H χ) {devices : Nat} (hdev : 1 ≤ devices) {objs : Nat → Λ}
    {s : PSys Λ μ} (hs : PReachable H devices objs s) {cb : Nat} {kw : κ} {v : Nat}
    (hinit : (pstep H devices s (.init cb kw v)).2 = .done)
    {cfg : Cfg} (hcfg : s.cfgs cb = some cfg) {chain : Nat} {L : Λ}
    (hreg : H.register (s.host.objs cfg.loader) cfg.cacheCount cfg.mbSize kw = .ok (chain, L))
    {r : Nat → List μ} (hr : ∀ k, nthAnswer H L chain k = .ok (r k))
    (hlen : ∀ k, (r k).length = cfg.cacheCount)
    (ops : List (POp κ)) (hops : ∀ op ∈ ops, Respects [v] cb 1 op) :
    let run := prun H devices (pstep H devices s (.init cb kw v)).1 ops
    (drawOutcomes v run.2).length = numDraws v ops ∧
    (∀ k < numDraws v ops, ∃ b, (r (k / cfg.cacheCount))[k % cfg.cacheCount]? = some b ∧
      (drawOutcomes v run.2)[k]? = some (.batch b)) ∧
    asked run.1 cfg.loader chain =
      asked s cfg.loader chain + 1 + (numDraws v ops - 1) / cfg.cacheCount ∧
    ∃ st, run.1.vars v = some st ∧ st.count = cfg.cacheCount ∧ st.line ≤ st.count ∧
      (0 < numDraws v ops → 0 < st.line) := by
  intro run
  obtain ⟨h1, h2⟩ := c14_replicas C hs (rest := []) (by simp) (by simpa using hdev) hinit hcfg hreg
    hr hlen ops (by simpa using hops)
  obtain ⟨h3, h4⟩ := h1 v (by simp)
  refine ⟨h3, h4, by simpa [maxOver] using h2, ?_⟩
  have g := hs.ginv C
  obtain ⟨G, t, rfl, rfl, hl, hn, hvs, rfl, W, I, -, -, -⟩ :=
    GrpInv.start C g devices cb kw v [] (by simp) hinit hcfg hreg hr hlen
  obtain ⟨-, q, ln, t', P, I', -⟩ := GrpInv.run W devices (by rw [hvs]; simpa using hdev) ops
    (by rw [hvs]; simpa using hops) (g.step C devices (.init G.cb kw v)) I
  have hv : v ∈ G.vs := by rw [hvs]; simp
  obtain ⟨h5, h6, h7⟩ := I'.draws v hv
  refine ⟨_, I'.vars v hv, hn, h6, fun hpos => ?_⟩
  by_contra h0
  have := h7 (by simpa using h0)
  omega

/-- **C11** for the numpy loader: all assumptions about the loader's answers are theorems. -/
theorem c11_numpy {σ ρ : Type} (R : Rng σ) (hR : R.Lawful) {devices : Nat} (hdev : 1 ≤ devices)
    {objs : Nat → Loader σ ρ} (hobjs : ∀ i, ∃ data, mkLoader data = .ok (objs i)) {s}
    (hs : PReachable (numpyHost R) devices objs s) {cb : Nat} {kw : NumpyKw} {v : Nat}
    (hinit : (pstep (numpyHost R) devices s (.init cb kw v)).2 = .done)
    {cfg : Cfg} (hcfg : s.cfgs cb = some cfg) {chain : Nat} {L : Loader σ ρ}
    (hreg : (numpyHost R).register (s.host.objs cfg.loader) cfg.cacheCount cfg.mbSize kw =
      .ok (chain, L))
    (ops : List (POp NumpyKw)) (hops : ∀ op ∈ ops, Respects [v] cb 1 op) :
    let run := prun (numpyHost R) devices (pstep (numpyHost R) devices s (.init cb kw v)).1 ops
    (drawOutcomes v run.2).length = numDraws v ops ∧
    (∀ k < numDraws v ops, ∃ answer,
      (getBatches R (nthLoader (numpyHost R) L chain (k / cfg.cacheCount)) chain).1 = .ok answer ∧
      IsAnswer (objs cfg.loader).data cfg.cacheCount cfg.mbSize answer ∧
      (drawOutcomes v run.2)[k]? = some (.batch (answer.line (k % cfg.cacheCount)))) := by
  intro run
  have hpos := (hs.ginv (numpyContract R)).cfgPos _ _ hcfg
  have hdat := numpy_data_const R hs cfg.loader
  have hwf : DataWF (s.host.objs cfg.loader).data (s.host.objs cfg.loader).obsCount := by
    obtain ⟨data, hd⟩ := hobjs cfg.loader
    obtain ⟨h1, h3, -⟩ := mkLoader_spec data _ hd
    rw [hdat.1, hdat.2, h1]
    exact h3
  have hans := numpy_answers R hR _ L hwf _ _ hpos kw chain hreg
  choose ans a1 a2 a3 a4 using hans
  obtain ⟨h1, h2, -, -⟩ := c11_linear (numpyContract R) hdev hs hinit hcfg hreg a3 a4 ops hops
  refine ⟨h1, fun k hk => ?_⟩
  obtain ⟨b, hb, ho⟩ := h2 k hk
  refine ⟨ans (k / cfg.cacheCount), a1 _, by rw [← hdat.1]; exact a2 _, ?_⟩
  rw [ho]
  simp only [Batches.lines] at hb
  rw [List.getElem?_map] at hb
  have hlt : k % cfg.cacheCount < (ans (k / cfg.cacheCount)).mask.length := by
    rw [(a2 _).1]; exact Nat.mod_lt _ hpos
  rw [List.getElem?_range hlt] at hb
  simp only [Option.map_some, Option.some.injEq] at hb
  rw [hb]

/-- The toy loader objects come from `mkLoader`. -/
example : ∀ i, ∃ data, mkLoader data = .ok (toyObjs i) := fun _ => ⟨toyData, rfl⟩

/-- Five draws from a chain of the toy loader with cache size 2: the loader is asked three times. -/
example :
    let s1 := (pstep (numpyHost toyRng) 3 toyReady (.init 0 .ordered 0)).1
    let run := prun (numpyHost toyRng) 3 s1 (List.replicate 5 (POp.draw 0 1))
    (drawOutcomes 0 run.2).map (fun o => match o with | .batch b => b.1.lookup "x" | _ => none) =
      [some [10, 11], some [12, 13], some [14, 10], some [10, 11], some [12, 13]] ∧
    asked run.1 0 0 = 3 := by
  decide

/-! ### C12 -/

/-- Outdated refreshes. -/
theorem stale_after (C : Contract H χ) {devices : Nat} {objs : Nat → Λ} {s : PSys Λ μ}
    (hs : PReachable H devices objs s) {h : Nat} {st : CacheState μ} (hv : s.vars h = some st)
    {b : μ} (hout : (pstep H devices s (.draw h 1)).2 = .batch b)
    (hasked : (pstep H devices s (.draw h 1)).1.host.fetches ≠ s.host.fetches)
    (ops : List (POp κ)) {h' : Nat} {st' : CacheState μ}
    (hv' : (prun H devices (pstep H devices s (.draw h 1)).1 ops).1.vars h' = some st')
    (htok : st'.token = st.token) (hline : st'.line = st'.count) {dc : Nat} (hdc : dc ≤ devices) :
    pstep H devices (prun H devices (pstep H devices s (.draw h 1)).1 ops).1 (.draw h' dc) =
      ((prun H devices (pstep H devices s (.draw h 1)).1 ops).1, .raised
        (if (((prun H devices (pstep H devices s (.draw h 1)).1 ops).1.cfgs st'.cb).elim false
          (·.verify)) then .runtimeError else .unboundLocalError)) := by
  have g := hs.ginv C
  obtain ⟨own, ho⟩ := owned_reachable C hs
  have hown := ho.1 _ _ hv
  -- the first refresh consumed the token
  have hstale : Stale (pstep H devices s (.draw h 1)).1 st.cb st.chain st.token := by
    rcases draw_cases (H := H) devices s h 1 st hv with
      ⟨e, he⟩ | ⟨-, b, -, -, he⟩ | ⟨-, -, strict, e, host, hq, -, he⟩ |
      ⟨-, -, strict, r, tok, host, hq, -, ⟨-, he⟩ | ⟨b', -, he⟩⟩
    · rw [he] at hout; cases hout
    · rw [he] at hasked; exact absurd rfl hasked
    · rw [he] at hout; cases hout
    · rw [he] at hout; cases hout
    · have hlt := g.varTok _ _ hv
      rw [he] at hasked ⊢
      rcases request_cases (H := H) s.host st.chain st.token st.cb 1 strict with
        ⟨n, r, τ'', hc, he'⟩ | ⟨hc, h1, h2, he'⟩ | ⟨hc, hr, hl, he'⟩ | ⟨hc, hr, l, e, hl, hg', he'⟩ |
        ⟨hc, hr, l, r, hl, hg', he'⟩ <;> rw [hq] at he' <;>
        simp only [Prod.mk.injEq, reduceCtorEq, false_and] at he'
      · rw [he'.2] at hasked; exact absurd rfl hasked
      · rw [he'.2]
        refine ⟨by simpa using hc, ⟨s.host.next, by simp, by omega⟩, Nat.lt_succ_of_lt hlt⟩
  obtain ⟨own1, ho1, hk1⟩ := owned_step C g ho devices (.draw h 1)
  have hown1 : own1 st.token = (st.cb, st.chain) := by rw [hk1 _ (g.varTok _ _ hv)]; exact hown
  obtain ⟨hst2, own2, ho2, hown2⟩ := stale_run C devices ops (g.step C devices (.draw h 1)) ho1
    hown1 hstale
  have hid := ho2.1 _ _ hv'
  rw [htok, hown2] at hid
  simp only [Prod.mk.injEq] at hid
  rw [hid.1, hid.2, ← htok] at hst2
  exact stale_draw devices hv' hst2 hline hdc

/-- **C12.** `st` is the data state in `h`; a call of the batch function on it (without announced
replicas) asked the data loader and returned a batch.  Then in every later state, whatever happened in
between, using any data state that still carries the same token for a refresh raises an error and
changes nothing at all: no data is drawn, the protocol state and all data states are unchanged. -/
theorem c12_stale (C : Contract H χ) {devices : Nat} {objs : Nat → Λ} {s : PSys Λ μ}
    (hs : PReachable H devices objs s) {h : Nat} {st : CacheState μ} (hv : s.vars h = some st)
    {b : μ} (hout : (pstep H devices s (.draw h 1)).2 = .batch b)
    (hasked : (pstep H devices s (.draw h 1)).1.host.fetches ≠ s.host.fetches)
    (ops : List (POp κ)) {h' : Nat} {st' : CacheState μ}
    (hv' : (prun H devices (pstep H devices s (.draw h 1)).1 ops).1.vars h' = some st')
    (htok : st'.token = st.token) (hline : st'.line = st'.count) {dc : Nat} (hdc : dc ≤ devices) :
    ∃ e, pstep H devices (prun H devices (pstep H devices s (.draw h 1)).1 ops).1 (.draw h' dc) =
      ((prun H devices (pstep H devices s (.draw h 1)).1 ops).1, .raised e) := by
  exact ⟨_, stale_after C hs hv hout hasked ops hv' htok hline hdc⟩

/-- The situation of C12 occurs: cache size 2, the data state in variable 0 is copied to 1 before it
is refreshed; the copy (advanced to the end of its cache) is outdated and its use raises. -/
example :
    let s0 := (prun (numpyHost toyRng) 3 toyReady
      [.init 0 .ordered 0, .draw 0 1, .draw 0 1, .copy 0 1]).1
    let r1 := pstep (numpyHost toyRng) 3 s0 (.draw 0 1)
    (match r1.2 with | .batch _ => true | _ => false) = true ∧
    r1.1.host.fetches.length = s0.host.fetches.length + 1 ∧
    (pstep (numpyHost toyRng) 3 r1.1 (.draw 1 1)).2 = .raised .unboundLocalError := by
  decide

/-! ### C13 -/

/-- **C13**, the full statement: with `verify_calls=False` requests are not verified, every call of
the batch function of a loader which has not been released delivers a batch. -/
def C13Statement : Prop :=
  ∀ {σ ρ : Type} (R : Rng σ), R.Lawful → ∀ (devices : Nat) (objs : Nat → Loader σ ρ),
    1 ≤ devices → (∀ i, ∃ data, mkLoader data = .ok (objs i)) →
    ∀ s, PReachable (numpyHost R) devices objs s →
    ∀ h st, s.vars h = some st → s.host.loaders st.cb ≠ none →
      (s.cfgs st.cb).elim false (·.verify) = false →
      ∃ b, (pstep (numpyHost R) devices s (.draw h 1)).2 = .batch b

/-- **C13** is false of the code: the branch which should only warn leaves the response unbound, the
call raises `UnboundLocalError`. -/
theorem c13_false : ¬ C13Statement := by
  intro h
  have hr : PReachable (numpyHost toyRng) 3 toyObjs (prun (numpyHost toyRng) 3 (pinit toyObjs)
      [.setup 0 2 2 false, .init 0 .ordered 0, .draw 0 1, .draw 0 1, .copy 0 1, .draw 0 1]).1 :=
    ⟨_, rfl⟩
  obtain ⟨b, hb⟩ := h toyRng toyRng_lawful 3 toyObjs (by decide) (fun _ => ⟨toyData, rfl⟩) _ hr 1 _
    rfl (by decide) rfl
  have : (pstep (numpyHost toyRng) 3 (prun (numpyHost toyRng) 3 (pinit toyObjs)
      [.setup 0 2 2 false, .init 0 .ordered 0, .draw 0 1, .draw 0 1, .copy 0 1, .draw 0 1]).1
      (.draw 1 1)).2 = .raised .unboundLocalError := by decide
  rw [this] at hb
  cases hb

/-- **C13**, what holds instead: with `verify_calls=False` every outdated refresh raises
`UnboundLocalError` (never a warning only) and changes nothing; with `verify_calls=True` it raises
`RuntimeError`.  (Up-to-date data states do deliver, whatever `verify_calls` is: `c11_linear`,
`c14_replicas`.) -/
theorem c13_unexpected_partial (C : Contract H χ) {devices : Nat} {objs : Nat → Λ} {s : PSys Λ μ}
    (hs : PReachable H devices objs s) {h : Nat} {st : CacheState μ} (hv : s.vars h = some st)
    {b : μ} (hout : (pstep H devices s (.draw h 1)).2 = .batch b)
    (hasked : (pstep H devices s (.draw h 1)).1.host.fetches ≠ s.host.fetches)
    (ops : List (POp κ)) {h' : Nat} {st' : CacheState μ}
    (hv' : (prun H devices (pstep H devices s (.draw h 1)).1 ops).1.vars h' = some st')
    (htok : st'.token = st.token) (hline : st'.line = st'.count) {dc : Nat} (hdc : dc ≤ devices)
    {cfg : Cfg}
    (hcfg : (prun H devices (pstep H devices s (.draw h 1)).1 ops).1.cfgs st'.cb = some cfg) :
    pstep H devices (prun H devices (pstep H devices s (.draw h 1)).1 ops).1 (.draw h' dc) =
      ((prun H devices (pstep H devices s (.draw h 1)).1 ops).1,
        .raised (if cfg.verify then .runtimeError else .unboundLocalError)) := by
  rw [stale_after C hs hv hout hasked ops hv' htok hline hdc, hcfg]
  rfl

/-! ### C15 -/

/-- **C15.** Only the announced devices draw, each with `device_count = d`, in any interleaving,
starting from any reachable state (whose cached responses belong to others).  There is one cache entry
per set of batches which has been requested by some but not all devices; it holds this set and the
number of devices which still have to request it.  All other entries are as before. -/
theorem c15_pending (C : Contract H χ) {devices : Nat} {objs : Nat → Λ} {s : PSys Λ μ}
    (hs : PReachable H devices objs s) {cb : Nat} {kw : κ} {v0 : Nat} {rest : List Nat}
    (hnd : (v0 :: rest).Nodup) (hdev : (v0 :: rest).length ≤ devices)
    (hinit : (pstep H devices s (.init cb kw v0)).2 = .done)
    {cfg : Cfg} (hcfg : s.cfgs cb = some cfg) {chain : Nat} {L : Λ}
    (hreg : H.register (s.host.objs cfg.loader) cfg.cacheCount cfg.mbSize kw = .ok (chain, L))
    {r : Nat → List μ} (hr : ∀ k, nthAnswer H L chain k = .ok (r k))
    (hlen : ∀ k, (r k).length = cfg.cacheCount)
    (ops : List (POp κ)) (hops : ∀ op ∈ ops, ∃ v ∈ v0 :: rest, op = .draw v (v0 :: rest).length) :
    let refreshes := fun v => (numDraws v ops - 1) / cfg.cacheCount
    let final := (prun H devices (prun H devices (pstep H devices s (.init cb kw v0)).1
      (rest.map (fun w => POp.copy v0 w))).1 ops).1
    let P := maxOver refreshes (v0 :: rest)
    ∃ t : Nat → Nat,
      (∀ i j, i < P → j < P → t i = t j → i = j) ∧
      (∀ k, k < P → s.host.cached (t k) = none) ∧
      (∀ τ, (∀ k, k < P → τ ≠ t k) → final.host.cached τ = s.host.cached τ) ∧
      (∀ k, k < P → (∀ v ∈ v0 :: rest, k < refreshes v) → final.host.cached (t k) = none) ∧
      (∀ k, k < P → (∃ v ∈ v0 :: rest, refreshes v ≤ k) →
        ∃ τ', final.host.cached (t k) = some
          (((v0 :: rest).length : Int) - (v0 :: rest).countP (fun v => decide (k < refreshes v)),
            r (k + 1), τ')) := by
  intro refreshes final P
  have g := hs.ginv C
  obtain ⟨G, t, rfl, rfl, hl, hn, hvs, rfl, W, I, hc0, ht0, -⟩ :=
    GrpInv.start C g devices cb kw v0 rest hnd hinit hcfg hreg hr hlen
  have g1 : GInv C (prun H devices (pstep H devices s (.init G.cb kw v0)).1
      (rest.map (fun w => POp.copy v0 w))).1 := (g.step C devices _).run C devices _
  obtain ⟨q, ln, t', P', I', h1, h2⟩ := GrpInv.run_only W devices (by rw [hvs]; exact hdev)
    s.host.cached s.host.next ops (by rw [hvs]; exact hops) g1 I (fun τ _ => by rw [hc0])
    (fun k hk => by have : k = 0 := by omega
                    subst this; omega)
  have hP : P' = P := by
    rw [I'.P_eq W, hvs, hn]
    simp only [Nat.zero_add]; rfl
  subst hP
  have hq : ∀ v ∈ v0 :: rest, q v = refreshes v := by
    intro v hv
    rw [I'.q_eq W (by rw [hvs]; exact hv), hn]
    simp only [Nat.zero_add]; rfl
  refine ⟨t', fun i j hi hj => I'.tinj i j hi.le hj.le, ?_, h1, ?_, ?_⟩
  · intro k hk
    cases hx : s.host.cached (t' k) with
    | none => rfl
    | some y =>
      have := (g.cacheTok _ y.1 y.2.1 y.2.2 hx).1
      have := h2 k hk.le
      omega
  · intro k hk hall
    have := I'.cache k hk
    rw [if_pos] at this
    · exact this
    · rw [List.countP_eq_zero, hvs]
      intro v hv
      have := hall v hv
      rw [← hq v hv] at this
      simpa using this
  · intro k hk ⟨v, hv, hle⟩
    have := I'.cache k hk
    rw [if_neg] at this
    · refine ⟨t' (k + 1), this.trans ?_⟩
      congr 2
      rw [hvs]
      have h3 : (v0 :: rest).countP (fun v => decide (q v ≤ k)) +
          (v0 :: rest).countP (fun v => decide (k < refreshes v)) = (v0 :: rest).length := by
        rw [List.length_eq_countP_add_countP (p := fun v => decide (q v ≤ k)) (l := v0 :: rest)]
        congr 1
        apply countP_congr'
        intro w hw
        rw [← hq w hw]
        exact decide_eq_decide.2 (by simp)
      omega
    · intro h0
      rw [List.countP_eq_zero, hvs] at h0
      have := h0 v hv
      rw [hq v hv] at this
      simp at this
      omega

/-- **C15.** If all announced devices have made the same number of refreshes, nothing remains cached
on their behalf: the cached responses on the host are exactly those from before. -/
theorem c15_nothing_left (C : Contract H χ) {devices : Nat} {objs : Nat → Λ} {s : PSys Λ μ}
    (hs : PReachable H devices objs s) {cb : Nat} {kw : κ} {v0 : Nat} {rest : List Nat}
    (hnd : (v0 :: rest).Nodup) (hdev : (v0 :: rest).length ≤ devices)
    (hinit : (pstep H devices s (.init cb kw v0)).2 = .done)
    {cfg : Cfg} (hcfg : s.cfgs cb = some cfg) {chain : Nat} {L : Λ}
    (hreg : H.register (s.host.objs cfg.loader) cfg.cacheCount cfg.mbSize kw = .ok (chain, L))
    {r : Nat → List μ} (hr : ∀ k, nthAnswer H L chain k = .ok (r k))
    (hlen : ∀ k, (r k).length = cfg.cacheCount)
    (ops : List (POp κ)) (hops : ∀ op ∈ ops, ∃ v ∈ v0 :: rest, op = .draw v (v0 :: rest).length)
    (hall : ∀ v ∈ v0 :: rest, ∀ w ∈ v0 :: rest,
      (numDraws v ops - 1) / cfg.cacheCount = (numDraws w ops - 1) / cfg.cacheCount) :
    (prun H devices (prun H devices (pstep H devices s (.init cb kw v0)).1
      (rest.map (fun w => POp.copy v0 w))).1 ops).1.host.cached = s.host.cached := by
  obtain ⟨t, -, h2, h3, h4, -⟩ := c15_pending C hs hnd hdev hinit hcfg hreg hr hlen ops hops
  funext τ
  by_cases hτ : ∀ k, k < maxOver (fun v => (numDraws v ops - 1) / cfg.cacheCount) (v0 :: rest) →
      τ ≠ t k
  · exact h3 τ hτ
  · push Not at hτ
    obtain ⟨k, hk, rfl⟩ := hτ
    rw [h2 k hk]
    refine h4 k hk (fun v hv => lt_of_lt_of_le hk (maxOver_le _ (fun w hw => ?_)))
    exact (hall w hw v hv).le

/-- Three devices, cache size 2: device 2 runs two refreshes ahead (two pending responses), later all
have caught up (none left). -/
example :
    let s1 := (prun (numpyHost toyRng) 3 toyReady [.init 0 .ordered 0, .copy 0 1, .copy 0 2]).1
    let ahead := (prun (numpyHost toyRng) 3 s1 (List.replicate 5 (POp.draw 2 3))).1
    let done := (prun (numpyHost toyRng) 3 ahead
      (List.replicate 5 (POp.draw 0 3) ++ List.replicate 5 (POp.draw 1 3))).1
    ((List.range 10).countP fun τ => (ahead.host.cached τ).isSome) = 2 ∧
    ((List.range 10).countP fun τ => (done.host.cached τ).isSome) = 0 := by
  decide

/-! ### C16 -/

/-- **C16.** Batches left in the cache: a call of the batch function which needs no refresh returns
the same data state and batch whether or not the loader has been released. -/
theorem c16_cached_batches (devices : Nat) (s : PSys Λ μ) (cb h dc : Nat) (st : CacheState μ)
    (hv : s.vars h = some st) (hline : st.line ≠ st.count) :
    (pstep H devices (pstep H devices s (.release cb)).1 (.draw h dc)).2 =
      (pstep H devices s (.draw h dc)).2 ∧
    (pstep H devices (pstep H devices s (.release cb)).1 (.draw h dc)).1.vars =
      (pstep H devices s (.draw h dc)).1.vars := by
  have key : ∀ s' : PSys Λ μ, s'.vars = s.vars →
      (pstep H devices s' (.draw h dc)).2 = (pstep H devices s (.draw h dc)).2 ∧
      (pstep H devices s' (.draw h dc)).1.vars = (pstep H devices s (.draw h dc)).1.vars := by
    intro s' hs'
    simp only [pstep, hs', hv, batchFn]
    by_cases hd : dc > devices
    · simp only [if_pos hd]; exact ⟨trivial, trivial⟩
    · simp only [if_neg hd, if_neg hline]
      cases st.batches[st.line % st.count]? with
      | none => exact ⟨rfl, rfl⟩
      | some b => exact ⟨rfl, rfl⟩
  apply key
  simp only [pstep]
  split <;> rfl

/-- **C16.** After `release`, whatever happens later (without announced replicas), a refresh of any
data state of this callback raises and no data is requested. -/
theorem c16_no_refresh (C : Contract H χ) {devices : Nat} {objs : Nat → Λ} (pre : List (POp κ))
    {cb : Nat} (hrel : (pstep H devices (prun H devices (pinit objs) pre).1 (.release cb)).2 = .done)
    (post : List (POp κ)) (h1 : ∀ h dc, POp.draw h dc ∈ pre ++ post → dc = 1) {h dc : Nat}
    {st : CacheState μ}
    (hv : (prun H devices (pstep H devices (prun H devices (pinit objs) pre).1 (.release cb)).1
      post).1.vars h = some st)
    (hcb : st.cb = cb) (hline : st.line = st.count) :
    let s := (prun H devices (pstep H devices (prun H devices (pinit objs) pre).1 (.release cb)).1
      post).1
    (∃ e, (pstep H devices s (.draw h dc)).2 = .raised e) ∧
    (pstep H devices s (.draw h dc)).1.host.fetches = s.host.fetches ∧
    (pstep H devices s (.draw h dc)).1.vars = s.vars := by
  intro s
  have g0 : GInv C (prun H devices (pinit objs) pre).1 := (GInv.init C objs).run C devices pre
  -- the loader is gone for good
  have hgone : s.host.loaders cb = none := by
    refine released_run devices post ?_ ?_
    · simp only [pstep] at hrel ⊢
      cases hl : (prun H devices (pinit objs) pre).1.host.loaders cb with
      | none => simp [hl] at hrel
      | some l =>
        obtain ⟨cfg, hc, -⟩ := g0.loaderCfg _ _ hl
        exact g0.cfgLt _ _ hc
    · simp only [pstep] at hrel ⊢
      cases hl : (prun H devices (pinit objs) pre).1.host.loaders cb with
      | none => simp [hl] at hrel
      | some l => exact upd_self _ _ _
  -- nothing is cached
  have hcache : ∀ τ, s.host.cached τ = none := by
    refine nocache_run devices post (fun a b hm => h1 a b (List.mem_append_right _ hm)) ?_
    refine nocache_step devices ?_ _ (by intro a b e; cases e)
    exact nocache_run devices pre (fun a b hm => h1 a b (List.mem_append_left _ hm))
      (fun τ => rfl)
  have hreq : ∀ strict, (∃ e, (request H s.host st.chain st.token st.cb dc strict).1 = .error e) ∧
      (request H s.host st.chain st.token st.cb dc strict).2.fetches = s.host.fetches := by
    intro strict
    rcases request_cases (H := H) s.host st.chain st.token st.cb dc strict with
      ⟨n, r, τ'', hc, he⟩ | ⟨hc, h1, h2, he⟩ | ⟨hc, hr, hl, he⟩ | ⟨hc, hr, l, e, hl, hg', he⟩ |
      ⟨hc, hr, l, r, hl, hg', he⟩
    · rw [hcache] at hc; cases hc
    · rw [he]; exact ⟨⟨_, rfl⟩, rfl⟩
    · rw [he]; exact ⟨⟨_, rfl⟩, rfl⟩
    · rw [hcb, hgone] at hl; cases hl
    · rw [hcb, hgone] at hl; cases hl
  rcases draw_cases (H := H) devices s h dc st hv with
    ⟨e, he⟩ | ⟨hne, -⟩ | ⟨-, -, strict, e, host, hq, -, he⟩ |
    ⟨-, -, strict, r, tok, host, hq, -, -⟩
  · rw [he]; exact ⟨⟨e, rfl⟩, rfl, rfl⟩
  · exact absurd hline hne
  · rw [he]
    have := (hreq strict).2
    rw [hq] at this
    exact ⟨⟨e, rfl⟩, this, rfl⟩
  · obtain ⟨⟨e, he⟩, -⟩ := hreq strict
    rw [hq] at he; cases he

/-- **C16.** Chains of other loaders: inserting the release of another callback anywhere in a history
changes no outcome of the draws of a chain. -/
theorem c16_others (C : Contract H χ) {devices : Nat} {objs : Nat → Λ} {s : PSys Λ μ}
    (hs : PReachable H devices objs s) {cb : Nat} {kw : κ} {v0 : Nat} {rest : List Nat}
    (hnd : (v0 :: rest).Nodup) (hdev : (v0 :: rest).length ≤ devices)
    (hinit : (pstep H devices s (.init cb kw v0)).2 = .done)
    {cfg : Cfg} (hcfg : s.cfgs cb = some cfg) {chain : Nat} {L : Λ}
    (hreg : H.register (s.host.objs cfg.loader) cfg.cacheCount cfg.mbSize kw = .ok (chain, L))
    {r : Nat → List μ} (hr : ∀ k, nthAnswer H L chain k = .ok (r k))
    (hlen : ∀ k, (r k).length = cfg.cacheCount)
    (ops1 ops2 : List (POp κ))
    (hops : ∀ op ∈ ops1 ++ ops2, Respects (v0 :: rest) cb (v0 :: rest).length op)
    {cb' : Nat} (hcb' : cb' ≠ cb) :
    let copies := rest.map (fun w => POp.copy v0 w)
    let s1 := (pstep H devices s (.init cb kw v0)).1
    ∀ v ∈ v0 :: rest,
      drawOutcomes v (prun H devices s1 (copies ++ (ops1 ++ .release cb' :: ops2))).2 =
      drawOutcomes v (prun H devices s1 (copies ++ (ops1 ++ ops2))).2 := by
  intro copies s1 v hv
  have hops' : ∀ op ∈ ops1 ++ .release cb' :: ops2,
      Respects (v0 :: rest) cb (v0 :: rest).length op := by
    intro op hop
    rcases List.mem_append.1 hop with h | h
    · exact hops op (List.mem_append_left _ h)
    · rcases List.mem_cons.1 h with rfl | h
      · exact hcb'
      · exact hops op (List.mem_append_right _ h)
  have hnum : numDraws v (ops1 ++ .release cb' :: ops2) = numDraws v (ops1 ++ ops2) := by
    induction ops1 with
    | nil => rfl
    | cons op ops1 ih =>
      have := ih (fun o ho => hops o (List.mem_cons_of_mem _ ho))
        (fun o ho => hops' o (List.mem_cons_of_mem _ ho))
      cases op <;> simp [numDraws, this]
  obtain ⟨h1, -⟩ := c14_replicas C hs hnd hdev hinit hcfg hreg hr hlen _ hops
  obtain ⟨h2, -⟩ := c14_replicas C hs hnd hdev hinit hcfg hreg hr hlen _ hops'
  obtain ⟨a1, a2⟩ := h1 v hv
  obtain ⟨b1, b2⟩ := h2 v hv
  apply List.ext_getElem?
  intro k
  by_cases hk : k < numDraws v (ops1 ++ ops2)
  · obtain ⟨x, hx, ho⟩ := a2 k hk
    obtain ⟨y, hy, ho'⟩ := b2 k (by rw [hnum]; exact hk)
    rw [hx] at hy
    simp only [Option.some.injEq] at hy
    rw [ho, ho', hy]
  · rw [List.getElem?_eq_none (by rw [b1, hnum]; omega), List.getElem?_eq_none (by rw [a1]; omega)]

/-- Release in the toy program: the remaining cached batch is delivered, the refresh raises. -/
example :
    let run := prun (numpyHost toyRng) 3 (pinit toyObjs)
      [.setup 0 2 2 true, .setup 1 1 2 true, .init 0 .ordered 0, .init 1 .ordered 1, .draw 0 1,
       .release 0, .draw 0 1, .draw 0 1, .draw 1 1, .draw 1 1]
    (drawOutcomes 0 run.2).map (fun o => match o with
      | .batch b => b.1.lookup "x" | _ => none) = [some [10, 11], some [12, 13], none] ∧
    (drawOutcomes 1 run.2).map (fun o => match o with
      | .batch b => b.1.lookup "x" | _ => none) = [some [10, 11], some [12, 13]] := by
  decide

/-! ### C10: argument checks of `random_reference_data` -/

/-- **C10.** `random_reference_data` rejects a mini-batch larger than the dataset and non-positive
cache or batch sizes with `ValueError` (and registers nothing); all other arguments are accepted. -/
theorem c10_reference_data (devices : Nat) (s : PSys Λ μ) (l : Nat) (cc mb : Int) (v : Bool) :
    ((H.obsCount (s.host.objs l) < mb ∨ cc ≤ 0 ∨ mb ≤ 0) →
      pstep H devices s (.setup l cc mb v) = (s, .raised .valueError)) ∧
    (mb ≤ H.obsCount (s.host.objs l) → 0 < cc → 0 < mb →
      ∃ cb s', pstep H devices s (.setup l cc mb v) = (s', .ready cb) ∧ s.host.next ≤ cb) := by
  simp only [pstep, setupFn]
  refine ⟨?_, ?_⟩
  · intro h
    split
    · rfl
    · rw [if_pos (by omega)]
  · intro h1 h2 h3
    rw [if_neg (by omega), if_neg (by omega)]
    exact ⟨_, _, rfl, le_rfl⟩

end JaxSgmc
