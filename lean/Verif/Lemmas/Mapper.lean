import Verif.Lemmas.FullData

/-! Helper lemmas: the pool of data states of `full_data_mapper`. -/

namespace JaxSgmc

open Spec

section
variable {Λ κ μ χ : Type} {H : HostLoader Λ κ μ} (C : Contract H χ)

theorem cfgs_step {devices : Nat} {s : PSys Λ μ} (g : GInv C s) {cb : Nat} {cfg : Cfg}
    (h : s.cfgs cb = some cfg) (op : POp κ) : (pstep H devices s op).1.cfgs cb = some cfg := by
  cases op with
  | setup l cc mb v =>
    simp only [pstep, setupFn]
    split
    · exact h
    · split
      · exact h
      · have hlt := g.cfgLt _ _ h
        simp only
        rw [upd_ne _ _ _ _ (by omega)]
        exact h
  | init cb kw v =>
    simp only [pstep, initFn]
    split
    · exact h
    · split
      · exact h
      · split
        · exact h
        · split <;> exact h
  | copy a b => simp only [pstep]; split <;> exact h
  | draw v dc =>
    simp only [pstep]
    split
    · exact h
    · split <;> exact h
  | release c => simp only [pstep]; split <;> exact h

theorem reachable_step {devices : Nat} {objs : Nat → Λ} {s : PSys Λ μ}
    (h : PReachable H devices objs s) (op : POp κ) :
    PReachable H devices objs (pstep H devices s op).1 := by
  obtain ⟨ops, rfl⟩ := h
  exact ⟨ops ++ [op], by rw [prun_append_one]; rfl⟩

end

section
variable {σ ρ γ τ : Type} (R : Rng σ)

/-- The batch type of the numpy loader. -/
abbrev NB (ρ : Type) := List (String × List ρ) × List Bool

/-- The data state in variable `v` has been drawn from `d` times and supplies the passes over the
dataset. -/
def At (data : List (String × List ρ)) (N mb cb v d : Nat) (s : PSys (Loader σ ρ) (NB ρ)) : Prop :=
  ∃ (G : Grp (NB ρ) _) (m q ln t : Nat → Nat) (P : Nat), G.vs = [v] ∧ G.cb = cb ∧
    G.WF (numpyContract R) ∧ GrpInv (numpyContract R) G s m q ln t P ∧ m v = d ∧
    ∀ k i, i < G.n → (G.r k)[i]? = some (passRows data N mb ((k * G.n + i) % ceilDiv N mb))

variable {R}

theorem At.out {data : List (String × List ρ)} {N mb cb v d : Nat} {s : PSys (Loader σ ρ) (NB ρ)}
    (h : At R data N mb cb v d s) (g : GInv (numpyContract R) s) (devices : Nat) (op : POp NumpyKw)
    (hr : Respects [v] cb 1 op) (hd : ∀ h dc, op = .draw h dc → h ≠ v) :
    At R data N mb cb v d (pstep (numpyHost R) devices s op).1 := by
  obtain ⟨G, m, q, ln, t, P, h1, h2, W, I, h3, h4⟩ := h
  obtain ⟨I', -⟩ := GrpInv.step_out g I devices 1 op (by rw [h1, h2]; exact hr)
    (by intro a b e; rw [h1]; simpa using hd a b e)
  exact ⟨G, m, q, ln, t, P, h1, h2, W, I', h3, h4⟩

theorem At.draw {data : List (String × List ρ)} {N mb cb v d : Nat} {s : PSys (Loader σ ρ) (NB ρ)}
    (h : At R data N mb cb v d s) (g : GInv (numpyContract R) s) {devices : Nat} (hdev : 1 ≤ devices) :
    hostSource (numpyHost R) devices v 1 s =
      (.ok (passRows data N mb (d % ceilDiv N mb)),
        (pstep (numpyHost R) devices s (.draw v 1)).1) ∧
    At R data N mb cb v (d + 1) (pstep (numpyHost R) devices s (.draw v 1)).1 := by
  obtain ⟨G, m, q, ln, t, P, h1, h2, W, I, h3, h4⟩ := h
  have hlen : G.vs.length = 1 := by rw [h1]; rfl
  obtain ⟨⟨b, hb, ho⟩, q', ln', t', P', I', -⟩ := I.step_in W g devices (by omega)
      (v := v) (by rw [h1]; simp)
  rw [hlen] at ho I'
  rw [h4 _ _ (Nat.mod_lt _ W.npos), Nat.div_add_mod', h3] at hb
  simp only [Option.some.injEq] at hb
  refine ⟨?_, G, _, q', ln', t', P', h1, h2, W, I', by simp [h3], h4⟩
  simp only [hostSource]
  cases hp : pstep (numpyHost R) devices s (.draw v 1) with
  | mk s1 o =>
    rw [hp] at ho
    simp only at ho
    subst ho
    rw [hb]

/-- A new data state. -/
theorem At.new {devices : Nat} {objs : Nat → Loader σ ρ}
    (hobjs : ∀ i, ∃ data, mkLoader data = .ok (objs i)) {s}
    (hs : PReachable (numpyHost R) devices objs s) {cb v : Nat}
    {cfg : Cfg} (hcfg : s.cfgs cb = some cfg) (hmb : 0 < cfg.mbSize)
    (hload : s.host.loaders cb = some cfg.loader)
    (hle : cfg.mbSize ≤ (objs cfg.loader).obsCount) :
    (pstep (numpyHost R) devices s (.init cb .ordered v)).2 = .done ∧
    At R (objs cfg.loader).data (objs cfg.loader).obsCount cfg.mbSize cb v 0
      (pstep (numpyHost R) devices s (.init cb .ordered v)).1 := by
  have g := hs.ginv (numpyContract R)
  have hpos := g.cfgPos _ _ hcfg
  have hdat := numpy_data_const R hs cfg.loader
  have hwf : DataWF (s.host.objs cfg.loader).data (s.host.objs cfg.loader).obsCount := by
    obtain ⟨data, hd⟩ := hobjs cfg.loader
    obtain ⟨h1, h3, -⟩ := mkLoader_spec data _ hd
    rw [hdat.1, hdat.2, h1]
    exact h3
  have hreg : (numpyHost R).register (s.host.objs cfg.loader) cfg.cacheCount cfg.mbSize .ordered =
      .ok ((s.host.objs cfg.loader).chains.length,
        { s.host.objs cfg.loader with
          chains := (s.host.objs cfg.loader).chains ++ [.ordered ⟨0, cfg.mbSize, cfg.cacheCount⟩] }) := by
    simp only [numpyHost, registerOrdered]
    rw [if_pos (by rw [hdat.2]; exact hle)]
  have hans := ordered_answers R _ _ hwf _ _ hpos hmb _ hreg
  have hinit : (pstep (numpyHost R) devices s (.init cb .ordered v)).2 = .done := by
    have h0 := hans 0
    simp only [nthAnswer, nthLoader] at h0
    simp only [pstep, initFn, hcfg, hreg, hload]
    simp only [upd_self]
    rw [h0]
  refine ⟨hinit, ?_⟩
  obtain ⟨G, t, h1, -, -, hn, hvs, hr, W, I, -, -, -⟩ :=
    GrpInv.start (numpyContract R) g devices cb .ordered v [] (by simp) hinit hcfg hreg
      hans (fun k => by simp)
  refine ⟨G, _, _, _, t, 0, hvs, h1, W, I, rfl, ?_⟩
  intro k i hi
  rw [hr, hn, hdat.1, hdat.2]
  rw [hn] at hi
  simp [hi]

/-- The invariant of a mapper.  `hist` are the operations executed so far, `m0` the mapper at the
beginning. -/
structure MInv (devices base : Nat) (objs : Nat → Loader σ ρ) (cfg : Cfg)
    (fn : NB ρ → τ → List γ × τ) (m0 : Mapper (Loader σ ρ) (NB ρ) τ γ)
    (hist : List (MOp NumpyKw τ)) (m : Mapper (Loader σ ρ) (NB ρ) τ γ) : Prop where
  reach : PReachable (numpyHost R) devices objs m.sys
  cbEq : m.cb = m0.cb
  cfgEq : m.sys.cfgs m.cb = some cfg
  load : m.sys.host.loaders m.cb = some cfg.loader
  mbPos : 0 < cfg.mbSize
  mbLe : cfg.mbSize ≤ (objs cfg.loader).obsCount
  poolLt : ∀ x ∈ m.pool, ∃ k < m.created, x = slotVar base k
  callLt : ∀ c call, m.calls c = some call → ∃ k < m.created, call.slot = slotVar base k
  poolNodup : m.pool.Nodup
  callPool : ∀ c call, m.calls c = some call → call.slot ∉ m.pool
  callInj : ∀ c c' a b, m.calls c = some a → m.calls c' = some b → a.slot = b.slot → c = c'
  owned : ∀ k < m.created, slotVar base k ∈ m.pool ∨
    ∃ c call, m.calls c = some call ∧ call.slot = slotVar base k
  poolAt : ∀ x ∈ m.pool, ∃ p, At R (objs cfg.loader).data (objs cfg.loader).obsCount cfg.mbSize m.cb x
    (p * ceilDiv (objs cfg.loader).obsCount cfg.mbSize) m.sys
  callAt : ∀ c call, m.calls c = some call →
    call.iter ≤ ceilDiv (objs cfg.loader).obsCount cfg.mbSize ∧
    (∃ p, At R (objs cfg.loader).data (objs cfg.loader).obsCount cfg.mbSize m.cb call.slot
      (p * ceilDiv (objs cfg.loader).obsCount cfg.mbSize + call.iter) m.sys) ∧
    ∃ c0, MOp.start c c0 ∈ hist ∧ (call.results, call.carry) =
      thread fn ((List.range call.iter).map
        (passRows (objs cfg.loader).data (objs cfg.loader).obsCount cfg.mbSize)) c0
  fin : ∀ c r, m.finished c = some r → ∃ c0, MOp.start c c0 ∈ hist ∧
    r = ((thread fn ((List.range (ceilDiv (objs cfg.loader).obsCount cfg.mbSize)).map
          (passRows (objs cfg.loader).data (objs cfg.loader).obsCount cfg.mbSize)) c0).1.flatten.take
          (objs cfg.loader).obsCount,
        (thread fn ((List.range (ceilDiv (objs cfg.loader).obsCount cfg.mbSize)).map
          (passRows (objs cfg.loader).data (objs cfg.loader).obsCount cfg.mbSize)) c0).2)
  peak : m.created ≤ 1 ∨ ∃ hist1 rest, hist = hist1 ++ rest ∧ ∃ ids : List Nat, ids.Nodup ∧
    ids.length = m.created ∧ ∀ c ∈ ids, ((mrun (numpyHost R) devices base .ordered
      (objs cfg.loader).obsCount (ceilDiv (objs cfg.loader).obsCount cfg.mbSize) fn m0 hist1).calls
        c).isSome

theorem thread_append {β σ γ : Type} (fn : β → σ → List γ × σ) (bs : List β) (b : β) (c : σ) :
    thread fn (bs ++ [b]) c =
      ((thread fn bs c).1 ++ [(fn b (thread fn bs c).2).1], (fn b (thread fn bs c).2).2) := by
  induction bs generalizing c with
  | nil => simp [thread]
  | cons a bs ih => simp [thread, ih]

theorem mrun_append {Λ κ μ σ γ : Type} (H : HostLoader Λ κ μ) (devices base : Nat) (kw : κ) (N q : Nat)
    (fn : μ → σ → List γ × σ) (ops ops' : List (MOp κ σ)) : ∀ m : Mapper Λ μ σ γ,
    mrun H devices base kw N q fn m (ops ++ ops') =
      mrun H devices base kw N q fn (mrun H devices base kw N q fn m ops) ops' := by
  induction ops with
  | nil => intro m; rfl
  | cons op ops ih => intro m; exact ih _

/-- Other operations of the program. -/
theorem env_other {base cb k : Nat} {op : POp NumpyKw} (h : EnvOk (σ := τ) base cb (.env op)) :
    Respects [slotVar base k] cb 1 op ∧ ∀ h dc, op = .draw h dc → h ≠ slotVar base k := by
  cases op with
  | setup l cc mb v => exact ⟨trivial, by simp⟩
  | init c kw h' =>
    refine ⟨?_, by simp⟩
    simp only [EnvOk] at h
    simp only [Respects, List.mem_singleton, slotVar]; omega
  | copy a b =>
    refine ⟨?_, by simp⟩
    simp only [EnvOk] at h
    simp only [Respects, List.mem_singleton, slotVar]; omega
  | draw a dc =>
    simp only [EnvOk] at h
    refine ⟨?_, ?_⟩
    · simp only [Respects, List.mem_singleton, slotVar]; omega
    · intro h' dc' e
      simp only [POp.draw.injEq] at e
      simp only [slotVar]; omega
  | release c => exact ⟨h, by simp⟩

theorem loaders_step {devices cb : Nat} {s : PSys (Loader σ ρ) (NB ρ)}
    (g : GInv (numpyContract R) s) {l : Nat} (hl : s.host.loaders cb = some l) (op : POp NumpyKw)
    (hrel : ∀ c, op = .release c → c ≠ cb) :
    (pstep (numpyHost R) devices s op).1.host.loaders cb = some l := by
  cases op with
  | setup l' cc mb v =>
    simp only [pstep, setupFn]
    split
    · exact hl
    · split
      · exact hl
      · obtain ⟨cfg, hc, -⟩ := g.loaderCfg _ _ hl
        have hlt := g.cfgLt _ _ hc
        simp only
        rw [upd_ne _ _ _ _ (by omega)]
        exact hl
  | init c kw v =>
    simp only [pstep, initFn]
    split
    · exact hl
    · split
      · exact hl
      · split
        · exact hl
        · split <;> exact hl
  | copy a b => simp only [pstep]; split <;> exact hl
  | draw v dc =>
    cases hv : s.vars v with
    | none => simp only [pstep, hv]; exact hl
    | some st =>
      have key : ∀ strict, (request (numpyHost R) s.host st.chain st.token st.cb dc strict).2.loaders cb
          = some l := by
        intro strict
        rcases request_cases (H := numpyHost R) s.host st.chain st.token st.cb dc strict with
          ⟨n, r, τ', hc, he⟩ | ⟨hc, h1, h2, he⟩ | ⟨hc, hr, hl, he⟩ | ⟨hc, hr, l, e, hl, hg', he⟩ |
          ⟨hc, hr, l, r, hl, hg', he⟩ <;> rw [he] <;> assumption
      rcases draw_cases (H := numpyHost R) devices s v dc st hv with
        ⟨e, he⟩ | ⟨-, b, -, -, he⟩ | ⟨-, -, strict, e, host, hq, -, he⟩ |
        ⟨-, -, strict, r, tok, host, hq, -, ⟨-, he⟩ | ⟨b, -, he⟩⟩ <;> rw [he]
      · exact hl
      · exact hl
      all_goals
        have := key strict
        rw [hq] at this
        exact this
  | release c =>
    simp only [pstep]
    split
    · exact hl
    · simp only
      rw [upd_ne _ _ _ _ (fun e => hrel c rfl e.symm)]
      exact hl

end

end JaxSgmc
