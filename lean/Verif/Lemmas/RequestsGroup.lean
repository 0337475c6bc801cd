import Verif.Lemmas.Requests

/-! Helper lemmas: replicas of one data state under arbitrary interleavings. -/

namespace JaxSgmc

open Spec

variable {Λ κ μ χ : Type} {H : HostLoader Λ κ μ} (C : Contract H χ)

/-- Fixed data of a group of replicas. -/
structure Grp (μ χ : Type) where
  cb : Nat
  chain : Nat
  l : Nat
  n : Nat
  vs : List Nat
  r : Nat → List μ
  x : Nat → χ

/-- The group invariant.  `m v`: number of draws of `v`; `q v`: number of refreshes of `v`;
`ln v`: line; `t k`: the token of the `k`-th set of batches; `P`: number of refreshes made so far by
the most advanced replica. -/
structure GrpInv (G : Grp μ χ) (s : PSys Λ μ) (m q ln t : Nat → Nat) (P : Nat) : Prop where
  loader : s.host.loaders G.cb = some G.l
  view : C.view (s.host.objs G.l) G.chain = some (G.x (P + 1))
  vars : ∀ v ∈ G.vs, s.vars v = some
    { cb := G.cb, batches := G.r (q v), count := G.n, line := ln v, chain := G.chain,
      token := t (q v) }
  qle : ∀ v ∈ G.vs, q v ≤ P
  attained : P = 0 ∨ ∃ v ∈ G.vs, q v = P
  draws : ∀ v ∈ G.vs, m v = q v * G.n + ln v ∧ ln v ≤ G.n ∧ (ln v = 0 → m v = 0)
  req : s.host.requests G.cb G.chain = if P = 0 then none else some (t P)
  tlt : ∀ k, k ≤ P → t k < s.host.next
  tinj : ∀ i j, i ≤ P → j ≤ P → t i = t j → i = j
  cache : ∀ k, k < P → s.host.cached (t k) =
    if G.vs.countP (fun v => decide (q v ≤ k)) = 0 then none
    else some ((G.vs.countP (fun v => decide (q v ≤ k)) : Int), G.r (k + 1), t (k + 1))
  cacheP : s.host.cached (t P) = none
  outTok : ∀ w st, w ∉ G.vs → s.vars w = some st → ∀ k, k ≤ P → st.token ≠ t k
  outChain : ∀ w st, w ∉ G.vs → s.vars w = some st → s.host.loaders st.cb = some G.l →
    st.chain ≠ G.chain
  outCache : ∀ τ c r' τ', s.host.cached τ = some (c, r', τ') → (∀ k, k < P → τ ≠ t k) →
    ∀ k, k ≤ P → τ' ≠ t k

/-- The loader's data of the group. -/
structure Grp.WF (G : Grp μ χ) : Prop where
  step : ∀ k, C.step (G.x k) = (.ok (G.r k), G.x (k + 1))
  len : ∀ k, (G.r k).length = G.n
  npos : 0 < G.n
  nodup : G.vs.Nodup

theorem countP_congr' {vs : List Nat} {p p' : Nat → Bool} (h : ∀ v ∈ vs, p v = p' v) :
    vs.countP p = vs.countP p' := by
  induction vs with
  | nil => rfl
  | cons a l ih =>
    simp only [List.countP_cons]
    rw [ih (fun v hv => h v (List.mem_cons_of_mem _ hv)), h a List.mem_cons_self]

theorem countP_dec {vs : List Nat} (hn : vs.Nodup) {p p' : Nat → Bool} {v : Nat} (hv : v ∈ vs)
    (h1 : p v = true) (h2 : p' v = false) (h : ∀ w, w ≠ v → p' w = p w) :
    vs.countP p = vs.countP p' + 1 := by
  induction vs with
  | nil => cases hv
  | cons a l ih =>
    simp only [List.countP_cons]
    rw [List.nodup_cons] at hn
    rcases List.mem_cons.1 hv with rfl | hv
    · have : l.countP p' = l.countP p :=
        countP_congr' (fun w hw => h w (fun e => hn.1 (e ▸ hw)))
      simp [h1, h2, this]
    · have hne : a ≠ v := fun e => hn.1 (e ▸ hv)
      rw [ih hn.2 hv, h a hne]; omega

section
variable {C} {G : Grp μ χ} {s : PSys Λ μ} {m q ln t : Nat → Nat} {P : Nat}

/-- Operations which keep everything the group depends on. -/
theorem GrpInv.frame (I : GrpInv C G s m q ln t P) (s' : PSys Λ μ)
    (h1 : s'.host.loaders G.cb = s.host.loaders G.cb)
    (h2 : C.view (s'.host.objs G.l) G.chain = C.view (s.host.objs G.l) G.chain)
    (h3 : ∀ v ∈ G.vs, s'.vars v = s.vars v)
    (h4 : s'.host.requests G.cb G.chain = s.host.requests G.cb G.chain)
    (h5 : s.host.next ≤ s'.host.next)
    (h6 : ∀ k, k ≤ P → s'.host.cached (t k) = s.host.cached (t k))
    (h7 : ∀ w st, w ∉ G.vs → s'.vars w = some st → ∀ k, k ≤ P → st.token ≠ t k)
    (h8 : ∀ w st, w ∉ G.vs → s'.vars w = some st → s'.host.loaders st.cb = some G.l →
      st.chain ≠ G.chain)
    (h9 : ∀ τ c r' τ', s'.host.cached τ = some (c, r', τ') → (∀ k, k < P → τ ≠ t k) →
      ∀ k, k ≤ P → τ' ≠ t k) :
    GrpInv C G s' m q ln t P := by
  refine ⟨by rw [h1]; exact I.loader, by rw [h2]; exact I.view, ?_, I.qle, I.attained, I.draws,
    by rw [h4]; exact I.req, ?_, I.tinj, ?_, ?_, h7, h8, h9⟩
  · intro v hv; rw [h3 v hv]; exact I.vars v hv
  · intro k hk; have := I.tlt k hk; omega
  · intro k hk; rw [h6 k hk.le]; exact I.cache k hk
  · rw [h6 P le_rfl]; exact I.cacheP

/-- Requests by outsiders. -/
theorem GrpInv.request_out (g : GInv C s) (I : GrpInv C G s m q ln t P) {w : Nat} {st : CacheState μ}
    (hw : w ∉ G.vs) (hv : s.vars w = some st) (dc : Nat) (strict : Bool) :
    GrpInv C G { s with host := (request H s.host st.chain st.token st.cb dc strict).2 } m q ln t P ∧
    (∀ r τ', (request H s.host st.chain st.token st.cb dc strict).1 = .ok (r, τ') →
      ∀ k, k ≤ P → τ' ≠ t k) ∧
    (request H s.host st.chain st.token st.cb dc strict).2.fetches.count (G.l, G.chain) =
      s.host.fetches.count (G.l, G.chain) := by
  have htok := I.outTok w st hw hv
  have hview : ∀ l, s.host.loaders st.cb = some l →
      C.view (upd s.host.objs l (H.getBatches (s.host.objs l) st.chain).2 G.l) G.chain =
        C.view (s.host.objs G.l) G.chain := by
    intro l hl
    by_cases hll : l = G.l
    · subst hll
      rw [upd_self, C.get_other _ _ _ (fun e => I.outChain w st hw hv hl e.symm)]
    · rw [upd_ne _ _ _ _ (fun e => hll e.symm)]
  have hcnt : ∀ l, s.host.loaders st.cb = some l →
      (s.host.fetches ++ [(l, st.chain)]).count (G.l, G.chain) =
        s.host.fetches.count (G.l, G.chain) := by
    intro l hl
    rw [List.count_append, List.count_singleton]
    by_cases hll : (l, st.chain) = (G.l, G.chain)
    · simp only [Prod.mk.injEq] at hll
      obtain ⟨rfl, h2⟩ := hll
      exact absurd h2 (I.outChain w st hw hv hl)
    · simp [hll]
  rcases request_cases (H := H) s.host st.chain st.token st.cb dc strict with
    ⟨n, r, τ', hc, he⟩ | ⟨hc, h1, h2, he⟩ | ⟨hc, hr, hl, he⟩ | ⟨hc, hr, l, e, hl, hg, he⟩ |
    ⟨hc, hr, l, r, hl, hg, he⟩ <;> rw [he]
  · have hτ' : ∀ k, k ≤ P → τ' ≠ t k := I.outCache _ _ _ _ hc (fun k hk => htok k hk.le)
    refine ⟨I.frame _ rfl rfl (fun _ _ => rfl) rfl le_rfl ?_ I.outTok I.outChain ?_, ?_, rfl⟩
    · intro k hk
      simp only [upd_apply]
      rw [if_neg (fun e => htok k hk e.symm)]
    · intro τ c r' τ'' h hne
      simp only [upd_apply] at h
      split at h
      · split at h
        · cases h
        · simp only [Option.some.injEq, Prod.mk.injEq] at h
          obtain ⟨-, -, rfl⟩ := h
          exact hτ'
      · exact I.outCache _ _ _ _ h hne
    · intro r' t' h
      simp only [Except.ok.injEq, Prod.mk.injEq] at h
      obtain ⟨-, rfl⟩ := h
      exact hτ'
  · exact ⟨I, by (intro r' t' h; cases h), rfl⟩
  · exact ⟨I.frame _ rfl rfl (fun _ _ => rfl) rfl (Nat.le_succ _) (fun _ _ => rfl) I.outTok
      I.outChain I.outCache, by (intro r' t' h; cases h), rfl⟩
  · exact ⟨I.frame _ rfl (hview l hl) (fun _ _ => rfl) rfl (Nat.le_succ _) (fun _ _ => rfl) I.outTok
      I.outChain I.outCache, by (intro r' t' h; cases h), hcnt l hl⟩
  · have hfresh : ∀ k, k ≤ P → s.host.next ≠ t k := fun k hk e => by
      have := I.tlt k hk; omega
    refine ⟨I.frame _ rfl (hview l hl) (fun _ _ => rfl) ?_ (Nat.le_succ _) ?_ I.outTok
      I.outChain ?_, ?_, hcnt l hl⟩
    · simp only [upd_apply]
      split
      · rename_i hcb
        rw [← hcb] at hl
        rw [I.loader] at hl
        simp only [Option.some.injEq] at hl
        subst hl
        have := I.outChain w st hw hv (hcb ▸ I.loader)
        simp only [upd_apply]
        rw [if_neg (fun e => this e.symm), hcb]
      · rfl
    · intro k hk
      dsimp only
      split
      · rw [upd_ne _ _ _ _ (fun e => htok k hk e.symm)]
      · rfl
    · intro τ c r' τ'' h hne
      dsimp only at h
      split at h
      · simp only [upd_apply] at h
        split at h
        · simp only [Option.some.injEq, Prod.mk.injEq] at h
          obtain ⟨-, -, rfl⟩ := h
          exact hfresh
        · exact I.outCache _ _ _ _ h hne
      · exact I.outCache _ _ _ _ h hne
    · intro r' t' h
      simp only [Except.ok.injEq, Prod.mk.injEq] at h
      obtain ⟨-, rfl⟩ := h
      exact hfresh

/-- Assignment of a data state to a variable outside the group. -/
theorem GrpInv.setVar (I : GrpInv C G s m q ln t P) {w : Nat} (hw : w ∉ G.vs) (st : CacheState μ)
    (h1 : ∀ k, k ≤ P → st.token ≠ t k)
    (h2 : s.host.loaders st.cb = some G.l → st.chain ≠ G.chain) :
    GrpInv C G { s with vars := upd s.vars w (some st) } m q ln t P := by
  refine I.frame _ rfl rfl ?_ rfl le_rfl (fun _ _ => rfl) ?_ ?_ I.outCache
  · intro v hv
    exact upd_ne _ _ _ _ (fun e => hw (e ▸ hv))
  · intro w' st' hw' h
    simp only [upd_apply] at h
    split at h
    · cases h; exact h1
    · exact I.outTok _ _ hw' h
  · intro w' st' hw' h
    simp only [upd_apply] at h
    split at h
    · cases h; exact h2
    · exact I.outChain _ _ hw' h

/-- Everything except the draws of the group itself preserves the invariant. -/
theorem GrpInv.step_out (g : GInv C s) (I : GrpInv C G s m q ln t P) (devices d : Nat) (op : POp κ)
    (hr : Respects G.vs G.cb d op) (hd : ∀ h dc, op = .draw h dc → h ∉ G.vs) :
    GrpInv C G (pstep H devices s op).1 m q ln t P ∧
    asked (pstep H devices s op).1 G.l G.chain = asked s G.l G.chain := by
  cases op with
  | setup l cc mb v =>
    simp only [pstep, setupFn]
    split
    · exact ⟨I, rfl⟩
    · split
      · exact ⟨I, rfl⟩
      · obtain ⟨cfg, hc, -⟩ := g.loaderCfg _ _ I.loader
        have hlt := g.cfgLt _ _ hc
        refine ⟨I.frame _ ?_ rfl (fun _ _ => rfl) rfl (Nat.le_succ _) (fun _ _ => rfl) I.outTok
          ?_ I.outCache, rfl⟩
        · exact upd_ne _ _ _ _ (by omega)
        · intro w st hw hv
          obtain ⟨cfg', h1, h2⟩ := g.varCfg _ _ hv
          have := g.cfgLt _ _ h1
          dsimp only
          rw [upd_ne _ _ _ _ (by omega)]
          exact I.outChain w st hw hv
  | init cb kw h =>
    have hw : h ∉ G.vs := hr
    simp only [pstep, initFn]
    cases hcfg : s.cfgs cb with
    | none => exact ⟨I, rfl⟩
    | some cfg =>
      simp only
      cases hr : H.register (s.host.objs cfg.loader) cfg.cacheCount cfg.mbSize kw with
      | error e => exact ⟨I, rfl⟩
      | ok x =>
        obtain ⟨chain, obj⟩ := x
        simp only
        -- registration does not touch the chain of the group
        have hv1 : C.view (upd s.host.objs cfg.loader obj G.l) G.chain =
            C.view (s.host.objs G.l) G.chain := by
          by_cases hl : G.l = cfg.loader
          · rw [hl, upd_self]
            have : G.chain ≠ chain := by
              intro e
              have h1 := C.reg_new _ _ _ _ _ _ hr
              rw [← e, ← hl, I.view] at h1
              cases h1
            rw [C.reg_other _ _ _ _ _ _ hr _ this]
          · rw [upd_ne _ _ _ _ hl]
        have hne : cfg.loader = G.l → chain ≠ G.chain := by
          intro hl e
          have h1 := C.reg_new _ _ _ _ _ _ hr
          rw [e, hl, I.view] at h1
          cases h1
        have I1 : GrpInv C G
            { s with host := { s.host with objs := upd s.host.objs cfg.loader obj } } m q ln t P :=
          I.frame _ rfl hv1 (fun _ _ => rfl) rfl le_rfl (fun _ _ => rfl) I.outTok I.outChain I.outCache
        cases hl : s.host.loaders cb with
        | none => exact ⟨I1, rfl⟩
        | some l =>
          simp only
          obtain ⟨cfg', hcfg', rfl⟩ := g.loaderCfg _ _ hl
          rw [hcfg] at hcfg'; cases hcfg'
          simp only [upd_self]
          have hcnt : (s.host.fetches ++ [(cfg.loader, chain)]).count (G.l, G.chain) =
              s.host.fetches.count (G.l, G.chain) := by
            rw [List.count_append, List.count_singleton]
            by_cases hll : (cfg.loader, chain) = (G.l, G.chain)
            · simp only [Prod.mk.injEq] at hll
              exact absurd hll.2 (hne hll.1)
            · simp [hll]
          have I2 : ∀ k, s.host.next ≤ k → GrpInv C G { s with host := { s.host with
              objs := upd (upd s.host.objs cfg.loader obj) cfg.loader (H.getBatches obj chain).2
              next := k
              fetches := s.host.fetches ++ [(cfg.loader, chain)] } } m q ln t P := by
            intro k hk
            refine I1.frame _ rfl ?_ (fun _ _ => rfl) rfl hk (fun _ _ => rfl) I.outTok I.outChain
              I.outCache
            dsimp only
            by_cases hll : G.l = cfg.loader
            · rw [hll, upd_self, upd_self, C.get_other _ _ _ (fun e => hne hll.symm e.symm)]
            · rw [upd_ne _ _ _ _ hll]
          cases hg : (H.getBatches obj chain).1 with
          | error e => exact ⟨I2 _ le_rfl, hcnt⟩
          | ok resp =>
            refine ⟨(I2 (s.host.next + 1) (by omega)).setVar hw _ ?_ ?_, hcnt⟩
            · intro k hk
              have := I.tlt k hk
              show s.host.next ≠ t k
              omega
            · dsimp only
              intro h1
              rw [hl] at h1
              simp only [Option.some.injEq] at h1
              exact hne h1
  | copy h h' =>
    have hw : h ∉ G.vs ∧ h' ∉ G.vs := hr
    simp only [pstep]
    cases hv : s.vars h with
    | none => exact ⟨I, rfl⟩
    | some st =>
      exact ⟨I.setVar hw.2 _ (I.outTok _ _ hw.1 hv) (I.outChain _ _ hw.1 hv), rfl⟩
  | draw h dc =>
    have hw : h ∉ G.vs := hd h dc rfl
    cases hv : s.vars h with
    | none => simp only [pstep, hv]; exact ⟨I, trivial⟩
    | some st =>
      rcases draw_cases (H := H) devices s h dc st hv with
        ⟨e, he⟩ | ⟨-, b, -, -, he⟩ | ⟨-, -, strict, e, host, hq, -, he⟩ |
        ⟨-, -, strict, r, tok, host, hq, -, ⟨-, he⟩ | ⟨b, -, he⟩⟩ <;> rw [he]
      · exact ⟨I, rfl⟩
      · exact ⟨I.setVar hw _ (I.outTok h st hw hv) (I.outChain h st hw hv), rfl⟩
      · have := I.request_out g hw hv dc strict
        rw [hq] at this; exact ⟨this.1, this.2.2⟩
      · have := I.request_out g hw hv dc strict
        rw [hq] at this; exact ⟨this.1, this.2.2⟩
      · have := I.request_out g hw hv dc strict
        rw [hq] at this
        exact ⟨this.1.setVar hw _ (this.2.1 _ _ rfl) (this.1.outChain h st hw hv), this.2.2⟩
  | release cb =>
    have hw : cb ≠ G.cb := hr
    simp only [pstep]
    cases hl : s.host.loaders cb with
    | none => exact ⟨I, rfl⟩
    | some l =>
      refine ⟨I.frame _ (upd_ne _ _ _ _ (fun e => hw e.symm)) rfl (fun _ _ => rfl) rfl le_rfl
        (fun _ _ => rfl) I.outTok ?_ I.outCache, rfl⟩
      intro w st hw' hv h
      simp only [upd_apply] at h
      split at h
      · cases h
      · exact I.outChain w st hw' hv h

/-- A draw of the group. -/
theorem GrpInv.step_in (W : G.WF C) (g : GInv C s) (I : GrpInv C G s m q ln t P) (devices : Nat)
    (hdev : G.vs.length ≤ devices) {v : Nat} (hv : v ∈ G.vs) :
    (∃ b, (G.r (m v / G.n))[m v % G.n]? = some b ∧
      (pstep H devices s (.draw v G.vs.length)).2 = .batch b) ∧
    ∃ q' ln' t' P', GrpInv C G (pstep H devices s (.draw v G.vs.length)).1
      (upd m v (m v + 1)) q' ln' t' P' ∧
      asked (pstep H devices s (.draw v G.vs.length)).1 G.l G.chain + P =
        asked s G.l G.chain + P' ∧
      (∀ k, k ≤ P → t' k = t k) ∧ P ≤ P' ∧
      (∀ τ, (∀ k, k < P' → τ ≠ t' k) →
        (pstep H devices s (.draw v G.vs.length)).1.host.cached τ = s.host.cached τ) ∧
      (∀ k, P < k → k ≤ P' → s.host.next ≤ t' k) := by
  obtain ⟨hm, hln, hz⟩ := I.draws v hv
  have hst := I.vars v hv
  have hnp := W.npos
  by_cases hlast : ln v = G.n
  · -- refresh
    have hdiv : m v / G.n = q v + 1 := by
      rw [hm, hlast, show q v * G.n + G.n = G.n * (q v + 1) by ring, Nat.mul_div_cancel_left _ hnp]
    have hmod : m v % G.n = 0 := by
      rw [hm, hlast, show q v * G.n + G.n = G.n * (q v + 1) by ring, Nat.mul_mod_right]
    rw [hdiv, hmod]
    have hb : ∃ b, (G.r (q v + 1))[0]? = some b := by
      have : 0 < (G.r (q v + 1)).length := by rw [W.len]; exact hnp
      exact ⟨_, List.getElem?_eq_getElem this⟩
    obtain ⟨b, hb⟩ := hb
    -- it suffices to describe the request
    suffices key : ∀ strict, ∃ tok host, request H s.host G.chain (t (q v)) G.cb G.vs.length strict =
        (.ok (G.r (q v + 1), tok), host) ∧
        ∃ t' P', GrpInv C G (PSys.mk host s.cfgs (upd s.vars v (some
          { cb := G.cb, batches := G.r (q v + 1), count := G.n, line := 1, chain := G.chain,
            token := tok }))) (upd m v (m v + 1)) (upd q v (q v + 1)) (upd ln v 1) t' P' ∧
          host.fetches.count (G.l, G.chain) + P = s.host.fetches.count (G.l, G.chain) + P' ∧
          (∀ k, k ≤ P → t' k = t k) ∧ P ≤ P' ∧
          (∀ τ, (∀ k, k < P' → τ ≠ t' k) → host.cached τ = s.host.cached τ) ∧
          (∀ k, P < k → k ≤ P' → s.host.next ≤ t' k) by
      obtain ⟨tok, host, hq, t', P', hI, hcnt⟩ := key ((s.cfgs G.cb).elim false (·.verify))
      have hstep : pstep H devices s (.draw v G.vs.length) = (PSys.mk host s.cfgs (upd s.vars v (some
          { cb := G.cb, batches := G.r (q v + 1), count := G.n, line := 1,
            chain := G.chain, token := tok })), .batch b) := by
        simp only [pstep, hst]
        unfold batchFn
        rw [if_neg (by omega)]
        simp only [hlast, if_true, hq]
        simp [hb]
      rw [hstep]
      exact ⟨⟨b, hb, rfl⟩, _, _, t', P', hI, hcnt⟩
    intro strict
    have hdraws : ∀ w ∈ G.vs, (upd m v (m v + 1)) w = (upd q v (q v + 1)) w * G.n + (upd ln v 1) w ∧
        (upd ln v 1) w ≤ G.n ∧ ((upd ln v 1) w = 0 → (upd m v (m v + 1)) w = 0) := by
      intro w hw
      simp only [upd_apply]
      split
      · refine ⟨?_, hnp, by omega⟩
        rw [hm, hlast]; ring
      · exact I.draws w hw
    have hvarsOut : ∀ (st' : CacheState μ) w st, w ∉ G.vs → (upd s.vars v (some st')) w = some st →
        s.vars w = some st := by
      intro st' w st hw h
      rwa [upd_ne _ _ _ _ (fun e => hw (by rw [e]; exact hv))] at h
    by_cases hq : q v = P
    · -- first replica to make this request
      have hx := W.step (P + 1)
      have hans : (H.getBatches (s.host.objs G.l) G.chain).1 = .ok (G.r (P + 1)) := by
        rw [C.get_answer _ _ _ I.view, hx]
      have hself : C.view (H.getBatches (s.host.objs G.l) G.chain).2 G.chain = some (G.x (P + 2)) := by
        rw [C.get_self _ _ _ I.view, hx]
      have hreq : s.host.requests G.cb G.chain = some (t P) ∨ s.host.requests G.cb G.chain = none := by
        rw [I.req]; by_cases h : P = 0 <;> simp [h]
      have hfresh : ∀ k, k ≤ P → s.host.next ≠ t k := fun k hk e => by
        have := I.tlt k hk; omega
      rcases request_cases (H := H) s.host G.chain (t (q v)) G.cb G.vs.length strict with
        ⟨n, r, τ', hc, he⟩ | ⟨hc, h1, h2, he⟩ | ⟨hc, hr, hl, he⟩ | ⟨hc, hr, l, e, hl, hg, he⟩ |
        ⟨hc, hr, l, r, hl, hg, he⟩
      · rw [hq, I.cacheP] at hc; cases hc
      · exfalso; rw [hq] at h1; rcases hreq with h | h
        · exact h1 h
        · exact h2 h
      · rw [I.loader] at hl; cases hl
      · rw [I.loader] at hl; simp only [Option.some.injEq] at hl; subst hl
        rw [hans] at hg; cases hg
      · rw [I.loader] at hl; simp only [Option.some.injEq] at hl; subst hl
        rw [hans] at hg; simp only [Except.ok.injEq] at hg; subst hg
        rw [hq] at he ⊢
        refine ⟨_, _, he, upd t (P + 1) s.host.next, P + 1, ?_, ?_,
          fun k hk => upd_ne _ _ _ _ (by omega), Nat.le_succ _, ?_, ?_⟩
        · have ht' : ∀ k, k ≤ P → upd t (P + 1) s.host.next k = t k :=
            fun k hk => upd_ne _ _ _ _ (by omega)
          refine ⟨I.loader, ?_, ?_, ?_, ?_, ?_, ?_, ?_, ?_, ?_, ?_, ?_, ?_, ?_⟩
          · simp only [upd_self]; exact hself
          · intro w hw
            by_cases hwv : w = v
            · subst hwv; simp [upd_self]
            · have hqw := I.qle w hw
              simp only [upd_ne _ _ _ _ hwv]
              rw [ht' _ hqw]
              exact I.vars w hw
          · intro w hw
            simp only [upd_apply]; split
            · omega
            · have := I.qle w hw; omega
          · right; exact ⟨v, hv, by rw [upd_self]⟩
          · rw [← hq]; exact hdraws
          · simp
          · intro k hk
            by_cases hk' : k = P + 1
            · subst hk'; rw [upd_self]; exact Nat.lt_succ_self _
            · rw [ht' k (by omega)]
              have := I.tlt k (by omega)
              show _ < s.host.next + 1
              omega
          · intro i j hi hj hij
            by_cases hi' : i = P + 1 <;> by_cases hj' : j = P + 1
            · omega
            · subst hi'; rw [upd_self, ht' j (by omega)] at hij
              exact absurd hij (hfresh j (by omega))
            · subst hj'; rw [upd_self, ht' i (by omega)] at hij
              exact absurd hij.symm (hfresh i (by omega))
            · rw [ht' i (by omega), ht' j (by omega)] at hij
              exact I.tinj i j (by omega) (by omega) hij
          · intro k hk
            rw [ht' k (by omega)]
            by_cases hkP : k = P
            · subst hkP
              rw [upd_self]
              have hcount : G.vs.length = G.vs.countP (fun w => decide ((upd q v (k + 1)) w ≤ k)) + 1 := by
                rw [← countP_dec W.nodup (p := fun w => decide (q w ≤ k)) hv (by simp [hq]) (by simp)
                  (fun w hw => by simp only [upd_ne _ _ _ _ hw])]
                exact (List.countP_eq_length.2 (fun w hw => by simpa using I.qle w hw)).symm
              by_cases hone : G.vs.length = 1
              · have h0 : G.vs.countP (fun w => decide ((upd q v (k + 1)) w ≤ k)) = 0 := by omega
                rw [if_pos h0]
                simp only [hone, ne_eq, not_true_eq_false, if_false]
                exact I.cacheP
              · have h0 : ¬ G.vs.countP (fun w => decide ((upd q v (k + 1)) w ≤ k)) = 0 := by omega
                rw [if_neg h0]
                simp only [hone, ne_eq, not_false_eq_true, if_true, upd_self]
                rw [hcount]; simp
            · have hc' := I.cache k (by omega)
              have hcongr : G.vs.countP (fun w => decide ((upd q v (P + 1)) w ≤ k)) =
                  G.vs.countP (fun w => decide (q w ≤ k)) := by
                apply countP_congr'
                intro w hw
                by_cases hwv : w = v
                · subst hwv; rw [upd_self]
                  simp only [decide_eq_decide]; omega
                · rw [upd_ne _ _ _ _ hwv]
              rw [hcongr]
              have hne : t k ≠ t P := fun e => hkP (I.tinj k P (by omega) le_rfl e)
              have : ∀ r' : List μ, (if G.vs.length ≠ 1 then
                  upd s.host.cached (t P) (some ((G.vs.length : Int) - 1, r', s.host.next))
                  else s.host.cached) (t k) = s.host.cached (t k) := by
                intro r'
                split
                · rw [upd_ne _ _ _ _ hne]
                · rfl
              exact (this _).trans (by rw [hc', ht' (k + 1) (by omega)])
          · rw [upd_self]
            have hn : s.host.cached s.host.next = none := by
              cases hx : s.host.cached s.host.next with
              | none => rfl
              | some y =>
                have := (g.cacheTok _ y.1 y.2.1 y.2.2 hx).1
                omega
            dsimp only
            split
            · rw [upd_ne _ _ _ _ (hfresh P le_rfl)]; exact hn
            · exact hn
          · intro w st hw h k hk
            have h' := hvarsOut _ w st hw h
            by_cases hk' : k = P + 1
            · subst hk'; rw [upd_self]
              have := g.varTok _ _ h'
              omega
            · rw [ht' k (by omega)]
              exact I.outTok w st hw h' k (by omega)
          · intro w st hw h
            exact I.outChain w st hw (hvarsOut _ w st hw h)
          · intro τ c r' τ' h hne k hk
            have hP : τ ≠ t P := by
              have := hne P (by omega)
              rwa [ht' P le_rfl] at this
            have h' : s.host.cached τ = some (c, r', τ') := by
              dsimp only at h
              split at h
              · rwa [upd_ne _ _ _ _ hP] at h
              · exact h
            by_cases hk' : k = P + 1
            · subst hk'; rw [upd_self]
              have := (g.cacheTok _ _ _ _ h').2
              omega
            · rw [ht' k (by omega)]
              refine I.outCache _ _ _ _ h' ?_ k (by omega)
              intro j hj
              have := hne j (by omega)
              rwa [ht' j (by omega)] at this
        · simp only [List.count_append, List.count_singleton]
          simp only [beq_self_eq_true, if_true]
          omega
        · intro τ hτ
          have hP : τ ≠ t P := by
            have := hτ P (by omega)
            rwa [upd_ne _ _ _ _ (by omega)] at this
          dsimp only
          split
          · rw [upd_ne _ _ _ _ hP]
          · rfl
        · intro k h1 h2
          have : k = P + 1 := by omega
          subst this
          rw [upd_self]
    · -- the response is already cached
      have hlt : q v < P := by have := I.qle v hv; omega
      have hc := I.cache (q v) hlt
      have hpos : 0 < G.vs.countP (fun w => decide (q w ≤ q v)) :=
        List.countP_pos_iff.2 ⟨v, hv, by simp⟩
      rw [if_neg (by omega)] at hc
      rcases request_cases (H := H) s.host G.chain (t (q v)) G.cb G.vs.length strict with
        ⟨n, r, τ', hc', he⟩ | ⟨hc', -⟩ | ⟨hc', -⟩ | ⟨hc', -⟩ | ⟨hc', -⟩
      swap; · rw [hc] at hc'; cases hc'
      swap; · rw [hc] at hc'; cases hc'
      swap; · rw [hc] at hc'; cases hc'
      swap; · rw [hc] at hc'; cases hc'
      rw [hc] at hc'
      simp only [Option.some.injEq, Prod.mk.injEq] at hc'
      obtain ⟨rfl, rfl, rfl⟩ := hc'
      refine ⟨_, _, he, t, P, ?_, rfl, fun _ _ => rfl, le_rfl,
        fun τ hτ => upd_ne _ _ _ _ (hτ (q v) hlt), fun k h1 h2 => by omega⟩
      have hne : ∀ k, k ≤ P → k ≠ q v → t k ≠ t (q v) :=
        fun k hk h e => h (I.tinj k (q v) hk hlt.le e)
      have hcount : G.vs.countP (fun w => decide (q w ≤ q v)) =
          G.vs.countP (fun w => decide ((upd q v (q v + 1)) w ≤ q v)) + 1 :=
        countP_dec W.nodup hv (by simp) (by simp) (fun w hw => by simp only [upd_ne _ _ _ _ hw])
      refine ⟨I.loader, I.view, ?_, ?_, ?_, hdraws, I.req, I.tlt, I.tinj, ?_, ?_, ?_, ?_, ?_⟩
      · intro w hw
        by_cases hwv : w = v
        · subst hwv; simp [upd_self]
        · simp only [upd_ne _ _ _ _ hwv]
          exact I.vars w hw
      · intro w hw
        simp only [upd_apply]; split
        · omega
        · exact I.qle w hw
      · rcases I.attained with h | ⟨w, hw, h⟩
        · exact .inl h
        · right
          exact ⟨w, hw, by rw [upd_ne _ _ _ _ (by rintro rfl; omega)]; exact h⟩
      · intro k hk
        by_cases hkq : k = q v
        · subst hkq
          simp only [upd_self]
          rw [hcount]
          by_cases h1 : G.vs.countP (fun w => decide ((upd q v (q v + 1)) w ≤ q v)) = 0
          · simp [h1]
          · rw [if_neg h1, if_neg (by omega)]
            simp
        · simp only [upd_ne _ _ _ _ (hne k hk.le hkq)]
          rw [I.cache k hk]
          have hcongr : G.vs.countP (fun w => decide ((upd q v (q v + 1)) w ≤ k)) =
              G.vs.countP (fun w => decide (q w ≤ k)) := by
            apply countP_congr'
            intro w hw
            by_cases hwv : w = v
            · subst hwv; rw [upd_self]
              simp only [decide_eq_decide]; omega
            · rw [upd_ne _ _ _ _ hwv]
          rw [hcongr]
      · simp only [upd_ne _ _ _ _ (hne P le_rfl (by omega))]
        exact I.cacheP
      · intro w st hw h
        exact I.outTok w st hw (hvarsOut _ w st hw h)
      · intro w st hw h
        exact I.outChain w st hw (hvarsOut _ w st hw h)
      · intro τ c r' τ' h hne' k hk
        simp only [upd_ne _ _ _ _ (hne' (q v) hlt)] at h
        exact I.outCache _ _ _ _ h hne' k hk
  · -- no refresh
    have hlt : ln v < G.n := by omega
    have hdiv : m v / G.n = q v := by
      rw [hm, Nat.mul_comm, Nat.mul_add_div hnp, Nat.div_eq_of_lt hlt, Nat.add_zero]
    have hmod : m v % G.n = ln v := by
      rw [hm, Nat.mul_comm, Nat.mul_add_mod, Nat.mod_eq_of_lt hlt]
    rw [hdiv, hmod]
    have hb : ∃ b, (G.r (q v))[ln v]? = some b := by
      have : ln v < (G.r (q v)).length := by rw [W.len]; exact hlt
      exact ⟨_, List.getElem?_eq_getElem this⟩
    obtain ⟨b, hb⟩ := hb
    have hstep : pstep H devices s (.draw v G.vs.length) = (PSys.mk s.host s.cfgs (upd s.vars v (some
          { cb := G.cb, batches := G.r (q v), count := G.n, line := ln v + 1,
            chain := G.chain, token := t (q v) })), .batch b) := by
      simp only [pstep, hst]
      unfold batchFn
      rw [if_neg (by omega)]
      simp only [if_neg hlast, Nat.mod_eq_of_lt hlt, hb]
    rw [hstep]
    refine ⟨⟨b, hb, rfl⟩, q, upd ln v (ln v + 1), t, P, ?_, rfl, fun _ _ => rfl, le_rfl, fun _ _ => rfl,
      fun k h1 h2 => by omega⟩
    have hvarsOut : ∀ (st' : CacheState μ) w st, w ∉ G.vs → (upd s.vars v (some st')) w = some st →
        s.vars w = some st := by
      intro st' w st hw h
      rwa [upd_ne _ _ _ _ (fun e => hw (by rw [e]; exact hv))] at h
    refine ⟨I.loader, I.view, ?_, I.qle, I.attained, ?_, I.req, I.tlt, I.tinj, I.cache, I.cacheP,
      ?_, ?_, I.outCache⟩
    · intro w hw
      by_cases hwv : w = v
      · subst hwv; simp [upd_self]
      · simp only [upd_ne _ _ _ _ hwv]
        exact I.vars w hw
    · intro w hw
      simp only [upd_apply]
      split
      · rename_i hwv
        subst hwv
        refine ⟨by omega, by omega, by omega⟩
      · exact I.draws w hw
    · intro w st hw h
      exact I.outTok w st hw (hvarsOut _ w st hw h)
    · intro w st hw h
      exact I.outChain w st hw (hvarsOut _ w st hw h)

/-- Whole histories of a group. -/
theorem GrpInv.run (W : G.WF C) (devices : Nat) (hdev : G.vs.length ≤ devices) (ops : List (POp κ))
    (hops : ∀ op ∈ ops, Respects G.vs G.cb G.vs.length op) :
    ∀ {s : PSys Λ μ} {m q ln t : Nat → Nat} {P : Nat}, GInv C s → GrpInv C G s m q ln t P →
    (∀ v ∈ G.vs, (drawOutcomes v (prun H devices s ops).2).length = numDraws v ops ∧
      ∀ k < numDraws v ops, ∃ b, (G.r ((m v + k) / G.n))[(m v + k) % G.n]? = some b ∧
        (drawOutcomes v (prun H devices s ops).2)[k]? = some (.batch b)) ∧
    ∃ q' ln' t' P', GrpInv C G (prun H devices s ops).1 (fun v => m v + numDraws v ops) q' ln' t' P' ∧
      asked (prun H devices s ops).1 G.l G.chain + P = asked s G.l G.chain + P' := by
  induction ops with
  | nil =>
    intro s m q ln t P g I
    exact ⟨fun v hv => ⟨rfl, fun k hk => absurd hk (Nat.not_lt_zero k)⟩, q, ln, t, P, I, rfl⟩
  | cons op ops ih =>
    intro s m q ln t P g I
    have hops' : ∀ op ∈ ops, Respects G.vs G.cb G.vs.length op :=
      fun o ho => hops o (List.mem_cons_of_mem _ ho)
    have hop := hops op List.mem_cons_self
    have g' := g.step C devices op
    by_cases hin : ∃ v dc, op = .draw v dc ∧ v ∈ G.vs
    · obtain ⟨v, dc, rfl, hv⟩ := hin
      have hdc : dc = G.vs.length := hop hv
      subst hdc
      obtain ⟨⟨b, hb, hout⟩, q1, ln1, t1, P1, I1, hc1, -⟩ := I.step_in W g devices hdev hv
      obtain ⟨hd, q2, ln2, t2, P2, I2, hc2⟩ := ih hops' g' I1
      refine ⟨?_, q2, ln2, t2, P2, ?_, ?_⟩
      · intro w hw
        obtain ⟨hl, hk⟩ := hd w hw
        by_cases hwv : v = w
        · subst hwv
          simp only [prun, drawOutcomes, numDraws, if_true]
          refine ⟨by simp [hl]; omega, ?_⟩
          intro k hk'
          cases k with
          | zero => exact ⟨b, hb, by simp [hout]⟩
          | succ k =>
            obtain ⟨b', hb', ho'⟩ := hk k (by omega)
            rw [upd_self] at hb'
            exact ⟨b', by rw [show m v + (k + 1) = m v + 1 + k by omega]; exact hb', by simpa using ho'⟩
        · simp only [prun, drawOutcomes, numDraws, if_neg hwv]
          rw [Nat.zero_add]
          refine ⟨hl, ?_⟩
          intro k hk'
          obtain ⟨b', hb', ho'⟩ := hk k hk'
          rw [upd_ne _ _ _ _ (fun e => hwv e.symm)] at hb'
          exact ⟨b', hb', ho'⟩
      · have : (fun w => upd m v (m v + 1) w + numDraws w ops) =
            (fun w => m w + numDraws w (POp.draw v G.vs.length :: ops)) := by
          funext w
          simp only [numDraws, upd_apply]
          by_cases h : w = v
          · subst h; simp; omega
          · have h' : ¬ v = w := fun e => h e.symm
            simp [h, h']
        rw [← this]; exact I2
      · simp only [prun]
        omega
    · have hd : ∀ h dc, op = .draw h dc → h ∉ G.vs := fun h dc e hm => hin ⟨h, dc, e, hm⟩
      obtain ⟨I1, hc1⟩ := I.step_out g devices _ op hop hd
      obtain ⟨hd', q2, ln2, t2, P2, I2, hc2⟩ := ih hops' g' I1
      have hnum : ∀ w ∈ G.vs, numDraws w (op :: ops) = numDraws w ops ∧
          drawOutcomes w (prun H devices s (op :: ops)).2 =
            drawOutcomes w (prun H devices (pstep H devices s op).1 ops).2 := by
        intro w hw
        cases op with
        | draw h dc =>
          have : ¬ h = w := fun e => hd h dc rfl (e ▸ hw)
          simp [numDraws, prun, drawOutcomes, this]
        | _ => exact ⟨rfl, rfl⟩
      refine ⟨?_, q2, ln2, t2, P2, ?_, ?_⟩
      · intro w hw
        rw [(hnum w hw).1, (hnum w hw).2]
        exact hd' w hw
      · simp only [prun]
        exact ⟨I2.loader, I2.view, I2.vars, I2.qle, I2.attained,
          fun w hw => by rw [(hnum w hw).1]; exact I2.draws w hw, I2.req, I2.tlt, I2.tinj, I2.cache,
          I2.cacheP, I2.outTok, I2.outChain, I2.outCache⟩
      · simp only [prun]
        rw [hc1] at hc2
        exact hc2

/-- Histories consisting of draws of the group only. -/
theorem GrpInv.run_only (W : G.WF C) (devices : Nat) (hdev : G.vs.length ≤ devices)
    (c0 : Nat → Option (Int × List μ × Nat)) (B : Nat) (ops : List (POp κ))
    (hops : ∀ op ∈ ops, ∃ v ∈ G.vs, op = .draw v G.vs.length) :
    ∀ {s : PSys Λ μ} {m q ln t : Nat → Nat} {P : Nat}, GInv C s → GrpInv C G s m q ln t P →
    (∀ τ, (∀ k, k < P → τ ≠ t k) → s.host.cached τ = c0 τ) →
    (∀ k, k ≤ P → B ≤ t k) →
    ∃ q' ln' t' P', GrpInv C G (prun H devices s ops).1 (fun v => m v + numDraws v ops) q' ln' t' P' ∧
      (∀ τ, (∀ k, k < P' → τ ≠ t' k) → (prun H devices s ops).1.host.cached τ = c0 τ) ∧
      (∀ k, k ≤ P' → B ≤ t' k) := by
  induction ops with
  | nil => intro s m q ln t P g I h0 hB; exact ⟨q, ln, t, P, I, h0, hB⟩
  | cons op ops ih =>
    intro s m q ln t P g I h0 hB
    obtain ⟨v, hv, rfl⟩ := hops op List.mem_cons_self
    obtain ⟨-, q1, ln1, t1, P1, I1, -, ht, hP, hc, hnew⟩ := I.step_in W g devices hdev hv
    obtain ⟨q2, ln2, t2, P2, I2, h2⟩ := ih (fun o ho => hops o (List.mem_cons_of_mem _ ho))
      (g.step C devices (.draw v G.vs.length)) I1 (by
        intro τ hτ
        rw [hc τ hτ]
        refine h0 τ (fun k hk => ?_)
        have := hτ k (by omega)
        rwa [ht k (by omega)] at this) (by
        intro k hk
        by_cases hkP : k ≤ P
        · rw [ht k hkP]; exact hB k hkP
        · have h1 := hnew k (by omega) hk
          have h2 := I.tlt P le_rfl
          have h3 := hB P le_rfl
          omega)
    refine ⟨q2, ln2, t2, P2, ?_, h2⟩
    have : (fun w => upd m v (m v + 1) w + numDraws w ops) =
        (fun w => m w + numDraws w (POp.draw v G.vs.length :: ops)) := by
      funext w
      simp only [numDraws, upd_apply]
      by_cases h : w = v
      · subst h; simp; omega
      · have h' : ¬ v = w := fun e => h e.symm
        simp [h, h']
    rw [← this]; exact I2

theorem le_maxOver (f : Nat → Nat) {l : List Nat} {v : Nat} (h : v ∈ l) : f v ≤ maxOver f l := by
  induction l with
  | nil => cases h
  | cons a l ih =>
    simp only [maxOver]
    rcases List.mem_cons.1 h with rfl | h
    · exact le_max_left _ _
    · exact (ih h).trans (le_max_right _ _)

theorem maxOver_le (f : Nat → Nat) {l : List Nat} {b : Nat} (h : ∀ v ∈ l, f v ≤ b) :
    maxOver f l ≤ b := by
  induction l with
  | nil => exact Nat.zero_le _
  | cons a l ih =>
    simp only [maxOver]
    exact max_le (h a List.mem_cons_self) (ih (fun v hv => h v (List.mem_cons_of_mem _ hv)))

/-- Number of refreshes of a replica. -/
theorem GrpInv.q_eq (W : G.WF C) (I : GrpInv C G s m q ln t P) {v : Nat} (hv : v ∈ G.vs) :
    q v = (m v - 1) / G.n := by
  obtain ⟨hm, hln, hz⟩ := I.draws v hv
  have hnp := W.npos
  by_cases h0 : ln v = 0
  · have hm0 := hz h0
    rw [hm0] at hm ⊢
    have : q v * G.n = 0 := by omega
    rcases Nat.mul_eq_zero.1 this with h | h
    · rw [h]; simp
    · omega
  · rw [hm, Nat.mul_comm, show G.n * q v + ln v - 1 = G.n * q v + (ln v - 1) by omega,
      Nat.mul_add_div hnp, Nat.div_eq_of_lt (by omega), Nat.add_zero]

theorem GrpInv.P_eq (W : G.WF C) (I : GrpInv C G s m q ln t P) :
    P = maxOver (fun v => (m v - 1) / G.n) G.vs := by
  apply le_antisymm
  · rcases I.attained with h | ⟨v, hv, h⟩
    · omega
    · rw [← h, I.q_eq W hv]; exact le_maxOver (fun v => (m v - 1) / G.n) hv
  · apply maxOver_le
    intro v hv
    rw [← I.q_eq W hv]; exact I.qle v hv

end

/-- Chain states of consecutive requests. -/
def chainState (x0 : χ) : Nat → χ
  | 0 => x0
  | k + 1 => (C.step (chainState x0 k)).2

theorem nthLoader_view {L : Λ} {c : Nat} {x0 : χ} (h : C.view L c = some x0) (k : Nat) :
    C.view (nthLoader H L c k) c = some (chainState C x0 k) ∧
    nthAnswer H L c k = (C.step (chainState C x0 k)).1 := by
  have h1 : ∀ k, C.view (nthLoader H L c k) c = some (chainState C x0 k) := by
    intro k
    induction k with
    | zero => exact h
    | succ k ih => exact C.get_self _ _ _ ih
  exact ⟨h1 k, C.get_answer _ _ _ (h1 k)⟩

/-- What a successful initialisation does. -/
theorem init_spec {s : PSys Λ μ} (g : GInv C s) (devices : Nat) (cb : Nat) (kw : κ) (v0 : Nat)
    (h : (pstep H devices s (.init cb kw v0)).2 = .done) :
    ∃ cfg chain L resp, s.cfgs cb = some cfg ∧ s.host.loaders cb = some cfg.loader ∧
      H.register (s.host.objs cfg.loader) cfg.cacheCount cfg.mbSize kw = .ok (chain, L) ∧
      (H.getBatches L chain).1 = .ok resp ∧
      (pstep H devices s (.init cb kw v0)).1 = PSys.mk
        { s.host with
          objs := upd (upd s.host.objs cfg.loader L) cfg.loader (H.getBatches L chain).2
          next := s.host.next + 1
          fetches := s.host.fetches ++ [(cfg.loader, chain)] }
        s.cfgs (upd s.vars v0 (some
          { cb := cb, batches := resp, count := cfg.cacheCount, line := 0, chain := chain,
            token := s.host.next })) := by
  simp only [pstep, initFn] at h ⊢
  cases hcfg : s.cfgs cb with
  | none => simp [hcfg] at h
  | some cfg =>
    simp only [hcfg] at h ⊢
    cases hr : H.register (s.host.objs cfg.loader) cfg.cacheCount cfg.mbSize kw with
    | error e => simp [hr] at h
    | ok x =>
      obtain ⟨chain, L⟩ := x
      simp only [hr] at h ⊢
      cases hl : s.host.loaders cb with
      | none => simp [hl] at h
      | some l =>
        obtain ⟨cfg', hcfg', rfl⟩ := g.loaderCfg _ _ hl
        rw [hcfg] at hcfg'; cases hcfg'
        simp only [hl, upd_self] at h ⊢
        cases hg : (H.getBatches L chain).1 with
        | error e => simp [hg] at h
        | ok resp =>
          exact ⟨cfg, chain, L, resp, rfl, rfl, hr, hg, rfl⟩

/-- Replicating a data state. -/
theorem copies_spec (devices : Nat) (v0 : Nat) (st : CacheState μ) (rest : List Nat) :
    ∀ s : PSys Λ μ, s.vars v0 = some st →
      (prun H devices s (rest.map (fun w => POp.copy v0 w))).1 = PSys.mk s.host s.cfgs
        (fun w => if w ∈ rest then some st else s.vars w) := by
  induction rest with
  | nil => intro s h; simp [prun]
  | cons a rest ih =>
    intro s h
    simp only [List.map_cons, prun, pstep, h]
    rw [ih]
    · congr 1
      funext w
      simp only [upd_apply, List.mem_cons]
      by_cases h1 : w ∈ rest <;> by_cases h2 : w = a <;> simp [h1, h2]
    · simp only [upd_apply]; split <;> simp [h]

/-- The group invariant holds after initialisation and replication. -/
theorem GrpInv.start {s : PSys Λ μ} (g : GInv C s) (devices : Nat) (cb : Nat) (kw : κ) (v0 : Nat)
    (rest : List Nat) (hnd : (v0 :: rest).Nodup)
    (h : (pstep H devices s (.init cb kw v0)).2 = .done)
    {cfg : Cfg} (hcfg : s.cfgs cb = some cfg) {chain : Nat} {L : Λ}
    (hreg : H.register (s.host.objs cfg.loader) cfg.cacheCount cfg.mbSize kw = .ok (chain, L))
    {r : Nat → List μ} (hr : ∀ k, nthAnswer H L chain k = .ok (r k))
    (hlen : ∀ k, (r k).length = cfg.cacheCount) :
    ∃ G : Grp μ χ, ∃ t, G.cb = cb ∧ G.chain = chain ∧ G.l = cfg.loader ∧ G.n = cfg.cacheCount ∧
      G.vs = v0 :: rest ∧ G.r = r ∧ G.WF C ∧
      GrpInv C G (prun H devices (pstep H devices s (.init cb kw v0)).1
        (rest.map (fun w => POp.copy v0 w))).1 (fun _ => 0) (fun _ => 0) (fun _ => 0) t 0 ∧
      (prun H devices (pstep H devices s (.init cb kw v0)).1
        (rest.map (fun w => POp.copy v0 w))).1.host.cached = s.host.cached ∧ t 0 = s.host.next ∧
      asked (prun H devices (pstep H devices s (.init cb kw v0)).1
        (rest.map (fun w => POp.copy v0 w))).1 cfg.loader chain = asked s cfg.loader chain + 1 := by
  obtain ⟨cfg', chain', L', resp, hcfg', hl, hreg', hresp, hs⟩ := init_spec C g devices cb kw v0 h
  rw [hcfg] at hcfg'; cases hcfg'
  rw [hreg] at hreg'
  simp only [Except.ok.injEq, Prod.mk.injEq] at hreg'
  obtain ⟨rfl, rfl⟩ := hreg'
  obtain ⟨x0, hx0⟩ := C.reg_known _ _ _ _ _ _ hreg
  have hview := nthLoader_view C hx0
  refine ⟨⟨cb, chain, cfg.loader, cfg.cacheCount, v0 :: rest, r, chainState C x0⟩,
    fun _ => s.host.next, rfl, rfl, rfl, rfl, rfl, rfl, ?_, ?_, ?_, rfl, ?_⟩
  · refine ⟨?_, hlen, g.cfgPos _ _ hcfg, hnd⟩
    intro k
    have h1 := (hview k).2
    rw [hr k] at h1
    show C.step (chainState C x0 k) = (Except.ok (r k), (C.step (chainState C x0 k)).2)
    rw [h1]
  · rw [hs, copies_spec devices v0 _ rest _ (upd_self _ _ _)]
    have hr0 : resp = r 0 := by
      have := hr 0
      simp only [nthAnswer, nthLoader, hresp, Except.ok.injEq] at this
      exact this
    have hnone := C.reg_new _ _ _ _ _ _ hreg
    refine ⟨hl, ?_, ?_, ?_, .inl rfl, ?_, ?_, ?_, ?_, ?_, ?_, ?_, ?_, ?_⟩
    · simp only [upd_self]
      rw [C.get_self _ _ _ hx0]; rfl
    · intro v hv
      rcases List.mem_cons.1 hv with rfl | hv
      · simp [upd_self, hr0]
      · simp [hv, hr0]
    · intro _ _; exact le_rfl
    · intro v hv
      exact ⟨by simp, Nat.zero_le _, fun _ => rfl⟩
    · dsimp only
      cases hq : s.host.requests cb chain with
      | none => simp
      | some τ =>
        obtain ⟨cfg', h1, h2⟩ := g.reqCfg _ _ _ hq
        rw [hcfg] at h1; cases h1
        rw [hnone] at h2; cases h2
    · intro k _; exact Nat.lt_succ_self _
    · intro i j hi hj _; omega
    · intro k hk; omega
    · cases hx : s.host.cached s.host.next with
      | none => rfl
      | some y =>
        have := (g.cacheTok _ y.1 y.2.1 y.2.2 hx).1
        omega
    · intro w st hw hv k _
      have hw1 : w ≠ v0 := fun e => hw (by simp [e])
      have hw2 : w ∉ rest := fun e => hw (List.mem_cons_of_mem _ e)
      simp only [if_neg hw2, upd_ne _ _ _ _ hw1] at hv
      have := g.varTok _ _ hv
      show st.token ≠ s.host.next
      omega
    · intro w st hw hv hl' e
      have hw1 : w ≠ v0 := fun e => hw (by simp [e])
      have hw2 : w ∉ rest := fun e => hw (List.mem_cons_of_mem _ e)
      simp only [if_neg hw2, upd_ne _ _ _ _ hw1] at hv
      obtain ⟨cfg', h1, h2⟩ := g.varCfg _ _ hv
      obtain ⟨cfg'', h3, h4⟩ := g.loaderCfg _ _ hl'
      rw [h1] at h3; cases h3
      simp only at e h4
      rw [h4, e, hnone] at h2
      cases h2
    · intro τ c r' τ' hc _ k _
      have := (g.cacheTok _ _ _ _ hc).2
      show τ' ≠ s.host.next
      omega
  · rw [hs, copies_spec devices v0 _ rest _ (upd_self _ _ _)]
  · rw [hs, copies_spec devices v0 _ rest _ (upd_self _ _ _)]
    simp [asked, List.count_append]

end JaxSgmc
