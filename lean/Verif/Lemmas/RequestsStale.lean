import Verif.Lemmas.Requests

/-! Helper lemmas: outdated tokens, released loaders. -/

namespace JaxSgmc

open Spec

variable {Λ κ μ χ : Type} {H : HostLoader Λ κ μ}

/-- Every token belongs to one chain of one callback. -/
def Owned (s : PSys Λ μ) (own : Nat → Nat × Nat) : Prop :=
  (∀ h st, s.vars h = some st → own st.token = (st.cb, st.chain)) ∧
  (∀ τ n r τ', s.host.cached τ = some (n, r, τ') → own τ' = own τ)

/-- The part of a step relevant for tokens: either nothing but loaders/objects change and `next` may
grow, or a variable is assigned, or a request is made by a variable. -/
theorem owned_request (C : Contract H χ) {s : PSys Λ μ} (g : GInv C s) {own : Nat → Nat × Nat}
    (ho : Owned s own) {h : Nat} {st : CacheState μ} (hv : s.vars h = some st) (dc : Nat)
    (strict : Bool) :
    ∃ own', Owned { s with host := (request H s.host st.chain st.token st.cb dc strict).2 } own' ∧
      (∀ τ, τ < s.host.next → own' τ = own τ) ∧
      ∀ r τ', (request H s.host st.chain st.token st.cb dc strict).1 = .ok (r, τ') →
        own' τ' = (st.cb, st.chain) := by
  have hst := ho.1 _ _ hv
  rcases request_cases (H := H) s.host st.chain st.token st.cb dc strict with
    ⟨n, r, τ', hc, he⟩ | ⟨hc, h1, h2, he⟩ | ⟨hc, hr, hl, he⟩ | ⟨hc, hr, l, e, hl, hg, he⟩ |
    ⟨hc, hr, l, r, hl, hg, he⟩ <;> rw [he]
  · have hτ := ho.2 _ _ _ _ hc
    refine ⟨own, ⟨ho.1, ?_⟩, fun _ _ => rfl, ?_⟩
    · intro a b c d hh
      simp only [upd_apply] at hh
      split at hh
      · split at hh
        · cases hh
        · simp only [Option.some.injEq, Prod.mk.injEq] at hh
          obtain ⟨-, -, rfl⟩ := hh
          subst a
          exact hτ
      · exact ho.2 _ _ _ _ hh
    · intro r' t' hh
      simp only [Except.ok.injEq, Prod.mk.injEq] at hh
      obtain ⟨-, rfl⟩ := hh
      rw [hτ, hst]
  · exact ⟨own, ho, fun _ _ => rfl, by intro r' t' hh; cases hh⟩
  · exact ⟨own, ho, fun _ _ => rfl, by intro r' t' hh; cases hh⟩
  · exact ⟨own, ho, fun _ _ => rfl, by intro r' t' hh; cases hh⟩
  · refine ⟨upd own s.host.next (st.cb, st.chain), ⟨?_, ?_⟩, ?_, ?_⟩
    · intro a b hb
      have := g.varTok _ _ hb
      rw [upd_ne _ _ _ _ (by omega)]
      exact ho.1 _ _ hb
    · intro a b c d hh
      have key : (a = st.token ∧ d = s.host.next) ∨ s.host.cached a = some (b, c, d) := by
        dsimp only at hh
        split at hh
        · simp only [upd_apply] at hh
          split at hh
          · left
            simp only [Option.some.injEq, Prod.mk.injEq] at hh
            exact ⟨by assumption, hh.2.2.symm⟩
          · right; exact hh
        · right; exact hh
      rcases key with ⟨rfl, rfl⟩ | hh
      · have := g.varTok _ _ hv
        rw [upd_self, upd_ne _ _ _ _ (by omega), hst]
      · have := g.cacheTok _ _ _ _ hh
        rw [upd_ne _ _ _ _ (by omega), upd_ne _ _ _ _ (by omega)]
        exact ho.2 _ _ _ _ hh
    · intro τ hτ
      exact upd_ne _ _ _ _ (by omega)
    · intro r' t' hh
      simp only [Except.ok.injEq, Prod.mk.injEq] at hh
      obtain ⟨-, rfl⟩ := hh
      exact upd_self _ _ _

theorem Owned.setVar {s : PSys Λ μ} {own : Nat → Nat × Nat} (ho : Owned s own) (h : Nat)
    (st : CacheState μ) (hst : own st.token = (st.cb, st.chain)) :
    Owned { s with vars := upd s.vars h (some st) } own := by
  refine ⟨?_, ho.2⟩
  intro a b hb
  simp only [upd_apply] at hb
  split at hb
  · cases hb; exact hst
  · exact ho.1 _ _ hb

theorem owned_step (C : Contract H χ) {s : PSys Λ μ} (g : GInv C s) {own : Nat → Nat × Nat}
    (ho : Owned s own) (devices : Nat) (op : POp κ) :
    ∃ own', Owned (pstep H devices s op).1 own' ∧ ∀ τ, τ < s.host.next → own' τ = own τ := by
  cases op with
  | setup l cc mb v =>
    refine ⟨own, ?_, fun _ _ => rfl⟩
    simp only [pstep, setupFn]
    split
    · exact ho
    · split <;> exact ho
  | init cb kw h =>
    by_cases hd : (pstep H devices s (.init cb kw h)).2 = .done
    · simp only [pstep, initFn] at hd ⊢
      cases hcfg : s.cfgs cb with
      | none => simp [hcfg] at hd
      | some cfg =>
        simp only [hcfg] at hd ⊢
        cases hr : H.register (s.host.objs cfg.loader) cfg.cacheCount cfg.mbSize kw with
        | error e => simp [hr] at hd
        | ok x =>
          obtain ⟨chain, L⟩ := x
          simp only [hr] at hd ⊢
          cases hl : s.host.loaders cb with
          | none => simp [hl] at hd
          | some l =>
            simp only [hl] at hd ⊢
            cases hg : (H.getBatches (upd s.host.objs cfg.loader L l) chain).1 with
            | error e => simp [hg] at hd
            | ok resp =>
              have ho' : Owned s (upd own s.host.next (cb, chain)) := by
                refine ⟨?_, ?_⟩
                · intro a b hb
                  have := g.varTok _ _ hb
                  rw [upd_ne _ _ _ _ (by omega)]
                  exact ho.1 _ _ hb
                · intro a b c d hh
                  have := g.cacheTok _ _ _ _ hh
                  rw [upd_ne _ _ _ _ (by omega), upd_ne _ _ _ _ (by omega)]
                  exact ho.2 _ _ _ _ hh
              refine ⟨upd own s.host.next (cb, chain), ?_, fun τ hτ => upd_ne _ _ _ _ (by omega)⟩
              exact Owned.setVar (s := PSys.mk { s.host with
                  objs := upd (upd s.host.objs cfg.loader L) l
                    (H.getBatches (upd s.host.objs cfg.loader L l) chain).2
                  next := s.host.next + 1
                  fetches := s.host.fetches ++ [(l, chain)] } s.cfgs s.vars) ⟨ho'.1, ho'.2⟩ h _
                (upd_self _ _ _)
    · refine ⟨own, ?_, fun _ _ => rfl⟩
      simp only [pstep, initFn] at hd ⊢
      cases hcfg : s.cfgs cb with
      | none => exact ho
      | some cfg =>
        simp only [hcfg] at hd ⊢
        cases hr : H.register (s.host.objs cfg.loader) cfg.cacheCount cfg.mbSize kw with
        | error e => exact ho
        | ok x =>
          obtain ⟨chain, L⟩ := x
          simp only [hr] at hd ⊢
          cases hl : s.host.loaders cb with
          | none => exact ho
          | some l =>
            simp only [hl] at hd ⊢
            cases hg : (H.getBatches (upd s.host.objs cfg.loader L l) chain).1 with
            | error e => exact ho
            | ok resp => simp [hg] at hd
  | copy a b =>
    refine ⟨own, ?_, fun _ _ => rfl⟩
    simp only [pstep]
    cases hv : s.vars a with
    | none => exact ho
    | some st => exact ho.setVar b st (ho.1 _ _ hv)
  | draw h dc =>
    cases hv : s.vars h with
    | none => exact ⟨own, by simp only [pstep, hv]; exact ho, fun _ _ => rfl⟩
    | some st =>
      rcases draw_cases (H := H) devices s h dc st hv with
        ⟨e, he⟩ | ⟨-, b, -, -, he⟩ | ⟨-, -, strict, e, host, hq, -, he⟩ |
        ⟨-, -, strict, r, tok, host, hq, -, ⟨-, he⟩ | ⟨b, -, he⟩⟩ <;> rw [he]
      · exact ⟨own, ho, fun _ _ => rfl⟩
      · exact ⟨own, ho.setVar h _ (ho.1 h st hv), fun _ _ => rfl⟩
      · obtain ⟨own', h1, h2, h3⟩ := owned_request C g ho hv dc strict
        rw [hq] at h1; exact ⟨own', h1, h2⟩
      · obtain ⟨own', h1, h2, h3⟩ := owned_request C g ho hv dc strict
        rw [hq] at h1; exact ⟨own', h1, h2⟩
      · obtain ⟨own', h1, h2, h3⟩ := owned_request C g ho hv dc strict
        rw [hq] at h1 h3
        exact ⟨own', h1.setVar h _ (h3 _ _ rfl), h2⟩
  | release cb =>
    refine ⟨own, ?_, fun _ _ => rfl⟩
    simp only [pstep]
    split <;> exact ho

theorem owned_run (C : Contract H χ) (devices : Nat) (ops : List (POp κ)) :
    ∀ {s : PSys Λ μ} {own : Nat → Nat × Nat}, GInv C s → Owned s own →
    ∃ own', Owned (prun H devices s ops).1 own' := by
  induction ops with
  | nil => intro s own g ho; exact ⟨own, ho⟩
  | cons op ops ih =>
    intro s own g ho
    obtain ⟨own', ho', -⟩ := owned_step C g ho devices op
    exact ih (g.step C devices op) ho'

theorem owned_reachable (C : Contract H χ) {devices : Nat} {objs : Nat → Λ} {s : PSys Λ μ}
    (h : PReachable H devices objs s) : ∃ own, Owned s own := by
  obtain ⟨ops, rfl⟩ := h
  refine owned_run C devices ops (own := fun _ => (0, 0)) (GInv.init C objs) ⟨?_, ?_⟩ <;>
    simp [pinit]

/-- The token `τ` of chain `chain` has been consumed. -/
structure Stale (s : PSys Λ μ) (cb chain τ : Nat) : Prop where
  cached : s.host.cached τ = none
  req : ∃ τ', s.host.requests cb chain = some τ' ∧ τ' ≠ τ
  lt : τ < s.host.next

theorem stale_step (C : Contract H χ) {s : PSys Λ μ} (g : GInv C s) {own : Nat → Nat × Nat}
    (ho : Owned s own) {cb chain τ : Nat} (hown : own τ = (cb, chain)) (hs : Stale s cb chain τ)
    (devices : Nat) (op : POp κ) : Stale (pstep H devices s op).1 cb chain τ := by
  cases op with
  | setup l cc mb v =>
    simp only [pstep, setupFn]
    split
    · exact hs
    · split
      · exact hs
      · exact ⟨hs.1, hs.2, Nat.lt_succ_of_lt hs.3⟩
  | init cb' kw h =>
    simp only [pstep, initFn]
    split
    · exact hs
    · split
      · exact hs
      · split
        · exact ⟨hs.1, hs.2, hs.3⟩
        · split
          · exact ⟨hs.1, hs.2, hs.3⟩
          · exact ⟨hs.1, hs.2, Nat.lt_succ_of_lt hs.3⟩
  | copy a b =>
    simp only [pstep]
    split
    · exact hs
    · exact ⟨hs.1, hs.2, hs.3⟩
  | draw h dc =>
    cases hv : s.vars h with
    | none => simp only [pstep, hv]; exact hs
    | some st =>
      have key : ∀ strict, Stale { s with
          host := (request H s.host st.chain st.token st.cb dc strict).2 } cb chain τ := by
        intro strict
        obtain ⟨τ', hτ', hne⟩ := hs.req
        rcases request_cases (H := H) s.host st.chain st.token st.cb dc strict with
          ⟨n, r, τ'', hc, he⟩ | ⟨hc, h1, h2, he⟩ | ⟨hc, hr, hl, he⟩ | ⟨hc, hr, l, e, hl, hg', he⟩ |
          ⟨hc, hr, l, r, hl, hg', he⟩ <;> rw [he]
        · refine ⟨?_, hs.2, hs.3⟩
          dsimp only
          rw [upd_ne _ _ _ _ (by rintro rfl; rw [hs.1] at hc; cases hc)]
          exact hs.1
        · exact hs
        · exact ⟨hs.1, hs.2, Nat.lt_succ_of_lt hs.3⟩
        · exact ⟨hs.1, hs.2, Nat.lt_succ_of_lt hs.3⟩
        · have hτst : τ ≠ st.token := by
            intro e
            have h1 := ho.1 _ _ hv
            rw [← e, hown] at h1
            simp only [Prod.mk.injEq] at h1
            rw [← h1.1, ← h1.2, hτ', ← e] at hr
            rcases hr with hr | hr
            · simp only [Option.some.injEq] at hr; exact hne hr
            · cases hr
          refine ⟨?_, ?_, Nat.lt_succ_of_lt hs.3⟩
          · dsimp only
            split
            · rw [upd_ne _ _ _ _ hτst]; exact hs.1
            · exact hs.1
          · have hnext : s.host.next ≠ τ := by have := hs.3; omega
            simp only [upd_apply]
            split
            · simp only [upd_apply]
              split
              · exact ⟨_, rfl, hnext⟩
              · subst cb; exact ⟨τ', hτ', hne⟩
            · exact ⟨τ', hτ', hne⟩
      rcases draw_cases (H := H) devices s h dc st hv with
        ⟨e, he⟩ | ⟨-, b, -, -, he⟩ | ⟨-, -, strict, e, host, hq, -, he⟩ |
        ⟨-, -, strict, r, tok, host, hq, -, ⟨-, he⟩ | ⟨b, -, he⟩⟩ <;> rw [he]
      · exact hs
      · exact ⟨hs.1, hs.2, hs.3⟩
      all_goals
        have := key strict
        rw [hq] at this
        exact ⟨this.1, this.2, this.3⟩
  | release cb' =>
    simp only [pstep]
    split
    · exact hs
    · exact ⟨hs.1, hs.2, hs.3⟩

theorem stale_run (C : Contract H χ) (devices : Nat) (ops : List (POp κ)) :
    ∀ {s : PSys Λ μ} {own : Nat → Nat × Nat} {cb chain τ : Nat}, GInv C s → Owned s own →
    own τ = (cb, chain) → Stale s cb chain τ →
    Stale (prun H devices s ops).1 cb chain τ ∧
      ∃ own', Owned (prun H devices s ops).1 own' ∧ own' τ = (cb, chain) := by
  induction ops with
  | nil => intro s own cb chain τ g ho hown hs; exact ⟨hs, own, ho, hown⟩
  | cons op ops ih =>
    intro s own cb chain τ g ho hown hs
    obtain ⟨own', ho', hk⟩ := owned_step C g ho devices op
    exact ih (g.step C devices op) ho' (by rw [hk _ hs.lt]; exact hown)
      (stale_step C g ho hown hs devices op)

/-- A refresh with a consumed token. -/
theorem stale_draw (devices : Nat) {s : PSys Λ μ} {h dc : Nat} {st : CacheState μ}
    (hv : s.vars h = some st) (hs : Stale s st.cb st.chain st.token) (hl : st.line = st.count)
    (hdc : dc ≤ devices) :
    pstep H devices s (.draw h dc) = (s, .raised
      (if ((s.cfgs st.cb).elim false (·.verify)) then .runtimeError else .unboundLocalError)) := by
  simp only [pstep, hv]
  unfold batchFn
  rw [if_neg (by omega), if_pos hl]
  obtain ⟨τ', h1, h2⟩ := hs.req
  rcases request_cases (H := H) s.host st.chain st.token st.cb dc
      ((s.cfgs st.cb).elim false (·.verify)) with
    ⟨n, r, τ'', hc, he⟩ | ⟨hc, h1', h2', he⟩ | ⟨hc, hr, hl, he⟩ | ⟨hc, hr, l, e, hl, hg', he⟩ |
    ⟨hc, hr, l, r, hl, hg', he⟩
  · rw [hs.cached] at hc; cases hc
  · rw [he]
  all_goals
    rw [h1] at hr
    rcases hr with hr | hr
    · simp only [Option.some.injEq] at hr; exact absurd hr h2
    · cases hr

/-- After release the callback never gets a loader again. -/
theorem released_step (devices : Nat) {s : PSys Λ μ} {cb : Nat} (hlt : cb < s.host.next)
    (hl : s.host.loaders cb = none) (op : POp κ) :
    cb < (pstep H devices s op).1.host.next ∧ (pstep H devices s op).1.host.loaders cb = none := by
  cases op with
  | setup l cc mb v =>
    simp only [pstep, setupFn]
    split
    · exact ⟨hlt, hl⟩
    · split
      · exact ⟨hlt, hl⟩
      · exact ⟨Nat.lt_succ_of_lt hlt, (upd_ne _ _ _ _ (by omega)).trans hl⟩
  | init cb' kw h =>
    simp only [pstep, initFn]
    split
    · exact ⟨hlt, hl⟩
    · split
      · exact ⟨hlt, hl⟩
      · split
        · exact ⟨hlt, hl⟩
        · split
          · exact ⟨hlt, hl⟩
          · exact ⟨Nat.lt_succ_of_lt hlt, hl⟩
  | copy a b => simp only [pstep]; split <;> exact ⟨hlt, hl⟩
  | draw h dc =>
    cases hv : s.vars h with
    | none => simp only [pstep, hv]; exact ⟨hlt, hl⟩
    | some st =>
      have key : ∀ strict, cb < (request H s.host st.chain st.token st.cb dc strict).2.next ∧
          (request H s.host st.chain st.token st.cb dc strict).2.loaders cb = none := by
        intro strict
        rcases request_cases (H := H) s.host st.chain st.token st.cb dc strict with
          ⟨n, r, τ'', hc, he⟩ | ⟨hc, h1, h2, he⟩ | ⟨hc, hr, hl', he⟩ | ⟨hc, hr, l, e, hl', hg', he⟩ |
          ⟨hc, hr, l, r, hl', hg', he⟩ <;> rw [he]
        · exact ⟨hlt, hl⟩
        · exact ⟨hlt, hl⟩
        · exact ⟨Nat.lt_succ_of_lt hlt, hl⟩
        · exact ⟨Nat.lt_succ_of_lt hlt, hl⟩
        · exact ⟨Nat.lt_succ_of_lt hlt, hl⟩
      rcases draw_cases (H := H) devices s h dc st hv with
        ⟨e, he⟩ | ⟨-, b, -, -, he⟩ | ⟨-, -, strict, e, host, hq, -, he⟩ |
        ⟨-, -, strict, r, tok, host, hq, -, ⟨-, he⟩ | ⟨b, -, he⟩⟩ <;> rw [he]
      · exact ⟨hlt, hl⟩
      · exact ⟨hlt, hl⟩
      all_goals
        have := key strict
        rw [hq] at this
        exact this
  | release cb' =>
    simp only [pstep]
    split
    · exact ⟨hlt, hl⟩
    · refine ⟨hlt, ?_⟩
      simp only [upd_apply]; split
      · rfl
      · exact hl

theorem released_run (devices : Nat) (ops : List (POp κ)) :
    ∀ {s : PSys Λ μ} {cb : Nat}, cb < s.host.next → s.host.loaders cb = none →
    (prun H devices s ops).1.host.loaders cb = none := by
  induction ops with
  | nil => intro s cb _ h; exact h
  | cons op ops ih =>
    intro s cb h1 h2
    obtain ⟨h3, h4⟩ := released_step devices h1 h2 op
    exact ih h3 h4

/-- Without announced replicas nothing is cached. -/
theorem nocache_step (devices : Nat) {s : PSys Λ μ} (hc : ∀ τ, s.host.cached τ = none) (op : POp κ)
    (hop : ∀ h dc, op = .draw h dc → dc = 1) :
    ∀ τ, (pstep H devices s op).1.host.cached τ = none := by
  cases op with
  | setup l cc mb v =>
    simp only [pstep, setupFn]
    split
    · exact hc
    · split <;> exact hc
  | init cb' kw h =>
    simp only [pstep, initFn]
    split
    · exact hc
    · split
      · exact hc
      · split
        · exact hc
        · split <;> exact hc
  | copy a b => simp only [pstep]; split <;> exact hc
  | draw h dc =>
    have hdc := hop h dc rfl
    subst hdc
    cases hv : s.vars h with
    | none => simp only [pstep, hv]; exact hc
    | some st =>
      have key : ∀ strict τ, (request H s.host st.chain st.token st.cb 1 strict).2.cached τ = none := by
        intro strict
        rcases request_cases (H := H) s.host st.chain st.token st.cb 1 strict with
          ⟨n, r, τ'', hc', he⟩ | ⟨hc', h1, h2, he⟩ | ⟨hc', hr, hl', he⟩ |
          ⟨hc', hr, l, e, hl', hg', he⟩ | ⟨hc', hr, l, r, hl', hg', he⟩ <;> rw [he]
        · rw [hc] at hc'; cases hc'
        · exact hc
        · exact hc
        · exact hc
        · simpa using hc
      rcases draw_cases (H := H) devices s h 1 st hv with
        ⟨e, he⟩ | ⟨-, b, -, -, he⟩ | ⟨-, -, strict, e, host, hq, -, he⟩ |
        ⟨-, -, strict, r, tok, host, hq, -, ⟨-, he⟩ | ⟨b, -, he⟩⟩ <;> rw [he]
      · exact hc
      · exact hc
      all_goals
        have := key strict
        rw [hq] at this
        exact this
  | release cb' =>
    simp only [pstep]
    split <;> exact hc

theorem nocache_run (devices : Nat) (ops : List (POp κ)) (hops : ∀ h dc, POp.draw h dc ∈ ops → dc = 1) :
    ∀ {s : PSys Λ μ}, (∀ τ, s.host.cached τ = none) →
    ∀ τ, (prun H devices s ops).1.host.cached τ = none := by
  induction ops with
  | nil => intro s h; exact h
  | cons op ops ih =>
    intro s h
    exact ih (fun a b hm => hops a b (List.mem_cons_of_mem _ hm))
      (nocache_step devices h op (fun a b e => hops a b (by rw [e]; exact List.mem_cons_self)))

end JaxSgmc
