import Verif.Spec.Requests
import Mathlib.Tactic.Ring

/-! Helper lemmas for the data request protocol. -/

namespace JaxSgmc

open Spec

variable {Λ κ μ χ : Type} {H : HostLoader Λ κ μ} (C : Contract H χ)

@[simp] theorem upd_self {α : Type} (f : Nat → α) (k : Nat) (v : α) : upd f k v k = v := by simp [upd]
@[simp] theorem upd_ne {α : Type} (f : Nat → α) (k i : Nat) (v : α) (h : i ≠ k) :
    upd f k v i = f i := by simp [upd, h]
theorem upd_apply {α : Type} (f : Nat → α) (k i : Nat) (v : α) :
    upd f k v i = if i = k then v else f i := rfl

/-- Global invariant of all reachable states. -/
structure GInv (s : PSys Λ μ) : Prop where
  loaderCfg : ∀ cb l, s.host.loaders cb = some l → ∃ cfg, s.cfgs cb = some cfg ∧ cfg.loader = l
  cfgLt : ∀ cb cfg, s.cfgs cb = some cfg → cb < s.host.next
  cfgPos : ∀ cb cfg, s.cfgs cb = some cfg → 0 < cfg.cacheCount
  varTok : ∀ h st, s.vars h = some st → st.token < s.host.next
  varCfg : ∀ h st, s.vars h = some st →
    ∃ cfg, s.cfgs st.cb = some cfg ∧ (C.view (s.host.objs cfg.loader) st.chain).isSome
  reqTok : ∀ cb c τ, s.host.requests cb c = some τ → τ < s.host.next
  reqCfg : ∀ cb c τ, s.host.requests cb c = some τ →
    ∃ cfg, s.cfgs cb = some cfg ∧ (C.view (s.host.objs cfg.loader) c).isSome
  cacheTok : ∀ τ n r τ', s.host.cached τ = some (n, r, τ') → τ < s.host.next ∧ τ' < s.host.next

/-- Known chains stay known under `get_batches`. -/
theorem Spec.Contract.get_isSome (L : Λ) (c c' : Nat) (h : (C.view L c').isSome) :
    (C.view (H.getBatches L c).2 c').isSome := by
  by_cases hc : c' = c
  · subst hc
    obtain ⟨x, hx⟩ := Option.isSome_iff_exists.1 h
    rw [C.get_self L c' x hx]; rfl
  · rw [C.get_other L c c' hc]; exact h

theorem Spec.Contract.reg_isSome {L L' : Λ} {cs mb : Nat} {kw : κ} {c : Nat}
    (hr : H.register L cs mb kw = .ok (c, L')) (c' : Nat) (h : (C.view L c').isSome) :
    (C.view L' c').isSome := by
  by_cases hc : c' = c
  · subst hc
    obtain ⟨x, hx⟩ := C.reg_known _ _ _ _ _ _ hr
    rw [hx]; rfl
  · rw [C.reg_other _ _ _ _ _ _ hr c' hc]; exact h

/-- Objects with an updated loader: known chains stay known. -/
theorem Spec.Contract.upd_get_isSome (objs : Nat → Λ) (l c l' c' : Nat)
    (h : (C.view (objs l') c').isSome) :
    (C.view (upd objs l (H.getBatches (objs l) c).2 l') c').isSome := by
  by_cases hl : l' = l
  · subst hl; rw [upd_self]; exact C.get_isSome _ _ _ h
  · rw [upd_ne _ _ _ _ hl]; exact h

theorem Spec.Contract.upd_reg_isSome (objs : Nat → Λ) (l : Nat) {L' : Λ} {cs mb : Nat} {kw : κ} {c : Nat}
    (hr : H.register (objs l) cs mb kw = .ok (c, L')) (l' c' : Nat)
    (h : (C.view (objs l') c').isSome) :
    (C.view (upd objs l L' l') c').isSome := by
  by_cases hl : l' = l
  · subst hl; rw [upd_self]; exact C.reg_isSome hr _ h
  · rw [upd_ne _ _ _ _ hl]; exact h

/-- The three outcomes of `request` (`_Requests.__call__`). -/
theorem request_cases (s : Host Λ μ) (chain tok cb dc : Nat) (strict : Bool) :
    (∃ n r τ', s.cached tok = some (n, r, τ') ∧
      request H s chain tok cb dc strict = (.ok (r, τ'),
        { s with cached := upd s.cached tok (if n = 1 then none else some (n - 1, r, τ')) })) ∨
    (s.cached tok = none ∧ s.requests cb chain ≠ some tok ∧ s.requests cb chain ≠ none ∧
      request H s chain tok cb dc strict =
        (.error (if strict then .runtimeError else .unboundLocalError), s)) ∨
    (s.cached tok = none ∧ (s.requests cb chain = some tok ∨ s.requests cb chain = none) ∧
      s.loaders cb = none ∧
      request H s chain tok cb dc strict = (.error .keyError, { s with next := s.next + 1 })) ∨
    (s.cached tok = none ∧ (s.requests cb chain = some tok ∨ s.requests cb chain = none) ∧
      ∃ l e, s.loaders cb = some l ∧ (H.getBatches (s.objs l) chain).1 = .error e ∧
      request H s chain tok cb dc strict = (.error e,
        { s with next := s.next + 1, objs := upd s.objs l (H.getBatches (s.objs l) chain).2,
                 fetches := s.fetches ++ [(l, chain)] })) ∨
    (s.cached tok = none ∧ (s.requests cb chain = some tok ∨ s.requests cb chain = none) ∧
      ∃ l r, s.loaders cb = some l ∧ (H.getBatches (s.objs l) chain).1 = .ok r ∧
      request H s chain tok cb dc strict = (.ok (r, s.next),
        { s with next := s.next + 1, objs := upd s.objs l (H.getBatches (s.objs l) chain).2,
                 fetches := s.fetches ++ [(l, chain)],
                 requests := upd s.requests cb (upd (s.requests cb) chain (some s.next)),
                 cached := if dc ≠ 1 then
                   upd s.cached tok (some ((dc : Int) - 1, r, s.next)) else s.cached })) := by
  unfold request
  cases hc : s.cached tok with
  | some x =>
    obtain ⟨n, r, τ'⟩ := x
    left
    refine ⟨n, r, τ', rfl, ?_⟩
    by_cases h1 : n = 1 <;> simp [h1]
  | none =>
    right
    by_cases hreq : s.requests cb chain ≠ some tok ∧ s.requests cb chain ≠ none
    · left
      refine ⟨rfl, hreq.1, hreq.2, ?_⟩
      rw [if_pos hreq]
      cases strict <;> rfl
    · right
      have hreq' : s.requests cb chain = some tok ∨ s.requests cb chain = none := by
        by_cases h : s.requests cb chain = some tok
        · exact .inl h
        · right; by_contra h2; exact hreq ⟨h, h2⟩
      rw [if_neg hreq]
      unfold fetch
      cases hl : s.loaders cb with
      | none => left; exact ⟨rfl, hreq', rfl, by simp [hl]⟩
      | some l =>
        right
        cases hg : (H.getBatches (s.objs l) chain).1 with
        | error e => left; exact ⟨rfl, hreq', l, e, rfl, hg, by simp [hl, hg]⟩
        | ok r =>
          right
          refine ⟨rfl, hreq', l, r, rfl, hg, ?_⟩
          by_cases hd : dc = 1 <;> simp [hl, hg, hd]

/-- Summary of `batch_fn`. -/
theorem draw_cases (devices : Nat) (s : PSys Λ μ) (h dc : Nat) (st : CacheState μ)
    (hv : s.vars h = some st) :
    (∃ e, pstep H devices s (.draw h dc) = (s, .raised e)) ∨
    (st.line ≠ st.count ∧ ∃ b, st.batches[st.line % st.count]? = some b ∧ dc ≤ devices ∧
      pstep H devices s (.draw h dc) =
        ({ s with vars := upd s.vars h (some { st with line := st.line % st.count + 1 }) },
          .batch b)) ∨
    (st.line = st.count ∧ dc ≤ devices ∧ ∃ strict e host,
      request H s.host st.chain st.token st.cb dc strict = (.error e, host) ∧
      strict = ((s.cfgs st.cb).elim false (·.verify)) ∧
      pstep H devices s (.draw h dc) = ({ s with host := host }, .raised e)) ∨
    (st.line = st.count ∧ dc ≤ devices ∧ ∃ strict r tok host,
      request H s.host st.chain st.token st.cb dc strict = (.ok (r, tok), host) ∧
      strict = ((s.cfgs st.cb).elim false (·.verify)) ∧
      ((r[0]? = none ∧
        pstep H devices s (.draw h dc) = ({ s with host := host }, .raised .indexError)) ∨
       ∃ b, r[0]? = some b ∧ pstep H devices s (.draw h dc) =
        ({ s with host := host, vars := upd s.vars h (some
            { st with batches := r, line := 1, token := tok }) },
          .batch b))) := by
  simp only [pstep, hv]
  unfold batchFn
  by_cases hd : dc > devices
  · left; exact ⟨.valueError, by simp [if_pos hd]⟩
  · rw [if_neg hd]
    by_cases hl : st.line = st.count
    · right; right
      rw [if_pos hl]
      generalize hs : ((s.cfgs st.cb).elim false fun x => x.verify) = strict
      rcases hq : request H s.host st.chain st.token st.cb dc strict with ⟨e | ⟨r, tok⟩, host⟩
      · left
        exact ⟨hl, by omega, strict, e, host, hq, rfl, rfl⟩
      · right
        refine ⟨hl, by omega, strict, r, tok, host, hq, rfl, ?_⟩
        cases hb : r[0]? with
        | none => left; exact ⟨rfl, by simp [hb]⟩
        | some b => right; exact ⟨b, rfl, by simp [hb]⟩
    · rw [if_neg hl]
      cases hb : st.batches[st.line % st.count]? with
      | none => left; exact ⟨.indexError, by simp [hb]⟩
      | some b => right; left; exact ⟨hl, b, rfl, by omega, by simp [hb]⟩

/-- Effect of a request on the invariant. -/
theorem GInv.request {s : PSys Λ μ} (g : GInv C s) (chain tok cb dc : Nat) (strict : Bool)
    (htok : tok < s.host.next) :
    GInv C { s with host := (request H s.host chain tok cb dc strict).2 } ∧
    (∀ r τ', (JaxSgmc.request H s.host chain tok cb dc strict).1 = .ok (r, τ') →
      τ' < (JaxSgmc.request H s.host chain tok cb dc strict).2.next) ∧
    s.host.next ≤ (JaxSgmc.request H s.host chain tok cb dc strict).2.next := by
  rcases request_cases (H := H) s.host chain tok cb dc strict with
    ⟨n, r, τ', hc, he⟩ | ⟨hc, h1, h2, he⟩ | ⟨hc, hr, hl, he⟩ | ⟨hc, hr, l, e, hl, hg, he⟩ |
    ⟨hc, hr, l, r, hl, hg, he⟩ <;> rw [he]
  · refine ⟨⟨g.loaderCfg, g.cfgLt, g.cfgPos, g.varTok, g.varCfg, g.reqTok, g.reqCfg, ?_⟩, ?_, le_refl _⟩
    · intro τ n' r' τ'' h
      simp only [upd_apply] at h
      split at h
      · rename_i hτ
        split at h
        · cases h
        · simp only [Option.some.injEq, Prod.mk.injEq] at h
          obtain ⟨-, -, rfl⟩ := h
          exact ⟨hτ ▸ htok, (g.cacheTok _ _ _ _ hc).2⟩
      · exact g.cacheTok _ _ _ _ h
    · intro r' t' h
      simp only [Except.ok.injEq, Prod.mk.injEq] at h
      obtain ⟨-, rfl⟩ := h
      exact (g.cacheTok _ _ _ _ hc).2
  · refine ⟨g, ?_, le_refl _⟩
    intro r' t' h
    cases h
  · refine ⟨⟨g.loaderCfg, ?_, g.cfgPos, ?_, g.varCfg, ?_, g.reqCfg, ?_⟩, ?_, Nat.le_succ _⟩
    · intro a b h; have := g.cfgLt a b h; show _ < _ + 1; omega
    · intro a b h; have := g.varTok a b h; show _ < _ + 1; omega
    · intro a b c h; have := g.reqTok a b c h; show _ < _ + 1; omega
    · intro a b c d h; have := g.cacheTok a b c d h; show _ < _ + 1 ∧ _ < _ + 1; omega
    · intro r' t' h
      cases h
  · refine ⟨⟨g.loaderCfg, ?_, g.cfgPos, ?_, ?_, ?_, ?_, ?_⟩, ?_, Nat.le_succ _⟩
    · intro a b h; have := g.cfgLt a b h; show _ < _ + 1; omega
    · intro a b h; have := g.varTok a b h; show _ < _ + 1; omega
    · intro a st h
      obtain ⟨cfg, h1, h2⟩ := g.varCfg a st h
      exact ⟨cfg, h1, C.upd_get_isSome _ _ _ _ _ h2⟩
    · intro a b c h; have := g.reqTok a b c h; show _ < _ + 1; omega
    · intro a b c h
      obtain ⟨cfg, h1, h2⟩ := g.reqCfg a b c h
      exact ⟨cfg, h1, C.upd_get_isSome _ _ _ _ _ h2⟩
    · intro a b c d h; have := g.cacheTok a b c d h; show _ < _ + 1 ∧ _ < _ + 1; omega
    · intro r' t' h
      cases h
  · refine ⟨⟨g.loaderCfg, ?_, g.cfgPos, ?_, ?_, ?_, ?_, ?_⟩, ?_, Nat.le_succ _⟩
    · intro a b h; have := g.cfgLt a b h; show _ < _ + 1; omega
    · intro a b h; have := g.varTok a b h; show _ < _ + 1; omega
    · intro a st h
      obtain ⟨cfg, h1, h2⟩ := g.varCfg a st h
      exact ⟨cfg, h1, C.upd_get_isSome _ _ _ _ _ h2⟩
    · intro a b c h
      simp only [upd_apply] at h
      show c < s.host.next + 1
      split at h
      · simp only [upd_apply] at h
        split at h
        · simp only [Option.some.injEq] at h; omega
        · have := g.reqTok _ _ _ h; omega
      · have := g.reqTok _ _ _ h; omega
    · intro a b c h
      have key : (a = cb ∧ b = chain) ∨ s.host.requests a b = some c := by
        simp only [upd_apply] at h
        split at h
        · simp only [upd_apply] at h
          split at h
          · left; constructor <;> assumption
          · right; subst a; exact h
        · right; exact h
      rcases key with ⟨rfl, rfl⟩ | h
      · obtain ⟨cfg, h1, rfl⟩ := g.loaderCfg _ _ hl
        refine ⟨cfg, h1, ?_⟩
        simp only [upd_self]
        cases hv : C.view (s.host.objs cfg.loader) b with
        | none =>
          obtain ⟨⟨e, he⟩, -⟩ := C.get_unknown _ _ hv
          rw [he] at hg; cases hg
        | some x => rw [C.get_self _ _ _ hv]; rfl
      · obtain ⟨cfg, h1, h2⟩ := g.reqCfg a b c h
        exact ⟨cfg, h1, C.upd_get_isSome _ _ _ _ _ h2⟩
    · intro a b c d h
      show a < s.host.next + 1 ∧ d < s.host.next + 1
      have key : (a = tok ∧ d = s.host.next) ∨ s.host.cached a = some (b, c, d) := by
        dsimp only at h
        split at h
        · simp only [upd_apply] at h
          split at h
          · left
            simp only [Option.some.injEq, Prod.mk.injEq] at h
            exact ⟨by assumption, h.2.2.symm⟩
          · right; exact h
        · right; exact h
      rcases key with ⟨rfl, rfl⟩ | h
      · omega
      · have := g.cacheTok a b c d h; omega
    · intro r' t' h
      simp only [Except.ok.injEq, Prod.mk.injEq] at h
      show _ < _ + 1
      omega

/-- Assigning a data state to a variable. -/
theorem GInv.setVar {s : PSys Λ μ} (g : GInv C s) (h : Nat) (st : CacheState μ)
    (htok : st.token < s.host.next)
    (hcfg : ∃ cfg, s.cfgs st.cb = some cfg ∧ (C.view (s.host.objs cfg.loader) st.chain).isSome) :
    GInv C { s with vars := upd s.vars h (some st) } := by
  refine ⟨g.loaderCfg, g.cfgLt, g.cfgPos, ?_, ?_, g.reqTok, g.reqCfg, g.cacheTok⟩
  · intro a b hb
    simp only [upd_apply] at hb
    split at hb
    · cases hb; exact htok
    · exact g.varTok a b hb
  · intro a b hb
    simp only [upd_apply] at hb
    split at hb
    · cases hb; exact hcfg
    · exact g.varCfg a b hb

/-- The invariant is preserved by every operation. -/
theorem GInv.step {s : PSys Λ μ} (g : GInv C s) (devices : Nat) (op : POp κ) :
    GInv C (pstep H devices s op).1 := by
  cases op with
  | setup l cc mb v =>
    simp only [pstep, setupFn]
    split
    · exact g
    · split
      · exact g
      · rename_i hpos
        refine ⟨?_, ?_, ?_, ?_, ?_, ?_, ?_, ?_⟩
        · intro cb l' h
          simp only [upd_apply] at h ⊢
          split at h
          · cases h
            rename_i hcb
            exact ⟨_, by rw [if_pos hcb], rfl⟩
          · rename_i hcb
            obtain ⟨cfg, h1, h2⟩ := g.loaderCfg _ _ h
            exact ⟨cfg, by rw [if_neg hcb]; exact h1, h2⟩
        · intro a b h
          simp only [upd_apply] at h
          show a < s.host.next + 1
          split at h
          · omega
          · have := g.cfgLt a b h; omega
        · intro a b h
          simp only [upd_apply] at h
          split at h
          · cases h; show 0 < cc.toNat; omega
          · exact g.cfgPos a b h
        · intro a b h; have := g.varTok a b h; show _ < _ + 1; omega
        · intro a b h
          obtain ⟨cfg, h1, h2⟩ := g.varCfg a b h
          have := g.cfgLt _ _ h1
          exact ⟨cfg, by simp only [upd_apply]; rw [if_neg (by omega)]; exact h1, h2⟩
        · intro a b c h; have := g.reqTok a b c h; show _ < _ + 1; omega
        · intro a b c h
          obtain ⟨cfg, h1, h2⟩ := g.reqCfg a b c h
          have := g.cfgLt _ _ h1
          exact ⟨cfg, by simp only [upd_apply]; rw [if_neg (by omega)]; exact h1, h2⟩
        · intro a b c d h; have := g.cacheTok a b c d h; show _ < _ + 1 ∧ _ < _ + 1; omega
  | init cb kw h =>
    simp only [pstep, initFn]
    cases hcfg : s.cfgs cb with
    | none => exact g
    | some cfg =>
      simp only
      cases hr : H.register (s.host.objs cfg.loader) cfg.cacheCount cfg.mbSize kw with
      | error e => exact g
      | ok x =>
        obtain ⟨chain, obj⟩ := x
        simp only
        have g1 : GInv C { s with host := { s.host with objs := upd s.host.objs cfg.loader obj } } := by
          refine ⟨g.loaderCfg, g.cfgLt, g.cfgPos, g.varTok, ?_, g.reqTok, ?_, g.cacheTok⟩
          · intro a b hb
            obtain ⟨cfg', h1, h2⟩ := g.varCfg a b hb
            exact ⟨cfg', h1, C.upd_reg_isSome _ _ hr _ _ h2⟩
          · intro a b c hb
            obtain ⟨cfg', h1, h2⟩ := g.reqCfg a b c hb
            exact ⟨cfg', h1, C.upd_reg_isSome _ _ hr _ _ h2⟩
        cases hl : s.host.loaders cb with
        | none => exact g1
        | some l =>
          simp only
          obtain ⟨cfg', hcfg', rfl⟩ := g.loaderCfg _ _ hl
          rw [hcfg] at hcfg'; cases hcfg'
          simp only [upd_self]
          have g2 : ∀ k, s.host.next ≤ k → GInv C { s with host := { s.host with
              objs := upd (upd s.host.objs cfg.loader obj) cfg.loader (H.getBatches obj chain).2
              next := k
              fetches := s.host.fetches ++ [(cfg.loader, chain)] } } := by
            intro k hk
            refine ⟨g.loaderCfg, ?_, g.cfgPos, ?_, ?_, ?_, ?_, ?_⟩
            · intro a b h; have := g.cfgLt a b h; show _ < k; omega
            · intro a b h; have := g.varTok a b h; show _ < k; omega
            · intro a b hb
              obtain ⟨cfg', h1, h2⟩ := g1.varCfg a b hb
              refine ⟨cfg', h1, ?_⟩
              have := C.upd_get_isSome (upd s.host.objs cfg.loader obj) cfg.loader chain _ _ h2
              rwa [upd_self] at this
            · intro a b c h; have := g.reqTok a b c h; show _ < k; omega
            · intro a b c hb
              obtain ⟨cfg', h1, h2⟩ := g1.reqCfg a b c hb
              refine ⟨cfg', h1, ?_⟩
              have := C.upd_get_isSome (upd s.host.objs cfg.loader obj) cfg.loader chain _ _ h2
              rwa [upd_self] at this
            · intro a b c d h; have := g.cacheTok a b c d h; show _ < k ∧ _ < k; omega
          cases hg : (H.getBatches obj chain).1 with
          | error e => exact g2 _ (le_refl _)
          | ok resp =>
            refine GInv.setVar C (g2 (s.host.next + 1) (by omega)) _ _ (Nat.lt_succ_self _) ?_
            refine ⟨cfg, hcfg, ?_⟩
            simp only [upd_self]
            obtain ⟨x, hx⟩ := C.reg_known _ _ _ _ _ _ hr
            rw [C.get_self _ _ _ hx]; rfl
  | copy h h' =>
    simp only [pstep]
    cases hv : s.vars h with
    | none => exact g
    | some st => exact g.setVar C _ _ (g.varTok _ _ hv) (g.varCfg _ _ hv)
  | draw h dc =>
    cases hv : s.vars h with
    | none => simp only [pstep, hv]; exact g
    | some st =>
      rcases draw_cases (H := H) devices s h dc st hv with
        ⟨e, he⟩ | ⟨-, b, -, -, he⟩ | ⟨-, -, strict, e, host, hq, -, he⟩ |
        ⟨-, -, strict, r, tok, host, hq, -, ⟨-, he⟩ | ⟨b, -, he⟩⟩ <;> rw [he]
      · exact g
      · exact g.setVar C h _ (g.varTok h st hv) (g.varCfg h st hv)
      · have := (g.request C st.chain st.token st.cb dc strict (g.varTok _ _ hv)).1
        rw [hq] at this; exact this
      · have := (g.request C st.chain st.token st.cb dc strict (g.varTok _ _ hv)).1
        rw [hq] at this; exact this
      · have := g.request C st.chain st.token st.cb dc strict (g.varTok _ _ hv)
        rw [hq] at this
        exact this.1.setVar C h _ (this.2.1 _ _ rfl) (this.1.varCfg h st hv)
  | release cb =>
    simp only [pstep]
    cases hl : s.host.loaders cb with
    | none => exact g
    | some l =>
      refine ⟨?_, g.cfgLt, g.cfgPos, g.varTok, g.varCfg, g.reqTok, g.reqCfg, g.cacheTok⟩
      intro a b h
      simp only [upd_apply] at h
      split at h
      · cases h
      · exact g.loaderCfg a b h

theorem GInv.init (objs : Nat → Λ) : GInv (μ := μ) C (pinit objs) := by
  constructor <;> simp [pinit]

theorem GInv.run {s : PSys Λ μ} (g : GInv C s) (devices : Nat) (ops : List (POp κ)) :
    GInv C (prun H devices s ops).1 := by
  induction ops generalizing s with
  | nil => exact g
  | cons op ops ih => exact ih (g.step C devices op)

theorem Spec.PReachable.ginv {devices : Nat} {objs : Nat → Λ} {s : PSys Λ μ}
    (h : PReachable H devices objs s) : GInv C s := by
  obtain ⟨ops, rfl⟩ := h
  exact (GInv.init C objs).run C devices ops

end JaxSgmc
