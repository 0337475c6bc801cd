import Verif.Model.Requests
import Verif.Model.FullData

/-!
# Translations between host data loaders
-/

namespace JaxSgmc

section
variable {Λ Λ' κ μ μ' : Type}

/-- Translation of a data state. -/
def CacheState.tr (g : μ → μ') (st : CacheState μ) : CacheState μ' :=
  { cb := st.cb, batches := st.batches.map g, count := st.count, line := st.line, chain := st.chain,
    token := st.token }

/-- Translation of the host. -/
def Host.tr (f : Λ → Λ') (g : μ → μ') (s : Host Λ μ) : Host Λ' μ' :=
  { objs := fun i => f (s.objs i), loaders := s.loaders, requests := s.requests,
    cached := fun t => (s.cached t).map (fun x => (x.1, x.2.1.map g, x.2.2)),
    next := s.next, fetches := s.fetches }

/-- Translation of a program state. -/
def PSys.tr (f : Λ → Λ') (g : μ → μ') (s : PSys Λ μ) : PSys Λ' μ' :=
  { host := s.host.tr f g, cfgs := s.cfgs, vars := fun v => (s.vars v).map (CacheState.tr g) }

/-- Translation of an outcome. -/
def POut.tr (g : μ → μ') : POut μ → POut μ'
  | .ready cb => .ready cb
  | .done => .done
  | .batch b => .batch (g b)
  | .raised e => .raised e

/-- `f` and `g` translate the loaders satisfying `V` and their batches. -/
structure HostHom (H : HostLoader Λ κ μ) (H' : HostLoader Λ' κ μ') (f : Λ → Λ') (g : μ → μ')
    (V : Λ → Prop) (W : μ → Prop) : Prop where
  obs : ∀ L, V L → H'.obsCount (f L) = H.obsCount L
  reg : ∀ L cs mb kw, V L → H'.register (f L) cs mb kw = (H.register L cs mb kw).map (fun r => (r.1, f r.2))
  regV : ∀ L cs mb kw c L', V L → H.register L cs mb kw = .ok (c, L') → V L'
  get : ∀ L c, V L → H'.getBatches (f L) c =
    ((H.getBatches L c).1.map (List.map g), f (H.getBatches L c).2)
  getV : ∀ L c, V L → V (H.getBatches L c).2
  getW : ∀ L c bs, V L → (H.getBatches L c).1 = .ok bs → ∀ b ∈ bs, W b

/-- All loader objects satisfy `V`, all cached batches `W`. -/
structure HomInv (V : Λ → Prop) (W : μ → Prop) (s : Host Λ μ) : Prop where
  objs : ∀ i, V (s.objs i)
  cached : ∀ t x, s.cached t = some x → ∀ b ∈ x.2.1, W b

/-- All loader objects satisfy `V`, all batches in the program `W`. -/
structure SInv (V : Λ → Prop) (W : μ → Prop) (s : PSys Λ μ) : Prop where
  host : HomInv V W s.host
  held : ∀ h st, s.vars h = some st → ∀ b ∈ st.batches, W b

theorem upd_all {α : Type} {P : α → Prop} {m : Nat → α} (h : ∀ i, P (m i)) (k : Nat) {v : α} (hv : P v) :
    ∀ i, P (upd m k v i) := by
  intro i
  unfold upd
  split
  · exact hv
  · exact h i

theorem upd_some {α : Type} {P : α → Prop} {m : Nat → Option α} (h : ∀ i x, m i = some x → P x) (k : Nat)
    {v : Option α} (hv : ∀ x, v = some x → P x) : ∀ i x, upd m k v i = some x → P x := by
  intro i
  unfold upd
  split
  · exact hv
  · exact h i

theorem upd_tr {α β : Type} (f : α → β) (m : Nat → α) (k : Nat) (v : α) :
    (fun i => f (upd m k v i)) = upd (fun i => f (m i)) k (f v) := by
  funext i
  unfold upd
  split <;> rfl

variable {H : HostLoader Λ κ μ} {H' : HostLoader Λ' κ μ'} {f : Λ → Λ'} {g : μ → μ'} {V : Λ → Prop} {W : μ → Prop}

theorem fetch_tr (hh : HostHom H H' f g V W) (s : Host Λ μ) (hv : HomInv V W s) (chain tok cb dc : Nat) :
    fetch H' (s.tr f g) chain tok cb dc =
      ((fetch H s chain tok cb dc).1.map (fun r => (r.1.map g, r.2)), (fetch H s chain tok cb dc).2.tr f g) ∧
    HomInv V W (fetch H s chain tok cb dc).2 ∧
    ∀ r, (fetch H s chain tok cb dc).1 = .ok r → ∀ b ∈ r.1, W b := by
  unfold fetch
  dsimp only [Host.tr]
  cases hl : s.loaders cb with
  | none => exact ⟨rfl, ⟨hv.objs, hv.cached⟩, fun r h => by simp at h⟩
  | some l =>
    dsimp only
    have hg := hh.get (s.objs l) chain (hv.objs l)
    have hgv := hh.getV (s.objs l) chain (hv.objs l)
    have hgw := hh.getW (s.objs l) chain
    rw [hg]
    have hobjs := upd_all hv.objs l hgv
    cases hr : (H.getBatches (s.objs l) chain).1 with
    | error e =>
      refine ⟨?_, ⟨hobjs, hv.cached⟩, fun r h => by simp at h⟩
      simp only [Except.map, upd_tr]
    | ok resp =>
      have hw := hgw resp (hv.objs l) hr
      dsimp only [Except.map]
      by_cases hdc : dc ≠ 1
      · rw [if_pos hdc, if_pos hdc]
        refine ⟨?_, ⟨hobjs, upd_some hv.cached _ ?_⟩, ?_⟩
        · simp only [upd_tr (fun x : Option (Int × List μ × Nat) => x.map (fun x => (x.1, x.2.1.map g, x.2.2))),
            upd_tr f, Option.map_some]
        · intro x hx
          simp only [Option.some.injEq] at hx
          subst hx
          exact hw
        · intro r h
          simp only [Except.ok.injEq] at h
          subst h
          exact hw
      · rw [if_neg hdc, if_neg hdc]
        refine ⟨?_, ⟨hobjs, hv.cached⟩, ?_⟩
        · simp only [upd_tr]
        · intro r h
          simp only [Except.ok.injEq] at h
          subst h
          exact hw

theorem request_tr (hh : HostHom H H' f g V W) (s : Host Λ μ) (hv : HomInv V W s) (chain tok cb dc : Nat)
    (strict : Bool) :
    request H' (s.tr f g) chain tok cb dc strict =
      ((request H s chain tok cb dc strict).1.map (fun r => (r.1.map g, r.2)),
        (request H s chain tok cb dc strict).2.tr f g) ∧
    HomInv V W (request H s chain tok cb dc strict).2 ∧
    ∀ r, (request H s chain tok cb dc strict).1 = .ok r → ∀ b ∈ r.1, W b := by
  unfold request
  have hc : (s.tr f g).cached tok = (s.cached tok).map (fun x => (x.1, x.2.1.map g, x.2.2)) := rfl
  have hq : (s.tr f g).requests = s.requests := rfl
  rw [hc, hq]
  cases hs : s.cached tok with
  | some x =>
    obtain ⟨counter, resp, newTok⟩ := x
    have hw := hv.cached tok _ hs
    dsimp only [Option.map_some] at hw ⊢
    by_cases h1 : counter = 1
    · rw [if_pos h1, if_pos h1]
      refine ⟨?_, ⟨hv.objs, upd_some hv.cached _ (by simp)⟩, ?_⟩
      · simp only [Except.map, Host.tr,
          upd_tr (fun x : Option (Int × List μ × Nat) => x.map (fun x => (x.1, x.2.1.map g, x.2.2))), Option.map_none]
      · intro r h
        simp only [Except.ok.injEq] at h
        subst h
        exact hw
    · rw [if_neg h1, if_neg h1]
      refine ⟨?_, ⟨hv.objs, upd_some hv.cached _ ?_⟩, ?_⟩
      · simp only [Except.map, Host.tr,
          upd_tr (fun x : Option (Int × List μ × Nat) => x.map (fun x => (x.1, x.2.1.map g, x.2.2))), Option.map_some]
      · intro x hx
        simp only [Option.some.injEq] at hx
        subst hx
        exact hw
      · intro r h
        simp only [Except.ok.injEq] at h
        subst h
        exact hw
  | none =>
    dsimp only [Option.map_none]
    by_cases h1 : s.requests cb chain ≠ some tok ∧ s.requests cb chain ≠ none
    · rw [if_pos h1, if_pos h1]
      cases strict <;> exact ⟨rfl, hv, fun r h => by simp at h⟩
    · rw [if_neg h1, if_neg h1]
      exact fetch_tr hh s hv chain tok cb dc

theorem batchFn_tr (hh : HostHom H H' f g V W) (devices : Nat) (s : Host Λ μ) (hv : HomInv V W s)
    (st : CacheState μ) (hst : ∀ b ∈ st.batches, W b) (dc : Nat) (verify : Bool) :
    batchFn H' devices (s.tr f g) (st.tr g) dc verify =
      ((batchFn H devices s st dc verify).1.map (fun r => (r.1.tr g, g r.2)),
        (batchFn H devices s st dc verify).2.tr f g) ∧
    HomInv V W (batchFn H devices s st dc verify).2 ∧
    ∀ r, (batchFn H devices s st dc verify).1 = .ok r → W r.2 ∧ ∀ b ∈ r.1.batches, W b := by
  have aux : ∀ (st' : CacheState μ) (s' : Host Λ μ), HomInv V W s' → (∀ b ∈ st'.batches, W b) →
      (match (st'.tr g).batches[(st'.tr g).line % (st'.tr g).count]? with
        | none => ((.error .indexError, s'.tr f g) : Except PyErr (CacheState μ' × μ') × Host Λ' μ')
        | some b => (.ok ({ st'.tr g with line := (st'.tr g).line % (st'.tr g).count + 1 }, b), s'.tr f g)) =
      (((match st'.batches[st'.line % st'.count]? with
        | none => ((.error .indexError, s') : Except PyErr (CacheState μ × μ) × Host Λ μ)
        | some b => (.ok ({ st' with line := st'.line % st'.count + 1 }, b), s'))).1.map
          (fun r : CacheState μ × μ => (r.1.tr g, g r.2)),
       ((match st'.batches[st'.line % st'.count]? with
        | none => ((.error .indexError, s') : Except PyErr (CacheState μ × μ) × Host Λ μ)
        | some b => (.ok ({ st' with line := st'.line % st'.count + 1 }, b), s'))).2.tr f g) ∧
      HomInv V W (((match st'.batches[st'.line % st'.count]? with
        | none => ((.error .indexError, s') : Except PyErr (CacheState μ × μ) × Host Λ μ)
        | some b => (.ok ({ st' with line := st'.line % st'.count + 1 }, b), s'))).2) ∧
      ∀ r, (((match st'.batches[st'.line % st'.count]? with
        | none => ((.error .indexError, s') : Except PyErr (CacheState μ × μ) × Host Λ μ)
        | some b => (.ok ({ st' with line := st'.line % st'.count + 1 }, b), s'))).1) = .ok r →
        W r.2 ∧ ∀ b ∈ r.1.batches, W b := by
    intro st' s' hv' hst'
    have hb : (st'.tr g).batches[(st'.tr g).line % (st'.tr g).count]? =
        (st'.batches[st'.line % st'.count]?).map g := by
      simp [CacheState.tr]
    rw [hb]
    cases hx : st'.batches[st'.line % st'.count]? with
    | none => exact ⟨rfl, hv', fun r h => by simp at h⟩
    | some b =>
      refine ⟨rfl, hv', fun r h => ?_⟩
      simp only [Except.ok.injEq] at h
      subst h
      exact ⟨hst' b (List.mem_of_getElem? hx), hst'⟩
  unfold batchFn
  by_cases h1 : dc > devices
  · rw [if_pos h1, if_pos h1]; exact ⟨rfl, hv, fun r h => by simp at h⟩
  · rw [if_neg h1, if_neg h1]
    dsimp only
    have e1 : (st.tr g).line = st.line := rfl
    have e2 : (st.tr g).count = st.count := rfl
    by_cases h2 : st.line = st.count
    · rw [if_pos (by rw [e1, e2]; exact h2), if_pos h2]
      obtain ⟨r1, r2, r3⟩ := request_tr hh s hv st.chain st.token st.cb dc verify
      have e3 : (request H' (s.tr f g) (st.tr g).chain (st.tr g).token (st.tr g).cb dc verify) =
          request H' (s.tr f g) st.chain st.token st.cb dc verify := rfl
      rw [e3, r1]
      cases hr : request H s st.chain st.token st.cb dc verify with
      | mk r s' =>
        rw [hr] at r2 r3
        cases r with
        | error e => exact ⟨rfl, r2, fun r h => by simp at h⟩
        | ok x => exact aux { st with batches := x.1, line := 0, token := x.2 } s' r2 (r3 x rfl)
    · rw [if_neg (by rw [e1, e2]; exact h2), if_neg h2]
      exact aux st s hv hst

theorem pstep_tr (hh : HostHom H H' f g V W) (devices : Nat) (s : PSys Λ μ) (hv : SInv V W s)
    (op : POp κ) :
    pstep H' devices (s.tr f g) op = ((pstep H devices s op).1.tr f g, (pstep H devices s op).2.tr g) ∧
    SInv V W (pstep H devices s op).1 ∧
    ∀ b, (pstep H devices s op).2 = .batch b → W b := by
  cases op with
  | setup l cc mb v =>
    dsimp only [pstep]
    unfold setupFn
    have ho : H'.obsCount ((s.tr f g).host.objs l) = H.obsCount (s.host.objs l) := hh.obs _ (hv.host.objs l)
    rw [ho]
    by_cases h1 : (H.obsCount (s.host.objs l) : Int) < mb
    · rw [if_pos h1, if_pos h1]; exact ⟨rfl, hv, fun b h => by simp at h⟩
    · rw [if_neg h1, if_neg h1]
      by_cases h2 : cc ≤ 0 ∨ mb ≤ 0
      · rw [if_pos h2, if_pos h2]; exact ⟨rfl, hv, fun b h => by simp at h⟩
      · rw [if_neg h2, if_neg h2]
        exact ⟨rfl, ⟨⟨hv.host.objs, hv.host.cached⟩, hv.held⟩, fun b h => by simp at h⟩
  | init cb kw h =>
    dsimp only [pstep]
    unfold initFn
    have ec : (s.tr f g).cfgs = s.cfgs := rfl
    rw [ec]
    cases hc : s.cfgs cb with
    | none => exact ⟨rfl, hv, fun b h => by simp at h⟩
    | some cfg =>
      dsimp only
      have hr : H'.register ((s.tr f g).host.objs cfg.loader) cfg.cacheCount cfg.mbSize kw = _ :=
        hh.reg (s.host.objs cfg.loader) cfg.cacheCount cfg.mbSize kw (hv.host.objs _)
      rw [hr]
      cases hreg : H.register (s.host.objs cfg.loader) cfg.cacheCount cfg.mbSize kw with
      | error e => exact ⟨rfl, hv, fun b h => by simp at h⟩
      | ok x =>
        obtain ⟨chain, obj⟩ := x
        have hobj := hh.regV _ _ _ _ _ _ (hv.host.objs _) hreg
        have hobjs := upd_all hv.host.objs cfg.loader hobj
        have eo : upd (fun i => f (s.host.objs i)) cfg.loader (f obj) =
            fun i => f (upd s.host.objs cfg.loader obj i) := (upd_tr f s.host.objs cfg.loader obj).symm
        dsimp only [Except.map, PSys.tr, Host.tr]
        rw [eo]
        cases hl : s.host.loaders cb with
        | none =>
          exact ⟨rfl, ⟨⟨hobjs, hv.host.cached⟩, hv.held⟩, fun b h => by simp at h⟩
        | some l =>
          dsimp only
          have hg := hh.get (upd s.host.objs cfg.loader obj l) chain (hobjs l)
          have hgv := hh.getV (upd s.host.objs cfg.loader obj l) chain (hobjs l)
          have hgw := hh.getW (upd s.host.objs cfg.loader obj l) chain
          rw [hg]
          have hobjs' := upd_all hobjs l hgv
          cases hr2 : (H.getBatches (upd s.host.objs cfg.loader obj l) chain).1 with
          | error e =>
            refine ⟨?_, ⟨⟨hobjs', hv.host.cached⟩, hv.held⟩, fun b h => by simp at h⟩
            simp only [Except.map, POut.tr, upd_tr f]
          | ok resp =>
            have hw := hgw resp (hobjs l) hr2
            refine ⟨?_, ⟨⟨hobjs', hv.host.cached⟩, upd_some hv.held _ ?_⟩, fun b h => by simp at h⟩
            · simp only [Except.map, POut.tr, upd_tr f,
                upd_tr (fun x : Option (CacheState μ) => x.map (CacheState.tr g)), Option.map_some, CacheState.tr]
            · intro x hx
              simp only [Option.some.injEq] at hx
              subst hx
              exact hw
  | copy h h' =>
    dsimp only [pstep]
    have ev : (s.tr f g).vars h = (s.vars h).map (CacheState.tr g) := rfl
    rw [ev]
    cases hst : s.vars h with
    | none => exact ⟨rfl, hv, fun b h => by simp at h⟩
    | some st =>
      refine ⟨?_, ⟨hv.host, upd_some hv.held _ ?_⟩, fun b h => by simp at h⟩
      · simp only [Option.map_some, PSys.tr, POut.tr,
          upd_tr (fun x : Option (CacheState μ) => x.map (CacheState.tr g))]
      · intro x hx
        simp only [Option.some.injEq] at hx
        subst hx
        exact hv.held h _ hst
  | draw h dc =>
    dsimp only [pstep]
    have ev : (s.tr f g).vars h = (s.vars h).map (CacheState.tr g) := rfl
    rw [ev]
    cases hst : s.vars h with
    | none => exact ⟨rfl, hv, fun b h => by simp at h⟩
    | some st =>
      dsimp only [Option.map_some]
      obtain ⟨r1, r2, r3⟩ := batchFn_tr hh devices s.host hv.host st (hv.held h _ hst) dc
        ((s.cfgs st.cb).elim false (·.verify))
      have e3 : batchFn H' devices (s.tr f g).host (st.tr g) dc (((s.tr f g).cfgs (st.tr g).cb).elim false (·.verify)) =
          batchFn H' devices (s.host.tr f g) (st.tr g) dc ((s.cfgs st.cb).elim false (·.verify)) := rfl
      rw [e3, r1]
      cases hr : batchFn H devices s.host st dc ((s.cfgs st.cb).elim false (·.verify)) with
      | mk r s' =>
        rw [hr] at r2 r3
        cases r with
        | error e => exact ⟨rfl, ⟨r2, hv.held⟩, fun b h => by simp at h⟩
        | ok x =>
          have hw := r3 x rfl
          refine ⟨?_, ⟨r2, upd_some hv.held _ ?_⟩, ?_⟩
          · simp only [Except.map, PSys.tr, POut.tr,
              upd_tr (fun x : Option (CacheState μ) => x.map (CacheState.tr g)), Option.map_some]
          · intro y hy
            simp only [Option.some.injEq] at hy
            subst hy
            exact hw.2
          · intro b hb
            simp only [POut.batch.injEq] at hb
            subst hb
            exact hw.1
  | release cb =>
    dsimp only [pstep]
    have ev : (s.tr f g).host.loaders = s.host.loaders := rfl
    rw [ev]
    cases hl : s.host.loaders cb with
    | none => exact ⟨rfl, hv, fun b h => by simp at h⟩
    | some l => exact ⟨rfl, ⟨⟨hv.host.objs, hv.host.cached⟩, hv.held⟩, fun b h => by simp at h⟩

theorem prun_tr (hh : HostHom H H' f g V W) (devices : Nat) (ops : List (POp κ)) : ∀ (s : PSys Λ μ),
    SInv V W s →
    prun H' devices (s.tr f g) ops = ((prun H devices s ops).1.tr f g,
      (prun H devices s ops).2.map (fun x => (x.1, x.2.tr g))) ∧
    SInv V W (prun H devices s ops).1 := by
  induction ops with
  | nil => intro s hv; exact ⟨rfl, hv⟩
  | cons op ops ih =>
    intro s hv
    obtain ⟨h1, h2, hW⟩ := pstep_tr hh devices s hv op
    obtain ⟨h3, h4⟩ := ih _ h2
    unfold prun
    dsimp only
    rw [h1, h3]
    exact ⟨rfl, h4⟩

theorem hostSource_tr (hh : HostHom H H' f g V W) (devices v dc : Nat) (s : PSys Λ μ) (hv : SInv V W s) :
    hostSource H' devices v dc (s.tr f g) = ((hostSource H devices v dc s).1.map g,
      (hostSource H devices v dc s).2.tr f g) ∧
    SInv V W (hostSource H devices v dc s).2 ∧
    ∀ b, (hostSource H devices v dc s).1 = .ok b → W b := by
  obtain ⟨h1, h2, hW⟩ := pstep_tr hh devices s hv (.draw v dc)
  unfold hostSource
  rw [h1]
  cases hr : pstep H devices s (.draw v dc) with
  | mk s' o =>
    rw [hr] at h2 hW
    cases o with
    | batch b =>
      refine ⟨rfl, h2, fun b' h => ?_⟩
      simp only [Except.ok.injEq] at h
      subst h
      exact hW b rfl
    | raised e => exact ⟨rfl, h2, fun b h => by simp at h⟩
    | done => exact ⟨rfl, h2, fun b h => by simp at h⟩
    | ready cb => exact ⟨rfl, h2, fun b h => by simp at h⟩

variable {σ γ : Type}

theorem scanBatches_tr (hh : HostHom H H' f g V W) (devices v dc : Nat)
    (fn : Nat → μ → σ → Except PyErr (γ × σ)) (fn' : Nat → μ' → σ → Except PyErr (γ × σ))
    (hfn : ∀ it b c, W b → fn' it (g b) c = fn it b c) (n : Nat) : ∀ (it : Nat) (s : PSys Λ μ) (c : σ),
    SInv V W s →
    scanBatches (hostSource H' devices v dc) fn' n it (s.tr f g) c =
      ((scanBatches (hostSource H devices v dc) fn n it s c).1,
        (scanBatches (hostSource H devices v dc) fn n it s c).2.tr f g) := by
  induction n with
  | zero => intro it s c _; rfl
  | succ n ih =>
    intro it s c hv
    obtain ⟨h1, h2, hW⟩ := hostSource_tr hh devices v dc s hv
    unfold scanBatches
    rw [h1]
    cases hr : hostSource H devices v dc s with
    | mk r s' =>
      rw [hr] at h2 hW
      cases r with
      | error e => rfl
      | ok b =>
        dsimp only [Except.map]
        rw [hfn _ _ _ (hW b rfl)]
        cases fn it b c with
        | error e => rfl
        | ok x =>
          obtain ⟨res, c'⟩ := x
          dsimp only
          rw [ih (it + 1) s' c' h2]
          cases scanBatches (hostSource H devices v dc) fn n (it + 1) s' c' with
          | mk r s'' => cases r <;> rfl

theorem mapMasked_tr (hh : HostHom H H' f g V W) (devices v dc N bs : Nat)
    (fn : μ → List Bool → σ → γ × σ) (fn' : μ' → List Bool → σ → γ × σ)
    (hfn : ∀ b m c, W b → fn' (g b) m c = fn b m c) (s : PSys Λ μ) (c : σ) (hv : SInv V W s) :
    (mapMasked (hostSource H' devices v dc) N bs fn' (s.tr f g) c).1 =
      (mapMasked (hostSource H devices v dc) N bs fn s c).1 := by
  unfold mapMasked
  cases numIterations N bs with
  | error e => rfl
  | ok q =>
    dsimp only
    rw [scanBatches_tr hh devices v dc (fun it b c => .ok (fn b (iterMask N bs it) c)) _
      (by intro it b c hb; rw [hfn _ _ _ hb]) q 0 s c hv]

/-! ### The mapper -/

/-- Translation of a mapper. -/
def Mapper.tr (f : Λ → Λ') (g : μ → μ') (m : Mapper Λ μ σ γ) : Mapper Λ' μ' σ γ :=
  { sys := m.sys.tr f g, cb := m.cb, pool := m.pool, created := m.created, calls := m.calls,
    finished := m.finished }

theorem newSlot_tr (hh : HostHom H H' f g V W) (devices base : Nat) (kw : κ) (m : Mapper Λ μ σ γ)
    (hv : SInv V W m.sys) :
    newSlot H' devices base kw (m.tr f g) = ((newSlot H devices base kw m).1, (newSlot H devices base kw m).2.tr f g) ∧
    SInv V W (newSlot H devices base kw m).2.sys := by
  obtain ⟨h1, h2, hW⟩ := pstep_tr hh devices m.sys hv (.init m.cb kw (slotVar base m.created))
  have e : (pstep H' devices (m.tr f g).sys (.init (m.tr f g).cb kw (slotVar base (m.tr f g).created))) =
      pstep H' devices (m.sys.tr f g) (.init m.cb kw (slotVar base m.created)) := rfl
  unfold newSlot
  rw [e, h1]
  cases hr : pstep H devices m.sys (.init m.cb kw (slotVar base m.created)) with
  | mk s' o =>
    rw [hr] at h2
    cases o <;> exact ⟨rfl, h2⟩

theorem mkMapper_tr (hh : HostHom H H' f g V W) (devices base : Nat) (kw : κ) (s : PSys Λ μ) (l : Nat) (cc mb : Int)
    (hv : SInv V W s) (m : Mapper Λ μ σ γ) (hm : mkMapper H devices base kw s l cc mb = some m) :
    mkMapper H' devices base kw (s.tr f g) l cc mb = some (m.tr f g) ∧ SInv V W m.sys := by
  obtain ⟨h1, h2, hW⟩ := pstep_tr hh devices s hv (.setup l cc mb true)
  unfold mkMapper at hm ⊢
  rw [h1]
  cases hr : pstep H devices s (.setup l cc mb true) with
  | mk s' o =>
    rw [hr] at h2 hm
    cases o with
    | batch b => simp at hm
    | raised e => simp at hm
    | done => simp at hm
    | ready cb =>
      dsimp only [POut.tr] at hm ⊢
      obtain ⟨h3, h4⟩ := newSlot_tr (σ := σ) (γ := γ) hh devices base kw
        ({ sys := s', cb := cb, pool := [], created := 0, calls := (fun _ => none), finished := (fun _ => none) } :
          Mapper Λ μ σ γ) h2
      have e : newSlot H' devices base kw 
          ({ sys := s'.tr f g, cb := cb, pool := [], created := 0, calls := (fun _ => none), finished := (fun _ => none) } : Mapper Λ' μ' σ γ) = _ := h3
      rw [e]
      cases hn : newSlot H devices base kw 
          ({ sys := s', cb := cb, pool := [], created := 0, calls := (fun _ => none), finished := (fun _ => none) } : Mapper Λ μ σ γ) with
      | mk ok m' =>
        rw [hn] at hm h4
        cases ok with
        | false => simp at hm
        | true =>
          simp only [Option.some.injEq] at hm
          subst hm
          exact ⟨rfl, h4⟩

theorem mstep_tr (hh : HostHom H H' f g V W) (devices base : Nat) (kw : κ) (N q : Nat)
    (fn : μ → σ → List γ × σ) (fn' : μ' → σ → List γ × σ) (hfn : ∀ b c, W b → fn' (g b) c = fn b c)
    (m : Mapper Λ μ σ γ) (hv : SInv V W m.sys) (op : MOp κ σ) :
    mstep H' devices base kw N q fn' (m.tr f g) op = (mstep H devices base kw N q fn m op).tr f g ∧
    SInv V W (mstep H devices base kw N q fn m op).sys := by
  cases op with
  | start c carry =>
    dsimp only [mstep]
    have e1 : (m.tr f g).calls c = m.calls c := rfl
    have e2 : (m.tr f g).pool = m.pool := rfl
    rw [e1, e2]
    cases m.calls c with
    | some x => exact ⟨rfl, hv⟩
    | none =>
      dsimp only
      cases m.pool.getLast? with
      | some slot => exact ⟨rfl, hv⟩
      | none =>
        dsimp only
        obtain ⟨h1, h2⟩ := newSlot_tr hh devices base kw m hv
        rw [h1]
        cases hn : newSlot H devices base kw m with
        | mk ok m' =>
          rw [hn] at h2
          cases ok <;> exact ⟨rfl, h2⟩
  | iter c =>
    dsimp only [mstep]
    have e1 : (m.tr f g).calls c = m.calls c := rfl
    rw [e1]
    cases m.calls c with
    | none => exact ⟨rfl, hv⟩
    | some call =>
      dsimp only
      by_cases hq : call.iter < q
      · rw [if_pos hq, if_pos hq]
        obtain ⟨h1, h2, hW⟩ := hostSource_tr hh devices call.slot 1 m.sys hv
        have e : hostSource H' devices call.slot 1 (m.tr f g).sys = _ := h1
        rw [e]
        cases hr : hostSource H devices call.slot 1 m.sys with
        | mk r s' =>
          rw [hr] at h2 hW
          cases r with
          | error e => exact ⟨rfl, h2⟩
          | ok b =>
            dsimp only [Except.map]
            rw [hfn _ _ (hW b rfl)]
            exact ⟨rfl, h2⟩
      · rw [if_neg hq, if_neg hq]; exact ⟨rfl, hv⟩
  | finish c =>
    dsimp only [mstep]
    have e1 : (m.tr f g).calls c = m.calls c := rfl
    rw [e1]
    cases m.calls c with
    | none => exact ⟨rfl, hv⟩
    | some call =>
      dsimp only
      by_cases hq : call.iter = q
      · rw [if_pos hq, if_pos hq]; exact ⟨rfl, hv⟩
      · rw [if_neg hq, if_neg hq]; exact ⟨rfl, hv⟩
  | env op =>
    obtain ⟨h1, h2, hW⟩ := pstep_tr hh devices m.sys hv op
    dsimp only [mstep]
    have e : pstep H' devices (m.tr f g).sys op = _ := h1
    rw [e]
    exact ⟨rfl, h2⟩

theorem mrun_tr (hh : HostHom H H' f g V W) (devices base : Nat) (kw : κ) (N q : Nat)
    (fn : μ → σ → List γ × σ) (fn' : μ' → σ → List γ × σ) (hfn : ∀ b c, W b → fn' (g b) c = fn b c)
    (ops : List (MOp κ σ)) : ∀ (m : Mapper Λ μ σ γ), SInv V W m.sys →
    mrun H' devices base kw N q fn' (m.tr f g) ops = (mrun H devices base kw N q fn m ops).tr f g ∧
    SInv V W (mrun H devices base kw N q fn m ops).sys := by
  induction ops with
  | nil => intro m hv; exact ⟨rfl, hv⟩
  | cons op ops ih =>
    intro m hv
    obtain ⟨h1, h2⟩ := mstep_tr hh devices base kw N q fn fn' hfn m hv op
    unfold mrun
    rw [h1]
    exact ih _ h2

end

end JaxSgmc
