import Verif.Model.MapperRelease
import Verif.Spec.MapperRelease
import Verif.Spec.Requests
import Verif.Props.Mapper
import Mathlib.Data.List.Induction

/-!
# C152: `release` of `full_data_mapper`
-/

namespace JaxSgmc

open Spec

section
variable {Λ κ μ τ γ : Type} {H : HostLoader Λ κ μ}

/-- What a host operation may do with a callback: the counter only grows, the entry of an existing callback
only changes if it is released. -/
theorem pstep_registry (devices : Nat) (s : PSys Λ μ) (op : POp κ) (cb : Nat) (hcb : cb < s.host.next) :
    s.host.next ≤ (pstep H devices s op).1.host.next ∧
    (s.host.loaders cb = none → (pstep H devices s op).1.host.loaders cb = none) ∧
    ((∀ c, op = .release c → c ≠ cb) →
      (pstep H devices s op).1.host.loaders cb = s.host.loaders cb) := by
  cases op with
  | setup l cc mb v =>
    simp only [pstep, setupFn]
    split_ifs
    · exact ⟨le_refl _, id, fun _ => rfl⟩
    · exact ⟨le_refl _, id, fun _ => rfl⟩
    · have hne : cb ≠ s.host.next := by omega
      refine ⟨by simp, ?_, ?_⟩ <;> simp [upd, hne]
  | init c kw h =>
    simp only [pstep, initFn]
    split
    · exact ⟨le_refl _, id, fun _ => rfl⟩
    · split
      · exact ⟨le_refl _, id, fun _ => rfl⟩
      · split
        · exact ⟨le_refl _, id, fun _ => rfl⟩
        · split
          · exact ⟨by simp, by simp, by simp⟩
          · exact ⟨by simp, by simp, by simp⟩
  | copy h h' =>
    simp only [pstep]
    split
    · exact ⟨le_refl _, id, fun _ => rfl⟩
    · exact ⟨le_refl _, id, fun _ => rfl⟩
  | draw h dc =>
    have key : ∀ (st : CacheState μ) (v : Bool),
        s.host.next ≤ (batchFn H devices s.host st dc v).2.next ∧
        (batchFn H devices s.host st dc v).2.loaders = s.host.loaders := by
      intro st v
      simp only [batchFn, request, fetch]
      split_ifs <;> (repeat' split) <;> simp_all <;> grind
    simp only [pstep]
    split
    · exact ⟨le_refl _, id, fun _ => rfl⟩
    · rename_i st hst
      obtain ⟨k1, k2⟩ := key st ((s.cfgs st.cb).elim false (·.verify))
      split
      · rename_i e host he
        rw [he] at k1 k2
        have k3 : host.loaders = s.host.loaders := k2
        exact ⟨k1, fun h => by simpa [k3] using h, fun _ => by simp [k3]⟩
      · rename_i st' b host he
        rw [he] at k1 k2
        have k3 : host.loaders = s.host.loaders := k2
        exact ⟨k1, fun h => by simpa [k3] using h, fun _ => by simp [k3]⟩
  | release c =>
    simp only [pstep]
    split
    · exact ⟨le_refl _, id, fun _ => rfl⟩
    · refine ⟨le_refl _, ?_, ?_⟩
      · intro h
        simp only [upd]
        split_ifs
        · rfl
        · exact h
      · intro h
        have : cb ≠ c := fun e => h c rfl e.symm
        simp [upd, this]

/-- Operations which do not write variable `h` leave it unchanged. -/
theorem pstep_var_other (devices base : Nat) (s : PSys Λ μ) (op : POp κ) (cb k : Nat)
    (hop : EnvOk (σ := τ) base cb (.env op)) :
    (pstep H devices s op).1.vars (slotVar base k) = s.vars (slotVar base k) := by
  cases op with
  | setup l cc mb v =>
    simp only [pstep, setupFn]
    split_ifs <;> rfl
  | init c kw h =>
    have hne : slotVar base k ≠ h := by simp only [EnvOk] at hop; simp only [slotVar]; omega
    simp only [pstep, initFn]
    split
    · rfl
    · split
      · rfl
      · split
        · rfl
        · split
          · rfl
          · simp [upd, hne]
  | copy h h' =>
    have hne : slotVar base k ≠ h' := by simp only [EnvOk] at hop; simp only [slotVar]; omega
    simp only [pstep]
    split
    · rfl
    · simp [upd, hne]
  | draw h dc =>
    have hne : slotVar base k ≠ h := by simp only [EnvOk] at hop; simp only [slotVar]; omega
    simp only [pstep]
    split
    · rfl
    · split
      · rfl
      · simp [upd, hne]
  | release c =>
    simp only [pstep]
    split <;> rfl

/-- Drawing keeps the callback of every data state. -/
theorem pstep_draw_cb (devices : Nat) (s : PSys Λ μ) (h dc h' : Nat) (cb : Nat)
    (hs : ∀ st, s.vars h' = some st → st.cb = cb) :
    ∀ st, (pstep (κ := κ) H devices s (.draw h dc)).1.vars h' = some st → st.cb = cb := by
  have key : ∀ (st : CacheState μ) (v : Bool) st' b host,
      batchFn H devices s.host st dc v = (.ok (st', b), host) → st'.cb = st.cb := by
    intro st v st' b host hb
    simp only [batchFn] at hb
    split_ifs at hb
    · simp at hb
    · cases hr : request H s.host st.chain st.token st.cb dc v with
      | mk r host' =>
        rw [hr] at hb
        cases r with
        | error e => simp at hb
        | ok x =>
          dsimp only at hb
          split at hb
          · simp at hb
          · simp only [Prod.mk.injEq, Except.ok.injEq] at hb
            rw [← hb.1.1]
    · dsimp only at hb
      split at hb
      · simp at hb
      · simp only [Prod.mk.injEq, Except.ok.injEq] at hb
        rw [← hb.1.1]
  intro st hst
  simp only [pstep] at hst
  split at hst
  · exact hs st hst
  · rename_i st0 h0
    split at hst
    · exact hs st hst
    · rename_i st' b host hb
      simp only [upd] at hst
      split_ifs at hst with e
      · subst e
        rw [← Option.some.inj hst, key _ _ _ _ _ hb]
        exact hs _ h0
      · exact hs st hst

/-- A data state created by `init_fn` carries the callback of its function; other variables stay. -/
theorem pstep_init_cb (devices : Nat) (s : PSys Λ μ) (cb : Nat) (kw : κ) (h h' : Nat) (c0 : Nat)
    (hs : h' ≠ h → ∀ st, s.vars h' = some st → st.cb = c0) (hc : h' = h → cb = c0)
    (hdone : h' = h → (pstep H devices s (.init cb kw h)).2 = .done) :
    ∀ st, (pstep H devices s (.init cb kw h)).1.vars h' = some st → st.cb = c0 := by
  intro st hst
  by_cases e : h' = h
  · have hd := hdone e
    subst e
    simp only [pstep, initFn] at hst hd
    split at hst
    · rename_i h1; simp [h1] at hd
    · rename_i cfg h1
      simp only [h1] at hd
      split at hst
      · rename_i h2; simp [h2] at hd
      · rename_i chain obj h2
        simp only [h2] at hd
        split at hst
        · rename_i h3; simp [h3] at hd
        · rename_i l h3
          simp only [h3] at hd
          split at hst
          · rename_i h4; simp [h4] at hd
          · simp only [upd, if_true, Option.some.injEq] at hst
            rw [← hst]
            exact hc rfl
  · refine hs e st ?_
    simp only [pstep, initFn] at hst
    split at hst
    · exact hst
    · split at hst
      · exact hst
      · split at hst
        · exact hst
        · split at hst
          · exact hst
          · simpa [upd, e] using hst

/-- Without the data loader in the registry, a request of its callback fetches nothing. -/
theorem draw_fetches (devices : Nat) (s : PSys Λ μ) (h : Nat) (cb : Nat)
    (hs : ∀ st, s.vars h = some st → st.cb = cb) (hl : s.host.loaders cb = none) :
    (hostSource (κ := κ) H devices h 1 s).2.host.fetches = s.host.fetches := by
  have key : ∀ (st : CacheState μ) (v : Bool), st.cb = cb →
      (batchFn H devices s.host st 1 v).2.fetches = s.host.fetches := by
    intro st v e
    have hr : (request H s.host st.chain st.token st.cb 1 v).2.fetches = s.host.fetches := by
      simp only [request]
      split
      · split_ifs <;> rfl
      · split_ifs
        · rfl
        · rfl
        · simp only [fetch, e, hl]
    simp only [batchFn]
    split_ifs
    · rfl
    · cases hq : request H s.host st.chain st.token st.cb 1 v with
      | mk r host' =>
        rw [hq] at hr
        cases r with
        | error e => exact hr
        | ok x =>
          dsimp only
          split <;> exact hr
    · dsimp only
      split <;> rfl
  have hp : (pstep (κ := κ) H devices s (.draw h 1)).1.host.fetches = s.host.fetches := by
    simp only [pstep]
    split
    · rfl
    · rename_i st hst
      have k := key st ((s.cfgs st.cb).elim false (·.verify)) (hs st hst)
      split
      · rename_i e host he
        rw [he] at k
        exact k
      · rename_i st' b host he
        rw [he] at k
        exact k
  simp only [hostSource]
  split
  · rename_i s' b he; rw [he] at hp; exact hp
  · rename_i s' e he; rw [he] at hp; exact hp
  · rename_i s' o _ _ he; rw [he] at hp; exact hp

/-- The system after drawing is the system after the `draw` operation. -/
theorem hostSource_sys (devices : Nat) (s : PSys Λ μ) (h : Nat) :
    (hostSource (κ := κ) H devices h 1 s).2 = (pstep (κ := κ) H devices s (.draw h 1)).1 := by
  simp only [hostSource]
  split
  · rename_i s' b he; rw [he]
  · rename_i s' e he; rw [he]
  · rename_i s' o _ _ he; rw [he]

/-- What is known about a mapper whose data states are hidden from the rest of the program: all data states
which it created carry its callback, and its data loader is registered until it is released. -/
structure HeldInv (base cb : Nat) (r : RMapper Λ μ τ γ) : Prop where
  cbEq : r.m.cb = cb
  lt : cb < r.m.sys.host.next
  slots : ∀ k < r.m.created, ∀ st, r.m.sys.vars (slotVar base k) = some st → st.cb = cb
  pool : ∀ x ∈ r.m.pool, ∃ k < r.m.created, x = slotVar base k
  calls : ∀ c call, r.m.calls c = some call → ∃ k < r.m.created, call.slot = slotVar base k
  reg : (r.released = true → r.m.sys.host.loaders cb = none) ∧
    (r.released = false → r.m.sys.host.loaders cb ≠ none)

/-- Changing the program by an operation which keeps the callback of the hidden data states. -/
theorem HeldInv.sys {devices base cb : Nat} {r : RMapper Λ μ τ γ} (I : HeldInv base cb r) (op : POp κ)
    (hne : ∀ c, op = .release c → c ≠ cb)
    (hv : ∀ k < r.m.created, ∀ st,
      (pstep H devices r.m.sys op).1.vars (slotVar base k) = some st → st.cb = cb) :
    HeldInv base cb { r with m := { r.m with sys := (pstep H devices r.m.sys op).1 } } := by
  obtain ⟨h1, h2, h3⟩ := pstep_registry (H := H) devices r.m.sys op cb I.lt
  refine ⟨I.cbEq, lt_of_lt_of_le I.lt h1, hv, I.pool, I.calls, ?_, ?_⟩
  · intro hr
    exact h2 (I.reg.1 hr)
  · intro hr
    show (pstep H devices r.m.sys op).1.host.loaders cb ≠ none
    rw [h3 hne]
    exact I.reg.2 hr

/-- The invariant holds in every step. -/
theorem HeldInv.step {devices base cb : Nat} {kw : κ} {N q : Nat} {fn : μ → τ → List γ × τ}
    {r : RMapper Λ μ τ γ} (I : HeldInv base cb r) (op : ROp κ τ) (hop : EnvOkR base cb op) :
    HeldInv base cb (rstep H devices base kw N q fn r op).1 := by
  cases op with
  | release =>
    simp only [rstep, pstep]
    cases hl : r.m.sys.host.loaders r.m.cb with
    | none => exact ⟨I.cbEq, I.lt, I.slots, I.pool, I.calls, I.reg⟩
    | some l =>
      refine ⟨I.cbEq, I.lt, I.slots, by simp, I.calls, ?_, by simp⟩
      intro _
      simp [upd, I.cbEq]
  | op o =>
    cases o with
    | env op =>
      refine I.sys op ?_ ?_
      · rintro c rfl
        exact hop
      · intro k hk st hst
        rw [pstep_var_other (τ := τ) devices base r.m.sys op cb k hop] at hst
        exact I.slots k hk st hst
    | finish c =>
      simp only [rstep]
      cases hc : r.m.calls c with
      | none => exact I
      | some call =>
        dsimp only
        obtain ⟨k, hk, hslot⟩ := I.calls c call hc
        have hcalls : ∀ c' call', upd r.m.calls c none c' = some call' →
            ∃ k < r.m.created, call'.slot = slotVar base k := by
          intro c' call' h
          simp only [upd] at h
          split_ifs at h
          exact I.calls c' call' h
        split_ifs with h1 h2
        · exact ⟨I.cbEq, I.lt, I.slots, I.pool, hcalls, I.reg⟩
        · simp only [mstep, hc, h1, if_true]
          refine ⟨I.cbEq, I.lt, I.slots, ?_, hcalls, I.reg⟩
          intro x hx
          rcases List.mem_append.1 hx with hx | hx
          · exact I.pool x hx
          · exact ⟨k, hk, by rw [List.mem_singleton.1 hx, hslot]⟩
        · exact I
    | iter c =>
      simp only [rstep]
      cases hc : r.m.calls c with
      | none => exact I
      | some call =>
        dsimp only
        obtain ⟨k, hk, hslot⟩ := I.calls c call hc
        have I2 := I.sys (H := H) (devices := devices) (.draw call.slot 1) (by simp)
          (fun k' hk' => pstep_draw_cb devices r.m.sys call.slot 1 _ cb (I.slots k' hk'))
        rw [← hostSource_sys] at I2
        split_ifs with h1
        · cases hs : hostSource (κ := κ) H devices call.slot 1 r.m.sys with
          | mk x s' =>
            rw [hs] at I2
            cases x with
            | error e =>
              refine ⟨I2.cbEq, I2.lt, I2.slots, I2.pool, ?_, I2.reg⟩
              intro c' call' h
              simp only [upd] at h
              split_ifs at h
              exact I.calls c' call' h
            | ok b =>
              simp only [mstep, hc, h1, if_true, hs]
              refine ⟨I2.cbEq, I2.lt, I2.slots, I2.pool, ?_, I2.reg⟩
              intro c' call' h
              simp only [upd] at h
              split_ifs at h
              · rw [← Option.some.inj h]
                exact ⟨k, hk, hslot⟩
              · exact I.calls c' call' h
        · exact I
    | start c carry =>
      simp only [rstep]
      split_ifs with hr
      · exact I
      · cases hc : r.m.calls c with
        | some call => exact I
        | none =>
          dsimp only
          have goal : HeldInv base cb { r with m := mstep H devices base kw N q fn r.m (.start c carry) } := by
            simp only [mstep, hc]
            cases hp : r.m.pool.getLast? with
            | some slot =>
              have hmem : slot ∈ r.m.pool := List.mem_of_getLast? hp
              refine ⟨I.cbEq, I.lt, I.slots, fun x hx => I.pool x (List.mem_of_mem_dropLast hx), ?_, I.reg⟩
              intro c' call' h
              simp only [upd] at h
              split_ifs at h
              · rw [← Option.some.inj h]
                exact I.pool slot hmem
              · exact I.calls c' call' h
            | none =>
              simp only [newSlot]
              have other : ∀ k < r.m.created, ∀ st, (pstep H devices r.m.sys
                  (.init r.m.cb kw (slotVar base r.m.created))).1.vars (slotVar base k) = some st →
                    st.cb = cb := by
                intro k hk
                have hne : slotVar base k ≠ slotVar base r.m.created := by simp only [slotVar]; omega
                exact pstep_init_cb devices r.m.sys _ kw _ _ cb (fun _ => I.slots k hk)
                  (fun e => absurd e hne) (fun e => absurd e hne)
              have I2 := I.sys (H := H) (devices := devices)
                (.init r.m.cb kw (slotVar base r.m.created)) (by simp) other
              have own : (pstep H devices r.m.sys
                  (.init r.m.cb kw (slotVar base r.m.created))).2 = .done →
                  ∀ st, (pstep H devices r.m.sys
                  (.init r.m.cb kw (slotVar base r.m.created))).1.vars (slotVar base r.m.created) = some st →
                    st.cb = cb := fun hd =>
                pstep_init_cb devices r.m.sys _ kw _ _ cb (fun h => absurd rfl h) (fun _ => I.cbEq)
                  (fun _ => hd)
              cases hx : pstep H devices r.m.sys (.init r.m.cb kw (slotVar base r.m.created)) with
              | mk s' o =>
                rw [hx] at I2 own
                cases o with
                | done =>
                  refine ⟨I2.cbEq, I2.lt, ?_, ?_, ?_, I2.reg⟩
                  · intro k hk st hst
                    rcases Nat.lt_succ_iff_lt_or_eq.1 hk with hk | rfl
                    · exact I2.slots k hk st hst
                    · exact own rfl st hst
                  · intro x hx
                    obtain ⟨k, hk, e⟩ := I.pool x hx
                    exact ⟨k, Nat.lt_succ_of_lt hk, e⟩
                  · intro c' call' h
                    simp only [upd] at h
                    split_ifs at h
                    · rw [← Option.some.inj h]
                      exact ⟨r.m.created, Nat.lt_succ_self _, rfl⟩
                    · obtain ⟨k, hk, e⟩ := I.calls c' call' h
                      exact ⟨k, Nat.lt_succ_of_lt hk, e⟩
                | ready c => exact I2
                | batch b => exact I2
                | raised e => exact I2
          split <;> exact goal

/-- A new mapper satisfies the invariant. -/
theorem HeldInv.start {devices base : Nat} {kw : κ} {s : PSys Λ μ} {l : Nat} {cc mb : Int}
    {m0 : Mapper Λ μ τ γ} (hm0 : mkMapper H devices base kw s l cc mb = some m0) :
    HeldInv base m0.cb (⟨m0, false⟩ : RMapper Λ μ τ γ) := by
  simp only [mkMapper, pstep, setupFn] at hm0
  split_ifs at hm0
  · dsimp only at hm0
    split at hm0
    · rename_i m hm
      have e : m0 = { m with pool := [slotVar base 0] } := (Option.some.inj hm0).symm
      simp only [newSlot] at hm
      split at hm
      · rename_i s' hs'
        simp only [Prod.mk.injEq, true_and] at hm
        rw [← hm] at e
        obtain ⟨g1, -, g3⟩ := pstep_registry (H := H) devices
          ({ s with
            host := { s.host with next := s.host.next + 1, loaders := upd s.host.loaders s.host.next (some l) }
            cfgs := upd s.cfgs s.host.next (some ⟨l, cc.toNat, mb.toNat, true⟩) } : PSys Λ μ)
          (.init s.host.next kw (slotVar base 0)) s.host.next (by simp)
        have own := pstep_init_cb (H := H) devices
          ({ s with
            host := { s.host with next := s.host.next + 1, loaders := upd s.host.loaders s.host.next (some l) }
            cfgs := upd s.cfgs s.host.next (some ⟨l, cc.toNat, mb.toNat, true⟩) } : PSys Λ μ)
          s.host.next kw (slotVar base 0) (slotVar base 0) s.host.next (fun h => absurd rfl h)
          (fun _ => rfl) (fun _ => by rw [hs'])
        rw [hs'] at g1 g3 own
        subst e
        refine ⟨rfl, ?_, ?_, ?_, by simp, by simp, ?_⟩
        · exact g1
        · intro k hk st hst
          have : k = 0 := by simpa using hk
          subst this
          exact own st hst
        · intro x hx
          exact ⟨0, by simp, List.mem_singleton.1 hx⟩
        · intro _
          have := g3 (by simp)
          show s'.host.loaders s.host.next ≠ none
          rw [show s'.host.loaders s.host.next = _ from this]
          simp [upd]
      · simp at hm
    · simp at hm0

/-- The invariant holds in every history. -/
theorem HeldInv.run {devices base cb : Nat} {kw : κ} {N q : Nat} {fn : μ → τ → List γ × τ} :
    ∀ (ops : List (ROp κ τ)) {r : RMapper Λ μ τ γ}, HeldInv base cb r → (∀ op ∈ ops, EnvOkR base cb op) →
    HeldInv base cb (rrun H devices base kw N q fn r ops).1
  | [], _, I, _ => I
  | op :: ops, _, I, h =>
    HeldInv.run ops (I.step op (h op (by simp))) (fun o ho => h o (by simp [ho]))

/-- Histories can be split. -/
theorem rrun_append {devices base : Nat} {kw : κ} {N q : Nat} {fn : μ → τ → List γ × τ} :
    ∀ (a b : List (ROp κ τ)) (r : RMapper Λ μ τ γ),
    rrun H devices base kw N q fn r (a ++ b) =
      ((rrun H devices base kw N q fn (rrun H devices base kw N q fn r a).1 b).1,
        (rrun H devices base kw N q fn r a).2 ++
          (rrun H devices base kw N q fn (rrun H devices base kw N q fn r a).1 b).2)
  | [], _, _ => rfl
  | op :: a, b, r => by simp [rrun, rrun_append a b]

/-- A mapper is released by `release` and nothing else, and for ever. -/
theorem rstep_released {devices base cb : Nat} {kw : κ} {N q : Nat} {fn : μ → τ → List γ × τ}
    {r : RMapper Λ μ τ γ} (I : HeldInv base cb r) (op : ROp κ τ) :
    ((rstep H devices base kw N q fn r op).1.released = true ↔ r.released = true ∨ op = .release) ∧
    (op = .release → (rstep H devices base kw N q fn r op).2 =
      if r.released then .raised .keyError else .done) := by
  cases op with
  | release =>
    simp only [rstep, pstep, I.cbEq]
    cases hr : r.released with
    | true => simp [I.reg.1 hr]
    | false =>
      have := I.reg.2 hr
      cases hl : r.m.sys.host.loaders cb with
      | none => exact absurd hl this
      | some l => simp
  | op o =>
    refine ⟨?_, by simp⟩
    cases o with
    | env op => simp [rstep]
    | start c carry =>
      simp only [rstep]
      split_ifs with h
      · simp [h]
      · split
        · simp
        · split <;> simp
    | iter c =>
      simp only [rstep]
      split
      · simp
      · split_ifs
        · split <;> simp
        · simp
    | finish c =>
      simp only [rstep]
      split
      · simp
      · split_ifs <;> simp_all

/-- **C152.** A mapper of any host data loader is created and used by any number of threads (`before`: every
interleaving of calls, iterations and other operations of the program).  It counts as released exactly if its
`release` has been called; the first call of `release` succeeds at any time, also while mapping calls are
running. -/
theorem c152_release {devices base : Nat} {kw : κ} {N q : Nat} {fn : μ → τ → List γ × τ} {s : PSys Λ μ}
    {l : Nat} {cc mb : Int} {m0 : Mapper Λ μ τ γ} (hm0 : mkMapper H devices base kw s l cc mb = some m0)
    (before : List (ROp κ τ)) (hb : ∀ op ∈ before, EnvOkR base m0.cb op) :
    let r := (rrun H devices base kw N q fn ⟨m0, false⟩ before).1
    (r.released = true ↔ ROp.release ∈ before) ∧
    (ROp.release ∉ before → (rstep H devices base kw N q fn r .release).2 = .done) := by
  have key : ∀ (ops : List (ROp κ τ)), (∀ op ∈ ops, EnvOkR base m0.cb op) →
      ((rrun H devices base kw N q fn ⟨m0, false⟩ ops).1.released = true ↔ ROp.release ∈ ops) := by
    intro ops
    induction ops using List.reverseRecOn with
    | nil => intro _; simp [rrun]
    | append_singleton ops op ih =>
      intro h
      have I := HeldInv.run (H := H) (devices := devices) (kw := kw) (N := N) (q := q) (fn := fn) ops
        (HeldInv.start hm0) (fun o ho => h o (by simp [ho]))
      rw [rrun_append]
      simp only [rrun]
      rw [(rstep_released I op).1, ih (fun o ho => h o (by simp [ho]))]
      simp [eq_comm]
  refine ⟨key before hb, ?_⟩
  intro hn
  have I := HeldInv.run (H := H) (devices := devices) (kw := kw) (N := N) (q := q) (fn := fn) before
    (HeldInv.start hm0) hb
  rw [(rstep_released I .release).2 rfl, if_neg]
  intro h
  exact hn ((key before hb).1 h)

/-- **C152.** After `release` has been called (anywhere in `before`), whatever happens afterwards: every new
mapping call raises `TypeError`, no call which was running returns a result (its end raises `AttributeError`),
a second `release` raises `KeyError`, and no operation of the mapper requests data from the data loader. -/
theorem c152_released {devices base : Nat} {kw : κ} {N q : Nat} {fn : μ → τ → List γ × τ} {s : PSys Λ μ}
    {l : Nat} {cc mb : Int} {m0 : Mapper Λ μ τ γ} (hm0 : mkMapper H devices base kw s l cc mb = some m0)
    (before after : List (ROp κ τ)) (hb : ∀ op ∈ before, EnvOkR base m0.cb op)
    (ha : ∀ op ∈ after, EnvOkR base m0.cb op) (hrel : ROp.release ∈ before) :
    let r := (rrun H devices base kw N q fn ⟨m0, false⟩ before).1
    (∀ x ∈ (rrun H devices base kw N q fn r after).2, ReleasedOutcome x.1 x.2) ∧
    (∀ pre op post, after = pre ++ op :: post → ofMapper op →
      let r1 := (rrun H devices base kw N q fn r pre).1
      (rstep H devices base kw N q fn r1 op).1.m.sys.host.fetches = r1.m.sys.host.fetches) := by
  have hr0 := ((c152_release (N := N) (q := q) (fn := fn) hm0 before hb).1).2 hrel
  have I0 := HeldInv.run (H := H) (devices := devices) (kw := kw) (N := N) (q := q) (fn := fn) before
    (HeldInv.start hm0) hb
  intro r
  have outcome : ∀ (r : RMapper Λ μ τ γ) (op : ROp κ τ), HeldInv base m0.cb r → r.released = true →
      ReleasedOutcome op (rstep H devices base kw N q fn r op).2 := by
    intro r op I hr
    cases op with
    | release =>
      have := (rstep_released (H := H) (devices := devices) (kw := kw) (N := N) (q := q) (fn := fn) I
        .release).2 rfl
      rw [hr] at this
      simpa [ReleasedOutcome] using this
    | op o =>
      cases o with
      | env op => trivial
      | start c carry => simp [rstep, hr, ReleasedOutcome]
      | iter c =>
        simp only [rstep, ReleasedOutcome]
        split
        · simp
        · split_ifs
          · split <;> simp
          · simp
      | finish c =>
        simp only [rstep, ReleasedOutcome, hr]
        split
        · simp
        · split_ifs <;> simp
  have fetches : ∀ (r : RMapper Λ μ τ γ) (op : ROp κ τ), HeldInv base m0.cb r → r.released = true →
      ofMapper op → (rstep H devices base kw N q fn r op).1.m.sys.host.fetches = r.m.sys.host.fetches := by
    intro r op I hr hop
    cases op with
    | release =>
      simp only [rstep, pstep]
      cases r.m.sys.host.loaders r.m.cb <;> rfl
    | op o =>
      cases o with
      | env op => exact absurd hop (by simp [ofMapper])
      | start c carry => simp [rstep, hr]
      | iter c =>
        simp only [rstep]
        cases hc : r.m.calls c with
        | none => rfl
        | some call =>
          dsimp only
          obtain ⟨k, hk, hslot⟩ := I.calls c call hc
          have hf := draw_fetches (κ := κ) (H := H) devices r.m.sys call.slot m0.cb
            (by rw [hslot]; exact I.slots k hk) (I.reg.1 hr)
          split_ifs with h1
          · cases hs : hostSource (κ := κ) H devices call.slot 1 r.m.sys with
            | mk x s' =>
              rw [hs] at hf
              cases x with
              | error e => exact hf
              | ok b =>
                simp only [mstep, hc, h1, if_true, hs]
                exact hf
          · rfl
      | finish c =>
        simp only [rstep, hr]
        split
        · rfl
        · split_ifs <;> rfl
  have stays : ∀ (ops : List (ROp κ τ)) (r : RMapper Λ μ τ γ), HeldInv base m0.cb r → r.released = true →
      (∀ op ∈ ops, EnvOkR base m0.cb op) →
      (rrun H devices base kw N q fn r ops).1.released = true := by
    intro ops
    induction ops with
    | nil => intro r _ hr _; exact hr
    | cons op ops ih =>
      intro r I hr h
      exact ih _ (I.step op (h op (by simp))) ((rstep_released I op).1.2 (.inl hr))
        (fun o ho => h o (by simp [ho]))
  refine ⟨?_, ?_⟩
  · have gen : ∀ (ops : List (ROp κ τ)) (r : RMapper Λ μ τ γ), HeldInv base m0.cb r → r.released = true →
        (∀ op ∈ ops, EnvOkR base m0.cb op) →
        ∀ x ∈ (rrun H devices base kw N q fn r ops).2, ReleasedOutcome x.1 x.2 := by
      intro ops
      induction ops with
      | nil => intro r _ _ _ x hx; simp [rrun] at hx
      | cons op ops ih =>
        intro r I hr h x hx
        simp only [rrun, List.mem_cons] at hx
        rcases hx with rfl | hx
        · exact outcome r op I hr
        · exact ih _ (I.step op (h op (by simp))) ((rstep_released I op).1.2 (.inl hr))
            (fun o ho => h o (by simp [ho])) x hx
    exact gen after r I0 hr0 ha
  · intro pre op post e hop r1
    have hpre : ∀ o ∈ pre, EnvOkR base m0.cb o := fun o ho => ha o (by rw [e]; simp [ho])
    exact fetches r1 op (HeldInv.run pre I0 hpre) (stays pre r I0 hr0 hpre) hop

end

section
variable {σ ρ γ τ : Type} (R : Rng σ)

/-- **C152.** Until it is released, a mapper of a numpy data loader works: no operation raises, and the mapper
is in the state described by C22, so that the calls return the complete results.  In particular a mapper is not
influenced by the release of another mapper or of other functions using the same data loader, which are
operations of the rest of the program here. -/
theorem c152_unreleased {devices base : Nat} (hdev : 1 ≤ devices) {objs : Nat → Loader σ ρ}
    (hobjs : ∀ i, ∃ data, mkLoader data = .ok (objs i)) {s}
    (hs : PReachable (numpyHost R) devices objs s) {l : Nat} {cc mb : Int}
    {m0 : Mapper (Loader σ ρ) (NB ρ) τ γ}
    (hm0 : mkMapper (numpyHost R) devices base .ordered s l cc mb = some m0)
    (fn : NB ρ → τ → List γ × τ) (ops : List (MOp NumpyKw τ)) (hops : ∀ op ∈ ops, EnvOk base m0.cb op) :
    let N := (objs l).obsCount
    let q := ceilDiv N mb.toNat
    let r := rrun (numpyHost R) devices base .ordered N q fn ⟨m0, false⟩ (ops.map .op)
    r.1.m = mrun (numpyHost R) devices base .ordered N q fn m0 ops ∧
    (∀ x ∈ r.2, ∀ e, x.2 ≠ .raised e) ∧
    (∀ x ∈ r.2, ∀ c res carry, x = (.op (.finish c), .result res carry) →
      ∃ carry0 batches, MOp.start c carry0 ∈ ops ∧ batches.length = q ∧
        (∀ i < N, ∃ h : i / mb.toNat < batches.length,
          batchRow batches[i / mb.toNat].1 (i % mb.toNat) = batchRow (objs l).data i) ∧
        carry = (thread fn batches carry0).2 ∧
        res = (thread fn batches carry0).1.flatten.take N) := by
  intro N q
  induction ops using List.reverseRecOn with
  | nil => exact ⟨rfl, by simp [rrun], by simp [rrun]⟩
  | append_singleton ops op ih =>
    have hpre : ∀ o ∈ ops, EnvOk base m0.cb o := fun o ho => hops o (by simp [ho])
    obtain ⟨h1, h2, h3⟩ := ih hpre
    have hrel := (c152_release (H := numpyHost R) (kw := .ordered) (N := N) (q := q) (fn := fn) hm0
      (ops.map .op) (by
        intro o ho
        obtain ⟨o', ho', rfl⟩ := List.mem_map.1 ho
        exact hpre o' ho')).1
    have hnr : (rrun (numpyHost R) devices base .ordered N q fn ⟨m0, false⟩ (ops.map .op)).1.released =
        false := by
      cases h : (rrun (numpyHost R) devices base .ordered N q fn ⟨m0, false⟩ (ops.map .op)).1.released with
      | false => rfl
      | true => exact absurd (hrel.1 h) (by simp)
    obtain ⟨-, -, -, -, k1, k2, k3⟩ := c22_concurrent R hdev hobjs hs hm0 fn ops hpre
    have hfin := (c22_concurrent R hdev hobjs hs hm0 fn (ops ++ [op]) hops).2.2.1
    have hmrun : mrun (numpyHost R) devices base .ordered N q fn m0 (ops ++ [op]) =
        mstep (numpyHost R) devices base .ordered N q fn
          (mrun (numpyHost R) devices base .ordered N q fn m0 ops) op := by
      rw [mrun_append]
      rfl
    intro r
    have hr : r = rrun (numpyHost R) devices base .ordered N q fn ⟨m0, false⟩
        (ops.map .op ++ [.op op]) := by
      simp only [r, List.map_append, List.map_singleton]
    rw [rrun_append] at hr
    have one : ∀ (r1 : RMapper (Loader σ ρ) (NB ρ) τ γ), r1.released = false →
        r1.m = mrun (numpyHost R) devices base .ordered N q fn m0 ops →
        (rstep (numpyHost R) devices base .ordered N q fn r1 (.op op)).1.m =
          mstep (numpyHost R) devices base .ordered N q fn r1.m op ∧
        (∀ e, (rstep (numpyHost R) devices base .ordered N q fn r1 (.op op)).2 ≠ .raised e) ∧
        (∀ c res carry, op = .finish c →
          (rstep (numpyHost R) devices base .ordered N q fn r1 (.op op)).2 = .result res carry →
          (mstep (numpyHost R) devices base .ordered N q fn r1.m op).finished c = some (res, carry)) := by
      intro r1 hr1 hm
      rw [← hm] at k1 k2 k3
      cases op with
      | env o => exact ⟨rfl, by simp [rstep], by simp⟩
      | start c carry =>
        simp only [rstep, hr1]
        cases hc : r1.m.calls c with
        | some call => exact ⟨by simp [mstep, hc], by simp, by simp⟩
        | none =>
          have := k1 c carry hc
          obtain ⟨call, hcall⟩ := Option.isSome_iff_exists.1 this
          simp only [Bool.false_eq_true, if_false]
          rw [show (mstep (numpyHost R) devices base .ordered N q fn r1.m (.start c carry)).calls c =
            some call from hcall]
          exact ⟨rfl, by simp, by simp⟩
      | iter c =>
        simp only [rstep]
        cases hc : r1.m.calls c with
        | none => exact ⟨by simp [mstep, hc], by simp, by simp⟩
        | some call =>
          dsimp only
          split_ifs with hlt
          · obtain ⟨call', e1, e2⟩ := k2 c call hc hlt
            cases hsrc : hostSource (numpyHost R) devices call.slot 1 r1.m.sys with
            | mk x s' =>
              cases x with
              | ok b => exact ⟨rfl, by simp, by simp⟩
              | error e =>
                exfalso
                have e1' : (mstep (numpyHost R) devices base .ordered N q fn r1.m (.iter c)).calls c =
                  some call' := e1
                simp only [mstep, hc, hlt, if_true, hsrc] at e1'
                rw [← Option.some.inj e1'] at e2
                omega
          · exact ⟨by simp [mstep, hc, hlt], by simp, by simp⟩
      | finish c =>
        simp only [rstep]
        cases hc : r1.m.calls c with
        | none => exact ⟨by simp [mstep, hc], by simp, by simp⟩
        | some call =>
          dsimp only
          split_ifs with hq hrr
          · rw [hr1] at hrr; cases hrr
          · refine ⟨rfl, by simp, ?_⟩
            intro c' res carry e1 e2
            simp only [MOp.finish.injEq] at e1
            subst e1
            simp only [MOut.result.injEq] at e2
            simp [mstep, hc, hq, upd, e2.1, e2.2]
          · exact ⟨by simp [mstep, hc, hq], by simp, by simp⟩
    obtain ⟨o1, o2, o3⟩ := one _ hnr h1
    refine ⟨?_, ?_, ?_⟩
    · rw [hr, hmrun, ← h1]
      exact o1
    · rw [hr]
      intro x hx
      simp only [rrun, List.mem_append, List.mem_singleton] at hx
      rcases hx with hx | rfl
      · exact h2 x hx
      · exact o2
    · rw [hr]
      intro x hx c res carry e
      simp only [rrun, List.mem_append, List.mem_singleton] at hx
      rcases hx with hx | rfl
      · obtain ⟨c0, bs, a1, a2⟩ := h3 x hx c res carry e
        exact ⟨c0, bs, by simp [a1], a2⟩
      · simp only [Prod.mk.injEq, ROp.op.injEq] at e
        have := o3 c res carry e.1 e.2
        rw [h1, ← hmrun] at this
        exact hfin c res carry this

/-- A mapper of the toy loader is released while a call is running. -/
def toyReleaseRun : Option (List (MOut Nat (Option Nat)) × List (Nat × Nat)) :=
  (mkMapper (numpyHost toyRng) 3 100 .ordered toyReady 1 2 2).map (fun m0 =>
    let r := rrun (numpyHost toyRng) 3 100 .ordered 5 3
        (fun b c => ((List.range 2).map (fun j => ((batchRow b.1 j).lookup "x").join), c + 1)) ⟨m0, false⟩
        [.op (.start 0 0), .op (.iter 0), .op (.iter 0), .op (.iter 0), .op (.finish 0), .op (.start 1 0),
         .op (.iter 1), .release, .op (.start 2 0), .op (.iter 1), .op (.iter 1), .op (.finish 1),
         .release]
    (r.2.map (·.2), r.1.m.sys.host.fetches))

example : toyReleaseRun.map (·.1) = some
    [.done, .done, .done, .done, .result [some 10, some 11, some 12, some 13, some 14] 3, .done, .done, .done,
      .raised .typeError, .raised .keyError, .done, .done, .raised .keyError] := by
  decide +kernel

/-- Released between the last iteration and the end of a call: the call does not return. -/
example : ((mkMapper (numpyHost toyRng) 3 100 .ordered toyReady 1 2 2).map (fun m0 =>
    (rrun (numpyHost toyRng) 3 100 .ordered 5 3 (fun _ (c : Nat) => (([] : List Nat), c + 1)) ⟨m0, false⟩
      [.op (.start 0 0), .op (.iter 0), .op (.iter 0), .op (.iter 0), .release, .op (.finish 0)]).2.map
        (·.2))) = some [.done, .done, .done, .done, .done, .raised .attributeError] := by
  decide +kernel

end

end JaxSgmc
