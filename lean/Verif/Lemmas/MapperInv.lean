import Verif.Lemmas.Mapper

/-! Helper lemmas: the invariant of `full_data_mapper` is preserved. -/

namespace JaxSgmc

open Spec

section
variable {σ ρ γ τ : Type} {R : Rng σ} {devices base : Nat} {objs : Nat → Loader σ ρ} {cfg : Cfg}
  {fn : NB ρ → τ → List γ × τ} {m0 m : Mapper (Loader σ ρ) (NB ρ) τ γ} {hist : List (MOp NumpyKw τ)}


theorem slotVar_inj {a b : Nat} (h : slotVar base a = slotVar base b) : a = b := by
  simp only [slotVar] at h; omega

/-- Extending the history without changing the mapper. -/
theorem MInv.grow (I : MInv (R := R) devices base objs cfg fn m0 hist m) (op : MOp NumpyKw τ) :
    MInv (R := R) devices base objs cfg fn m0 (hist ++ [op]) m := by
  refine { I with callAt := ?_, fin := ?_, peak := ?_ }
  · intro c call h
    obtain ⟨h1, h2, c0, h3, h4⟩ := I.callAt c call h
    exact ⟨h1, h2, c0, List.mem_append_left _ h3, h4⟩
  · intro c r h
    obtain ⟨c0, h1, h2⟩ := I.fin c r h
    exact ⟨c0, List.mem_append_left _ h1, h2⟩
  · rcases I.peak with h | ⟨h1, rest, h2, h3⟩
    · exact .inl h
    · exact .inr ⟨h1, rest ++ [op], by simp [h2], h3⟩

/-- Changing the program by an operation which does not touch the slots. -/
theorem MInv.sysOut (I : MInv (R := R) devices base objs cfg fn m0 hist m) (op : POp NumpyKw)
    (hk : ∀ k < m.created, Respects [slotVar base k] m.cb 1 op ∧
      ∀ h dc, op = .draw h dc → h ≠ slotVar base k) (hrel : ∀ c, op = .release c → c ≠ m.cb) :
    MInv (R := R) devices base objs cfg fn m0 hist
      { m with sys := (pstep (numpyHost R) devices m.sys op).1 } := by
  have g := I.reach.ginv (numpyContract R)
  refine { I with reach := reachable_step I.reach op, cfgEq := cfgs_step _ g I.cfgEq op,
                  load := loaders_step g I.load op hrel, poolAt := ?_, callAt := ?_ }
  · intro x hx
    obtain ⟨k, hk', rfl⟩ := I.poolLt x hx
    obtain ⟨p, hp⟩ := I.poolAt _ hx
    exact ⟨p, hp.out g devices op (hk k hk').1 (hk k hk').2⟩
  · intro c call h
    obtain ⟨h1, ⟨p, h2⟩, h3⟩ := I.callAt c call h
    obtain ⟨k, hk', hs⟩ := I.callLt c call h
    rw [hs] at h2 ⊢
    exact ⟨h1, ⟨p, h2.out g devices op (hk k hk').1 (hk k hk').2⟩, h3⟩

theorem MInv.env (I : MInv (R := R) devices base objs cfg fn m0 hist m) (op : POp NumpyKw)
    (h : EnvOk (σ := τ) base m.cb (.env op)) :
    MInv (R := R) devices base objs cfg fn m0 (hist ++ [.env op])
      (mstep (numpyHost R) devices base .ordered (objs cfg.loader).obsCount (ceilDiv (objs cfg.loader).obsCount cfg.mbSize) fn m (.env op)) := by
  refine (I.sysOut op (fun k _ => env_other h) ?_).grow _
  rintro c rfl
  exact h

theorem MInv.iter (hdev : 1 ≤ devices) (I : MInv (R := R) devices base objs cfg fn m0 hist m) (c : Nat) :
    MInv (R := R) devices base objs cfg fn m0 (hist ++ [.iter c])
      (mstep (numpyHost R) devices base .ordered (objs cfg.loader).obsCount (ceilDiv (objs cfg.loader).obsCount cfg.mbSize) fn m (.iter c)) := by
  simp only [mstep]
  cases hc : m.calls c with
  | none => exact I.grow _
  | some call =>
    simp only
    split
    · rename_i hlt
      have g := I.reach.ginv (numpyContract R)
      obtain ⟨hle, ⟨p, hat⟩, c0, hs0, hres⟩ := I.callAt c call hc
      obtain ⟨hsrc, hat'⟩ := hat.draw g hdev
      obtain ⟨k, hk, hslot⟩ := I.callLt c call hc
      rw [hsrc]
      simp only
      have hmod : (p * (ceilDiv (objs cfg.loader).obsCount cfg.mbSize) + call.iter) % (ceilDiv (objs cfg.loader).obsCount cfg.mbSize) = call.iter := by
        rw [Nat.mul_add_mod_self_right, Nat.mod_eq_of_lt hlt]
      rw [hmod] at *
      have g' := g.step (numpyContract R) devices (.draw call.slot 1)
      have out : ∀ x, x ≠ call.slot → ∀ d, At R (objs cfg.loader).data (objs cfg.loader).obsCount cfg.mbSize m.cb x d m.sys →
          At R (objs cfg.loader).data (objs cfg.loader).obsCount cfg.mbSize m.cb x d
            (pstep (numpyHost R) devices m.sys (.draw call.slot 1)).1 := by
        intro x hx d hd
        refine hd.out g devices _ ?_ ?_
        · simp only [Respects, List.mem_singleton]
          intro e; exact absurd e.symm hx
        · intro h dc e
          simp only [POp.draw.injEq] at e
          rw [← e.1]; exact fun e => hx e.symm
      refine MInv.grow ?_ _
      refine { I with reach := reachable_step I.reach _, cfgEq := cfgs_step _ g I.cfgEq _,
                      load := loaders_step g I.load _ (by simp), callLt := ?_, callPool := ?_,
                      callInj := ?_, owned := ?_, poolAt := ?_, callAt := ?_ }
      · intro c' call' h
        simp only [upd_apply] at h
        split at h
        · cases h; exact ⟨k, hk, hslot⟩
        · exact I.callLt _ _ h
      · intro c' call' h
        simp only [upd_apply] at h
        split at h
        · cases h; exact (I.callPool c call hc :)
        · exact I.callPool _ _ h
      · intro a b x y hx hy hxy
        simp only [upd_apply] at hx hy
        split at hx <;> split at hy
        · rename_i h1 h2; rw [h1, h2]
        · rename_i h1 h2; cases hx; rw [h1]; exact I.callInj _ _ _ _ hc hy hxy
        · rename_i h1 h2; cases hy; rw [h2]; exact I.callInj _ _ _ _ hx hc hxy
        · exact I.callInj _ _ _ _ hx hy hxy
      · intro k' hk'
        rcases I.owned k' hk' with h | ⟨c', call', h1, h2⟩
        · exact .inl h
        · right
          by_cases he : c' = c
          · subst he
            rw [hc] at h1
            cases h1
            exact ⟨c', _, upd_self _ _ _, h2⟩
          · exact ⟨c', call', (upd_ne _ _ _ _ he).trans h1, h2⟩
      · intro x hx
        obtain ⟨p', hp'⟩ := I.poolAt x hx
        exact ⟨p', out x (fun e => I.callPool _ _ hc (e ▸ hx)) _ hp'⟩
      · intro c' call' h
        simp only [upd_apply] at h
        split at h
        · rename_i he
          cases h
          refine ⟨hlt, ⟨p, hat'⟩, c0, by rw [he]; exact hs0, ?_⟩
          rw [Prod.ext_iff] at hres
          dsimp only at hres ⊢
          rw [List.range_succ, List.map_append, List.map_cons, List.map_nil, thread_append,
            ← hres.1, ← hres.2]
        · rename_i he
          obtain ⟨h1, ⟨p', h2⟩, h3⟩ := I.callAt _ _ h
          exact ⟨h1, ⟨p', out _ (fun e => he (I.callInj _ _ _ _ h hc e)) _ h2⟩, h3⟩
    · exact I.grow _

theorem MInv.finish (I : MInv (R := R) devices base objs cfg fn m0 hist m) (c : Nat) :
    MInv (R := R) devices base objs cfg fn m0 (hist ++ [.finish c])
      (mstep (numpyHost R) devices base .ordered (objs cfg.loader).obsCount (ceilDiv (objs cfg.loader).obsCount cfg.mbSize) fn m (.finish c)) := by
  simp only [mstep]
  cases hc : m.calls c with
  | none => exact I.grow _
  | some call =>
    simp only
    split
    · rename_i hit
      obtain ⟨hle, ⟨p, hat⟩, c0, hs0, hres⟩ := I.callAt c call hc
      refine MInv.grow ?_ _
      refine { I with poolLt := ?_, callLt := ?_, poolNodup := ?_, callPool := ?_, callInj := ?_,
                      owned := ?_, poolAt := ?_, callAt := ?_, fin := ?_ }
      · intro x hx
        rcases List.mem_append.1 hx with hx | hx
        · exact I.poolLt x hx
        · rw [List.mem_singleton] at hx; subst hx; exact I.callLt _ _ hc
      · intro c' call' h
        simp only [upd_apply] at h
        split at h
        · cases h
        · exact I.callLt _ _ h
      · rw [List.nodup_append]
        refine ⟨I.poolNodup, by simp, ?_⟩
        intro a ha b hb
        rw [List.mem_singleton] at hb
        subst hb
        exact fun e => I.callPool _ _ hc (e ▸ ha)
      · intro c' call' h
        simp only [upd_apply] at h
        split at h
        · cases h
        · rename_i he
          rw [List.mem_append, List.mem_singleton]
          rintro (h1 | h1)
          · exact I.callPool _ _ h h1
          · exact he (I.callInj _ _ _ _ h hc h1)
      · intro a b x y hx hy hxy
        simp only [upd_apply] at hx hy
        split at hx
        · cases hx
        · split at hy
          · cases hy
          · exact I.callInj _ _ _ _ hx hy hxy
      · intro k' hk'
        rcases I.owned k' hk' with h | ⟨c', call', h1, h2⟩
        · exact .inl (List.mem_append_left _ h)
        · by_cases he : c' = c
          · subst he
            rw [hc] at h1
            cases h1
            exact .inl (List.mem_append_right _ (by simp [h2]))
          · exact .inr ⟨c', call', (upd_ne _ _ _ _ he).trans h1, h2⟩
      · intro x hx
        rcases List.mem_append.1 hx with hx | hx
        · exact I.poolAt x hx
        · rw [List.mem_singleton] at hx; subst hx
          refine ⟨p + 1, ?_⟩
          rw [hit] at hat
          rw [Nat.add_mul, Nat.one_mul]
          exact hat
      · intro c' call' h
        simp only [upd_apply] at h
        split at h
        · cases h
        · exact I.callAt _ _ h
      · intro c' r h
        simp only [upd_apply] at h
        split at h
        · rename_i he
          cases h
          refine ⟨c0, by rw [he]; exact hs0, ?_⟩
          rw [Prod.ext_iff] at hres
          dsimp only at hres
          rw [hit] at hres
          rw [hres.1, hres.2]
        · exact I.fin _ _ h
    · exact I.grow _

/-- Starting a call with an unused data state. -/
theorem MInv.start_reuse (I : MInv (R := R) devices base objs cfg fn m0 hist m) (c : Nat) (c0 : τ)
    (hc : m.calls c = none) (slot : Nat) (hp : m.pool.getLast? = some slot) :
    MInv (R := R) devices base objs cfg fn m0 (hist ++ [.start c c0])
      { m with pool := m.pool.dropLast, calls := upd m.calls c (some ⟨slot, 0, c0, []⟩) } := by
  have hpool : m.pool = m.pool.dropLast ++ [slot] := by
    have h1 := List.dropLast_append_getLast? slot hp
    exact h1.symm
  have hmem : slot ∈ m.pool := List.mem_of_getLast? hp
  have hsub : ∀ x ∈ m.pool.dropLast, x ∈ m.pool := fun x hx => List.dropLast_subset _ hx
  have hnot : slot ∉ m.pool.dropLast := by
    have := I.poolNodup
    rw [hpool, List.nodup_append] at this
    intro h
    exact this.2.2 slot h slot (by simp) rfl
  have I' := I.grow (.start c c0)
  refine { I' with poolLt := fun x hx => I.poolLt x (hsub x hx), callLt := ?_, poolNodup := ?_,
                   callPool := ?_, callInj := ?_, owned := ?_,
                   poolAt := fun x hx => I.poolAt x (hsub x hx), callAt := ?_ }
  · intro c' call' h
    simp only [upd_apply] at h
    split at h
    · cases h; exact I.poolLt _ hmem
    · exact I.callLt _ _ h
  · exact I.poolNodup.sublist (List.dropLast_sublist _)
  · intro c' call' h
    simp only [upd_apply] at h
    split at h
    · cases h; exact hnot
    · exact fun hx => I.callPool _ _ h (hsub _ hx)
  · intro a b x y hx hy hxy
    simp only [upd_apply] at hx hy
    split at hx <;> split at hy
    · rename_i h1 h2; rw [h1, h2]
    · rename_i h1 h2; cases hx; exact absurd (hxy ▸ hmem) (I.callPool _ _ hy)
    · rename_i h1 h2; cases hy; exact absurd (hxy ▸ hmem) (I.callPool _ _ hx)
    · exact I.callInj _ _ _ _ hx hy hxy
  · intro k hk
    rcases I.owned k hk with h | ⟨c', call', h1, h2⟩
    · rw [hpool, List.mem_append, List.mem_singleton] at h
      rcases h with h | h
      · exact .inl h
      · exact .inr ⟨c, _, upd_self _ _ _, h.symm⟩
    · refine .inr ⟨c', call', ?_, h2⟩
      exact (upd_ne _ _ _ _ (fun e => by rw [e, hc] at h1; cases h1)).trans h1
  · intro c' call' h
    simp only [upd_apply] at h
    split at h
    · rename_i he
      cases h
      obtain ⟨p, hp⟩ := I.poolAt _ hmem
      exact ⟨Nat.zero_le _, ⟨p, hp⟩, c0, by rw [he]; simp, rfl⟩
    · exact I'.callAt _ _ h

/-- The owners of the first `n` slots if no data state is unused. -/
theorem owners {Λ μ : Type} (base : Nat) (m : Mapper Λ μ τ γ) (n : Nat)
    (h : ∀ k < n, ∃ c call, m.calls c = some call ∧ call.slot = slotVar base k) :
    ∃ ids : List Nat, ids.Nodup ∧ ids.length = n ∧ ∀ c ∈ ids, ∃ k < n, ∃ call,
      m.calls c = some call ∧ call.slot = slotVar base k := by
  induction n with
  | zero => exact ⟨[], by simp⟩
  | succ n ih =>
    obtain ⟨ids, h1, h2, h3⟩ := ih (fun k hk => h k (by omega))
    obtain ⟨c, call, h4, h5⟩ := h n (by omega)
    refine ⟨c :: ids, ?_, by simp [h2], ?_⟩
    · rw [List.nodup_cons]
      refine ⟨?_, h1⟩
      intro hc
      obtain ⟨k, hk, call', h6, h7⟩ := h3 c hc
      rw [h4] at h6
      cases h6
      have := slotVar_inj (h5.symm.trans h7)
      omega
    · intro c' hc'
      rcases List.mem_cons.1 hc' with rfl | hc'
      · exact ⟨n, by omega, call, h4, h5⟩
      · obtain ⟨k, hk, h⟩ := h3 c' hc'
        exact ⟨k, by omega, h⟩

/-- Starting a call with a new data state. -/
theorem MInv.start_new (hobjs : ∀ i, ∃ data, mkLoader data = .ok (objs i))
    (I : MInv (R := R) devices base objs cfg fn m0 hist m) (c : Nat) (c0 : τ)
    (hm : m = mrun (numpyHost R) devices base .ordered (objs cfg.loader).obsCount (ceilDiv (objs cfg.loader).obsCount cfg.mbSize) fn m0 hist)
    (hc : m.calls c = none) (hp : m.pool = []) :
    (mstep (numpyHost R) devices base .ordered (objs cfg.loader).obsCount (ceilDiv (objs cfg.loader).obsCount cfg.mbSize) fn m (.start c c0)).calls c ≠ none ∧
    MInv (R := R) devices base objs cfg fn m0 (hist ++ [.start c c0])
      (mstep (numpyHost R) devices base .ordered (objs cfg.loader).obsCount (ceilDiv (objs cfg.loader).obsCount cfg.mbSize) fn m (.start c c0)) := by
  have g := I.reach.ginv (numpyContract R)
  obtain ⟨hdone, hnew⟩ := At.new (v := slotVar base m.created) hobjs I.reach I.cfgEq I.mbPos I.load I.mbLe
  have hstep : mstep (numpyHost R) devices base .ordered (objs cfg.loader).obsCount (ceilDiv (objs cfg.loader).obsCount cfg.mbSize) fn m (.start c c0) =
      Mapper.mk (pstep (numpyHost R) devices m.sys (.init m.cb .ordered (slotVar base m.created))).1
        m.cb m.pool (m.created + 1) (upd m.calls c (some ⟨slotVar base m.created, 0, c0, []⟩))
        m.finished := by
    simp only [mstep, hc, hp, List.getLast?_nil, newSlot]
    cases hq : pstep (numpyHost R) devices m.sys (.init m.cb .ordered (slotVar base m.created)) with
    | mk s' o =>
      rw [hq] at hdone
      simp only at hdone
      subst hdone
      rfl
  have hnz : ∀ k < m.created, slotVar base k ≠ slotVar base m.created := by
    intro k hk e
    have := slotVar_inj e
    omega
  have I1 := I.sysOut (.init m.cb .ordered (slotVar base m.created)) (by
    intro k hk
    refine ⟨?_, by simp⟩
    simp only [Respects, List.mem_singleton]
    exact fun e => hnz k hk e.symm) (by simp)
  have I2 := I1.grow (.start c c0)
  refine ⟨by rw [hstep]; simp, ?_⟩
  have hcalls : (mstep (numpyHost R) devices base .ordered (objs cfg.loader).obsCount (ceilDiv (objs cfg.loader).obsCount cfg.mbSize) fn m (.start c c0)).calls =
      upd m.calls c (some ⟨slotVar base m.created, 0, c0, []⟩) := by rw [hstep]
  have hown : ∀ k < m.created + 1, ∃ c' call',
      (upd m.calls c (some (⟨slotVar base m.created, 0, c0, []⟩ : Call τ γ))) c' = some call' ∧
        call'.slot = slotVar base k := by
    intro k hk
    by_cases hk' : k = m.created
    · subst hk'; exact ⟨c, _, upd_self _ _ _, rfl⟩
    · rcases I.owned k (by omega) with h | ⟨c', call', h1, h2⟩
      · rw [hp] at h; simp at h
      · refine ⟨c', call', ?_, h2⟩
        rw [upd_ne _ _ _ _ (fun e => by rw [e, hc] at h1; cases h1)]
        exact h1
  have hpeak : ∃ ids : List Nat, ids.Nodup ∧ ids.length = m.created + 1 ∧ ∀ c' ∈ ids,
      ((mrun (numpyHost R) devices base .ordered (objs cfg.loader).obsCount (ceilDiv (objs cfg.loader).obsCount cfg.mbSize) fn m0 (hist ++ [.start c c0])).calls c').isSome := by
    obtain ⟨ids, h1, h2, h3⟩ := owners base
      (mstep (numpyHost R) devices base .ordered (objs cfg.loader).obsCount (ceilDiv (objs cfg.loader).obsCount cfg.mbSize) fn m (.start c c0)) (m.created + 1)
      (by rw [hcalls]; exact hown)
    refine ⟨ids, h1, h2, ?_⟩
    intro c' hc'
    obtain ⟨k, -, call', h4, -⟩ := h3 c' hc'
    rw [mrun_append, ← hm]
    simp only [mrun]
    rw [h4]; rfl
  rw [hstep]
  refine { reach := I2.reach, cbEq := I2.cbEq, cfgEq := I2.cfgEq, load := I2.load, mbPos := I2.mbPos,
           mbLe := I2.mbLe, poolLt := ?_, callLt := ?_, poolNodup := I2.poolNodup, callPool := ?_,
           callInj := ?_, owned := ?_, poolAt := I2.poolAt, callAt := ?_, fin := I2.fin, peak := ?_ }
  · intro x hx
    obtain ⟨k, hk, h⟩ := I.poolLt x hx
    exact ⟨k, by show k < m.created + 1; omega, h⟩
  · intro c' call' h
    simp only [upd_apply] at h
    split at h
    · cases h; exact ⟨m.created, by simp, rfl⟩
    · obtain ⟨k, hk, h⟩ := I.callLt _ _ h
      exact ⟨k, by show k < m.created + 1; omega, h⟩
  · intro c' call' h
    simp only [hp]
    simp
  · intro a b x y hx hy hxy
    simp only [upd_apply] at hx hy
    split at hx <;> split at hy
    · rename_i h1 h2; rw [h1, h2]
    · cases hx
      obtain ⟨k, hk, h⟩ := I.callLt _ _ hy
      exact absurd (hxy.symm ▸ h).symm (hnz k hk)
    · cases hy
      obtain ⟨k, hk, h⟩ := I.callLt _ _ hx
      exact absurd (hxy ▸ h).symm (hnz k hk)
    · exact I.callInj _ _ _ _ hx hy hxy
  · intro k hk
    exact .inr (hown k hk)
  · intro c' call' h
    simp only [upd_apply] at h
    split at h
    · rename_i he
      cases h
      exact ⟨Nat.zero_le _, ⟨0, by simpa using hnew⟩, c0, by rw [he]; simp, rfl⟩
    · exact I2.callAt _ _ h
  · exact .inr ⟨_, [], by simp, hpeak⟩

theorem MInv.step (hdev : 1 ≤ devices) (hobjs : ∀ i, ∃ data, mkLoader data = .ok (objs i))
    (I : MInv (R := R) devices base objs cfg fn m0 hist m)
    (hm : m = mrun (numpyHost R) devices base .ordered (objs cfg.loader).obsCount (ceilDiv (objs cfg.loader).obsCount cfg.mbSize) fn m0 hist) (op : MOp NumpyKw τ)
    (hop : EnvOk base m0.cb op) :
    MInv (R := R) devices base objs cfg fn m0 (hist ++ [op])
      (mstep (numpyHost R) devices base .ordered (objs cfg.loader).obsCount (ceilDiv (objs cfg.loader).obsCount cfg.mbSize) fn m op) := by
  cases op with
  | env op => exact I.env op (by rw [I.cbEq]; exact hop)
  | iter c => exact I.iter hdev c
  | finish c => exact I.finish c
  | start c c0 =>
    cases hc : m.calls c with
    | some call => simp only [mstep, hc]; exact I.grow _
    | none =>
      cases hp : m.pool.getLast? with
      | some slot => simp only [mstep, hc, hp]; exact I.start_reuse c c0 hc slot hp
      | none => exact (I.start_new hobjs c c0 hm hc (List.getLast?_eq_none_iff.1 hp)).2

theorem MInv.run (hdev : 1 ≤ devices) (hobjs : ∀ i, ∃ data, mkLoader data = .ok (objs i))
    (ops : List (MOp NumpyKw τ)) : ∀ {hist m}, MInv (R := R) devices base objs cfg fn m0 hist m →
    m = mrun (numpyHost R) devices base .ordered (objs cfg.loader).obsCount (ceilDiv (objs cfg.loader).obsCount cfg.mbSize) fn m0 hist → (∀ op ∈ ops, EnvOk base m0.cb op) →
    MInv (R := R) devices base objs cfg fn m0 (hist ++ ops)
      (mrun (numpyHost R) devices base .ordered (objs cfg.loader).obsCount (ceilDiv (objs cfg.loader).obsCount cfg.mbSize) fn m ops) := by
  induction ops with
  | nil => intro hist m I _ _; simpa [mrun] using I
  | cons op ops ih =>
    intro hist m I hm hops
    have I' := I.step hdev hobjs hm op (hops op List.mem_cons_self)
    have := ih I' (by rw [mrun_append, ← hm]; rfl) (fun o ho => hops o (List.mem_cons_of_mem _ ho))
    simpa [mrun, List.append_assoc] using this

/-- A new mapper. -/
theorem MInv.init (hobjs : ∀ i, ∃ data, mkLoader data = .ok (objs i)) {s} {l : Nat} {cc mb : Int}
    (hs : PReachable (numpyHost R) devices objs s)
    (h : mkMapper (numpyHost R) devices base .ordered s l cc mb = some m0) :
    MInv (R := R) devices base objs ⟨l, cc.toNat, mb.toNat, true⟩ fn m0 [] m0 ∧ m0.created = 1 ∧
      ∀ c, m0.calls c = none ∧ m0.finished c = none := by
  have hs1 : PReachable (numpyHost R) devices objs
      (pstep (numpyHost R) devices s (.setup l cc mb true)).1 := reachable_step hs _
  simp only [mkMapper] at h
  split at h
  · rename_i s' cb heq
    rw [heq] at hs1
    have hset : s'.cfgs cb = some ⟨l, cc.toNat, mb.toNat, true⟩ ∧ s'.host.loaders cb = some l ∧
        0 < mb.toNat ∧ mb.toNat ≤ (s.host.objs l).obsCount := by
      simp only [pstep, setupFn] at heq
      split at heq
      · simp at heq
      · split at heq
        · simp at heq
        · rename_i h1 h2
          simp only [Prod.mk.injEq, POut.ready.injEq] at heq
          obtain ⟨rfl, rfl⟩ := heq
          refine ⟨by simp, by simp, by omega, ?_⟩
          simp only [numpyHost] at h1
          omega
    obtain ⟨e1, e2, e3, e4⟩ := hset
    rw [(numpy_data_const R hs l).2] at e4
    obtain ⟨hdone, hnew⟩ := At.new (v := slotVar base 0) hobjs hs1 e1 e3 e2 e4
    simp only [newSlot] at h
    cases hq : pstep (numpyHost R) devices s' (.init cb .ordered (slotVar base 0)) with
    | mk s'' o =>
      rw [hq] at hdone h hnew
      simp only at hdone
      subst hdone
      simp only [Option.some.injEq] at h
      subst h
      have hs2 : PReachable (numpyHost R) devices objs s'' := by
        have := reachable_step hs1 (.init cb .ordered (slotVar base 0))
        rw [hq] at this
        exact this
      have g1 := hs1.ginv (numpyContract R)
      refine ⟨?_, rfl, fun c => ⟨rfl, rfl⟩⟩
      refine { reach := hs2, cbEq := rfl, cfgEq := ?_, load := ?_, mbPos := e3, mbLe := e4,
               poolLt := ?_, callLt := by simp, poolNodup := by simp, callPool := by simp,
               callInj := by simp, owned := ?_, poolAt := ?_, callAt := by simp, fin := by simp,
               peak := .inl (Nat.le_refl _) }
      · have := cfgs_step (devices := devices) (numpyContract R) g1 e1 (.init cb .ordered (slotVar base 0))
        rw [hq] at this
        exact this
      · have := loaders_step (devices := devices) g1 e2 (.init cb .ordered (slotVar base 0)) (by simp)
        rw [hq] at this
        exact this
      · intro x hx
        simp only [List.mem_singleton] at hx
        exact ⟨0, by simp, hx⟩
      · intro k hk
        have hk : k < 1 := hk
        exact .inl (by simp [show k = 0 by omega])
      · intro x hx
        have hx' : x = slotVar base 0 := List.mem_singleton.1 hx
        rw [hx']
        exact ⟨0, by rw [Nat.zero_mul]; exact hnew⟩
  · simp at h

end

end JaxSgmc
