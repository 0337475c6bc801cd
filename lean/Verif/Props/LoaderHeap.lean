import Verif.Lemmas.LoaderHeap
import Verif.Props.Loader

/-!
# Copies of checkpoints (C124)

`load_state` empties the checkpoint it is given (C07), so whoever wants to restore twice copies the checkpoint.
-/

namespace JaxSgmc

open Spec

variable {σ ρ : Type}

/-! ## C124 -/

/-- **C124, full statement**: save a chain in any state, copy the checkpoint, shallowly or deeply, do anything which
does not overwrite the copy – restore the original, draw, register – and restore the copy: this succeeds and from then
on the chain delivers what it would have delivered when it was saved. -/
def C124Statement : Prop :=
  ∀ (σ ρ : Type) (R : Rng σ), R.Lawful → ∀ (data : List (String × List ρ)) (s₀ : HSys σ ρ), hinit data = .ok s₀ →
  ∀ (before : List HOp) (cid h h' : Nat) (copy : HOp), copy = .shallow h h' ∨ copy = .deep h h' →
  ∀ (between later : List HOp),
    (∀ op ∈ between, h' ∉ writes op) → (∀ op ∈ later, restores cid op = false) →
    let s := (hrun R s₀ before).1
    (hstep R s (.base (.save cid h))).2 = .saved →
    let t := (hrun R s₀ (before ++ [.base (.save cid h), copy] ++ between)).1
    (hstep R t (.base (.load cid h'))).2 = .loaded ∧
    gets cid (hrun R (hstep R t (.base (.load cid h'))).1 later).2 = gets cid (hrun R s later).2

/-- A loader for the example data. -/
def toyHeap : HSys Nat Nat := ⟨toyData, 5, [], [], fun _ => none⟩

/-- **C124 is false.**  The first restore hands the array of the checkpoint to the chain, which overwrites it at the
beginning of the next epoch; the shallow copy holds the same array. -/
theorem c124_false : ¬ C124Statement := by
  intro h
  have h1 := h Nat Nat toyRng toyRng_lawful toyData toyHeap rfl
    [.base (.regRandom 1 2 true true none), .base (.get 0)] 0 0 1 (.shallow 0 1) (Or.inl rfl)
    [.base (.load 0 0), .base (.get 0), .base (.get 0), .base (.get 0)] [.base (.get 0)]
    (by decide) (by decide) (by decide +kernel)
  revert h1
  decide +kernel

theorem snapRun_append (R : Rng σ) (s : LSys σ ρ) (a b : List HOp) :
    snapRun R s (a ++ b) = ((snapRun R (snapRun R s a).1 b).1, (snapRun R s a).2 ++ (snapRun R (snapRun R s a).1 b).2) := by
  induction a generalizing s with
  | nil => rfl
  | cons op a ih => simp only [List.cons_append, snapRun, ih]

theorem hrun_append (R : Rng σ) (s : HSys σ ρ) (a b : List HOp) :
    hrun R s (a ++ b) = ((hrun R (hrun R s a).1 b).1, (hrun R s a).2 ++ (hrun R (hrun R s a).1 b).2) := by
  induction a generalizing s with
  | nil => rfl
  | cons op a ih => simp only [List.cons_append, hrun, ih]

theorem hinit_inv (data : List (String × List ρ)) (s : HSys σ ρ) (h : hinit data = .ok s) :
    HInv s ∧ ∃ L : Loader σ ρ, mkLoader data = .ok L ∧ absSys s = { loader := L, ckpts := fun _ => none } := by
  unfold hinit at h
  cases hL : mkLoader (σ := σ) data with
  | error e => rw [hL] at h; cases h
  | ok L =>
    rw [hL] at h
    cases h
    refine ⟨?_, L, rfl, ?_⟩
    · intro l r hr
      cases l <;> simp [bufAt] at hr
    · have hc : L.chains = [] := by
        unfold mkLoader at hL
        split at hL
        · cases hL; rfl
        · split at hL
          · cases hL
          · cases hL; rfl
      unfold absSys
      simp only [List.map_nil]
      cases L
      simp only at hc
      subst hc
      rfl

/-- **C124, partial**: as long as checkpoints are copied only deeply, every history of calls has exactly the outcomes
it would have if checkpoints were values (missing: shallow copies). -/
theorem c124_snapshot_partial (R : Rng σ) (data : List (String × List ρ)) (s₀ : HSys σ ρ)
    (hs : hinit data = .ok s₀) (L : Loader σ ρ) (hL : mkLoader data = .ok L) (ops : List HOp)
    (hops : ∀ op ∈ ops, isShallow op = false) :
    (hrun R s₀ ops).2 = (snapRun R { loader := L, ckpts := fun _ => none } ops).2 := by
  obtain ⟨hi, L', hL', ha⟩ := hinit_inv data s₀ hs
  rw [hL] at hL'
  cases hL'
  rw [(hrun_sim R ops s₀ hi hops).2.2, ha]

theorem snapStep_ckpt (R : Rng σ) (s : LSys σ ρ) (op : HOp) (h : Nat) (hw : h ∉ writes op) :
    (snapStep R s op).1.ckpts h = s.ckpts h := by
  cases op with
  | shallow a b =>
    have hb : h ≠ b := by simpa [writes] using hw
    unfold snapStep
    dsimp only
    cases s.ckpts a with
    | none => rfl
    | some ck => simp only [setCkpt, if_neg hb]
  | deep a b =>
    have hb : h ≠ b := by simpa [writes] using hw
    unfold snapStep
    dsimp only
    cases s.ckpts a with
    | none => rfl
    | some ck => simp only [setCkpt, if_neg hb]
  | base op =>
    have hh : handle? op ≠ some h := by
      cases op <;> simp [writes, handle?] at hw ⊢ <;> exact fun e => hw e.symm
    have := lrun_ckpt_unchanged R [op] h s (by simpa using hh)
    simpa [lrun, snapStep] using this

theorem snapRun_ckpt (R : Rng σ) (ops : List HOp) (s : LSys σ ρ) (h : Nat) (hw : ∀ op ∈ ops, h ∉ writes op) :
    (snapRun R s ops).1.ckpts h = s.ckpts h := by
  induction ops generalizing s with
  | nil => rfl
  | cons op ops ih =>
    unfold snapRun
    dsimp only
    rw [ih _ (fun o ho => hw o (List.mem_cons_of_mem _ ho)), snapStep_ckpt R s op h (hw op List.mem_cons_self)]

theorem snapStep_kind (R : Rng σ) (s : LSys σ ρ) (op : HOp) (cid : Nat) (c : Chain σ)
    (h : s.loader.chains[cid]? = some c) :
    ∃ c', (snapStep R s op).1.loader.chains[cid]? = some c' ∧ c'.kind = c.kind := by
  cases op with
  | base op => exact lstep_kind R s op cid c h
  | shallow a b =>
    unfold snapStep
    dsimp only
    cases s.ckpts a <;> exact ⟨c, h, rfl⟩
  | deep a b =>
    unfold snapStep
    dsimp only
    cases s.ckpts a <;> exact ⟨c, h, rfl⟩

theorem snapRun_kind (R : Rng σ) (ops : List HOp) (s : LSys σ ρ) (cid : Nat) (c : Chain σ)
    (h : s.loader.chains[cid]? = some c) :
    ∃ c', (snapRun R s ops).1.loader.chains[cid]? = some c' ∧ c'.kind = c.kind := by
  induction ops generalizing s c with
  | nil => exact ⟨c, h, rfl⟩
  | cons op ops ih =>
    obtain ⟨c1, h1, k1⟩ := snapStep_kind R s op cid c h
    obtain ⟨c2, h2, k2⟩ := ih _ c1 h1
    exact ⟨c2, h2, k2.trans k1⟩

theorem snapStep_data (R : Rng σ) (s : LSys σ ρ) (op : HOp) :
    (snapStep R s op).1.loader.data = s.loader.data ∧
      (snapStep R s op).1.loader.obsCount = s.loader.obsCount := by
  cases op with
  | base op => exact lstep_data R s op
  | shallow a b =>
    unfold snapStep
    dsimp only
    cases s.ckpts a <;> exact ⟨rfl, rfl⟩
  | deep a b =>
    unfold snapStep
    dsimp only
    cases s.ckpts a <;> exact ⟨rfl, rfl⟩

theorem snapRun_data (R : Rng σ) (ops : List HOp) (s : LSys σ ρ) :
    (snapRun R s ops).1.loader.data = s.loader.data ∧
      (snapRun R s ops).1.loader.obsCount = s.loader.obsCount := by
  induction ops generalizing s with
  | nil => exact ⟨rfl, rfl⟩
  | cons op ops ih =>
    have h1 := snapStep_data R s op
    have h2 := ih (snapStep R s op).1
    exact ⟨h2.1.trans h1.1, h2.2.trans h1.2⟩

/-- The outcomes on a chain depend on the state of the chain only. -/
theorem snapRun_gets (R : Rng σ) (cid : Nat) (ops : List HOp) (hl : ∀ op ∈ ops, restores cid op = false)
    (u v : LSys σ ρ) (c : Chain σ) (hd : u.loader.data = v.loader.data)
    (ho : u.loader.obsCount = v.loader.obsCount) (hu : u.loader.chains[cid]? = some c)
    (hv : v.loader.chains[cid]? = some c) :
    gets cid (snapRun R u ops).2 = gets cid (snapRun R v ops).2 := by
  induction ops generalizing u v c with
  | nil => rfl
  | cons op ops ih =>
    have hl' : ∀ op ∈ ops, restores cid op = false := fun o h => hl o (List.mem_cons_of_mem _ h)
    have du := snapStep_data R u op
    have dv := snapStep_data R v op
    have hstep : ∃ c', (snapStep R u op).1.loader.chains[cid]? = some c' ∧
        (snapStep R v op).1.loader.chains[cid]? = some c' ∧
        (op = .base (.get cid) → (snapStep R u op).2 = (snapStep R v op).2) := by
      cases op with
      | shallow a b =>
        refine ⟨c, ?_, ?_, fun h => by cases h⟩
        · unfold snapStep; dsimp only
          cases u.ckpts a <;> exact hu
        · unfold snapStep; dsimp only
          cases v.ckpts a <;> exact hv
      | deep a b =>
        refine ⟨c, ?_, ?_, fun h => by cases h⟩
        · unfold snapStep; dsimp only
          cases u.ckpts a <;> exact hu
        · unfold snapStep; dsimp only
          cases v.ckpts a <;> exact hv
      | base op =>
        have hlo : ∀ o ∈ [op], isLoad cid o = false := by
          intro o ho'
          have hoe : o = op := by simpa using ho'
          subst hoe
          have := hl (.base o) List.mem_cons_self
          cases o <;> simp [restores, isLoad] at this ⊢
          exact this
        have eu := (outcomes_eq_chainGets R cid [op] u c hu hlo).2
        have ev := (outcomes_eq_chainGets R cid [op] v c hv hlo).2
        rw [← hd, ← ho] at ev
        refine ⟨_, eu, ev, fun h => ?_⟩
        injection h with h
        subst h
        show (lstep R u (.get cid)).2 = (lstep R v (.get cid)).2
        rw [(lstep_get R u cid c hu).1, (lstep_get R v cid c hv).1, hd, ho]
    obtain ⟨c', hu', hv', hout⟩ := hstep
    have hrest := ih hl' (snapStep R u op).1 (snapStep R v op).1 c' (by rw [du.1, dv.1, hd])
      (by rw [du.2, dv.2, ho]) hu' hv'
    unfold snapRun
    dsimp only
    cases op with
    | shallow a b => exact hrest
    | deep a b => exact hrest
    | base op =>
      cases op with
      | get k =>
        unfold gets
        by_cases hk : k = cid
        · subst hk
          rw [if_pos rfl, if_pos rfl, hrest, hout rfl]
        · rw [if_neg hk, if_neg hk, hrest]
      | regRandom => exact hrest
      | regOrdered => exact hrest
      | save => exact hrest
      | load => exact hrest

/-- **C124, partial**: the full statement for deep copies, if no other checkpoint is copied shallowly. -/
theorem c124_restore_partial (R : Rng σ) (data : List (String × List ρ)) (s₀ : HSys σ ρ) (hs : hinit data = .ok s₀)
    (before : List HOp) (cid h h' : Nat) (between later : List HOp)
    (hb : ∀ op ∈ between, h' ∉ writes op) (hl : ∀ op ∈ later, restores cid op = false)
    (hnb : ∀ op ∈ before, isShallow op = false) (hnm : ∀ op ∈ between, isShallow op = false)
    (hnl : ∀ op ∈ later, isShallow op = false) :
    let s := (hrun R s₀ before).1
    (hstep R s (.base (.save cid h))).2 = .saved →
    let t := (hrun R s₀ (before ++ [.base (.save cid h), .deep h h'] ++ between)).1
    (hstep R t (.base (.load cid h'))).2 = .loaded ∧
    gets cid (hrun R (hstep R t (.base (.load cid h'))).1 later).2 = gets cid (hrun R s later).2 := by
  intro s hsv t
  obtain ⟨hi, L, _, _⟩ := hinit_inv data s₀ hs
  have his := (hrun_sim R before s₀ hi hnb).1
  obtain ⟨i1, a1, o1⟩ := hstep_sim R s his (.base (.save cid h)) rfl
  obtain ⟨i2, a2, o2⟩ := hstep_sim R (hstep R s (.base (.save cid h))).1 i1 (.deep h h') rfl
  obtain ⟨i3, a3, o3⟩ := hrun_sim R between (hstep R (hstep R s (.base (.save cid h))).1 (.deep h h')).1 i2 hnm
  have ht : t = (hrun R (hstep R (hstep R s (.base (.save cid h))).1 (.deep h h')).1 between).1 := by
    simp only [t, hrun_append, hrun, s]
  rw [← ht] at i3 a3
  obtain ⟨i4, a4, o4⟩ := hstep_sim R t i3 (.base (.load cid h')) rfl
  rw [o1] at hsv
  have hsv : (lstep R (absSys s) (.save cid h)).2 = .saved := hsv
  obtain ⟨c, hc, hL, hck, _⟩ := saved_inv R hsv
  have a1 : absSys (hstep R s (.base (.save cid h))).1 = (lstep R (absSys s) (.save cid h)).1 := a1
  have hget : (lstep R (absSys s) (.save cid h)).1.ckpts h = (saveState (absSys s).loader cid).toOption := hck
  obtain ⟨ck, hckv⟩ : ∃ ck, saveState (absSys s).loader cid = .ok ck := by
    unfold saveState
    rw [hc]
    cases c <;> exact ⟨_, rfl⟩
  rw [hckv] at hget
  have hget : (lstep R (absSys s) (.save cid h)).1.ckpts h = some ck := hget
  have a2' : absSys (hstep R (hstep R s (.base (.save cid h))).1 (.deep h h')).1 =
      { (lstep R (absSys s) (.save cid h)).1 with
        ckpts := setCkpt (lstep R (absSys s) (.save cid h)).1.ckpts h' ck } := by
    rw [a2, a1]
    unfold snapStep
    dsimp only
    rw [hget]
  have hc2 : (absSys (hstep R (hstep R s (.base (.save cid h))).1 (.deep h h')).1).loader.chains[cid]? = some c := by
    rw [a2']
    dsimp only
    rw [hL, hc]
  obtain ⟨c', hc', hk⟩ := snapRun_kind R between _ cid c hc2
  rw [← a3] at hc'
  have hckt : (absSys t).ckpts h' = (saveState (absSys s).loader cid).toOption := by
    rw [a3, snapRun_ckpt R between _ h' hb, a2', hckv]
    simp [setCkpt, Except.toOption]
  obtain ⟨l1, l2, _⟩ := load_saved R (absSys t) cid h' c c' (absSys s).loader cid hc hckt hc' hk
  refine ⟨by rw [o4]; exact l1, ?_⟩
  rw [(hrun_sim R later _ i4 hnl).2.2, (hrun_sim R later s his hnl).2.2]
  have dd : (absSys t).loader.data = (absSys s).loader.data ∧
      (absSys t).loader.obsCount = (absSys s).loader.obsCount := by
    have := snapRun_data R between (absSys (hstep R (hstep R s (.base (.save cid h))).1 (.deep h h')).1)
    rw [← a3, a2'] at this
    dsimp only at this
    rw [hL] at this
    exact this
  have dl := lstep_data R (absSys t) (.load cid h')
  refine snapRun_gets R cid later hl _ _ c ?_ ?_ ?_ hc
  · rw [a4]; exact dl.1.trans dd.1
  · rw [a4]; exact dl.2.trans dd.2
  · rw [a4]; exact l2

/-- Deep copies: the history which fails for shallow copies. -/
example :
    let pre : List HOp := [.base (.regRandom 1 2 true true none), .base (.get 0)]
    let s := (hrun toyRng toyHeap pre).1
    let t := (hrun toyRng toyHeap (pre ++ [.base (.save 0 0), .deep 0 1] ++
      [.base (.load 0 0), .base (.get 0), .base (.get 0), .base (.get 0)])).1
    gets 0 (hrun toyRng (hstep toyRng t (.base (.load 0 1))).1 [.base (.get 0)]).2 =
      gets 0 (hrun toyRng s [.base (.get 0)]).2 ∧
    gets 0 (hrun toyRng s [.base (.get 0)]).2 ≠ gets 0 (hrun toyRng t [.base (.get 0)]).2 := by
  decide +kernel

end JaxSgmc
