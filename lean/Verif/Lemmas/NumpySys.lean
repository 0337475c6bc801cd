import Verif.Lemmas.NumpyStreams
import Mathlib.Data.List.Forall2

/-! Helper lemmas: chains of a loader do not interact; the outcomes of `get_batches` in terms of the
index stream of the chain. -/

namespace JaxSgmc

open Spec

section
variable {σ ρ : Type} (R : Rng σ)

/-- All arrays have as many rows as there are observations. -/
def DataWF (data : List (String × List ρ)) (N : Nat) : Prop := ∀ x ∈ data, x.2.length = N

theorem mkLoader_spec (data : List (String × List ρ)) (L : Loader σ ρ) (h : mkLoader data = .ok L) :
    L.data = data ∧ DataWF data L.obsCount ∧ L.chains = [] ∧
      (∀ x, data.head? = some x → L.obsCount = x.2.length) := by
  unfold mkLoader at h
  split at h
  · simp at h; subst h; simp [DataWF]
  · split at h
    · simp at h
    · rename_i hne
      simp at h; subst h
      refine ⟨rfl, ?_, rfl, by simp⟩
      intro x hx
      simp only [List.any_eq_true, not_exists, not_and, bne_iff_ne, ne_eq, not_not] at hne
      exact hne x hx

theorem getBatches_data (L : Loader σ ρ) (cid : Nat) :
    (getBatches R L cid).2.data = L.data ∧ (getBatches R L cid).2.obsCount = L.obsCount := by
  unfold getBatches
  split
  · simp
  · split
    · simp
    · simp only []
      split <;> simp

theorem loadState_data (L : Loader σ ρ) (cid : Nat) (ck : Ckpt σ) :
    (loadState L cid ck).2.1.data = L.data ∧ (loadState L cid ck).2.1.obsCount = L.obsCount := by
  unfold loadState
  split
  · simp
  · simp only []
    split
    · simp
    · split <;> simp

/-- The state of a newly registered random chain. -/
def newRandom (N cid cs mb : Nat) (ie sh : Bool) (seed : Option Nat) : RandomChain σ :=
  { rng := R.seed (seed.getD cid), idxOffset := none, inEpochs := ie, shuffle := sh,
    remainingSamples := 0, draws := ceilDiv N mb, randomIndices := none, mbSize := mb,
    cacheSize := cs }

theorem registerRandom_spec (L L' : Loader σ ρ) (cs mb cid : Nat) (ie sh : Bool) (seed : Option Nat)
    (h : registerRandom R L cs mb ie sh seed = .ok (cid, L')) :
    cid = L.chains.length ∧ 0 < mb ∧ mb ≤ L.obsCount ∧ (ie = true → sh = true) ∧
      L' = { L with chains := L.chains ++ [.random (newRandom R L.obsCount cid cs mb ie sh seed)] }
    := by
  unfold registerRandom at h
  split at h
  · simp at h
  · split at h
    · simp at h
    · rename_i hse
      split at h
      · simp at h
      · simp only [Except.ok.injEq, Prod.mk.injEq] at h
        obtain ⟨rfl, rfl⟩ := h
        refine ⟨rfl, by omega, by omega, ?_, rfl⟩
        intro hie; subst hie; simpa using hse

theorem registerOrdered_spec (L L' : Loader σ ρ) (cs mb cid : Nat)
    (h : registerOrdered L cs mb = .ok (cid, L')) :
    cid = L.chains.length ∧ mb ≤ L.obsCount ∧
      L' = { L with chains := L.chains ++ [.ordered ⟨0, mb, cs⟩] } := by
  unfold registerOrdered at h
  split at h
  · simp only [Except.ok.injEq, Prod.mk.injEq] at h
    obtain ⟨rfl, rfl⟩ := h
    exact ⟨rfl, by omega, rfl⟩
  · simp at h

theorem lstep_data (s : LSys σ ρ) (op : LOp) :
    (lstep R s op).1.loader.data = s.loader.data ∧
      (lstep R s op).1.loader.obsCount = s.loader.obsCount := by
  cases op with
  | regRandom cs mb ie sh seed =>
    simp only [lstep]
    split
    · simp
    · rename_i h
      obtain ⟨_, _, _, _, rfl⟩ := registerRandom_spec R _ _ _ _ _ _ _ _ h
      simp
  | regOrdered cs mb =>
    simp only [lstep]
    split
    · simp
    · rename_i h
      obtain ⟨_, _, rfl⟩ := registerOrdered_spec _ _ _ _ _ h
      simp
  | get cid => exact getBatches_data R s.loader cid
  | save cid h => simp only [lstep]; split <;> simp
  | load cid h =>
    simp only [lstep]; split
    · simp
    · exact loadState_data s.loader cid _

theorem lrun_data (s : LSys σ ρ) (ops : List LOp) :
    (lrun R s ops).1.loader.data = s.loader.data ∧
      (lrun R s ops).1.loader.obsCount = s.loader.obsCount := by
  induction ops generalizing s with
  | nil => simp [lrun]
  | cons op ops ih =>
    simp only [lrun]
    obtain ⟨h1, h2⟩ := ih (lstep R s op).1
    obtain ⟨h3, h4⟩ := lstep_data R s op
    exact ⟨h1.trans h3, h2.trans h4⟩

theorem lrun_append (s : LSys σ ρ) (a b : List LOp) :
    lrun R s (a ++ b) = ((lrun R (lrun R s a).1 b).1, (lrun R s a).2 ++ (lrun R (lrun R s a).1 b).2)
    := by
  induction a generalizing s with
  | nil => simp [lrun]
  | cons op a ih => simp [lrun, ih]

theorem Spec.Reachable.step {data : List (String × List ρ)} {s : LSys σ ρ} (h : Reachable R data s)
    (ops : List LOp) : Reachable R data (lrun R s ops).1 := by
  obtain ⟨L, ops0, h1, rfl⟩ := h
  exact ⟨L, ops0 ++ ops, h1, by rw [lrun_append]⟩

theorem Spec.Reachable.data {data : List (String × List ρ)} {s : LSys σ ρ} (h : Reachable R data s) :
    s.loader.data = data ∧ DataWF data s.loader.obsCount := by
  obtain ⟨L, ops0, h1, rfl⟩ := h
  obtain ⟨h2, h3⟩ := lrun_data R { loader := L, ckpts := fun _ => none } ops0
  obtain ⟨h4, h5, _⟩ := mkLoader_spec data L h1
  exact ⟨h2.trans h4, by rw [h3]; exact h5⟩

/-! ### A single chain -/

/-- `get_batches` as a function of the chain state only. -/
def chainGet (data : List (String × List ρ)) (N : Nat) (c : Chain σ) : LOut ρ × Chain σ :=
  match getIndices R N c with
  | .error e => (.raised e, c)
  | .ok (sel, c') =>
    match sliceAll (sel.map (·.1)) data with
    | .error e => (.raised e, c')
    | .ok obs => (.batches { obs := obs, mask := sel.map (·.2) }, c')

/-- `n` calls. -/
def chainGets (data : List (String × List ρ)) (N : Nat) : Nat → Chain σ → List (LOut ρ) × Chain σ
  | 0, c => ([], c)
  | n + 1, c =>
    let r := chainGet R data N c
    let rest := chainGets data N n r.2
    (r.1 :: rest.1, rest.2)

theorem lstep_get (s : LSys σ ρ) (cid : Nat) (c : Chain σ) (h : s.loader.chains[cid]? = some c) :
    (lstep R s (.get cid)).2 = (chainGet R s.loader.data s.loader.obsCount c).1 ∧
    (lstep R s (.get cid)).1.loader.chains =
      s.loader.chains.set cid (chainGet R s.loader.data s.loader.obsCount c).2 ∧
    (lstep R s (.get cid)).1.ckpts = s.ckpts := by
  have hlt : cid < s.loader.chains.length := by
    by_contra hge
    rw [List.getElem?_eq_none (by omega)] at h; simp at h
  have hset : s.loader.chains.set cid c = s.loader.chains := by
    apply List.ext_getElem?
    intro i
    by_cases hi : cid = i
    · subst hi; rw [List.getElem?_set_self hlt, h]
    · rw [List.getElem?_set_ne hi]
  simp only [lstep, getBatches, h, chainGet]
  cases hg : getIndices R s.loader.obsCount c with
  | error e => simp [hset]
  | ok r =>
    obtain ⟨sel, c'⟩ := r
    simp only []
    cases hs : sliceAll (sel.map (·.1)) s.loader.data with
    | error e => simp
    | ok obs => simp

/-- Number of `get_batches(cid)` calls. -/
def numGets (cid : Nat) : List LOp → Nat
  | [] => 0
  | .get c :: ops => (if c = cid then 1 else 0) + numGets cid ops
  | _ :: ops => numGets cid ops

/-- Two systems look the same for chain `cid` and the checkpoint variables in `H`. -/
structure Agree (cid : Nat) (H : Nat → Prop) (s t : LSys σ ρ) : Prop where
  data : s.loader.data = t.loader.data
  obsCount : s.loader.obsCount = t.loader.obsCount
  chain : s.loader.chains[cid]? = t.loader.chains[cid]?
  exists_ : cid < s.loader.chains.length
  ckpts : ∀ h, H h → s.ckpts h = t.ckpts h

theorem chain_append_getElem? {α : Type} (l : List α) (x : α) (i : Nat) (h : i < l.length) :
    (l ++ [x])[i]? = l[i]? := List.getElem?_append_left h

theorem lstep_other (cid : Nat) (H : Nat → Prop) (s : LSys σ ρ) (op : LOp)
    (ht : touches cid op = false) (hh : ∀ h, handle? op = some h → ¬ H h)
    (hc : cid < s.loader.chains.length) : Agree cid H (lstep R s op).1 s := by
  obtain ⟨hd, ho⟩ := lstep_data R s op
  refine ⟨hd, ho, ?_, ?_, ?_⟩
  · cases op with
    | regRandom cs mb ie sh seed =>
      simp only [lstep]
      split
      · rfl
      · rename_i h
        obtain ⟨_, _, _, _, rfl⟩ := registerRandom_spec R _ _ _ _ _ _ _ _ h
        exact List.getElem?_append_left hc
    | regOrdered cs mb =>
      simp only [lstep]
      split
      · rfl
      · rename_i h
        obtain ⟨_, _, rfl⟩ := registerOrdered_spec _ _ _ _ _ h
        exact List.getElem?_append_left hc
    | get c =>
      have hne : c ≠ cid := by simpa [touches] using ht
      cases hcc : s.loader.chains[c]? with
      | none => simp [lstep, getBatches, hcc]
      | some ch => rw [(lstep_get R s c ch hcc).2.1, List.getElem?_set_ne hne]
    | save c h => simp only [lstep]; split <;> simp
    | load c h =>
      have hne : c ≠ cid := by simpa [touches] using ht
      simp only [lstep]
      split
      · rfl
      · simp only [loadState]
        split
        · rfl
        · split
          · rfl
          · split <;> simp [List.getElem?_set_ne hne]
  · cases op with
    | regRandom cs mb ie sh seed =>
      simp only [lstep]
      split
      · exact hc
      · rename_i h
        obtain ⟨_, _, _, _, rfl⟩ := registerRandom_spec R _ _ _ _ _ _ _ _ h
        simp; omega
    | regOrdered cs mb =>
      simp only [lstep]
      split
      · exact hc
      · rename_i h
        obtain ⟨_, _, rfl⟩ := registerOrdered_spec _ _ _ _ _ h
        simp; omega
    | get c =>
      cases hcc : s.loader.chains[c]? with
      | none => simpa [lstep, getBatches, hcc] using hc
      | some ch => rw [(lstep_get R s c ch hcc).2.1]; simpa using hc
    | save c h => simp only [lstep]; split <;> simpa using hc
    | load c h =>
      simp only [lstep]
      split
      · exact hc
      · simp only [loadState]
        split
        · exact hc
        · split
          · exact hc
          · split <;> simpa using hc
  · intro h hH
    cases op with
    | regRandom cs mb ie sh seed => simp only [lstep]; split <;> rfl
    | regOrdered cs mb => simp only [lstep]; split <;> rfl
    | get c => simp [lstep]
    | save c k =>
      have hne : h ≠ k := fun e => hh k rfl (e ▸ hH)
      simp only [lstep]; split
      · rfl
      · simp [setCkpt, hne]
    | load c k =>
      have hne : h ≠ k := fun e => hh k rfl (e ▸ hH)
      simp only [lstep]
      split
      · rfl
      · simp [setCkpt, hne]

theorem lstep_same (cid : Nat) (H : Nat → Prop) (s t : LSys σ ρ) (op : LOp)
    (ht : touches cid op = true) (hh : ∀ h, handle? op = some h → H h) (ha : Agree cid H s t) :
    (lstep R s op).2 = (lstep R t op).2 ∧ Agree cid H (lstep R s op).1 (lstep R t op).1 := by
  obtain ⟨ad, ao, ac, ae, ak⟩ := ha
  obtain ⟨hd, ho⟩ := lstep_data R s op
  obtain ⟨hd', ho'⟩ := lstep_data R t op
  obtain ⟨ch, hch⟩ : ∃ ch, s.loader.chains[cid]? = some ch :=
    ⟨_, List.getElem?_eq_getElem ae⟩
  have hch' : t.loader.chains[cid]? = some ch := ac ▸ hch
  have ae' : cid < t.loader.chains.length := by
    by_contra hge
    rw [List.getElem?_eq_none (by omega)] at hch'; simp at hch'
  cases op with
  | regRandom => simp [touches] at ht
  | regOrdered => simp [touches] at ht
  | get c =>
    have : c = cid := by simpa [touches] using ht
    subst this
    obtain ⟨s1, s2, s3⟩ := lstep_get R s c ch hch
    obtain ⟨t1, t2, t3⟩ := lstep_get R t c ch hch'
    refine ⟨by rw [s1, t1, ad, ao], ⟨by rw [hd, hd', ad], by rw [ho, ho', ao], ?_, ?_, ?_⟩⟩
    · rw [s2, t2, ad, ao, List.getElem?_set_self ae, List.getElem?_set_self ae']
    · rw [s2]; simpa using ae
    · intro h hH; rw [s3, t3]; exact ak h hH
  | save c k =>
    have : c = cid := by simpa [touches] using ht
    subst this
    simp only [lstep, saveState, hch, hch']
    cases ch <;>
    · refine ⟨rfl, ad, ao, ac, ae, ?_⟩
      intro h hH
      simp only [setCkpt]
      split
      · rfl
      · exact ak h hH
  | load c k =>
    have : c = cid := by simpa [touches] using ht
    subst this
    have hk := ak k (hh k rfl)
    simp only [lstep, hk]
    cases hck : t.ckpts k with
    | none => exact ⟨rfl, ad, ao, ac, ae, ak⟩
    | some ck =>
      simp only [loadState, hch, hch']
      have hck : ∀ (x : Ckpt σ) h, H h → setCkpt s.ckpts k x h = setCkpt t.ckpts k x h := by
        intro x h hH; simp only [setCkpt]; split
        · rfl
        · exact ak h hH
      cases hl : ck.getLast? with
      | none => exact ⟨rfl, ad, ao, ac, ae, hck _⟩
      | some item =>
        cases item <;> cases ch <;>
          refine ⟨rfl, ad, ao, ?_, ?_, hck _⟩ <;>
          first
            | exact ac
            | exact ae
            | (rw [List.length_set]; exact ae)
            | simp [List.getElem?_set_self ae, List.getElem?_set_self ae']

/-- The history of chain `cid` is not influenced by operations on other chains. -/
theorem lrun_isolated (cid : Nat) (H : Nat → Prop) (ops : List LOp) (s t : LSys σ ρ)
    (ha : Agree cid H s t)
    (h1 : ∀ op ∈ ops, touches cid op = true → ∀ h, handle? op = some h → H h)
    (h2 : ∀ op ∈ ops, touches cid op = false → ∀ h, handle? op = some h → ¬ H h) :
    (lrun R s ops).2.filter (fun x => touches cid x.1) = (lrun R t (ops.filter (touches cid))).2 ∧
    Agree cid H (lrun R s ops).1 (lrun R t (ops.filter (touches cid))).1 := by
  induction ops generalizing s t with
  | nil => exact ⟨rfl, ha⟩
  | cons op ops ih =>
    have h1' : ∀ op ∈ ops, touches cid op = true → ∀ h, handle? op = some h → H h :=
      fun o ho => h1 o (List.mem_cons_of_mem _ ho)
    have h2' : ∀ op ∈ ops, touches cid op = false → ∀ h, handle? op = some h → ¬ H h :=
      fun o ho => h2 o (List.mem_cons_of_mem _ ho)
    simp only [lrun]
    cases ht : touches cid op with
    | true =>
      obtain ⟨o1, o2⟩ := lstep_same R cid H s t op ht (h1 op List.mem_cons_self ht) ha
      obtain ⟨i1, i2⟩ := ih _ _ o2 h1' h2'
      simp only [List.filter_cons, ht, if_true, lrun]
      exact ⟨by rw [o1, i1], i2⟩
    | false =>
      have o := lstep_other R cid H s op ht (h2 op List.mem_cons_self ht) ha.exists_
      have ha' : Agree cid H (lstep R s op).1 t :=
        ⟨o.data.trans ha.data, o.obsCount.trans ha.obsCount, o.chain.trans ha.chain, o.exists_,
          fun h hH => (o.ckpts h hH).trans (ha.ckpts h hH)⟩
      obtain ⟨i1, i2⟩ := ih _ _ ha' h1' h2'
      simp only [List.filter_cons, ht]
      exact ⟨i1, i2⟩

/-- The outcomes of the `get_batches` calls on a chain that is never restored. -/
theorem outcomes_eq_chainGets (cid : Nat) (ops : List LOp) (s : LSys σ ρ) (c : Chain σ)
    (hc : s.loader.chains[cid]? = some c) (hl : ∀ op ∈ ops, isLoad cid op = false) :
    outcomes cid (lrun R s ops).2 =
      (chainGets R s.loader.data s.loader.obsCount (numGets cid ops) c).1 ∧
    (lrun R s ops).1.loader.chains[cid]? =
      some (chainGets R s.loader.data s.loader.obsCount (numGets cid ops) c).2 := by
  induction ops generalizing s c with
  | nil => simp [lrun, outcomes, numGets, chainGets, hc]
  | cons op ops ih =>
    have hlt : cid < s.loader.chains.length := by
      by_contra hge
      rw [List.getElem?_eq_none (by omega)] at hc; simp at hc
    have hl' : ∀ op ∈ ops, isLoad cid op = false := fun o ho => hl o (List.mem_cons_of_mem _ ho)
    have hd := lstep_data R s op
    -- operations other than `get cid` leave the chain alone
    have other : (touches cid op = false ∨ ∃ h, op = .save cid h) →
        (lstep R s op).1.loader.chains[cid]? = some c := by
      rintro (ht | ⟨h, rfl⟩)
      · rw [(lstep_other R cid (fun _ => False) s op ht (fun _ _ h => h) hlt).chain, hc]
      · simp only [lstep]; split <;> exact hc
    have rest : ∀ (_ : (lstep R s op).1.loader.chains[cid]? = some c),
        outcomes cid (lrun R (lstep R s op).1 ops).2 =
          (chainGets R s.loader.data s.loader.obsCount (numGets cid ops) c).1 ∧
        (lrun R (lstep R s op).1 ops).1.loader.chains[cid]? =
          some (chainGets R s.loader.data s.loader.obsCount (numGets cid ops) c).2 := by
      intro h
      have := ih (lstep R s op).1 c h hl'
      rwa [hd.1, hd.2] at this
    simp only [lrun]
    cases op with
    | regRandom => simpa only [outcomes, numGets] using rest (other (Or.inl rfl))
    | regOrdered => simpa only [outcomes, numGets] using rest (other (Or.inl rfl))
    | save c' h =>
      simp only [outcomes, numGets]
      by_cases e : c' = cid
      · subst e; exact rest (other (Or.inr ⟨h, rfl⟩))
      · exact rest (other (Or.inl (by simp [touches, e])))
    | load c' h =>
      simp only [outcomes, numGets]
      have e : c' ≠ cid := by simpa [isLoad] using hl _ List.mem_cons_self
      exact rest (other (Or.inl (by simp [touches, e])))
    | get c' =>
      simp only [outcomes, numGets]
      by_cases e : c' = cid
      · subst e
        obtain ⟨g1, g2, _⟩ := lstep_get R s c' c hc
        have := ih (lstep R s (.get c')).1 (chainGet R s.loader.data s.loader.obsCount c).2
          (by rw [g2, List.getElem?_set_self hlt]) hl'
        rw [hd.1, hd.2] at this
        rw [if_pos rfl, if_pos rfl, Nat.add_comm, chainGets]
        exact ⟨by rw [this.1, g1], this.2⟩
      · rw [if_neg e, if_neg e, Nat.zero_add]
        exact rest (other (Or.inl (by simp [touches, e])))

theorem outcomes_length (cid : Nat) (ops : List LOp) (s : LSys σ ρ) :
    (outcomes cid (lrun R s ops).2).length = numGets cid ops := by
  induction ops generalizing s with
  | nil => rfl
  | cons op ops ih =>
    simp only [lrun]
    cases op <;> simp only [outcomes, numGets, ih]
    split <;> simp [ih]; omega

end

/-! ### slicing -/

section
variable {σ ρ : Type}

theorem takeRows_spec (d : List ρ) (idxs : List (List Nat)) (h : ∀ b ∈ idxs, ∀ i ∈ b, i < d.length) :
    ∃ rows, takeRows d idxs = .ok rows ∧ List.Forall₂ (RowsOf d) idxs rows := by
  induction idxs with
  | nil => exact ⟨[], rfl, .nil⟩
  | cons b bs ih =>
    obtain ⟨r, hr⟩ := npTake_ok d b (h b List.mem_cons_self)
    obtain ⟨rows, h1, h2⟩ := ih (fun b' hb => h b' (List.mem_cons_of_mem _ hb))
    exact ⟨r :: rows, by simp [takeRows, hr, h1], .cons (npTake_spec d b r hr) h2⟩

theorem sliceAll_spec (data : List (String × List ρ)) (N : Nat) (hwf : DataWF data N)
    (idxs : List (List Nat)) (h : ∀ b ∈ idxs, ∀ i ∈ b, i < N) :
    ∃ obs, sliceAll idxs data = .ok obs ∧ obs.map (·.1) = data.map (·.1) ∧
      ∀ name d, data.lookup name = some d →
        ∃ rows, obs.lookup name = some rows ∧ List.Forall₂ (RowsOf d) idxs rows := by
  induction data with
  | nil => exact ⟨[], rfl, rfl, by simp⟩
  | cons x xs ih =>
    obtain ⟨n, d⟩ := x
    have hd : d.length = N := hwf (n, d) List.mem_cons_self
    obtain ⟨rows, r1, r2⟩ := takeRows_spec d idxs (by rw [hd]; exact h)
    obtain ⟨obs, o1, o2, o3⟩ := ih (fun y hy => hwf y (List.mem_cons_of_mem _ hy))
    refine ⟨(n, rows) :: obs, by simp [sliceAll, r1, o1], by simp [o2], ?_⟩
    intro name d' hl
    rw [List.lookup_cons] at hl ⊢
    cases hb : name == n with
    | true => simp [hb] at hl ⊢; subst hl; exact r2
    | false => simp [hb] at hl ⊢; exact o3 name d' hl

theorem indexSteps_split (R : Rng σ) (N a b : Nat) (c c2 : Chain σ) (zs)
    (h : indexSteps R N (a + b) c = .ok (zs, c2)) :
    ∃ xs ys c1, indexSteps R N a c = .ok (xs, c1) ∧ indexSteps R N b c1 = .ok (ys, c2) ∧
      zs = xs ++ ys := by
  induction a generalizing c zs with
  | zero => exact ⟨[], zs, c, rfl, by simpa using h, rfl⟩
  | succ a ih =>
    rw [Nat.add_right_comm] at h
    simp only [indexSteps] at h ⊢
    cases hs : indexStep R N c with
    | error e => simp [hs] at h
    | ok r =>
      obtain ⟨x, c'⟩ := r
      simp only [hs] at h
      cases hr : indexSteps R N (a + b) c' with
      | error e => simp [hr] at h
      | ok r2 =>
        obtain ⟨zs', c''⟩ := r2
        simp only [hr, Except.ok.injEq, Prod.mk.injEq] at h
        obtain ⟨rfl, rfl⟩ := h
        obtain ⟨xs, ys, c1, i1, i2, i3⟩ := ih c' zs' hr
        exact ⟨x :: xs, ys, c1, by simp [i1], i2, by simp [i3]⟩

theorem chainGet_spec (R : Rng σ) (data : List (String × List ρ)) (N : Nat) (hwf : DataWF data N)
    (c c' : Chain σ) (sel) (hcs : 0 < c.cacheSize)
    (h : indexSteps R N c.cacheSize c = .ok (sel, c')) (hlt : ∀ x ∈ sel, ∀ i ∈ x.1, i < N) :
    ∃ b, chainGet R data N c = (.batches b, c') ∧ b.mask = sel.map (·.2) ∧
      b.obs.map (·.1) = data.map (·.1) ∧
      ∀ name d, data.lookup name = some d →
        ∃ rows, b.obs.lookup name = some rows ∧ List.Forall₂ (RowsOf d) (sel.map (·.1)) rows := by
  obtain ⟨obs, o1, o2, o3⟩ := sliceAll_spec data N hwf (sel.map (·.1)) (by
    intro b hb
    obtain ⟨x, hx, rfl⟩ := List.mem_map.1 hb
    exact hlt x hx)
  refine ⟨⟨obs, sel.map (·.2)⟩, ?_, rfl, o2, o3⟩
  have hne : c.cacheSize ≠ 0 := by omega
  simp [chainGet, getIndices, hne, h, o1]

/-- The outcomes of `n` calls in terms of the index stream. -/
theorem chainGets_spec (R : Rng σ) (data : List (String × List ρ)) (N : Nat) (hwf : DataWF data N)
    (n : Nat) (c c' : Chain σ) (sel) (hcs : 0 < c.cacheSize)
    (h : indexSteps R N (n * c.cacheSize) c = .ok (sel, c'))
    (hlt : ∀ x ∈ sel, ∀ i ∈ x.1, i < N) :
    (chainGets R data N n c).2 = c' ∧
    (∀ o ∈ (chainGets R data N n c).1, ∃ b, o = .batches b) ∧
    masks (chainGets R data N n c).1 = sel.map (·.2) ∧
    ∀ name d, data.lookup name = some d →
      List.Forall₂ (RowsOf d) (sel.map (·.1)) (miniBatches name (chainGets R data N n c).1) := by
  induction n generalizing c sel with
  | zero =>
    simp [indexSteps] at h
    obtain ⟨rfl, rfl⟩ := h
    simp [chainGets, masks, miniBatches]
  | succ n ih =>
    rw [show (n + 1) * c.cacheSize = c.cacheSize + n * c.cacheSize by ring] at h
    obtain ⟨xs, ys, c1, h1, h2, rfl⟩ := indexSteps_split R N _ _ c c' sel h
    have hc1 := indexSteps_cacheSize R N _ c c1 xs h1
    obtain ⟨b, b1, b2, _, b3⟩ := chainGet_spec R data N hwf c c1 xs hcs h1
      (fun x hx => hlt x (List.mem_append_left _ hx))
    rw [← hc1] at h2 hcs
    obtain ⟨i1, i2, i3, i4⟩ := ih c1 ys hcs h2 (fun x hx => hlt x (List.mem_append_right _ hx))
    simp only [chainGets, b1]
    refine ⟨i1, ?_, ?_, ?_⟩
    · intro o ho
      rcases List.mem_cons.1 ho with rfl | ho
      · exact ⟨b, rfl⟩
      · exact i2 o ho
    · simp [masks, b2, i3]
    · intro name d hd
      obtain ⟨rows, r1, r2⟩ := b3 name d hd
      simp only [miniBatches, r1, Option.getD_some, List.map_append]
      exact List.rel_append r2 (i4 name d hd)

end

end JaxSgmc
