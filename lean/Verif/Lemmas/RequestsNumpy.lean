import Verif.Lemmas.RequestsGroup
import Verif.Lemmas.NumpyGood

/-! Helper lemmas: the numpy loader satisfies the contract of the protocol theorems. -/

namespace JaxSgmc

open Spec

section
variable {Λ κ μ : Type} {H : HostLoader Λ κ μ}

/-- Properties of the loader objects which survive requests and registrations survive the program. -/
theorem objs_step (Q : Nat → Λ → Prop) (hg : ∀ i L c, Q i L → Q i (H.getBatches L c).2)
    (hr : ∀ i L cs mb kw c L', Q i L → H.register L cs mb kw = .ok (c, L') → Q i L')
    (devices : Nat) (s : PSys Λ μ) (op : POp κ) (h : ∀ i, Q i (s.host.objs i)) :
    ∀ i, Q i ((pstep H devices s op).1.host.objs i) := by
  have hupd : ∀ (objs : Nat → Λ) l L, (∀ i, Q i (objs i)) → Q l L → ∀ i, Q i (upd objs l L i) := by
    intro objs l L h1 h2 i
    simp only [upd_apply]; split
    · subst i; exact h2
    · exact h1 i
  cases op with
  | setup l cc mb v =>
    simp only [pstep, setupFn]; split
    · exact h
    · split <;> exact h
  | init cb kw v =>
    simp only [pstep, initFn]
    split
    · exact h
    · split
      · exact h
      · rename_i hreg
        have h1 := hupd s.host.objs _ _ h (hr _ _ _ _ _ _ _ (h _) hreg)
        split
        · exact h1
        · rename_i l hl
          split <;> exact hupd _ l _ h1 (hg _ _ _ (h1 l))
  | copy a b => simp only [pstep]; split <;> exact h
  | draw v dc =>
    cases hv : s.vars v with
    | none => simp only [pstep, hv]; exact h
    | some st =>
      have key : ∀ strict i, Q i ((request H s.host st.chain st.token st.cb dc strict).2.objs i) := by
        intro strict
        rcases request_cases (H := H) s.host st.chain st.token st.cb dc strict with
          ⟨n, r, τ', hc, he⟩ | ⟨hc, h1, h2, he⟩ | ⟨hc, hr, hl, he⟩ | ⟨hc, hr, l, e, hl, hg', he⟩ |
          ⟨hc, hr, l, r, hl, hg', he⟩ <;> rw [he]
        · exact h
        · exact h
        · exact h
        · exact hupd _ _ _ h (hg _ _ _ (h l))
        · exact hupd _ _ _ h (hg _ _ _ (h l))
      rcases draw_cases (H := H) devices s v dc st hv with
        ⟨e, he⟩ | ⟨-, b, -, -, he⟩ | ⟨-, -, strict, e, host, hq, -, he⟩ |
        ⟨-, -, strict, r, tok, host, hq, -, ⟨-, he⟩ | ⟨b, -, he⟩⟩ <;> rw [he]
      · exact h
      · exact h
      all_goals
        have := key strict
        rw [hq] at this
        exact this
  | release cb => simp only [pstep]; split <;> exact h

theorem objs_run (Q : Nat → Λ → Prop) (hg : ∀ i L c, Q i L → Q i (H.getBatches L c).2)
    (hr : ∀ i L cs mb kw c L', Q i L → H.register L cs mb kw = .ok (c, L') → Q i L')
    (devices : Nat) (ops : List (POp κ)) : ∀ (s : PSys Λ μ), (∀ i, Q i (s.host.objs i)) →
    ∀ i, Q i ((prun H devices s ops).1.host.objs i) := by
  induction ops with
  | nil => intro s h; exact h
  | cons op ops ih => intro s h; exact ih _ (objs_step Q hg hr devices s op h)

end

section
variable {σ ρ : Type} (R : Rng σ)

theorem getBatches_chain (L : Loader σ ρ) (cid : Nat) (c : Chain σ) (h : L.chains[cid]? = some c) :
    (getBatches R L cid).2 =
      { L with chains := L.chains.set cid (chainGet R L.data L.obsCount c).2 } ∧
    (match (getBatches R L cid).1 with | .ok b => LOut.batches b | .error e => .raised e) =
      (chainGet R L.data L.obsCount c).1 := by
  have hlt : cid < L.chains.length := by
    by_contra hge
    rw [List.getElem?_eq_none (by omega)] at h; simp at h
  have hset : L.chains.set cid c = L.chains := by
    apply List.ext_getElem?
    intro i
    by_cases hi : cid = i
    · subst hi; rw [List.getElem?_set_self hlt, h]
    · rw [List.getElem?_set_ne hi]
  simp only [getBatches, h, chainGet]
  cases hg : getIndices R L.obsCount c with
  | error e => simp [hset]
  | ok r =>
    obtain ⟨sel, c'⟩ := r
    simp only []
    cases hs : sliceAll (sel.map (·.1)) L.data with
    | error e => simp
    | ok obs => simp

/-- Outcome of the loader as an answer to the protocol. -/
def LOut.answer : LOut ρ → Except PyErr (List (List (String × List ρ) × List Bool))
  | .batches b => .ok b.lines
  | .raised e => .error e
  | _ => .error .runtimeError

theorem numpy_get_known (L : Loader σ ρ) (cid : Nat) (c : Chain σ) (h : L.chains[cid]? = some c) :
    ((numpyHost R).getBatches L cid).1 = (chainGet R L.data L.obsCount c).1.answer ∧
    ((numpyHost R).getBatches L cid).2 =
      { L with chains := L.chains.set cid (chainGet R L.data L.obsCount c).2 } := by
  obtain ⟨h1, h2⟩ := getBatches_chain R L cid c h
  simp only [numpyHost]
  rcases hg : getBatches R L cid with ⟨e | b, L'⟩
  · rw [hg] at h1 h2
    simp only at h1 h2 ⊢
    exact ⟨by rw [← h2]; rfl, h1⟩
  · rw [hg] at h1 h2
    simp only at h1 h2 ⊢
    exact ⟨by rw [← h2]; rfl, h1⟩

theorem numpy_get_unknown (L : Loader σ ρ) (cid : Nat) (h : L.chains[cid]? = none) :
    (numpyHost R).getBatches L cid = (.error .indexError, L) := by
  simp [numpyHost, getBatches, h]

theorem numpy_register (L L' : Loader σ ρ) (cs mb : Nat) (kw : NumpyKw) (cid : Nat)
    (h : (numpyHost R).register L cs mb kw = .ok (cid, L')) :
    cid = L.chains.length ∧ mb ≤ L.obsCount ∧ ∃ c, L' = { L with chains := L.chains ++ [c] } ∧
      GoodChain L.obsCount c ∧ c.cacheSize = cs ∧ c.mbSize = mb := by
  cases kw with
  | random ie sh seed =>
    obtain ⟨h1, h2, h3, h4, h5⟩ := registerRandom_spec R L L' cs mb cid ie sh seed h
    exact ⟨h1, h3, _, h5, newRandom_good R _ _ _ _ _ _ _ h2 h3, rfl, rfl⟩
  | ordered =>
    obtain ⟨h1, h3, h5⟩ := registerOrdered_spec L L' cs mb cid h
    exact ⟨h1, h3, _, h5, h3, rfl, rfl⟩

/-- The numpy loader satisfies the contract. -/
def numpyContract : Contract (numpyHost (σ := σ) (ρ := ρ) R)
    (List (String × List ρ) × Nat × Chain σ) where
  view L c := (L.chains[c]?).map (fun ch => (L.data, L.obsCount, ch))
  step x := ((chainGet R x.1 x.2.1 x.2.2).1.answer, x.1, x.2.1, (chainGet R x.1 x.2.1 x.2.2).2)
  get_answer := by
    intro L c x h
    rw [Option.map_eq_some_iff] at h
    obtain ⟨ch, h1, rfl⟩ := h
    exact (numpy_get_known R L c ch h1).1
  get_self := by
    intro L c x h
    rw [Option.map_eq_some_iff] at h
    obtain ⟨ch, h1, rfl⟩ := h
    rw [(numpy_get_known R L c ch h1).2]
    have hlt : c < L.chains.length := by
      by_contra hge
      rw [List.getElem?_eq_none (by omega)] at h1; simp at h1
    simp [List.getElem?_set_self hlt]
  get_other := by
    intro L c c' hne
    cases h : L.chains[c]? with
    | none => rw [numpy_get_unknown R L c h]
    | some ch =>
      rw [(numpy_get_known R L c ch h).2]
      simp [List.getElem?_set_ne (fun e => hne e.symm)]
  get_unknown := by
    intro L c h
    rw [Option.map_eq_none_iff] at h
    rw [numpy_get_unknown R L c h]
    exact ⟨⟨_, rfl⟩, by rw [Option.map_eq_none_iff]; exact h⟩
  reg_new := by
    intro L cs mb kw c L' h
    obtain ⟨rfl, -⟩ := numpy_register R L L' cs mb kw c h
    simp
  reg_known := by
    intro L cs mb kw c L' h
    obtain ⟨rfl, -, ch, rfl, -⟩ := numpy_register R L L' cs mb kw c h
    exact ⟨_, by simp; rfl⟩
  reg_other := by
    intro L cs mb kw c L' h c' hne
    obtain ⟨rfl, -, ch, rfl, -⟩ := numpy_register R L L' cs mb kw c h
    dsimp only
    congr 1
    by_cases hlt : c' < L.chains.length
    · rw [List.getElem?_append_left hlt]
    · rw [List.getElem?_eq_none (by simp; omega), List.getElem?_eq_none (by omega)]

/-- A registered numpy chain never fails and always returns `cache_size` mini-batches. -/
theorem numpy_answers (hR : R.Lawful) (L L' : Loader σ ρ) (hwf : DataWF L.data L.obsCount)
    (cs mb : Nat) (hcs : 0 < cs) (kw : NumpyKw) (cid : Nat)
    (h : (numpyHost R).register L cs mb kw = .ok (cid, L')) (k : Nat) :
    ∃ b, (getBatches R (nthLoader (numpyHost R) L' cid k) cid).1 = .ok b ∧
      IsAnswer L.data cs mb b ∧
      nthAnswer (numpyHost R) L' cid k = .ok b.lines ∧ b.lines.length = cs := by
  obtain ⟨rfl, hle, ch, rfl, hgood, hc1, hc2⟩ := numpy_register R L L' cs mb kw cid h
  have gen : ∀ k, ∃ c, (nthLoader (numpyHost R) { L with chains := L.chains ++ [ch] }
      L.chains.length k).chains[L.chains.length]? = some c ∧ GoodChain L.obsCount c ∧
      c.cacheSize = cs ∧ c.mbSize = mb ∧
      (nthLoader (numpyHost R) { L with chains := L.chains ++ [ch] } L.chains.length k).data = L.data ∧
      (nthLoader (numpyHost R) { L with chains := L.chains ++ [ch] } L.chains.length k).obsCount =
        L.obsCount := by
    intro k
    induction k with
    | zero => exact ⟨ch, by simp [nthLoader], hgood, hc1, hc2, rfl, rfl⟩
    | succ k ih =>
      obtain ⟨c, i1, i2, i3, i4, i5, i6⟩ := ih
      obtain ⟨g1, g2, g3, -⟩ := chainGet_good R hR L.data L.obsCount hwf c i2
      have hlt : L.chains.length < (nthLoader (numpyHost R) { L with chains := L.chains ++ [ch] }
          L.chains.length k).chains.length := by
        by_contra hge
        rw [List.getElem?_eq_none (by omega)] at i1; simp at i1
      simp only [nthLoader]
      rw [(numpy_get_known R _ _ c i1).2, i5, i6]
      exact ⟨_, List.getElem?_set_self hlt, g1, by rw [g3, i3], by rw [g2, i4], rfl, rfl⟩
  obtain ⟨c, i1, i2, i3, i4, i5, i6⟩ := gen k
  obtain ⟨-, -, -, g4⟩ := chainGet_good R hR L.data L.obsCount hwf c i2
  rcases g4 with ⟨h0, -⟩ | ⟨-, b, hb, hans⟩
  · omega
  · obtain ⟨-, h2⟩ := getBatches_chain R _ _ c i1
    rw [i5, i6, hb] at h2
    refine ⟨b, ?_, by rw [← i3, ← i4]; exact hans, ?_, ?_⟩
    · revert h2
      cases (getBatches R (nthLoader (numpyHost R) { L with chains := L.chains ++ [ch] }
        L.chains.length k) L.chains.length).1 with
      | error e => simp
      | ok b' => simp
    · rw [nthAnswer, (numpy_get_known R _ _ c i1).1, i5, i6, hb]; rfl
    · simp [Batches.lines, hans.1, i3]

/-- The dataset of a loader object never changes. -/
theorem numpy_data_const {devices : Nat} {objs : Nat → Loader σ ρ} {s}
    (h : PReachable (numpyHost R) devices objs s) (i : Nat) :
    (s.host.objs i).data = (objs i).data ∧ (s.host.objs i).obsCount = (objs i).obsCount := by
  obtain ⟨ops, rfl⟩ := h
  refine objs_run (H := numpyHost R)
    (fun i L => L.data = (objs i).data ∧ L.obsCount = (objs i).obsCount) ?_ ?_ devices ops
    (pinit objs) (fun i => ⟨rfl, rfl⟩) i
  · intro i L c h
    cases hc : L.chains[c]? with
    | none => rw [numpy_get_unknown R L c hc]; exact h
    | some ch => rw [(numpy_get_known R L c ch hc).2]; exact h
  · intro i L cs mb kw c L' h hr
    obtain ⟨-, -, ch, rfl, -⟩ := numpy_register R L L' cs mb kw c hr
    exact h

end

end JaxSgmc
