import Verif.Lemmas.NumpySys

/-! Helper lemmas: an invariant of all reachable loaders which guarantees that no request fails. -/

namespace JaxSgmc

open Spec

section
variable {σ ρ : Type}

/-- Invariant of random chains. -/
structure GoodRandom (N : Nat) (c : RandomChain σ) : Prop where
  mbPos : 0 < c.mbSize
  mbLe : c.mbSize ≤ N
  epochs : c.inEpochs = true →
    (c.randomIndices = none ∧ c.draws = ceilDiv N c.mbSize) ∨
    (∃ b, c.randomIndices = some b ∧ b.length = ceilDiv N c.mbSize * c.mbSize ∧
      (∀ i ∈ b, i < N) ∧ c.draws ≤ ceilDiv N c.mbSize)
  shuffled : c.inEpochs = false → c.shuffle = true → ∃ q, ShInv N c q ∧ ∀ i ∈ q, i < N

/-- Invariant of chains. -/
def GoodChain (N : Nat) : Chain σ → Prop
  | .random c => GoodRandom N c
  | .ordered c => c.mbSize ≤ N

theorem epochs_good (R : Rng σ) (hR : R.Lawful) (N : Nat) (c : RandomChain σ) (h : GoodRandom N c)
    (hie : c.inEpochs = true) :
    ∃ x c', shuffleInEpochs R N c = .ok (x, c') ∧ x.1.length = c.mbSize ∧ x.2.length = c.mbSize ∧
      (∀ i ∈ x.1, i < N) ∧ GoodRandom N c' ∧ c'.mbSize = c.mbSize ∧ c'.cacheSize = c.cacheSize := by
  have hmb := h.mbPos
  have hmbN := h.mbLe
  have hmb' : c.mbSize ≠ 0 := by omega
  have hq := ceilDiv_pos hmb (show 0 < N by omega)
  have hle := ceilDiv_le (N := N) hmb
  have hsub : ∀ d, c.mbSize * (d + 1) - c.mbSize * d = c.mbSize := by
    intro d; rw [Nat.mul_add]; omega
  -- the selection from a filled buffer
  have sel : ∀ (c1 : RandomChain σ) (b : List Nat), c1.mbSize = c.mbSize →
      c1.randomIndices = some b → b.length = ceilDiv N c.mbSize * c.mbSize → (∀ i ∈ b, i < N) →
      c1.draws < ceilDiv N c.mbSize → c1.inEpochs = true →
      ((b.drop (c.mbSize * c1.draws)).take c.mbSize).length = c.mbSize ∧
      (∀ i ∈ (b.drop (c.mbSize * c1.draws)).take c.mbSize, i < N) ∧
      GoodRandom N { c1 with draws := c1.draws + 1 } := by
    intro c1 b hm hb hlen hlt hd hie1
    refine ⟨?_, ?_, ?_⟩
    · rw [List.length_take, List.length_drop, hlen]
      have : (c1.draws + 1) * c.mbSize ≤ ceilDiv N c.mbSize * c.mbSize :=
        Nat.mul_le_mul_right _ hd
      have e : (c1.draws + 1) * c.mbSize = c.mbSize * c1.draws + c.mbSize := by ring
      omega
    · intro i hi; exact hlt i (List.mem_of_mem_drop (List.mem_of_mem_take hi))
    · refine ⟨by simpa [hm], by simpa [hm], ?_, ?_⟩
      · intro _
        exact Or.inr ⟨b, hb, by simpa [hm] using hlen, hlt, by rw [hm]; exact hd⟩
      · intro hf; simp [hie1] at hf
  have hperm := hR.perm c.rng N
  have hplen : (R.choicePerm c.rng N).1.length = N := by simpa using hperm.length_eq
  have hplt : ∀ i ∈ (R.choicePerm c.rng N).1, i < N := fun i hi => by
    simpa using hperm.mem_iff.1 hi
  simp only [shuffleInEpochs, hmb', if_false]
  by_cases hd : c.draws = ceilDiv N c.mbSize
  · -- refresh
    have refresh : ∀ buf : List Nat, buf.length = ceilDiv N c.mbSize * c.mbSize →
        (∀ i ∈ buf, i < N) →
        (buf.take N).length = (R.choicePerm c.rng N).1.length ∧
        ((R.choicePerm c.rng N).1 ++ buf.drop N).length = ceilDiv N c.mbSize * c.mbSize ∧
        ∀ i ∈ (R.choicePerm c.rng N).1 ++ buf.drop N, i < N := by
      intro buf hl hlt
      refine ⟨by simp [hplen]; omega, by simp [hplen]; omega, ?_⟩
      intro i hi
      rcases List.mem_append.1 hi with hi | hi
      · exact hplt i hi
      · exact hlt i (List.mem_of_mem_drop hi)
    rcases h.epochs hie with ⟨hn, _⟩ | ⟨b, hb, hlen, hlt, _⟩
    · obtain ⟨r1, r2, r3⟩ := refresh (List.replicate (ceilDiv N c.mbSize * c.mbSize) 0) (by simp)
        (by intro i hi; rw [List.mem_replicate] at hi; omega)
      simp only [hd, hn, r1, if_true]
      obtain ⟨s1, s2, s3⟩ := sel { c with
        rng := (R.choicePerm c.rng N).2, draws := 0
        randomIndices := some ((R.choicePerm c.rng N).1 ++
          (List.replicate (ceilDiv N c.mbSize * c.mbSize) 0).drop N) } _ rfl rfl r2 r3 hq hie
      exact ⟨_, _, rfl, by simp only [hsub]; exact s1, by simp,
        by simp only [hsub]; exact s2, s3, rfl, rfl⟩
    · obtain ⟨r1, r2, r3⟩ := refresh b hlen hlt
      simp only [hd, hb, r1, if_true]
      obtain ⟨s1, s2, s3⟩ := sel { c with
        rng := (R.choicePerm c.rng N).2, draws := 0
        randomIndices := some ((R.choicePerm c.rng N).1 ++ b.drop N) } _ rfl rfl r2 r3 hq hie
      exact ⟨_, _, rfl, by simp only [hsub]; exact s1, by simp,
        by simp only [hsub]; exact s2, s3, rfl, rfl⟩
  · simp only [hd, if_false]
    rcases h.epochs hie with ⟨_, hdd⟩ | ⟨b, hb, hlen, hlt, hdl⟩
    · exact absurd hdd hd
    · obtain ⟨s1, s2, s3⟩ := sel c b rfl hb hlen hlt (by omega) hie
      simp only [hb]
      refine ⟨_, _, rfl, by simp only [hsub]; exact s1, by simp [hsub],
        by simp only [hsub]; exact s2, ?_, rfl, rfl⟩
      simpa [hb] using s3

theorem shuffle_good (R : Rng σ) (hR : R.Lawful) (N : Nat) (c : RandomChain σ) (h : GoodRandom N c)
    (hie : c.inEpochs = false) (hsh : c.shuffle = true) :
    ∃ x c', shuffleIndices R N c = .ok (x, c') ∧ x.1.length = c.mbSize ∧ x.2.length = c.mbSize ∧
      (∀ i ∈ x.1, i < N) ∧ GoodRandom N c' ∧ c'.mbSize = c.mbSize := by
  obtain ⟨q, hq, hqlt⟩ := h.shuffled hie hsh
  obtain ⟨c', s1, s2, s3, s4, s5, s6, s7⟩ := shuffle_step R N hR c q h.mbPos h.mbLe hq
  have hperm := hR.perm c.rng N
  have hplen : (R.choicePerm c.rng N).1.length = N := by simpa using hperm.length_eq
  have hplt : ∀ i ∈ (R.choicePerm c.rng N).1, i < N := fun i hi => by
    simpa using hperm.mem_iff.1 hi
  set q1 := (if q.length < c.mbSize then q ++ (R.choicePerm c.rng N).1 else q) with hq1
  have hq1lt : ∀ i ∈ q1, i < N := by
    rw [hq1]; split
    · intro i hi
      rcases List.mem_append.1 hi with hi | hi
      · exact hqlt i hi
      · exact hplt i hi
    · exact hqlt
  have hq1len : c.mbSize ≤ q1.length := by
    have := h.mbLe
    rw [hq1]; split
    · simp [hplen]; omega
    · omega
  refine ⟨_, c', s1, by simp; omega, by simp, fun i hi => hq1lt i (List.mem_of_mem_take hi),
    ⟨by rw [s4]; exact h.mbPos, by rw [s4]; exact h.mbLe, ?_, ?_⟩, s4⟩
  · intro hf; rw [s5, hie] at hf; simp at hf
  · intro _ _
    exact ⟨_, s2, fun i hi => hq1lt i (List.mem_of_mem_drop hi)⟩

theorem indexStep_good (R : Rng σ) (hR : R.Lawful) (N : Nat) (c : Chain σ) (h : GoodChain N c) :
    ∃ x c', indexStep R N c = .ok (x, c') ∧ x.1.length = c.mbSize ∧ x.2.length = c.mbSize ∧
      (∀ i ∈ x.1, i < N) ∧ GoodChain N c' ∧ c'.mbSize = c.mbSize := by
  cases c with
  | ordered c =>
    refine ⟨_, _, rfl, by simp [orderedIndices, Chain.mbSize], by simp [orderedIndices, Chain.mbSize], ?_, ?_, ?_⟩
    · intro i hi
      simp only [orderedIndices, List.map_map, List.mem_map, List.mem_range] at hi
      obtain ⟨a, ha, rfl⟩ := hi
      have : c.mbSize ≤ N := h
      exact Nat.mod_lt _ (by omega)
    · simp only [orderedIndices, GoodChain]; split <;> exact h
    · simp only [orderedIndices, Chain.mbSize]; split <;> rfl
  | random c =>
    simp only [GoodChain] at h
    cases hie : c.inEpochs with
    | true =>
      obtain ⟨x, c', h1, h2, h3, h4, h5, h6, _⟩ := epochs_good R hR N c h hie
      exact ⟨x, .random c', by simp [indexStep, hie, h1], h2, h3, h4, h5, h6⟩
    | false =>
      cases hsh : c.shuffle with
      | true =>
        obtain ⟨x, c', h1, h2, h3, h4, h5, h6⟩ := shuffle_good R hR N c h hie hsh
        exact ⟨x, .random c', by simp [indexStep, hie, hsh, h1], h2, h3, h4, h5, h6⟩
      | false =>
        have hN : 0 < N := lt_of_lt_of_le h.mbPos h.mbLe
        refine ⟨_, _, by simp [indexStep, hie, hsh]; exact ⟨rfl, rfl⟩, ?_, ?_, ?_, ?_, ?_⟩
        · exact hR.replLength _ _ _ hN
        · simp [drawIndices, Chain.mbSize]
        · exact fun i hi => hR.replLt _ _ _ i hN hi
        · refine ⟨h.mbPos, h.mbLe, h.epochs, ?_⟩
          intro _ hf; simp [drawIndices, hsh] at hf
        · rfl

theorem indexSteps_good (R : Rng σ) (hR : R.Lawful) (N : Nat) (n : Nat) (c : Chain σ)
    (h : GoodChain N c) :
    ∃ sel c', indexSteps R N n c = .ok (sel, c') ∧
      (∀ x ∈ sel, x.1.length = c.mbSize ∧ x.2.length = c.mbSize ∧ ∀ i ∈ x.1, i < N) ∧
      GoodChain N c' ∧ c'.mbSize = c.mbSize := by
  induction n generalizing c with
  | zero => exact ⟨[], c, rfl, by simp, h, rfl⟩
  | succ n ih =>
    obtain ⟨x, c1, h1, h2, h3, h4, h5, h6⟩ := indexStep_good R hR N c h
    obtain ⟨sel, c', i1, i2, i3, i4⟩ := ih c1 h5
    refine ⟨x :: sel, c', by simp [indexSteps, h1, i1], ?_, i3, by omega⟩
    intro y hy
    rcases List.mem_cons.1 hy with rfl | hy
    · exact ⟨h2, h3, h4⟩
    · obtain ⟨a, b, d⟩ := i2 y hy
      exact ⟨by omega, by omega, d⟩

theorem forall2_refl_len {α β : Type} {P : α → β → Prop} {xs : List α} {ys : List β}
    (h : List.Forall₂ P xs ys) : xs.length = ys.length := h.length_eq

theorem chainGet_good (R : Rng σ) (hR : R.Lawful) (data : List (String × List ρ)) (N : Nat)
    (hwf : DataWF data N) (c : Chain σ) (h : GoodChain N c) :
    GoodChain N (chainGet R data N c).2 ∧ (chainGet R data N c).2.mbSize = c.mbSize ∧
    (chainGet R data N c).2.cacheSize = c.cacheSize ∧
    ((c.cacheSize = 0 ∧ (chainGet R data N c).1 = .raised .valueError) ∨
     (0 < c.cacheSize ∧ ∃ b, (chainGet R data N c).1 = .batches b ∧
        IsAnswer data c.cacheSize c.mbSize b)) := by
  by_cases h0 : c.cacheSize = 0
  · simp [chainGet, getIndices, h0, h]
  · obtain ⟨sel, c', s1, s2, s3, s4⟩ := indexSteps_good R hR N c.cacheSize c h
    obtain ⟨b, b1, b2, b3, b4⟩ := chainGet_spec R data N hwf c c' sel (by omega) s1
      (fun x hx => (s2 x hx).2.2)
    have hlen := indexSteps_length R N _ _ _ _ s1
    refine ⟨by rw [b1]; exact s3, by rw [b1]; exact s4,
      by rw [b1]; exact indexSteps_cacheSize R N _ _ _ _ s1, Or.inr ⟨by omega, b, by rw [b1], ?_⟩⟩
    refine ⟨by rw [b2]; simpa using hlen, ?_, b3, sel.map (·.1), by simpa using hlen, ?_, b4⟩
    · intro m hm
      rw [b2] at hm
      obtain ⟨x, hx, rfl⟩ := List.mem_map.1 hm
      exact (s2 x hx).2.1
    · intro m hm
      obtain ⟨x, hx, rfl⟩ := List.mem_map.1 hm
      exact (s2 x hx).1

theorem chainGets_good (R : Rng σ) (hR : R.Lawful) (data : List (String × List ρ)) (N : Nat)
    (hwf : DataWF data N) (n : Nat) (c : Chain σ) (h : GoodChain N c) (hcs : 0 < c.cacheSize) :
    ∀ o ∈ (chainGets R data N n c).1, ∃ b, o = .batches b ∧ IsAnswer data c.cacheSize c.mbSize b := by
  induction n generalizing c with
  | zero => simp [chainGets]
  | succ n ih =>
    obtain ⟨g1, g2, g3, g4⟩ := chainGet_good R hR data N hwf c h
    intro o ho
    simp only [chainGets, List.mem_cons] at ho
    rcases ho with rfl | ho
    · rcases g4 with ⟨h0, _⟩ | ⟨_, b, hb, hi⟩
      · omega
      · exact ⟨b, hb, hi⟩
    · have := ih _ g1 (by omega) o ho
      rwa [g2, g3] at this

/-- Invariant of all reachable systems. -/
structure GoodSys (s : LSys σ ρ) : Prop where
  chains : ∀ c ∈ s.loader.chains, GoodChain s.loader.obsCount c
  ckpts : ∀ h ck, s.ckpts h = some ck → ∀ c, CkptItem.random c ∈ ck →
    GoodRandom s.loader.obsCount c

theorem newRandom_good (R : Rng σ) (N cid cs mb : Nat) (ie sh : Bool) (seed : Option Nat)
    (h0 : 0 < mb) (h1 : mb ≤ N) : GoodRandom N (newRandom R N cid cs mb ie sh seed) := by
  refine ⟨h0, h1, ?_, ?_⟩
  · intro _; exact Or.inl ⟨rfl, rfl⟩
  · intro _ _; exact ⟨[], ⟨rfl, Or.inl ⟨rfl, rfl⟩⟩, by simp⟩

theorem GoodRandom.setOffset {N : Nat} {c : RandomChain σ} (h : GoodRandom N c) (o : Option Nat) :
    GoodRandom N { c with idxOffset := o } := by
  refine ⟨h.mbPos, h.mbLe, h.epochs, ?_⟩
  intro a b
  obtain ⟨q, ⟨q1, q2⟩, q3⟩ := h.shuffled a b
  exact ⟨q, ⟨q1, q2⟩, q3⟩

theorem lstep_good (R : Rng σ) (hR : R.Lawful) (s : LSys σ ρ) (op : LOp) (h : GoodSys s)
    (hwf : DataWF s.loader.data s.loader.obsCount) : GoodSys (lstep R s op).1 := by
  obtain ⟨hd, ho⟩ := lstep_data R s op
  obtain ⟨h1, h2⟩ := h
  cases op with
  | regRandom cs mb ie sh seed =>
    simp only [lstep]
    split
    · exact ⟨h1, h2⟩
    · rename_i hr
      obtain ⟨rfl, hp, hle, _, rfl⟩ := registerRandom_spec R _ _ _ _ _ _ _ _ hr
      refine ⟨?_, h2⟩
      intro c hc
      rcases List.mem_append.1 hc with hc | hc
      · exact h1 c hc
      · simp only [List.mem_singleton] at hc
        subst hc
        exact newRandom_good R _ _ _ _ _ _ _ hp hle
  | regOrdered cs mb =>
    simp only [lstep]
    split
    · exact ⟨h1, h2⟩
    · rename_i hr
      obtain ⟨rfl, hle, rfl⟩ := registerOrdered_spec _ _ _ _ _ hr
      refine ⟨?_, h2⟩
      intro c hc
      rcases List.mem_append.1 hc with hc | hc
      · exact h1 c hc
      · simp only [List.mem_singleton] at hc
        subst hc
        exact hle
  | get cid =>
    cases hc : s.loader.chains[cid]? with
    | none =>
      have : (lstep R s (.get cid)).1 = s := by simp [lstep, getBatches, hc]
      rw [this]; exact ⟨h1, h2⟩
    | some c =>
      obtain ⟨_, g2, g3⟩ := lstep_get R s cid c hc
      refine ⟨?_, ?_⟩
      · rw [g2, ho]
        intro c' hc'
        rcases List.mem_or_eq_of_mem_set hc' with hc' | rfl
        · exact h1 c' hc'
        · exact (chainGet_good R hR _ _ hwf c (h1 c (List.mem_of_getElem? hc))).1
      · rw [g3, ho]; exact h2
  | save cid k =>
    simp only [lstep]
    split
    · exact ⟨h1, h2⟩
    · rename_i ck hs
      refine ⟨h1, ?_⟩
      intro h ck' hck c hc
      simp only [setCkpt] at hck
      split at hck
      · simp only [Option.some.injEq] at hck
        subst hck
        unfold saveState at hs
        split at hs
        · simp at hs
        · rename_i c0 hc0
          simp only [Except.ok.injEq] at hs
          subst hs
          simp only [List.mem_singleton, CkptItem.random.injEq] at hc
          subst hc
          exact h1 _ (List.mem_of_getElem? hc0)
        · simp only [Except.ok.injEq] at hs
          subst hs
          simp at hc
      · exact h2 h ck' hck c hc
  | load cid k =>
    simp only [lstep]
    split
    · exact ⟨h1, h2⟩
    · rename_i ck hk
      have hck : ∀ (ck' : Ckpt σ), (∀ x ∈ ck', x ∈ ck) → ∀ h ck'', setCkpt s.ckpts k ck' h = some ck'' →
          ∀ c, CkptItem.random c ∈ ck'' → GoodRandom s.loader.obsCount c := by
        intro ck' hsub h ck'' hs c hc
        simp only [setCkpt] at hs
        split at hs
        · simp only [Option.some.injEq] at hs
          subst hs
          exact h2 k ck hk c (hsub _ hc)
        · exact h2 h ck'' hs c hc
      have hdl : ∀ x ∈ ck.dropLast, x ∈ ck := fun x hx => (List.dropLast_subset ck) hx
      have hset : ∀ c0 : Chain σ, GoodChain s.loader.obsCount c0 →
          ∀ c ∈ s.loader.chains.set cid c0, GoodChain s.loader.obsCount c := by
        intro c0 hc0 c hc
        rcases List.mem_or_eq_of_mem_set hc with hc | rfl
        · exact h1 c hc
        · exact hc0
      simp only [loadState]
      split
      · exact ⟨h1, hck ck (fun _ h => h)⟩
      · rename_i item hl
        have hmem : item ∈ ck := List.mem_of_getLast? hl
        split
        · exact ⟨h1, hck _ hdl⟩
        · rename_i chain hch
          have hgc := h1 chain (List.mem_of_getElem? hch)
          split
          · rename_i c _
            exact ⟨hset _ (h2 k ck hk c hmem), hck _ hdl⟩
          · exact ⟨h1, hck _ hdl⟩
          · exact ⟨hset _ (GoodRandom.setOffset hgc _), hck _ hdl⟩
          · exact ⟨hset _ hgc, hck _ hdl⟩

theorem lrun_good (R : Rng σ) (hR : R.Lawful) (s : LSys σ ρ) (ops : List LOp) (h : GoodSys s)
    (hwf : DataWF s.loader.data s.loader.obsCount) : GoodSys (lrun R s ops).1 := by
  induction ops generalizing s with
  | nil => exact h
  | cons op ops ih =>
    obtain ⟨hd, ho⟩ := lstep_data R s op
    exact ih _ (lstep_good R hR s op h hwf) (by rw [hd, ho]; exact hwf)

theorem Spec.Reachable.good (R : Rng σ) (hR : R.Lawful) {data : List (String × List ρ)} {s : LSys σ ρ}
    (h : Reachable R data s) : GoodSys s := by
  obtain ⟨L, ops, h1, rfl⟩ := h
  obtain ⟨h2, h3, h4, _⟩ := mkLoader_spec data L h1
  apply lrun_good R hR
  · exact ⟨by simp [h4], by simp⟩
  · rw [h2]; exact h3

/-! ### the kind of a chain never changes -/

/-- The kind of a chain: random, or ordered with given shape. -/
def Chain.kind : Chain σ → Option (Nat × Nat)
  | .random _ => none
  | .ordered c => some (c.mbSize, c.cacheSize)

theorem indexStep_kind (R : Rng σ) (N : Nat) (c c' : Chain σ) (x)
    (h : indexStep R N c = .ok (x, c')) : c'.kind = c.kind := by
  cases c with
  | ordered c =>
    simp only [indexStep, Except.ok.injEq, Prod.mk.injEq] at h
    rw [← h.2]
    simp only [orderedIndices, Chain.kind]; split <;> rfl
  | random c =>
    simp only [indexStep] at h
    split at h
    · split at h
      · simp at h
      · simp only [Except.ok.injEq, Prod.mk.injEq] at h; rw [← h.2]; rfl
    · split at h
      · split at h
        · simp at h
        · simp only [Except.ok.injEq, Prod.mk.injEq] at h; rw [← h.2]; rfl
      · simp only [Except.ok.injEq, Prod.mk.injEq] at h; rw [← h.2]; rfl

theorem indexSteps_kind (R : Rng σ) (N k : Nat) (c c' : Chain σ) (xs)
    (h : indexSteps R N k c = .ok (xs, c')) : c'.kind = c.kind := by
  induction k generalizing c xs with
  | zero => simp [indexSteps] at h; rw [h.2]
  | succ k ih =>
    simp only [indexSteps] at h
    cases hs : indexStep R N c with
    | error e => simp [hs] at h
    | ok r =>
      simp only [hs] at h
      cases hr : indexSteps R N k r.2 with
      | error e => simp [hr] at h
      | ok r2 =>
        simp only [hr, Except.ok.injEq, Prod.mk.injEq] at h
        rw [ih r.2 r2.1 (by rw [hr, ← h.2]), indexStep_kind R N c r.2 r.1 hs]

theorem chainGet_kind (R : Rng σ) (data : List (String × List ρ)) (N : Nat) (c : Chain σ) :
    (chainGet R data N c).2.kind = c.kind := by
  unfold chainGet getIndices
  split
  · rfl
  · rename_i sel c' h
    split at h
    · simp at h
    · split <;> exact indexSteps_kind R N _ c c' sel h

theorem lstep_kind (R : Rng σ) (s : LSys σ ρ) (op : LOp) (cid : Nat) (c : Chain σ)
    (h : s.loader.chains[cid]? = some c) :
    ∃ c', (lstep R s op).1.loader.chains[cid]? = some c' ∧ c'.kind = c.kind := by
  have hlt : cid < s.loader.chains.length := by
    by_contra hge
    rw [List.getElem?_eq_none (by omega)] at h; simp at h
  by_cases ht : touches cid op = true
  · cases op with
    | regRandom => simp [touches] at ht
    | regOrdered => simp [touches] at ht
    | get k =>
      have : k = cid := by simpa [touches] using ht
      subst this
      obtain ⟨_, g2, _⟩ := lstep_get R s k c h
      rw [g2]
      exact ⟨_, List.getElem?_set_self hlt, chainGet_kind R _ _ c⟩
    | save k _ =>
      refine ⟨c, ?_, rfl⟩
      simp only [lstep]; split <;> exact h
    | load k v =>
      have : k = cid := by simpa [touches] using ht
      subst this
      simp only [lstep]
      split
      · exact ⟨c, h, rfl⟩
      · simp only [loadState, h]
        split
        · exact ⟨c, h, rfl⟩
        · rename_i item hi
          cases item <;> cases c
          · exact ⟨_, List.getElem?_set_self hlt, rfl⟩
          · exact ⟨_, h, rfl⟩
          · exact ⟨_, List.getElem?_set_self hlt, rfl⟩
          · exact ⟨_, List.getElem?_set_self hlt, rfl⟩
  · have o := lstep_other R cid (fun _ => False) s op (by simpa using ht) (fun _ _ h => h) hlt
    exact ⟨c, by rw [o.chain, h], rfl⟩

theorem lrun_kind (R : Rng σ) (s : LSys σ ρ) (ops : List LOp) (cid : Nat) (c : Chain σ)
    (h : s.loader.chains[cid]? = some c) :
    ∃ c', (lrun R s ops).1.loader.chains[cid]? = some c' ∧ c'.kind = c.kind := by
  induction ops generalizing s c with
  | nil => exact ⟨c, h, rfl⟩
  | cons op ops ih =>
    obtain ⟨c1, h1, h2⟩ := lstep_kind R s op cid c h
    obtain ⟨c2, h3, h4⟩ := ih _ c1 h1
    exact ⟨c2, h3, h4.trans h2⟩

end

end JaxSgmc
