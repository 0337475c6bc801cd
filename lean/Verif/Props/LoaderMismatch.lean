import Verif.Props.Loader

/-!
# Property C158: restoring a checkpoint which does not belong to the chain

`load_state` compares neither the kind nor the options of the checkpoint with those of the chain.
-/

namespace JaxSgmc

namespace Spec

/-- Chain `cid` of the loader in state `s` was registered by the operation `reg` at some point of the
history which led to `s`. -/
def RegisteredBy {σ ρ : Type} (R : Rng σ) (data : List (String × List ρ)) (s : LSys σ ρ) (cid : Nat)
    (reg : LOp) : Prop :=
  ∃ s₀ s₁ ops, Reachable R data s₀ ∧ lstep R s₀ reg = (s₁, .registered cid) ∧
    s = (lrun R s₁ ops).1

/-- Two operations register chains of the same kind, batch size and cache size. -/
def sameOptions : LOp → LOp → Prop
  | .regRandom cs mb ie sh _, .regRandom cs' mb' ie' sh' _ =>
    cs = cs' ∧ mb = mb' ∧ ie = ie' ∧ sh = sh'
  | .regOrdered cs mb, .regOrdered cs' mb' => cs = cs' ∧ mb = mb'
  | _, _ => False

end Spec

open Spec

/-- The full statement of C158: a checkpoint is accepted only by a chain registered with the options
of the chain it was saved from. -/
def C158Statement : Prop :=
  ∀ (R : Rng Nat), R.Lawful → ∀ (data : List (String × List Nat)) (s : LSys Nat Nat)
    (cid cid' h : Nat) (reg reg' : LOp), Reachable R data s →
    RegisteredBy R data s cid reg → RegisteredBy R data s cid' reg' →
    (lstep R s (.save cid h)).2 = .saved →
    (lstep R (lstep R s (.save cid h)).1 (.load cid' h)).2 = .loaded → sameOptions reg reg'

/-- **C158 is false of the code**: a random chain registered for batches of two observations accepts
the checkpoint of a chain with batches of three, and afterwards delivers batches of three. -/
theorem c158_false : ¬ C158Statement := by
  intro H
  have hr : Reachable toyRng toyData toySys := ⟨toySys.loader, [], by rfl, rfl⟩
  have h1 := H toyRng toyRng_lawful toyData
    (lrun toyRng toySys [.regRandom 1 3 false false none, .regRandom 1 2 false false none]).1
    0 1 0 (.regRandom 1 3 false false none) (.regRandom 1 2 false false none)
    (hr.step toyRng _)
    ⟨toySys, _, [.regRandom 1 2 false false none], hr, rfl, rfl⟩
    ⟨_, _, [], hr.step toyRng [.regRandom 1 3 false false none], rfl, rfl⟩
    (by decide) (by decide)
  exact absurd h1.2.1 (by decide)

/-- The batches of the second chain change their size (same history as in `c158_false`). -/
theorem c158_false_shape :
    let s := (lrun toyRng toySys [.regRandom 1 3 false false none, .regRandom 1 2 false false none]).1
    (∃ b, (lstep toyRng s (.get 1)).2 = .batches b ∧ b.mask = [[true, true]]) ∧
    ∃ b, (lstep toyRng (lrun toyRng s [.save 0 0, .load 1 0]).1 (.get 1)).2 = .batches b ∧
      b.mask = [[true, true, true]] :=
  ⟨⟨_, rfl, by decide⟩, ⟨_, rfl, by decide⟩⟩

section
variable {σ ρ : Type} (R : Rng σ) {data : List (String × List ρ)} {s : LSys σ ρ}

theorem registeredBy_random {s : LSys σ ρ} {cid cs mb : Nat} {ie sh : Bool} {seed : Option Nat}
    (h : RegisteredBy R data s cid (.regRandom cs mb ie sh seed)) :
    ∃ c, s.loader.chains[cid]? = some (.random c) := by
  obtain ⟨s₀, s₁, ops, _, hreg, rfl⟩ := h
  obtain ⟨_, _, _, _, hc, _⟩ := registered_random hreg
  obtain ⟨c', h1, h2⟩ := lrun_kind R s₁ ops cid _ hc
  cases c' with
  | random c => exact ⟨c, h1⟩
  | ordered c => simp [Chain.kind] at h2

theorem registeredBy_ordered {s : LSys σ ρ} {cid cs mb : Nat}
    (h : RegisteredBy R data s cid (.regOrdered cs mb)) :
    ∃ o, s.loader.chains[cid]? = some (.ordered ⟨o, mb, cs⟩) := by
  obtain ⟨s₀, s₁, ops, _, hreg, rfl⟩ := h
  obtain ⟨_, _, hc, _⟩ := registered_ordered hreg
  obtain ⟨c', h1, h2⟩ := lrun_kind R s₁ ops cid _ hc
  cases c' with
  | random c => simp [Chain.kind] at h2
  | ordered c =>
    obtain ⟨o, m, k⟩ := c
    simp only [Chain.kind, Option.some.injEq, Prod.mk.injEq] at h2
    exact ⟨o, by rw [h1, h2.1, h2.2]⟩

/-- **C158, partial** (the mismatch which is detected): the checkpoint of a random chain passed to an
ordered chain raises an `AttributeError` and leaves every chain as it was. -/
theorem c158_detected_partial {cid cid' h cs mb cs' mb' : Nat} {ie sh : Bool} {seed : Option Nat}
    (hc : RegisteredBy R data s cid (.regRandom cs mb ie sh seed))
    (hc' : RegisteredBy R data s cid' (.regOrdered cs' mb'))
    (hsv : (lstep R s (.save cid h)).2 = .saved) :
    let t := lstep R (lstep R s (.save cid h)).1 (.load cid' h)
    t.2 = .raised .attributeError ∧
      ∀ (ops : List LOp) (i : Nat), (∀ op ∈ ops, handle? op = none) →
        outcomes i (lrun R t.1 ops).2 = outcomes i (lrun R s ops).2 := by
  obtain ⟨c, e⟩ := registeredBy_random R hc
  obtain ⟨o, e'⟩ := registeredBy_ordered R hc'
  have key : (lstep R (lstep R s (.save cid h)).1 (.load cid' h)).2 = .raised .attributeError ∧
      (lstep R (lstep R s (.save cid h)).1 (.load cid' h)).1.loader = s.loader := by
    simp [lstep, saveState, e, setCkpt, loadState, e']
  refine ⟨key.1, ?_⟩
  generalize (lstep R (lstep R s (.save cid h)).1 (.load cid' h)).1 = t at key ⊢
  intro ops i hops
  have aux : ∀ (l : List LOp) (a b : LSys σ ρ), a.loader = b.loader →
      (∀ op ∈ l, handle? op = none) → (lrun R a l).2 = (lrun R b l).2 := by
    intro l
    induction l with
    | nil => intros; rfl
    | cons op l ih =>
      intro a b hab hl
      have h1 : (lstep R a op).2 = (lstep R b op).2 ∧
          (lstep R a op).1.loader = (lstep R b op).1.loader := by
        have := hl op (by simp)
        cases op with
        | save => simp [handle?] at this
        | load => simp [handle?] at this
        | regRandom => simp only [lstep, hab]; split <;> simp [hab]
        | regOrdered => simp only [lstep, hab]; split <;> simp [hab]
        | get => simp only [lstep, hab]; simp
      simp only [lrun]
      rw [h1.1, ih _ _ h1.2 (fun o ho => hl o (List.mem_cons_of_mem _ ho))]
  rw [aux _ t s key.2 hops]

/-- The entry `idx_offset` of a random chain replaced. -/
def withOffset (o : Option Nat) (c : RandomChain σ) : RandomChain σ := { c with idxOffset := o }

theorem shuffleInEpochs_offset (N : Nat) (c : RandomChain σ) (o : Option Nat) :
    shuffleInEpochs R N (withOffset o c) =
      (shuffleInEpochs R N c).map (fun r => (r.1, withOffset o r.2)) := by
  obtain ⟨r1, r2, r3, r4, r5, r6, r7, r8, r9⟩ := c
  simp only [shuffleInEpochs, withOffset]
  by_cases h0 : r8 = 0
  · simp [h0, Except.map]
  · simp only [h0, ↓reduceIte]
    by_cases h1 : r6 = ceilDiv N r8
    · simp only [h1, ↓reduceIte]
      cases r7 with
      | none =>
        by_cases h2 : (List.take N (List.replicate (ceilDiv N r8 * r8) 0)).length =
          (R.choicePerm r1 N).1.length
        · simp only [h2, ↓reduceIte]; rfl
        · simp only [h2, ↓reduceIte]; rfl
      | some b =>
        by_cases h2 : (List.take N b).length = (R.choicePerm r1 N).1.length
        · simp only [h2, ↓reduceIte]; rfl
        · simp only [h2, ↓reduceIte]; rfl
    · simp only [h1, ↓reduceIte]
      cases r7 <;> rfl

theorem shuffleRefresh_offset (N k : Nat) (c : RandomChain σ) (o : Option Nat) :
    shuffleRefresh R N k (withOffset o c) = (shuffleRefresh R N k c).map (withOffset o) := by
  simp only [shuffleRefresh, withOffset]
  cases c.randomIndices with
  | none => 
    simp only
    cases npPut (List.replicate (k * c.mbSize) 0)
      ((List.range N).map fun i => (i + 0 * c.mbSize + c.remainingSamples) % (k * c.mbSize))
      (R.choicePerm c.rng N).1 <;> rfl
  | some b =>
    simp only
    cases npPut b
      ((List.range N).map fun i => (i + c.draws * c.mbSize + c.remainingSamples) % (k * c.mbSize))
      (R.choicePerm c.rng N).1 <;> rfl

theorem shuffleIndices_offset (N : Nat) (c : RandomChain σ) (o : Option Nat) :
    shuffleIndices R N (withOffset o c) =
      (shuffleIndices R N c).map (fun r => (r.1, withOffset o r.2)) := by
  have hm : (withOffset o c).mbSize = c.mbSize := rfl
  have hr : (withOffset o c).remainingSamples = c.remainingSamples := rfl
  simp only [shuffleIndices, hm, hr]
  by_cases h0 : c.mbSize = 0
  · simp [h0, Except.map]
  · simp only [h0, ↓reduceIte]
    have tail : ∀ r : Except PyErr (RandomChain σ), ∀ k : Nat,
        (match r.map (withOffset o) with
          | .error e => .error e
          | .ok c =>
            match c.randomIndices with
            | none => .error .typeError
            | some buf =>
              match npTake buf ((List.range c.mbSize).map
                (fun i => (i + c.draws * c.mbSize) % (c.mbSize * k))) with
              | .error e => .error e
              | .ok sel => .ok ((sel, List.replicate c.mbSize true),
                  { c with draws := (c.draws + 1) % k,
                           remainingSamples := c.remainingSamples - c.mbSize }) :
          Except PyErr ((List Nat × List Bool) × RandomChain σ)) =
        (match r with
          | .error e => .error e
          | .ok c =>
            match c.randomIndices with
            | none => .error .typeError
            | some buf =>
              match npTake buf ((List.range c.mbSize).map
                (fun i => (i + c.draws * c.mbSize) % (c.mbSize * k))) with
              | .error e => .error e
              | .ok sel => .ok ((sel, List.replicate c.mbSize true),
                  { c with draws := (c.draws + 1) % k,
                           remainingSamples := c.remainingSamples - c.mbSize }) :
          Except PyErr ((List Nat × List Bool) × RandomChain σ)).map
            (fun r => (r.1, withOffset o r.2)) := by
      intro r k
      cases r with
      | error e => rfl
      | ok d =>
        obtain ⟨r1, r2, r3, r4, r5, r6, r7, r8, r9⟩ := d
        simp only [Except.map, withOffset]
        cases r7 with
        | none => rfl
        | some b =>
          simp only
          cases npTake b ((List.range r8).map (fun i => (i + r6 * r8) % (r8 * k))) <;> rfl
    by_cases h1 : c.remainingSamples < c.mbSize
    · simp only [h1, ↓reduceIte]
      rw [shuffleRefresh_offset]
      exact tail _ _
    · simp only [h1, ↓reduceIte]
      exact tail (.ok c) _

/-- The same for a whole chain. -/
def chainOffset (o : Option Nat) : Chain σ → Chain σ
  | .random c => .random (withOffset o c)
  | .ordered c => .ordered c

theorem indexStep_offset (N : Nat) (c : Chain σ) (o : Option Nat) :
    indexStep R N (chainOffset o c) =
      (indexStep R N c).map (fun r => (r.1, chainOffset o r.2)) := by
  cases c with
  | ordered c => rfl
  | random c =>
    simp only [chainOffset, indexStep]
    have h1 : (withOffset o c).inEpochs = c.inEpochs := rfl
    have h2 : (withOffset o c).shuffle = c.shuffle := rfl
    rw [h1, h2, shuffleInEpochs_offset, shuffleIndices_offset]
    cases c.inEpochs <;> cases c.shuffle <;> simp only [Bool.false_eq_true, ↓reduceIte]
    · rfl
    · cases shuffleIndices R N c <;> rfl
    · cases shuffleInEpochs R N c <;> rfl
    · cases shuffleInEpochs R N c <;> rfl

theorem indexSteps_offset (N k : Nat) (c : Chain σ) (o : Option Nat) :
    indexSteps R N k (chainOffset o c) =
      (indexSteps R N k c).map (fun r => (r.1, chainOffset o r.2)) := by
  induction k generalizing c with
  | zero => rfl
  | succ k ih =>
    simp only [indexSteps, indexStep_offset]
    cases indexStep R N c with
    | error e => rfl
    | ok r =>
      obtain ⟨x, c'⟩ := r
      simp only [Except.map, ih]
      cases indexSteps R N k c' <;> rfl

theorem chainGet_offset (data : List (String × List ρ)) (N : Nat) (c : Chain σ) (o : Option Nat) :
    chainGet R data N (chainOffset o c) =
      ((chainGet R data N c).1, chainOffset o (chainGet R data N c).2) := by
  have h : (chainOffset o c).cacheSize = c.cacheSize := by cases c <;> rfl
  have hg : getIndices R N (chainOffset o c) =
      (getIndices R N c).map (fun r => (r.1, chainOffset o r.2)) := by
    simp only [getIndices, h]
    by_cases h0 : c.cacheSize = 0
    · simp [h0, Except.map]
    · simp only [h0, ↓reduceIte]; exact indexSteps_offset R N _ c o
  simp only [chainGet, hg]
  cases getIndices R N c with
  | error e => rfl
  | ok r =>
    simp only [Except.map]
    cases sliceAll (r.1.map (·.1)) data <;> rfl

theorem chainGets_offset (data : List (String × List ρ)) (N n : Nat) (c : Chain σ)
    (o : Option Nat) :
    (chainGets R data N n (chainOffset o c)).1 = (chainGets R data N n c).1 := by
  induction n generalizing c with
  | zero => rfl
  | succ n ih => simp only [chainGets, chainGet_offset, ih]

/-- **C158, partial** (a mismatch which is ignored): the checkpoint of an ordered chain is accepted by
a random chain, but does not influence any batch delivered later: the random chain continues as if
nothing had been restored. -/
theorem c158_ignored_partial {cid cid' h cs mb cs' mb' : Nat} {ie sh : Bool} {seed : Option Nat}
    (hc : RegisteredBy R data s cid (.regOrdered cs mb))
    (hc' : RegisteredBy R data s cid' (.regRandom cs' mb' ie sh seed))
    (hsv : (lstep R s (.save cid h)).2 = .saved) (later : List LOp)
    (hl : ∀ op ∈ later, isLoad cid' op = false) :
    let t := lstep R (lstep R s (.save cid h)).1 (.load cid' h)
    t.2 = .loaded ∧ outcomes cid' (lrun R t.1 later).2 = outcomes cid' (lrun R s later).2 := by
  obtain ⟨o, e⟩ := registeredBy_ordered R hc
  obtain ⟨c, e'⟩ := registeredBy_random R hc'
  have hlt : cid' < s.loader.chains.length := by
    by_contra hge
    rw [List.getElem?_eq_none (by omega)] at e'; simp at e'
  have key : (lstep R (lstep R s (.save cid h)).1 (.load cid' h)).2 = .loaded ∧
      (lstep R (lstep R s (.save cid h)).1 (.load cid' h)).1.loader.chains[cid']? =
        some (chainOffset (some o) (.random c)) ∧
      (lstep R (lstep R s (.save cid h)).1 (.load cid' h)).1.loader.data = s.loader.data ∧
      (lstep R (lstep R s (.save cid h)).1 (.load cid' h)).1.loader.obsCount = s.loader.obsCount := by
    simp only [lstep, saveState, e, setCkpt, ↓reduceIte, loadState, List.getLast?_singleton, e',
      List.getElem?_set_self hlt]
    refine ⟨?_, ?_, ?_, ?_⟩ <;> first | trivial | rfl
  obtain ⟨k1, k2, k3, k4⟩ := key
  refine ⟨k1, ?_⟩
  rw [(outcomes_eq_chainGets R cid' later _ _ k2 hl).1,
    (outcomes_eq_chainGets R cid' later s _ e' hl).1, k3, k4, chainGets_offset]

/-- **C158, partial** (a mismatch which is obeyed): a random chain accepts the checkpoint of any other
random chain of the loader and from then on delivers what that chain would have delivered, with the
other chain's batch size, cache size and kind of shuffling. -/
theorem c158_takes_over_partial {cid cid' h cs mb cs' mb' : Nat} {ie sh ie' sh' : Bool}
    {seed seed' : Option Nat} (hc : RegisteredBy R data s cid (.regRandom cs mb ie sh seed))
    (hc' : RegisteredBy R data s cid' (.regRandom cs' mb' ie' sh' seed'))
    (hsv : (lstep R s (.save cid h)).2 = .saved) (n : Nat) :
    let t := lstep R (lstep R s (.save cid h)).1 (.load cid' h)
    t.2 = .loaded ∧ outcomes cid' (lrun R t.1 (List.replicate n (.get cid'))).2 =
      outcomes cid (lrun R s (List.replicate n (.get cid))).2 := by
  obtain ⟨c, e⟩ := registeredBy_random R hc
  obtain ⟨c', e'⟩ := registeredBy_random R hc'
  have hlt : cid' < s.loader.chains.length := by
    by_contra hge
    rw [List.getElem?_eq_none (by omega)] at e'; simp at e'
  have key : (lstep R (lstep R s (.save cid h)).1 (.load cid' h)).2 = .loaded ∧
      (lstep R (lstep R s (.save cid h)).1 (.load cid' h)).1.loader.chains[cid']? =
        some (.random c) ∧
      (lstep R (lstep R s (.save cid h)).1 (.load cid' h)).1.loader.data = s.loader.data ∧
      (lstep R (lstep R s (.save cid h)).1 (.load cid' h)).1.loader.obsCount = s.loader.obsCount := by
    simp only [lstep, saveState, e, setCkpt, ↓reduceIte, loadState, List.getLast?_singleton, e',
      List.getElem?_set_self hlt]
    refine ⟨?_, ?_, ?_, ?_⟩ <;> first | trivial | rfl
  obtain ⟨k1, k2, k3, k4⟩ := key
  refine ⟨k1, ?_⟩
  have hg : ∀ (m i : Nat), numGets i (List.replicate m (.get i)) = m := by
    intro m i
    induction m with
    | zero => rfl
    | succ m ih => simp [List.replicate_succ, numGets, ih, Nat.add_comm]
  have hn : ∀ i : Nat, ∀ op ∈ List.replicate n (LOp.get i), isLoad i op = false := by
    intro i op ho
    rw [(List.mem_replicate.1 ho).2]; rfl
  rw [(outcomes_eq_chainGets R cid' _ _ _ k2 (hn _)).1,
    (outcomes_eq_chainGets R cid _ s _ e (hn _)).1, k3, k4, hg, hg]

/-- The hypotheses of the last three theorems can be met. -/
example :
    let s := (lrun toyRng toySys [.regRandom 1 3 false true none, .regOrdered 1 2,
      .regRandom 2 2 true true none, .get 0, .get 1]).1
    RegisteredBy toyRng toyData s 0 (.regRandom 1 3 false true none) ∧
    RegisteredBy toyRng toyData s 1 (.regOrdered 1 2) ∧
    RegisteredBy toyRng toyData s 2 (.regRandom 2 2 true true none) ∧
    (lstep toyRng s (.save 0 5)).2 = .saved ∧ (lstep toyRng s (.save 1 5)).2 = .saved := by
  have hr : Reachable toyRng toyData toySys := ⟨toySys.loader, [], by rfl, rfl⟩
  refine ⟨⟨toySys, _, [.regOrdered 1 2, .regRandom 2 2 true true none, .get 0, .get 1], hr, rfl, rfl⟩,
    ⟨_, _, [.regRandom 2 2 true true none, .get 0, .get 1],
      hr.step toyRng [.regRandom 1 3 false true none], rfl, rfl⟩,
    ⟨_, _, [.get 0, .get 1],
      hr.step toyRng [.regRandom 1 3 false true none, .regOrdered 1 2], rfl, rfl⟩,
    by decide, by decide⟩

/-- What the chain `cid` registered for `cs` batches of `mb` observations and the checkpoint variables
reserved for it satisfy. -/
def OwnCkpts (cid cs mb : Nat) (H : Nat → Prop) (s : LSys σ ρ) : Prop :=
  (∃ c, s.loader.chains[cid]? = some c ∧ c.cacheSize = cs ∧ c.mbSize = mb) ∧
  ∀ h, H h → ∀ ck, s.ckpts h = some ck → ∀ c, CkptItem.random c ∈ ck → c.cacheSize = cs ∧ c.mbSize = mb

theorem ownCkpts_step (hR : R.Lawful) {s : LSys σ ρ} (hs : Reachable R data s) {cid cs mb : Nat}
    {H : Nat → Prop} (hi : OwnCkpts cid cs mb H s) (op : LOp)
    (hload : ∀ h, op = .load cid h → H h) (hsave : ∀ c h, op = .save c h → H h → c = cid) :
    OwnCkpts cid cs mb H (lstep R s op).1 := by
  obtain ⟨⟨c, hc, h1, h2⟩, hk⟩ := hi
  have hlt : cid < s.loader.chains.length := by
    by_contra hge
    rw [List.getElem?_eq_none (by omega)] at hc; simp at hc
  cases op with
  | regRandom cs' mb' ie sh seed =>
    have ho := lstep_other R cid (fun _ => True) s (.regRandom cs' mb' ie sh seed) rfl
      (by simp [handle?]) hlt
    exact ⟨⟨c, by rw [ho.chain]; exact hc, h1, h2⟩, fun h hh ck e => hk h hh ck
      (by rw [← ho.ckpts h trivial]; exact e)⟩
  | regOrdered cs' mb' =>
    have ho := lstep_other R cid (fun _ => True) s (.regOrdered cs' mb') rfl
      (by simp [handle?]) hlt
    exact ⟨⟨c, by rw [ho.chain]; exact hc, h1, h2⟩, fun h hh ck e => hk h hh ck
      (by rw [← ho.ckpts h trivial]; exact e)⟩
  | get c' =>
    by_cases hcc : c' = cid
    · subst hcc
      obtain ⟨_, g2, g3⟩ := lstep_get R s c' c hc
      obtain ⟨hd, hwf⟩ := hs.data
      obtain ⟨_, f2, f3, _⟩ := chainGet_good R hR data s.loader.obsCount hwf c
        ((hs.good R hR).chains c (List.mem_of_getElem? hc))
      refine ⟨⟨_, by rw [g2, List.getElem?_set_self hlt], ?_, ?_⟩, fun h hh ck e => hk h hh ck
        (by rw [← g3]; exact e)⟩
      · rw [hd, f3, h1]
      · rw [hd, f2, h2]
    · have ho := lstep_other R cid (fun _ => True) s (.get c') (by simp [touches, hcc])
        (by simp [handle?]) hlt
      exact ⟨⟨c, by rw [ho.chain]; exact hc, h1, h2⟩, fun h hh ck e => hk h hh ck
        (by rw [← ho.ckpts h trivial]; exact e)⟩
  | save c' h' =>
    have hH := hsave c' h' rfl
    cases hsv : saveState s.loader c' with
    | error e =>
      simp only [lstep, hsv]
      exact ⟨⟨c, hc, h1, h2⟩, hk⟩
    | ok ck' =>
      simp only [lstep, hsv]
      refine ⟨⟨c, hc, h1, h2⟩, ?_⟩
      intro h hh ck e d hd
      simp only [setCkpt] at e
      split at e
      · rename_i heq
        subst heq
        have := hH hh
        subst this
        simp only [Option.some.injEq] at e
        subst e
        cases c with
        | random c0 =>
          simp only [saveState, hc, Except.ok.injEq] at hsv
          subst hsv
          simp only [List.mem_singleton, CkptItem.random.injEq] at hd
          subst hd
          exact ⟨h1, h2⟩
        | ordered c0 =>
          simp only [saveState, hc, Except.ok.injEq] at hsv
          subst hsv
          simp at hd
      · exact hk h hh ck e d hd
  | load c' h' =>
    cases hck : s.ckpts h' with
    | none =>
      simp only [lstep, hck]
      exact ⟨⟨c, hc, h1, h2⟩, hk⟩
    | some ck' =>
      have hsub : ∀ d, d ∈ (loadState s.loader c' ck').2.2 → d ∈ ck' := by
        intro d hd
        simp only [loadState] at hd
        split at hd
        · exact hd
        · split at hd
          · exact List.mem_of_mem_dropLast hd
          · split at hd <;> exact List.mem_of_mem_dropLast hd
      have hck2 : ∀ h, H h → ∀ ck, (lstep R s (.load c' h')).1.ckpts h = some ck →
          ∀ d, CkptItem.random d ∈ ck → d.cacheSize = cs ∧ d.mbSize = mb := by
        intro h hh ck e d hd
        simp only [lstep, hck, setCkpt] at e
        split at e
        · rename_i heq
          subst heq
          simp only [Option.some.injEq] at e
          subst e
          exact hk h hh ck' hck d (hsub _ hd)
        · exact hk h hh ck e d hd
      refine ⟨?_, hck2⟩
      simp only [lstep, hck]
      by_cases hcc : c' = cid
      · subst hcc
        have hH := hload h' rfl
        simp only [loadState]
        cases hl : ck'.getLast? with
        | none => exact ⟨c, hc, h1, h2⟩
        | some item =>
          have hmem : item ∈ ck' := List.mem_of_getLast? hl
          simp only [hc]
          cases item with
          | random d =>
            have hd := hk h' hH ck' hck d hmem
            cases c with
            | random c0 => exact ⟨.random d, List.getElem?_set_self hlt, hd.1, hd.2⟩
            | ordered c0 => exact ⟨_, hc, h1, h2⟩
          | ordered o =>
            cases c with
            | random c0 =>
              exact ⟨.random { c0 with idxOffset := some o }, List.getElem?_set_self hlt, h1, h2⟩
            | ordered c0 =>
              exact ⟨.ordered { c0 with idxOffset := o }, List.getElem?_set_self hlt, h1, h2⟩
      · refine ⟨c, ?_, h1, h2⟩
        simp only [loadState]
        cases ck'.getLast? with
        | none => exact hc
        | some item =>
          simp only
          cases hc2 : s.loader.chains[c']? with
          | none => exact hc
          | some d =>
            cases item <;> cases d <;> simp [List.getElem?_set_ne hcc, hc]

/-- **C158, partial** (what the user has to take care of): a chain which is only restored from its own
checkpoints delivers the registered shape in every call of every history, however often it is saved
and restored and whatever happens with the other chains.  `H` are the checkpoint variables reserved
for this chain. -/
theorem c158_shape_partial (hs : Reachable R data s) (hR : R.Lawful) {cs mb cid : Nat}
    {reg : LOp} {s' : LSys σ ρ} (hreg : lstep R s reg = (s', .registered cid))
    (hkind : reg = .regOrdered cs mb ∨ ∃ ie sh seed, reg = .regRandom cs mb ie sh seed)
    (hcs : 0 < cs) (H : Nat → Prop) (hfresh : ∀ h, H h → s'.ckpts h = none) (ops : List LOp)
    (hload : ∀ h, .load cid h ∈ ops → H h) (hsave : ∀ c h, .save c h ∈ ops → H h → c = cid) :
    ∀ o ∈ outcomes cid (lrun R s' ops).2, ∃ b, o = .batches b ∧ IsAnswer data cs mb b := by
  have hs' : Reachable R data s' := by
    have := hs.step R [reg]
    simpa [lrun, hreg] using this
  have hi : OwnCkpts cid cs mb H s' := by
    refine ⟨?_, fun h hh ck e => by rw [hfresh h hh] at e; simp at e⟩
    rcases hkind with rfl | ⟨ie, sh, seed, rfl⟩
    · obtain ⟨_, _, hch, _⟩ := registered_ordered hreg
      exact ⟨_, hch, rfl, rfl⟩
    · obtain ⟨_, _, _, _, hch, _⟩ := registered_random hreg
      exact ⟨_, hch, rfl, rfl⟩
  clear hreg hkind hfresh
  induction ops generalizing s' with
  | nil => simp [lrun, outcomes]
  | cons op ops ih =>
    have hs2 : Reachable R data (lstep R s' op).1 := by
      have := hs'.step R [op]
      simpa [lrun] using this
    have hi2 := ownCkpts_step R hR hs' hi op (fun h e => hload h (by simp [e]))
      (fun c h e => hsave c h (by simp [e]))
    have hrest := ih (fun h e => hload h (List.mem_cons_of_mem _ e))
      (fun c h e => hsave c h (List.mem_cons_of_mem _ e)) hs2 hi2
    intro o ho
    simp only [lrun] at ho
    cases op with
    | get c' =>
      simp only [outcomes] at ho
      split at ho
      · rename_i heq
        subst heq
        rcases List.mem_cons.1 ho with rfl | ho
        · obtain ⟨⟨c, hc, h1, h2⟩, _⟩ := hi
          obtain ⟨g1, _, _⟩ := lstep_get R s' c' c hc
          obtain ⟨hd, hwf⟩ := hs'.data
          obtain ⟨_, _, _, h | ⟨_, b, hb, hI⟩⟩ := chainGet_good R hR data s'.loader.obsCount hwf c
            ((hs'.good R hR).chains c (List.mem_of_getElem? hc))
          · omega
          · exact ⟨b, by rw [g1, hd, hb], by rw [← h1, ← h2]; exact hI⟩
        · exact hrest o ho
      · exact hrest o ho
    | _ => exact hrest o ho

/-- The hypotheses can be met: a chain is saved, drawn from, restored and drawn from again, while
another chain with another batch size is checkpointed, too. -/
example :
    let s' := (lstep toyRng (lstep toyRng toySys (.regRandom 1 3 false true none)).1
      (.regRandom 1 2 true true none)).1
    (∀ o ∈ outcomes 1 (lrun toyRng s' [.save 0 7, .get 1, .save 1 3, .get 1, .get 0, .load 0 7,
        .load 1 3, .get 1]).2, ∃ b, o = .batches b ∧ IsAnswer toyData 1 2 b) ∧
    (outcomes 1 (lrun toyRng s' [.save 0 7, .get 1, .save 1 3, .get 1, .get 0, .load 0 7,
        .load 1 3, .get 1]).2).length = 3 := by
  have hr : Reachable toyRng toyData toySys := ⟨toySys.loader, [], by rfl, rfl⟩
  refine ⟨c158_shape_partial toyRng (hr.step toyRng [.regRandom 1 3 false true none]) toyRng_lawful
    (reg := .regRandom 1 2 true true none) (cid := 1) rfl (Or.inr ⟨_, _, _, rfl⟩) (by omega) (fun h => h = 3)
    (fun h _ => rfl) _ ?_ ?_, by decide⟩
  · intro h hm; simpa using hm
  · intro c h hm hh
    subst hh
    simpa using hm

end

end JaxSgmc
