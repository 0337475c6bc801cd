import Verif.Spec.LoaderHeap
import Mathlib.Tactic.Set

/-! Helper lemmas: the loader with arrays in memory simulates the loader with values, as long as no two chains or
checkpoints hold the same array. -/

namespace JaxSgmc

open Spec

variable {σ ρ : Type}

/-- What a step of a chain with buffer `b` may do to the heap. -/
structure HFrame (heap heap' : IdxHeap) (b b' : Option Nat) : Prop where
  len : heap.length ≤ heap'.length
  frame : ∀ a, a < heap.length → b ≠ some a → heap'.getD a [] = heap.getD a []
  own : ∀ r, b' = some r → r < heap'.length ∧ (b = some r ∨ heap.length ≤ r)

theorem HFrame.refl {heap : IdxHeap} {b : Option Nat} (h : ∀ r, b = some r → r < heap.length) :
    HFrame heap heap b b :=
  ⟨Nat.le_refl _, fun _ _ _ => rfl, fun r hr => ⟨h r hr, Or.inl hr⟩⟩

theorem HFrame.trans {h1 h2 h3 : IdxHeap} {b1 b2 b3 : Option Nat} (x : HFrame h1 h2 b1 b2)
    (y : HFrame h2 h3 b2 b3) : HFrame h1 h3 b1 b3 := by
  refine ⟨Nat.le_trans x.len y.len, fun a ha hb => ?_, fun r hr => ?_⟩
  · rw [y.frame a (Nat.lt_of_lt_of_le ha x.len) ?_, x.frame a ha hb]
    intro h
    rcases (x.own a h).2 with h' | h'
    · exact hb h'
    · omega
  · obtain ⟨h, h'⟩ := y.own r hr
    refine ⟨h, ?_⟩
    rcases h' with h' | h'
    · exact (x.own r h').2
    · exact Or.inr (Nat.le_trans x.len h')

/-- The value of a random chain. -/
def absR (heap : IdxHeap) (c : HRandom σ) : RandomChain σ :=
  { rng := c.rng, idxOffset := c.idxOffset, inEpochs := c.inEpochs, shuffle := c.shuffle,
    remainingSamples := c.remainingSamples, draws := c.draws,
    randomIndices := c.buffer.map (fun r => heap.getD r []), mbSize := c.mbSize,
    cacheSize := c.cacheSize }

theorem getD_set_self (heap : IdxHeap) (r : Nat) (v : List Nat) (h : r < heap.length) :
    (heap.set r v).getD r [] = v := by
  simp [List.getD, h]

theorem getD_set_ne (heap : IdxHeap) (r a : Nat) (v : List Nat) (h : r ≠ a) :
    (heap.set r v).getD a [] = heap.getD a [] := by
  simp [List.getD, h]

theorem getD_snoc_lt (heap : IdxHeap) (a : Nat) (v : List Nat) (h : a < heap.length) :
    (heap ++ [v]).getD a [] = heap.getD a [] := by
  simp [List.getD, List.getElem?_append, h]

theorem getD_snoc_self (heap : IdxHeap) (v : List Nat) :
    (heap ++ [v]).getD heap.length [] = v := by
  simp [List.getD]

theorem heapShuffleRefresh_spec (R : Rng σ) (N cd : Nat) (heap : IdxHeap) (c : HRandom σ)
    (hv : ∀ r, c.buffer = some r → r < heap.length) :
    (heapShuffleRefresh R N cd heap c).map (fun x => absR x.2 x.1) = shuffleRefresh R N cd (absR heap c) ∧
    ∀ x, heapShuffleRefresh R N cd heap c = .ok x → HFrame heap x.2 c.buffer x.1.buffer := by
  unfold heapShuffleRefresh shuffleRefresh absR
  cases hb : c.buffer with
  | none =>
    dsimp only [Option.map]
    rw [getD_snoc_self]
    cases hp : npPut (List.replicate (cd * c.mbSize) 0)
      ((List.range N).map fun i => (i + 0 * c.mbSize + c.remainingSamples) % (cd * c.mbSize))
      (R.choicePerm c.rng N).1 with
    | error e => exact ⟨rfl, fun x hx => by cases hx⟩
    | ok buf =>
      constructor
      · dsimp only [Except.map, Option.map]
        rw [getD_set_self _ _ _ (by simp)]
      · intro x hx
        cases hx
        refine ⟨by simp, fun a ha _ => ?_, fun r hr => ?_⟩
        · dsimp only
          rw [getD_set_ne _ _ _ _ (by omega), getD_snoc_lt _ _ _ ha]
        · cases hr
          exact ⟨by simp, Or.inr (Nat.le_refl _)⟩
  | some r =>
    dsimp only [Option.map]
    have hr := hv r hb
    cases hp : npPut (heap.getD r [])
      ((List.range N).map fun i => (i + c.draws * c.mbSize + c.remainingSamples) % (cd * c.mbSize))
      (R.choicePerm c.rng N).1 with
    | error e => exact ⟨rfl, fun x hx => by cases hx⟩
    | ok buf =>
      constructor
      · dsimp only [Except.map, Option.map]
        rw [getD_set_self _ _ _ hr]
      · intro x hx
        cases hx
        refine ⟨by simp, fun a ha hne => ?_, fun r' hr' => ?_⟩
        · dsimp only
          rw [getD_set_ne _ _ _ _ (fun h => hne (by rw [h]))]
        · cases hr'
          exact ⟨by simpa using hr, Or.inl rfl⟩

/-- The refresh of `shuffleInEpochs` by itself. -/
def epochsRefreshV (R : Rng σ) (N cd : Nat) (c : RandomChain σ) : Except PyErr (RandomChain σ) :=
  let new := R.choicePerm c.rng N
  let buf := match c.randomIndices with
    | none => List.replicate (cd * c.mbSize) 0
    | some b => b
  if (buf.take N).length = new.1.length then
    .ok { c with rng := new.2, randomIndices := some (new.1 ++ buf.drop N), draws := 0 }
  else .error .valueError

theorem shuffleInEpochs_eq (R : Rng σ) (N : Nat) (c : RandomChain σ) :
    shuffleInEpochs R N c =
      if c.mbSize = 0 then .error .zeroDivisionError else
      match (if c.draws = ceilDiv N c.mbSize then epochsRefreshV R N (ceilDiv N c.mbSize) c else .ok c) with
      | .error e => .error e
      | .ok c =>
        match c.randomIndices with
        | none => .error .typeError
        | some buf =>
          .ok (((buf.drop (c.mbSize * c.draws)).take (c.mbSize * (c.draws + 1) - c.mbSize * c.draws),
            (List.range (c.mbSize * (c.draws + 1) - c.mbSize * c.draws)).map
              (fun i => decide (c.mbSize * c.draws + i < N))), { c with draws := c.draws + 1 }) := rfl

theorem heapEpochsRefresh_spec (R : Rng σ) (N cd : Nat) (heap : IdxHeap) (c : HRandom σ)
    (hv : ∀ r, c.buffer = some r → r < heap.length) :
    (heapEpochsRefresh R N cd heap c).map (fun x => absR x.2 x.1) =
      epochsRefreshV R N cd (absR heap c) ∧
    ∀ x, heapEpochsRefresh R N cd heap c = .ok x → HFrame heap x.2 c.buffer x.1.buffer := by
  unfold heapEpochsRefresh epochsRefreshV absR
  cases hb : c.buffer with
  | none =>
    dsimp only [Option.map]
    rw [getD_snoc_self]
    by_cases h : ((List.replicate (cd * c.mbSize) 0).take N).length = (R.choicePerm c.rng N).1.length
    · rw [if_pos h, if_pos h]
      constructor
      · dsimp only [Except.map, Option.map]
        rw [getD_set_self _ _ _ (by simp)]
      · intro x hx
        cases hx
        refine ⟨by simp, fun a ha _ => ?_, fun r hr => ?_⟩
        · dsimp only
          rw [getD_set_ne _ _ _ _ (by omega), getD_snoc_lt _ _ _ ha]
        · cases hr
          exact ⟨by simp, Or.inr (Nat.le_refl _)⟩
    · rw [if_neg h, if_neg h]
      exact ⟨rfl, fun x hx => by cases hx⟩
  | some r =>
    dsimp only [Option.map]
    have hr := hv r hb
    by_cases h : ((heap.getD r []).take N).length = (R.choicePerm c.rng N).1.length
    · rw [if_pos h, if_pos h]
      constructor
      · dsimp only [Except.map, Option.map]
        rw [getD_set_self _ _ _ hr]
      · intro x hx
        cases hx
        refine ⟨by simp, fun a ha hne => ?_, fun r' hr' => ?_⟩
        · dsimp only
          rw [getD_set_ne _ _ _ _ (fun h => hne (by rw [h]))]
        · cases hr'
          exact ⟨by simpa using hr, Or.inl rfl⟩
    · rw [if_neg h, if_neg h]
      exact ⟨rfl, fun x hx => by cases hx⟩

theorem heapShuffle_spec (R : Rng σ) (N : Nat) (heap : IdxHeap) (c : HRandom σ)
    (hv : ∀ r, c.buffer = some r → r < heap.length) :
    (heapShuffle R N heap c).map (fun x => (x.1, absR x.2.2 x.2.1)) = shuffleIndices R N (absR heap c) ∧
    ∀ x, heapShuffle R N heap c = .ok x → HFrame heap x.2.2 c.buffer x.2.1.buffer := by
  unfold heapShuffle shuffleIndices
  by_cases hm : c.mbSize = 0
  · rw [if_pos hm, if_pos (show (absR heap c).mbSize = 0 from hm)]
    exact ⟨rfl, fun x hx => by cases hx⟩
  rw [if_neg hm, if_neg (show ¬ (absR heap c).mbSize = 0 from hm)]
  dsimp only
  set cd := N / c.mbSize + 2 with hcd
  have hcd' : N / (absR heap c).mbSize + 2 = cd := rfl
  rw [hcd']
  have key : ∀ (r : Except PyErr (HRandom σ × IdxHeap)) (r' : Except PyErr (RandomChain σ)),
      r.map (fun x => absR x.2 x.1) = r' →
      (∀ x, r = .ok x → HFrame heap x.2 c.buffer x.1.buffer) →
      (r.map (fun x => absR x.2 x.1) = r' ∧
      (∀ x, r = .ok x → HFrame heap x.2 c.buffer x.1.buffer)) := fun _ _ h1 h2 => ⟨h1, h2⟩
  obtain ⟨h1, h2⟩ := key
    (if c.remainingSamples < c.mbSize then heapShuffleRefresh R N cd heap c else .ok (c, heap))
    (if (absR heap c).remainingSamples < (absR heap c).mbSize then shuffleRefresh R N cd (absR heap c)
      else .ok (absR heap c))
    (by
      by_cases hr : c.remainingSamples < c.mbSize
      · rw [if_pos hr, if_pos (show (absR heap c).remainingSamples < (absR heap c).mbSize from hr)]
        exact (heapShuffleRefresh_spec R N cd heap c hv).1
      · rw [if_neg hr, if_neg (show ¬ (absR heap c).remainingSamples < (absR heap c).mbSize from hr)]
        rfl)
    (by
      by_cases hr : c.remainingSamples < c.mbSize
      · rw [if_pos hr]
        exact (heapShuffleRefresh_spec R N cd heap c hv).2
      · rw [if_neg hr]
        intro x hx
        cases hx
        exact HFrame.refl hv)
  rw [← h1]
  cases hq : (if c.remainingSamples < c.mbSize then heapShuffleRefresh R N cd heap c else .ok (c, heap)) with
  | error e => exact ⟨rfl, fun x hx => by cases hx⟩
  | ok y =>
    obtain ⟨c', heap'⟩ := y
    have hf := h2 _ hq
    dsimp only [Except.map]
    cases hb : c'.buffer with
    | none =>
      refine ⟨?_, fun x hx => by cases hx⟩
      simp only [absR, hb, Option.map]
    | some r =>
      simp only [absR, hb, Option.map]
      cases ht : npTake (heap'.getD r [])
        ((List.range c'.mbSize).map fun i => (i + c'.draws * c'.mbSize) % (c'.mbSize * cd)) with
      | error e => exact ⟨rfl, fun x hx => by cases hx⟩
      | ok sel =>
        refine ⟨rfl, fun x hx => ?_⟩
        cases hx
        rw [hb] at hf
        exact hf

theorem heapEpochs_spec (R : Rng σ) (N : Nat) (heap : IdxHeap) (c : HRandom σ)
    (hv : ∀ r, c.buffer = some r → r < heap.length) :
    (heapEpochs R N heap c).map (fun x => (x.1, absR x.2.2 x.2.1)) = shuffleInEpochs R N (absR heap c) ∧
    ∀ x, heapEpochs R N heap c = .ok x → HFrame heap x.2.2 c.buffer x.2.1.buffer := by
  rw [shuffleInEpochs_eq]
  unfold heapEpochs
  by_cases hm : c.mbSize = 0
  · rw [if_pos hm, if_pos (show (absR heap c).mbSize = 0 from hm)]
    exact ⟨rfl, fun x hx => by cases hx⟩
  rw [if_neg hm, if_neg (show ¬ (absR heap c).mbSize = 0 from hm)]
  have key : ∃ r' : Except PyErr (RandomChain σ), r' =
    (if (absR heap c).draws = ceilDiv N (absR heap c).mbSize then
      epochsRefreshV R N (ceilDiv N (absR heap c).mbSize) (absR heap c)
    else .ok (absR heap c)) ∧
    (if c.draws = ceilDiv N c.mbSize then heapEpochsRefresh R N (ceilDiv N c.mbSize) heap c
      else .ok (c, heap)).map (fun x => absR x.2 x.1) = r' ∧
    ∀ x, (if c.draws = ceilDiv N c.mbSize then heapEpochsRefresh R N (ceilDiv N c.mbSize) heap c
      else .ok (c, heap)) = .ok x → HFrame heap x.2 c.buffer x.1.buffer := by
    refine ⟨_, rfl, ?_, ?_⟩
    · by_cases hr : c.draws = ceilDiv N c.mbSize
      · rw [if_pos hr, if_pos (show (absR heap c).draws = ceilDiv N (absR heap c).mbSize from hr)]
        exact (heapEpochsRefresh_spec R N (ceilDiv N c.mbSize) heap c hv).1
      · rw [if_neg hr, if_neg (show ¬ (absR heap c).draws = ceilDiv N (absR heap c).mbSize from hr)]
        rfl
    · by_cases hr : c.draws = ceilDiv N c.mbSize
      · rw [if_pos hr]
        exact (heapEpochsRefresh_spec R N (ceilDiv N c.mbSize) heap c hv).2
      · rw [if_neg hr]
        intro x hx
        cases hx
        exact HFrame.refl hv
  obtain ⟨r', hr', h1, h2⟩ := key
  dsimp only
  rw [← hr', ← h1]
  cases hq : (if c.draws = ceilDiv N c.mbSize then heapEpochsRefresh R N (ceilDiv N c.mbSize) heap c
      else .ok (c, heap)) with
  | error e => exact ⟨rfl, fun x hx => by cases hx⟩
  | ok y =>
    obtain ⟨c', heap'⟩ := y
    have hf := h2 _ hq
    dsimp only [Except.map]
    cases hb : c'.buffer with
    | none =>
      refine ⟨?_, fun x hx => by cases hx⟩
      simp only [absR, hb, Option.map]
    | some r =>
      simp only [absR, hb, Option.map]
      refine ⟨trivial, fun x hx => ?_⟩
      cases hx
      rw [hb] at hf
      exact hf

/-- The buffer of a chain. -/
def HChain.buf : HChain σ → Option Nat
  | .random c => c.buffer
  | .ordered _ => none

theorem chainState_random (heap : IdxHeap) (c : HRandom σ) :
    chainState heap (.random c) = .random (absR heap c) := rfl

theorem heapIndexStep_spec (R : Rng σ) (N : Nat) (heap : IdxHeap) (c : HChain σ)
    (hv : ∀ r, c.buf = some r → r < heap.length) :
    (heapIndexStep R N heap c).map (fun x => (x.1, chainState x.2.2 x.2.1)) =
      indexStep R N (chainState heap c) ∧
    ∀ x, heapIndexStep R N heap c = .ok x → HFrame heap x.2.2 c.buf x.2.1.buf := by
  cases c with
  | ordered c =>
    refine ⟨rfl, fun x hx => ?_⟩
    simp only [heapIndexStep] at hx
    cases hx
    exact HFrame.refl hv
  | random c =>
    rw [chainState_random]
    unfold heapIndexStep indexStep
    dsimp only
    have e1 : (absR heap c).inEpochs = c.inEpochs := rfl
    have e2 : (absR heap c).shuffle = c.shuffle := rfl
    rw [e1, e2]
    by_cases h1 : c.inEpochs = true
    · rw [if_pos h1, if_pos h1]
      obtain ⟨a, b⟩ := heapEpochs_spec R N heap c hv
      rw [← a]
      cases hq : heapEpochs R N heap c with
      | error e => exact ⟨rfl, fun x hx => by cases hx⟩
      | ok y =>
        refine ⟨rfl, fun x hx => ?_⟩
        cases hx
        exact b y hq
    · rw [if_neg h1, if_neg h1]
      by_cases h2 : c.shuffle = true
      · rw [if_pos h2, if_pos h2]
        obtain ⟨a, b⟩ := heapShuffle_spec R N heap c hv
        rw [← a]
        cases hq : heapShuffle R N heap c with
        | error e => exact ⟨rfl, fun x hx => by cases hx⟩
        | ok y =>
          refine ⟨rfl, fun x hx => ?_⟩
          cases hx
          exact b y hq
      · rw [if_neg h2, if_neg h2]
        refine ⟨rfl, fun x hx => ?_⟩
        cases hx
        exact HFrame.refl hv

theorem heapIndexSteps_spec (R : Rng σ) (N k : Nat) (heap : IdxHeap) (c : HChain σ)
    (hv : ∀ r, c.buf = some r → r < heap.length) :
    (heapIndexSteps R N k heap c).map (fun x => (x.1, chainState x.2.2 x.2.1)) =
      indexSteps R N k (chainState heap c) ∧
    ∀ x, heapIndexSteps R N k heap c = .ok x → HFrame heap x.2.2 c.buf x.2.1.buf := by
  induction k generalizing heap c with
  | zero =>
    refine ⟨rfl, fun x hx => ?_⟩
    cases hx
    exact HFrame.refl hv
  | succ k ih =>
    unfold heapIndexSteps indexSteps
    obtain ⟨a, b⟩ := heapIndexStep_spec R N heap c hv
    rw [← a]
    cases hq : heapIndexStep R N heap c with
    | error e => exact ⟨rfl, fun x hx => by cases hx⟩
    | ok y =>
      obtain ⟨o, c', heap'⟩ := y
      have hf := b _ hq
      obtain ⟨a', b'⟩ := ih heap' c' (fun r hr => (hf.own r hr).1)
      dsimp only [Except.map]
      rw [← a']
      cases hq' : heapIndexSteps R N k heap' c' with
      | error e => exact ⟨rfl, fun x hx => by cases hx⟩
      | ok z =>
        refine ⟨rfl, fun x hx => ?_⟩
        cases hx
        exact hf.trans (b' z hq')

/-! ### The whole system -/

/-- The value of the item of a checkpoint. -/
def absItem (heap : IdxHeap) : HItem σ → CkptItem σ
  | .random c => .random (absR heap c)
  | .ordered o => .ordered o

/-- The loader with values. -/
def absSys (s : HSys σ ρ) : LSys σ ρ :=
  { loader := { data := s.data, obsCount := s.obsCount, chains := s.chains.map (chainState s.heap) }
    ckpts := fun h => (s.ckpts h).map fun o => (o.map (absItem s.heap)).toList }

/-- The buffer of the item of a checkpoint. -/
def HItem.buf : HItem σ → Option Nat
  | .random c => c.buffer
  | .ordered _ => none

/-- The places which may hold an array: chains and variables. -/
inductive HLoc
  | chain (i : Nat)
  | handle (h : Nat)

/-- The array held at a place. -/
def bufAt (s : HSys σ ρ) : HLoc → Option Nat
  | .chain i => (s.chains[i]?).bind HChain.buf
  | .handle h => (s.ckpts h).bind fun o => o.bind HItem.buf

/-- Every array is in memory and held at one place only. -/
def HInv (s : HSys σ ρ) : Prop :=
  ∀ l r, bufAt s l = some r → r < s.heap.length ∧ ∀ l', bufAt s l' = some r → l' = l

theorem chainState_congr (heap heap' : IdxHeap) (c : HChain σ)
    (h : ∀ r, c.buf = some r → heap'.getD r [] = heap.getD r []) :
    chainState heap' c = chainState heap c := by
  cases c with
  | ordered c => rfl
  | random c =>
    unfold chainState
    dsimp only
    cases hb : c.buffer with
    | none => rfl
    | some r =>
      dsimp only [Option.map]
      rw [h r hb]

theorem absItem_congr (heap heap' : IdxHeap) (c : HItem σ)
    (h : ∀ r, c.buf = some r → heap'.getD r [] = heap.getD r []) :
    absItem heap' c = absItem heap c := by
  cases c with
  | ordered c => rfl
  | random c =>
    have := chainState_congr heap heap' (.random c) h
    rw [chainState_random, chainState_random] at this
    injection this with this
    exact congrArg CkptItem.random this

theorem ckpts_congr (s : HSys σ ρ) (heap' : IdxHeap) (h : Nat)
    (hf : ∀ r, bufAt s (.handle h) = some r → heap'.getD r [] = s.heap.getD r []) :
    ((s.ckpts h).map fun o => (o.map (absItem heap')).toList) =
      ((s.ckpts h).map fun o => (o.map (absItem s.heap)).toList) := by
  unfold bufAt at hf
  cases hc : s.ckpts h with
  | none => rfl
  | some o =>
    cases o with
    | none => rfl
    | some item =>
      dsimp only [Option.map]
      rw [absItem_congr]
      intro r hr
      apply hf
      simp only [hc, Option.bind, hr]

/-- Appending to the heap changes nothing for valid systems. -/
theorem absSys_snoc (s : HSys σ ρ) (hi : HInv s) (v : List Nat) :
    absSys { s with heap := s.heap ++ [v] } = absSys s := by
  unfold absSys
  dsimp only
  congr 1
  · congr 1
    apply List.map_congr_left
    intro c hc
    obtain ⟨i, hi', rfl⟩ := List.mem_iff_getElem.1 hc
    apply chainState_congr
    intro r hr
    refine getD_snoc_lt _ _ _ (hi (.chain i) r ?_).1
    simp [bufAt, hi', hr]
  · funext h
    apply ckpts_congr s
    intro r hr
    exact getD_snoc_lt _ _ _ (hi (.handle h) r hr).1

theorem HInv.pivot {s s' : HSys σ ρ} (p : HLoc) (hi : HInv s) (hlen : s.heap.length ≤ s'.heap.length)
    (ho : ∀ l, l ≠ p → bufAt s' l = bufAt s l ∨ bufAt s' l = none)
    (hp : ∀ r, bufAt s' p = some r → r < s'.heap.length ∧ (bufAt s p = some r ∨ s.heap.length ≤ r ∨
      ∃ q, q ≠ p ∧ bufAt s q = some r ∧ bufAt s' q = none)) : HInv s' := by
  have hA : ∀ l r, l ≠ p → bufAt s' l = some r → bufAt s l = some r := by
    intro l r hl h
    rcases ho l hl with h' | h'
    · rw [← h', h]
    · rw [h'] at h; cases h
  have hU : ∀ l r, l ≠ p → bufAt s' l = some r → bufAt s' p = some r → False := by
    intro l r hl h h'
    have h1 := hA l r hl h
    rcases (hp r h').2 with h2 | h2 | ⟨q, _, h3, h4⟩
    · exact hl ((hi p r h2).2 l h1)
    · exact absurd (hi l r h1).1 (by omega)
    · rw [← (hi q r h3).2 l h1] at h4
      rw [h4] at h; cases h
  intro l r h
  by_cases hl : l = p
  · subst hl
    refine ⟨(hp r h).1, fun l' h' => ?_⟩
    by_cases hl' : l' = l
    · exact hl'
    · exact (hU l' r hl' h' h).elim
  · refine ⟨Nat.lt_of_lt_of_le (hi l r (hA l r hl h)).1 hlen, fun l' h' => ?_⟩
    by_cases hl' : l' = p
    · subst hl'
      exact (hU l r hl h h').elim
    · exact (hi l r (hA l r hl h)).2 l' (hA l' r hl' h')

theorem map_set_congr (heap heap' : IdxHeap) (chains : List (HChain σ)) (cid : Nat) (c' : HChain σ)
    (h : ∀ i c, i ≠ cid → chains[i]? = some c → chainState heap' c = chainState heap c) :
    (chains.set cid c').map (chainState heap') =
      (chains.map (chainState heap)).set cid (chainState heap' c') := by
  apply List.ext_getElem?
  intro i
  by_cases hi : cid = i
  · subst hi
    by_cases hl : cid < chains.length
    · simp [List.getElem?_map, hl]
    · simp [List.getElem?_map, hl]
  · simp only [List.getElem?_map, List.getElem?_set, if_neg hi]
    cases hc : chains[i]? with
    | none => rfl
    | some c => exact congrArg some (h i c (fun h => hi h.symm) hc)

theorem bufAt_set (s : HSys σ ρ) (heap' : IdxHeap) (cid : Nat) (c c' : HChain σ) (hc : s.chains[cid]? = some c)
    (l : HLoc) (hl : l ≠ .chain cid) :
    bufAt { s with chains := s.chains.set cid c', heap := heap' } l = bufAt s l := by
  cases l with
  | handle h => rfl
  | chain i =>
    have : cid ≠ i := fun h => hl (by rw [h])
    simp only [bufAt, List.getElem?_set, if_neg this]

theorem getElem?_lt {α : Type} {l : List α} {i : Nat} {a : α} (h : l[i]? = some a) : i < l.length := by
  rcases Nat.lt_or_ge i l.length with h' | h'
  · exact h'
  · rw [List.getElem?_eq_none h'] at h; cases h

theorem bufAt_set_self (s : HSys σ ρ) (heap' : IdxHeap) (cid : Nat) (c c' : HChain σ)
    (hc : s.chains[cid]? = some c) :
    bufAt { s with chains := s.chains.set cid c', heap := heap' } (.chain cid) = c'.buf := by
  have := getElem?_lt hc
  simp [bufAt, this]

theorem heapGet_sim (R : Rng σ) (s : HSys σ ρ) (hi : HInv s) (cid : Nat) :
    HInv (heapGet R s cid).1 ∧ absSys (heapGet R s cid).1 = (lstep R (absSys s) (.get cid)).1 ∧
      (heapGet R s cid).2 = (lstep R (absSys s) (.get cid)).2 := by
  unfold heapGet lstep getBatches
  have hce : (absSys s).loader.chains[cid]? = (s.chains[cid]?).map (chainState s.heap) := by
    simp [absSys]
  dsimp only
  rw [hce]
  cases hc : s.chains[cid]? with
  | none => exact ⟨hi, rfl, rfl⟩
  | some c =>
    dsimp only [Option.map]
    unfold getIndices
    have hcs : (chainState s.heap c).cacheSize = c.cacheSize := by cases c <;> rfl
    rw [hcs]
    by_cases h0 : c.cacheSize = 0
    · rw [if_pos h0, if_pos h0]
      exact ⟨hi, rfl, rfl⟩
    rw [if_neg h0, if_neg h0]
    have hb : bufAt s (.chain cid) = c.buf := by simp [bufAt, hc]
    obtain ⟨a, b⟩ := heapIndexSteps_spec R s.obsCount c.cacheSize s.heap c
      (fun r hr => (hi (.chain cid) r (by rw [hb, hr])).1)
    have hN : (absSys s).loader.obsCount = s.obsCount := rfl
    rw [hN, ← a]
    cases hq : heapIndexSteps R s.obsCount c.cacheSize s.heap c with
    | error e => exact ⟨hi, rfl, rfl⟩
    | ok y =>
      obtain ⟨sel, c', heap'⟩ := y
      have hf := b _ hq
      dsimp only at hf
      dsimp only [Except.map]
      have habs : absSys { s with chains := s.chains.set cid c', heap := heap' } =
          { (absSys s) with loader := { (absSys s).loader with
              chains := (absSys s).loader.chains.set cid (chainState heap' c') } } := by
        unfold absSys
        dsimp only
        congr 1
        · congr 1
          apply map_set_congr
          intro i ci hne hci
          apply chainState_congr
          intro r hr
          have hbi : bufAt s (.chain i) = some r := by simp [bufAt, hci, hr]
          apply hf.frame r (hi _ r hbi).1
          intro hcr
          have := (hi (.chain i) r hbi).2 (.chain cid) (by rw [hb, hcr])
          injection this with this
          exact hne this.symm
        · funext h
          apply ckpts_congr s
          intro r hr
          apply hf.frame r (hi _ r hr).1
          intro hcr
          have := (hi (.handle h) r hr).2 (.chain cid) (by rw [hb, hcr])
          cases this
      refine ⟨?_, ?_, ?_⟩
      · refine HInv.pivot (.chain cid) hi hf.len (fun l hl => Or.inl (bufAt_set s heap' cid c c' hc l hl)) ?_
        intro r hr
        rw [bufAt_set_self s heap' cid c c' hc] at hr
        obtain ⟨h1, h2⟩ := hf.own r hr
        rw [hb]
        exact ⟨h1, h2.elim Or.inl (fun h => Or.inr (Or.inl h))⟩
      · rw [habs]
        have : (absSys s).loader.data = s.data := rfl
        rw [this]
        cases sliceAll (sel.map (·.1)) s.data <;> rfl
      · have : (absSys s).loader.data = s.data := rfl
        rw [this]
        cases sliceAll (sel.map (·.1)) s.data <;> rfl

theorem append_sim (s : HSys σ ρ) (hi : HInv s) (c : HChain σ) (hc : c.buf = none) :
    HInv { s with chains := s.chains ++ [c] } ∧
      absSys { s with chains := s.chains ++ [c] } =
        { (absSys s) with loader := { (absSys s).loader with
          chains := (absSys s).loader.chains ++ [chainState s.heap c] } } := by
  constructor
  · have key : ∀ l, bufAt { s with chains := s.chains ++ [c] } l = bufAt s l := by
      intro l
      cases l with
      | handle h => rfl
      | chain i =>
        simp only [bufAt, List.getElem?_append]
        split
        · rfl
        · rename_i h
          rw [List.getElem?_eq_none (l := s.chains) (by omega)]
          rcases Nat.eq_zero_or_pos (i - s.chains.length) with h' | h'
          · rw [h']; simp [hc]
          · rw [List.getElem?_eq_none (by simp only [List.length_singleton]; omega)]
    refine HInv.pivot (.handle 0) hi (Nat.le_refl _) (fun l _ => Or.inl (key l)) ?_
    intro r hr
    rw [key] at hr
    exact ⟨(hi _ r hr).1, Or.inl hr⟩
  · simp [absSys]

theorem bufAt_ckpt (s : HSys σ ρ) (heap' : IdxHeap) (h : Nat) (ck : Option (HItem σ)) (l : HLoc)
    (hl : l ≠ .handle h) : bufAt { s with heap := heap', ckpts := setHCkpt s.ckpts h ck } l = bufAt s l := by
  cases l with
  | chain i => rfl
  | handle k =>
    have : k ≠ h := fun e => hl (by rw [e])
    simp only [bufAt, setHCkpt, if_neg this]

theorem absItem_ckpts (s : HSys σ ρ) (h : Nat) (ck : Option (HItem σ)) :
    (absSys { s with ckpts := setHCkpt s.ckpts h ck }) =
      { (absSys s) with ckpts := setCkpt (absSys s).ckpts h ((ck.map (absItem s.heap)).toList) } := by
  unfold absSys setCkpt setHCkpt
  dsimp only
  congr 1
  funext k
  by_cases hk : k = h
  · rw [if_pos hk, if_pos hk]; rfl
  · rw [if_neg hk, if_neg hk]

/-- Storing a deep copy of an item which is held somewhere. -/
theorem deep_sim (s : HSys σ ρ) (hi : HInv s) (item : HItem σ) (h : Nat)
    (hv : ∀ r, item.buf = some r → r < s.heap.length) :
    HInv { s with heap := (deepItem s.heap item).2, ckpts := setHCkpt s.ckpts h (some (deepItem s.heap item).1) } ∧
      absSys { s with heap := (deepItem s.heap item).2,
                      ckpts := setHCkpt s.ckpts h (some (deepItem s.heap item).1) } =
        { (absSys s) with ckpts := setCkpt (absSys s).ckpts h [absItem s.heap item] } := by
  have easy : item.buf = none → deepItem s.heap item = (item, s.heap) := by
    intro hb
    cases item with
    | ordered o => rfl
    | random c =>
      have hb : c.buffer = none := hb
      simp only [deepItem, hb]
  cases hb : item.buf with
  | none =>
    rw [easy hb]
    refine ⟨?_, absItem_ckpts s h (some item)⟩
    refine HInv.pivot (.handle h) hi (Nat.le_refl _)
      (fun l hl => Or.inl (bufAt_ckpt s s.heap h (some item) l hl)) ?_
    intro r hr
    simp [bufAt, setHCkpt, hb] at hr
  | some r =>
    cases item with
    | ordered o => cases hb
    | random c =>
      have hb : c.buffer = some r := hb
      have hr := hv r hb
      simp only [deepItem, hb]
      constructor
      · refine HInv.pivot (.handle h) hi (by simp) (fun l hl => Or.inl (bufAt_ckpt s _ h _ l hl)) ?_
        intro r' hr'
        have hr' : some s.heap.length = some r' := by
          simpa [bufAt, setHCkpt, HItem.buf] using hr'
        injection hr' with hr'
        subst hr'
        exact ⟨by simp, Or.inr (Or.inl (Nat.le_refl _))⟩
      · have e := absItem_ckpts { s with heap := s.heap ++ [s.heap.getD r []] } h
          (some (.random { c with buffer := some s.heap.length }))
        dsimp only at e
        rw [e, absSys_snoc s hi]
        simp only [Option.map, Option.toList, absItem, absR, getD_snoc_self, hb]

theorem heapLoad_sim (s : HSys σ ρ) (hi : HInv s) (cid h : Nat) (ck : Option (HItem σ))
    (hck : s.ckpts h = some ck) :
    HInv { s with chains := (heapLoad s.chains cid ck).2, ckpts := setHCkpt s.ckpts h none } ∧
    absSys { s with chains := (heapLoad s.chains cid ck).2, ckpts := setHCkpt s.ckpts h none } =
      { loader := (loadState (absSys s).loader cid ((ck.map (absItem s.heap)).toList)).2.1
        ckpts := setCkpt (absSys s).ckpts h
          (loadState (absSys s).loader cid ((ck.map (absItem s.heap)).toList)).2.2 } ∧
    (heapLoad s.chains cid ck).1 = (loadState (absSys s).loader cid ((ck.map (absItem s.heap)).toList)).1 := by
  have hce : (absSys s).loader.chains[cid]? = (s.chains[cid]?).map (chainState s.heap) := by
    simp [absSys]
  -- clearing the variable
  have hclear : HInv { s with ckpts := setHCkpt s.ckpts h none } := by
    refine HInv.pivot (.handle h) hi (Nat.le_refl _)
      (fun l hl => Or.inl (bufAt_ckpt s s.heap h none l hl)) ?_
    intro r hr
    simp [bufAt, setHCkpt] at hr
  have habs := absItem_ckpts s h none
  have hset : ∀ (c c' : HChain σ), s.chains[cid]? = some c →
      absSys { s with chains := s.chains.set cid c', ckpts := setHCkpt s.ckpts h none } =
      { loader := { (absSys s).loader with
          chains := (absSys s).loader.chains.set cid (chainState s.heap c') }
        ckpts := setCkpt (absSys s).ckpts h [] } := by
    intro c c' _
    have h1 := map_set_congr s.heap s.heap s.chains cid c' (fun _ _ _ _ => rfl)
    have h2 := congrArg LSys.ckpts habs
    unfold absSys at h2 ⊢
    dsimp only at h2 ⊢
    rw [h1, h2]
    rfl
  cases ck with
  | none => exact ⟨hclear, habs, rfl⟩
  | some item =>
    unfold heapLoad loadState
    dsimp only [Option.map, Option.toList, List.getLast?]
    simp only [List.getLast_singleton, List.dropLast_singleton]
    rw [hce]
    cases hc : s.chains[cid]? with
    | none => exact ⟨hclear, habs, rfl⟩
    | some c =>
      have hb : bufAt s (.chain cid) = c.buf := by simp [bufAt, hc]
      cases item with
      | random d =>
        cases c with
        | ordered c => exact ⟨hclear, habs, rfl⟩
        | random c =>
          refine ⟨?_, hset _ (.random d) hc, rfl⟩
          refine HInv.pivot (.chain cid) hi (Nat.le_refl _) (fun l hl => ?_) ?_
          · by_cases hl' : l = .handle h
            · right
              subst hl'
              simp [bufAt, setHCkpt]
            · left
              have e1 := bufAt_ckpt { s with chains := s.chains.set cid (.random d) } s.heap h none l hl'
              have e2 := bufAt_set s s.heap cid _ (.random d) hc l hl
              exact e1.trans e2
          · intro r hr
            have hr : d.buffer = some r := by
              have e1 := bufAt_ckpt { s with chains := s.chains.set cid (.random d) } s.heap h none (.chain cid)
                (fun h => by cases h)
              have e2 := bufAt_set_self s s.heap cid _ (.random d) hc
              dsimp only at e1 e2
              rw [e1, e2] at hr
              exact hr
            have hh : bufAt s (.handle h) = some r := by simp [bufAt, hck, HItem.buf, hr]
            refine ⟨(hi _ r hh).1, Or.inr (Or.inr ⟨.handle h, (fun h => by cases h), hh, ?_⟩)⟩
            simp [bufAt, setHCkpt]
      | ordered o =>
        have hkeep : ∀ c' : HChain σ, c'.buf = c.buf →
            HInv { s with chains := s.chains.set cid c', ckpts := setHCkpt s.ckpts h none } := by
          intro c' hc'
          refine HInv.pivot (.chain cid) hi (Nat.le_refl _) (fun l hl => ?_) ?_
          · by_cases hl' : l = .handle h
            · right
              subst hl'
              simp [bufAt, setHCkpt]
            · left
              have e1 := bufAt_ckpt { s with chains := s.chains.set cid c' } s.heap h none l hl'
              have e2 := bufAt_set s s.heap cid _ c' hc l hl
              exact e1.trans e2
          · intro r hr
            have hr : c'.buf = some r := by
              have e1 := bufAt_ckpt { s with chains := s.chains.set cid c' } s.heap h none (.chain cid)
                (fun h => by cases h)
              have e2 := bufAt_set_self s s.heap cid _ c' hc
              dsimp only at e1 e2
              rw [e1, e2] at hr
              exact hr
            rw [hc', ← hb] at hr
            exact ⟨(hi _ r hr).1, Or.inl hr⟩
        cases c with
        | ordered c => exact ⟨hkeep (.ordered { c with idxOffset := o }) rfl, hset _ _ hc, rfl⟩
        | random c => exact ⟨hkeep (.random { c with idxOffset := some o }) rfl, hset _ _ hc, rfl⟩

/-- **Simulation**: without shallow copies the arrays in memory cannot be told from values. -/
theorem hstep_sim (R : Rng σ) (s : HSys σ ρ) (hi : HInv s) (op : HOp) (hop : isShallow op = false) :
    HInv (hstep R s op).1 ∧ absSys (hstep R s op).1 = (snapStep R (absSys s) op).1 ∧
      (hstep R s op).2 = (snapStep R (absSys s) op).2 := by
  cases op with
  | shallow h h' => cases hop
  | deep h h' =>
    unfold hstep snapStep
    have hce : (absSys s).ckpts h = (s.ckpts h).map fun o => (o.map (absItem s.heap)).toList := rfl
    dsimp only
    rw [hce]
    cases hk : s.ckpts h with
    | none => exact ⟨hi, rfl, rfl⟩
    | some ck =>
      cases ck with
      | none =>
        refine ⟨?_, absItem_ckpts s h' none, rfl⟩
        refine HInv.pivot (.handle h') hi (Nat.le_refl _)
          (fun l hl => Or.inl (bufAt_ckpt s s.heap h' none l hl)) ?_
        intro r hr
        simp [bufAt, setHCkpt] at hr
      | some item =>
        obtain ⟨a, b⟩ := deep_sim s hi item h'
          (fun r hr => (hi (.handle h) r (by simp [bufAt, hk, hr])).1)
        exact ⟨a, b, rfl⟩
  | base op =>
    cases op with
    | regRandom cs mb ie sh seed =>
      unfold hstep snapStep heapRegister lstep registerRandom
      have hN : (absSys s).loader.obsCount = s.obsCount := rfl
      have hL : (absSys s).loader.chains.length = s.chains.length := by simp [absSys]
      dsimp only
      rw [hN, hL]
      by_cases h1 : mb > s.obsCount
      · simp only [if_pos h1]; exact ⟨hi, trivial, trivial⟩
      simp only [if_neg h1]
      by_cases h2 : (!sh && ie) = true
      · simp only [if_pos h2]; exact ⟨hi, trivial, trivial⟩
      simp only [if_neg h2]
      by_cases h3 : mb = 0
      · simp only [if_pos h3]; exact ⟨hi, trivial, trivial⟩
      simp only [if_neg h3]
      obtain ⟨a, b⟩ := append_sim s hi (.random
        { rng := R.seed (seed.getD s.chains.length), idxOffset := none, inEpochs := ie,
          shuffle := sh, remainingSamples := 0, draws := ceilDiv s.obsCount mb,
          buffer := none, mbSize := mb, cacheSize := cs }) rfl
      exact ⟨a, b, trivial⟩
    | regOrdered cs mb =>
      unfold hstep snapStep lstep registerOrdered
      have hN : (absSys s).loader.obsCount = s.obsCount := rfl
      have hL : (absSys s).loader.chains.length = s.chains.length := by simp [absSys]
      dsimp only
      rw [hN, hL]
      by_cases h1 : mb ≤ s.obsCount
      · simp only [if_pos h1]
        obtain ⟨a, b⟩ := append_sim s hi (.ordered { idxOffset := 0, mbSize := mb, cacheSize := cs }) rfl
        exact ⟨a, b, trivial⟩
      · simp only [if_neg h1]
        exact ⟨hi, trivial, trivial⟩
    | get cid => exact heapGet_sim R s hi cid
    | save cid h =>
      unfold hstep snapStep lstep heapSave saveState
      have hce : (absSys s).loader.chains[cid]? = (s.chains[cid]?).map (chainState s.heap) := by
        simp [absSys]
      dsimp only
      rw [hce]
      cases hc : s.chains[cid]? with
      | none => exact ⟨hi, rfl, rfl⟩
      | some c =>
        cases c with
        | ordered c =>
          obtain ⟨a, b⟩ := deep_sim s hi (.ordered c.idxOffset) h (fun r hr => by cases hr)
          exact ⟨a, b, rfl⟩
        | random c =>
          obtain ⟨a, b⟩ := deep_sim s hi (.random c) h
            (fun r hr => (hi (.chain cid) r (by
              have hr : (HChain.random c).buf = some r := hr
              simp [bufAt, hc, hr])).1)
          exact ⟨a, b, rfl⟩
    | load cid h =>
      unfold hstep snapStep lstep
      have hce : (absSys s).ckpts h = (s.ckpts h).map fun o => (o.map (absItem s.heap)).toList := rfl
      dsimp only
      rw [hce]
      cases hk : s.ckpts h with
      | none => exact ⟨hi, rfl, rfl⟩
      | some ck =>
        obtain ⟨a, b, c⟩ := heapLoad_sim s hi cid h ck hk
        refine ⟨a, b, ?_⟩
        have e : ∀ x y : Except PyErr Unit, x = y →
            (match x with | .ok () => LOut.loaded | .error e => .raised e : LOut ρ) =
            (match y with | .ok () => LOut.loaded | .error e => .raised e : LOut ρ) := by
          intro x y h; rw [h]
        exact e _ _ c

theorem hrun_sim (R : Rng σ) (ops : List HOp) (s : HSys σ ρ) (hi : HInv s)
    (hop : ∀ op ∈ ops, isShallow op = false) :
    HInv (hrun R s ops).1 ∧ absSys (hrun R s ops).1 = (snapRun R (absSys s) ops).1 ∧
      (hrun R s ops).2 = (snapRun R (absSys s) ops).2 := by
  induction ops generalizing s with
  | nil => exact ⟨hi, rfl, rfl⟩
  | cons op ops ih =>
    obtain ⟨a, b, c⟩ := hstep_sim R s hi op (hop op (List.mem_cons_self))
    obtain ⟨a', b', c'⟩ := ih (hstep R s op).1 a (fun o ho => hop o (List.mem_cons_of_mem _ ho))
    unfold hrun snapRun
    dsimp only
    rw [← b, ← c, ← b', ← c']
    exact ⟨a', rfl, rfl⟩

end JaxSgmc
