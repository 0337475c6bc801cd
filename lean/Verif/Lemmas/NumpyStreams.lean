import Verif.Lemmas.NumpyBasic
import Mathlib.Tactic.Ring

/-! Helper lemmas: closed forms of the index streams of the three ordered/shuffled chain kinds. -/

namespace JaxSgmc

open Spec

/-! ### valid -/

theorem valid_map {α β : Type} (f : α → β) (xs : List α) (ms : List Bool) :
    valid (xs.map f) ms = (valid xs ms).map f := by
  induction xs generalizing ms with
  | nil => simp [valid]
  | cons x xs ih =>
    cases ms with
    | nil => simp [valid]
    | cons m ms => cases m <;> simp [valid, ih]

theorem valid_append {α : Type} (xs ys : List α) (ms ns : List Bool) (h : xs.length = ms.length) :
    valid (xs ++ ys) (ms ++ ns) = valid xs ms ++ valid ys ns := by
  induction xs generalizing ms with
  | nil => cases ms with
    | nil => simp [valid]
    | cons => simp at h
  | cons x xs ih =>
    cases ms with
    | nil => simp at h
    | cons m ms => cases m <;> simp [valid, ih ms (by simpa using h)]

theorem valid_replicate_true {α : Type} (xs : List α) :
    valid xs (List.replicate xs.length true) = xs := by
  induction xs with
  | nil => rfl
  | cons x xs ih => simp [List.replicate_succ, valid, ih]

theorem valid_replicate_false {α : Type} (xs : List α) (n : Nat) :
    valid xs (List.replicate n false) = [] := by
  induction xs generalizing n with
  | nil => cases n <;> simp [valid]
  | cons x xs ih => cases n <;> simp [List.replicate_succ, valid, ih]

theorem mask_range_eq (m a N : Nat) :
    (List.range m).map (fun i => decide (i + a < N)) =
      List.replicate (min m (N - a)) true ++ List.replicate (m - (N - a)) false := by
  apply List.ext_getElem
  · simp; omega
  · intro i h1 h2
    simp only [List.getElem_map, List.getElem_range]
    rw [List.getElem_append]
    split
    · rename_i h; simp at h; simp; omega
    · rename_i h; simp at h h1; simp; omega

theorem valid_prefix_mask {α : Type} (xs : List α) (m a N : Nat) (h : xs.length = m) :
    valid xs ((List.range m).map (fun i => decide (i + a < N))) = xs.take (N - a) := by
  rw [mask_range_eq]
  conv_lhs => rw [← List.take_append_drop (N - a) xs]
  rw [valid_append _ _ _ _ (by simp [h]; omega), valid_replicate_false, List.append_nil]
  have : min m (N - a) = (xs.take (N - a)).length := by simp [h]; omega
  rw [this, valid_replicate_true]

/-! ### ceilDiv -/

theorem ceilDiv_le {N m : Nat} (hm : 0 < m) : N ≤ ceilDiv N m * m := by
  unfold ceilDiv
  have h := Nat.div_add_mod (N + m - 1) m
  have h2 := Nat.mod_lt (N + m - 1) hm
  have h3 := Nat.mul_comm m ((N + m - 1) / m)
  omega

theorem ceilDiv_pred {N m j : Nat} (hm : 0 < m) (hj : j < ceilDiv N m) : j * m < N := by
  unfold ceilDiv at hj
  have h1 : (j + 1) * m ≤ N + m - 1 := (Nat.le_div_iff_mul_le hm).1 hj
  rw [Nat.add_mul] at h1
  omega

theorem ceilDiv_pos {N m : Nat} (hm : 0 < m) (hN : 0 < N) : 0 < ceilDiv N m := by
  unfold ceilDiv
  exact Nat.div_pos (by omega) hm

theorem lt_ceilDiv_of {N m j : Nat} (hm : 0 < m) (hj : j * m < N) : j < ceilDiv N m := by
  have := ceilDiv_le (N := N) hm
  exact Nat.lt_of_mul_lt_mul_right (lt_of_lt_of_le hj this)

/-! ### ordered chains -/

/-- Batch `j` of a pass over the dataset. -/
def passBatch (N mb j : Nat) : List Nat × List Bool :=
  ((List.range mb).map (fun i => (i + j * mb) % N),
   (List.range mb).map (fun i => decide (i + j * mb < N)))

theorem ordered_step {σ : Type} (R : Rng σ) (N mb cs j : Nat) (hmb : 0 < mb)
    (hj : j < ceilDiv N mb) :
    indexStep R N (.ordered ⟨j * mb, mb, cs⟩) =
      .ok (passBatch N mb j, .ordered ⟨((j + 1) % ceilDiv N mb) * mb, mb, cs⟩) := by
  simp only [indexStep, orderedIndices, passBatch]
  have hle := ceilDiv_le (N := N) hmb
  by_cases hlast : j + 1 = ceilDiv N mb
  · have h1 : j * mb + mb ≥ N := by rw [← hlast, Nat.add_mul] at hle; omega
    simp [h1, hlast, List.map_map, Function.comp_def]
  · have h2 : j + 1 < ceilDiv N mb := by omega
    have h3 := ceilDiv_pred hmb h2
    rw [Nat.add_mul] at h3
    have h1 : ¬ (j * mb + mb ≥ N) := by omega
    rw [if_neg h1, Nat.mod_eq_of_lt h2]
    simp [List.map_map, Function.comp_def, Nat.add_mul]

theorem ordered_steps {σ : Type} (R : Rng σ) (N mb cs : Nat) (hmb : 0 < mb) (n j : Nat)
    (hj : j < ceilDiv N mb) :
    indexSteps R N n (.ordered ⟨j * mb, mb, cs⟩) =
      .ok ((List.range n).map (fun k => passBatch N mb ((j + k) % ceilDiv N mb)),
        .ordered ⟨((j + n) % ceilDiv N mb) * mb, mb, cs⟩) := by
  induction n generalizing j with
  | zero => simp [indexSteps, Nat.mod_eq_of_lt hj]
  | succ n ih =>
    have hpos : 0 < ceilDiv N mb := by omega
    simp only [indexSteps, ordered_step R N mb cs j hmb hj]
    rw [ih _ (Nat.mod_lt _ hpos)]
    simp only [List.range_succ_eq_map, List.map_cons, List.map_map, Nat.add_zero,
      Nat.mod_eq_of_lt hj, Except.ok.injEq, Prod.mk.injEq, List.cons.injEq, true_and]
    constructor
    · apply List.map_congr_left
      intro k _
      simp only [Function.comp, Nat.mod_add_mod]
      congr 2; omega
    · rw [Nat.mod_add_mod, Nat.add_assoc, Nat.add_comm 1 n]

theorem passBatch_lt (N mb j : Nat) (hmb : 0 < mb) (hN : mb ≤ N) :
    ∀ i ∈ (passBatch N mb j).1, i < N := by
  intro i hi
  simp only [passBatch, List.mem_map] at hi
  obtain ⟨a, _, rfl⟩ := hi
  exact Nat.mod_lt _ (by omega)

/-- The valid entries of the first `n` batches of a pass. -/
theorem pass_prefix (N mb : Nat) (n : Nat) :
    valid (((List.range n).map (passBatch N mb)).flatMap (·.1))
      (((List.range n).map (passBatch N mb)).flatMap (·.2)) = List.range (min N (n * mb)) := by
  induction n with
  | zero => simp [valid]
  | succ n ih =>
    rw [List.range_succ, List.map_append, List.flatMap_append, List.flatMap_append, valid_append,
      ih]
    · simp only [List.map_cons, List.map_nil, List.flatMap_cons, List.flatMap_nil, List.append_nil,
        passBatch]
      rw [valid_prefix_mask _ _ _ _ (by simp)]
      rw [← List.map_take, List.take_range]
      have hc : List.map (fun i => (i + n * mb) % N) (List.range (min (N - n * mb) mb)) =
          List.map (fun i => n * mb + i) (List.range (min (N - n * mb) mb)) := by
        apply List.map_congr_left
        intro i hi
        rw [List.mem_range] at hi
        rw [Nat.mod_eq_of_lt (by omega), Nat.add_comm]
      rw [hc]
      by_cases hle : N ≤ n * mb
      · have e0 : N - n * mb = 0 := by omega
        have e1 : min N ((n + 1) * mb) = min N (n * mb) := by rw [Nat.add_mul]; omega
        simp [e0, e1]
      · have e1 : min N (n * mb) = n * mb := by omega
        have e2 : min N ((n + 1) * mb) = n * mb + min (N - n * mb) mb := by
          rw [Nat.add_mul]; omega
        rw [e1, e2, List.range_add]
    · simp only [List.length_flatMap, List.map_map]
      congr 1
      apply List.map_congr_left
      intro k _
      simp [passBatch]

/-! ### the permutations drawn by a generator -/

section
variable {σ : Type} (R : Rng σ) (N : Nat) (g : σ)

/-- Generator state after `e` permutations. -/
def rngAt : Nat → σ
  | 0 => g
  | e + 1 => (R.choicePerm (rngAt e) N).2

/-- The `e`-th permutation. -/
def permAt (e : Nat) : List Nat := (R.choicePerm (rngAt R N g e) N).1

theorem permAt_perm (hR : R.Lawful) (e : Nat) : (permAt R N g e).Perm (List.range N) :=
  hR.perm _ _

theorem permAt_length (hR : R.Lawful) (e : Nat) : (permAt R N g e).length = N := by
  simpa using (permAt_perm R N g hR e).length_eq

/-! ### shuffling in epochs -/

/-- The `k`-th batch of a chain shuffled in epochs. -/
def epochBatch (mb : Nat) (k : Nat) : List Nat × List Bool :=
  ((((permAt R N g (k / ceilDiv N mb) ++ List.replicate (ceilDiv N mb * mb - N) 0)).drop
      (mb * (k % ceilDiv N mb))).take mb,
   (List.range mb).map (fun i => decide (i + (k % ceilDiv N mb) * mb < N)))

/-- State of an in-epochs chain after `k` batches. -/
def epochState (c0 : RandomChain σ) (mb : Nat) : Nat → RandomChain σ
  | 0 => c0
  | k + 1 => { c0 with
      rng := rngAt R N g (k / ceilDiv N mb + 1)
      randomIndices := some (permAt R N g (k / ceilDiv N mb) ++
        List.replicate (ceilDiv N mb * mb - N) 0)
      draws := k % ceilDiv N mb + 1 }

theorem epoch_step (hR : R.Lawful) (c0 : RandomChain σ) (hmb : 0 < c0.mbSize)
    (hN : c0.mbSize ≤ N) (hg : c0.rng = g) (hri : c0.randomIndices = none)
    (hdr : c0.draws = ceilDiv N c0.mbSize) (k : Nat) :
    shuffleInEpochs R N (epochState R N g c0 c0.mbSize k) =
      .ok (epochBatch R N g c0.mbSize k, epochState R N g c0 c0.mbSize (k + 1)) := by
  set mb := c0.mbSize with hmbdef
  have hmb' : mb ≠ 0 := by omega
  have hq : 0 < ceilDiv N mb := ceilDiv_pos hmb (by omega)
  have hle := ceilDiv_le (N := N) hmb
  have hsub : ∀ d, mb * (d + 1) - mb * d = mb := by
    intro d; rw [Nat.mul_add]; omega
  have hmask : ∀ d, (List.range mb).map (fun i => decide (mb * d + i < N)) =
      (List.range mb).map (fun i => decide (i + d * mb < N)) := by
    intro d; apply List.map_congr_left; intro i _; rw [Nat.mul_comm, Nat.add_comm]
  -- the refresh in the general case
  cases k with
  | zero =>
    simp only [epochState, shuffleInEpochs, hdr, hri, hg, ← hmbdef, hmb', if_false, if_true]
    have hlen : (List.take N (List.replicate (ceilDiv N mb * mb) 0)).length =
        (R.choicePerm g N).1.length := by
      have := (hR.perm g N).length_eq
      simp only [List.length_range] at this
      simp [this]; omega
    simp only [hlen, if_true, Nat.mul_zero, Nat.zero_add, Nat.mul_one, Nat.sub_zero,
      epochBatch, Nat.zero_div, Nat.zero_mod, permAt, rngAt]
    simp
  | succ k =>
    simp only [epochState, shuffleInEpochs, ← hmbdef, hmb', if_false]
    by_cases hlast : k % ceilDiv N mb + 1 = ceilDiv N mb
    · have hdiv : (k + 1) / ceilDiv N mb = k / ceilDiv N mb + 1 := by
        have h1 := Nat.div_add_mod k (ceilDiv N mb)
        have : k + 1 = ceilDiv N mb * (k / ceilDiv N mb + 1) := by
          rw [Nat.mul_add]; omega
        rw [this, Nat.mul_div_cancel_left _ hq]
      have hmod : (k + 1) % ceilDiv N mb = 0 := by
        rw [← Nat.mod_add_mod, hlast, Nat.mod_self]
      have hlen : (List.take N (permAt R N g (k / ceilDiv N mb) ++
          List.replicate (ceilDiv N mb * mb - N) 0)).length =
          (R.choicePerm (rngAt R N g (k / ceilDiv N mb + 1)) N).1.length := by
        have h1 := (hR.perm (rngAt R N g (k / ceilDiv N mb + 1)) N).length_eq
        simp only [List.length_range] at h1
        simp [h1, permAt_length R N g hR]
      simp only [hlast, if_true, hlen, epochBatch, hdiv, hmod]
      have hdrop : List.drop N (permAt R N g (k / ceilDiv N mb) ++
          List.replicate (ceilDiv N mb * mb - N) 0) = List.replicate (ceilDiv N mb * mb - N) 0 := by
        rw [List.drop_append_of_le_length (by rw [permAt_length R N g hR])]
        rw [List.drop_of_length_le (by rw [permAt_length R N g hR])]; simp
      simp only [permAt] at hdrop
      simp only [permAt, rngAt]
      simp [hdrop]
    · have hlt : k % ceilDiv N mb + 1 < ceilDiv N mb := by
        have := Nat.mod_lt k hq; omega
      have hmod : (k + 1) % ceilDiv N mb = k % ceilDiv N mb + 1 := by
        rw [← Nat.mod_add_mod, Nat.mod_eq_of_lt hlt]
      have hdiv : (k + 1) / ceilDiv N mb = k / ceilDiv N mb := by
        have h1 := Nat.div_add_mod k (ceilDiv N mb)
        have h2 := Nat.div_add_mod (k + 1) (ceilDiv N mb)
        rw [hmod] at h2
        have : ceilDiv N mb * ((k + 1) / ceilDiv N mb) = ceilDiv N mb * (k / ceilDiv N mb) := by
          omega
        exact Nat.eq_of_mul_eq_mul_left hq this
      simp only [hlast, if_false, epochBatch, hdiv, hmod, hsub, hmask]

theorem epoch_steps (hR : R.Lawful) (c0 : RandomChain σ) (hmb : 0 < c0.mbSize)
    (hN : c0.mbSize ≤ N) (hg : c0.rng = g) (hri : c0.randomIndices = none)
    (hdr : c0.draws = ceilDiv N c0.mbSize) (hie : c0.inEpochs = true) (n k : Nat) :
    indexSteps R N n (.random (epochState R N g c0 c0.mbSize k)) =
      .ok ((List.range n).map (fun i => epochBatch R N g c0.mbSize (k + i)),
        .random (epochState R N g c0 c0.mbSize (k + n))) := by
  induction n generalizing k with
  | zero => simp [indexSteps]
  | succ n ih =>
    have hie' : (epochState R N g c0 c0.mbSize k).inEpochs = true := by
      cases k <;> simpa [epochState] using hie
    simp only [indexSteps, indexStep, hie', if_true, epoch_step R N g hR c0 hmb hN hg hri hdr k,
      ih (k + 1)]
    simp only [List.range_succ_eq_map, List.map_cons, List.map_map, Nat.add_zero,
      Except.ok.injEq, Prod.mk.injEq, List.cons.injEq, true_and]
    refine ⟨List.map_congr_left (fun i _ => ?_), ?_⟩
    · simp only [Function.comp]; congr 1; omega
    · congr 2; omega

/-! ### shuffling -/

/-- Content of the ring buffer: the first `q.length` entries from position `draws` on are `q`. -/
structure ShInv (c : RandomChain σ) (q : List Nat) : Prop where
  rem : c.remainingSamples = q.length
  buf : (c.randomIndices = none ∧ q = []) ∨
    ∃ b, c.randomIndices = some b ∧ b.length = (N / c.mbSize + 2) * c.mbSize ∧
      c.draws < N / c.mbSize + 2 ∧
      ∀ j, j < q.length → b[(j + c.draws * c.mbSize) % ((N / c.mbSize + 2) * c.mbSize)]? = q[j]?

theorem ring_inj {L a i j : Nat} (hi : i < L) (hj : j < L) (h : (a + i) % L = (a + j) % L) :
    i = j := by
  have h1 : (a + i) ≡ (a + j) [MOD L] := h
  have h2 : i % L = j % L := Nat.ModEq.add_left_cancel' a h1
  rwa [Nat.mod_eq_of_lt hi, Nat.mod_eq_of_lt hj] at h2

theorem shuffleRefresh_spec (hR : R.Lawful) (c : RandomChain σ) (q : List Nat)
    (hmb : 0 < c.mbSize) (hrem : c.remainingSamples < c.mbSize) (h : ShInv N c q) :
    ∃ b d, shuffleRefresh R N (N / c.mbSize + 2) c =
        .ok { c with rng := (R.choicePerm c.rng N).2, draws := d, randomIndices := some b,
                     remainingSamples := c.remainingSamples + N } ∧
      b.length = (N / c.mbSize + 2) * c.mbSize ∧ d < N / c.mbSize + 2 ∧
      (∀ j, j < (q ++ (R.choicePerm c.rng N).1).length →
        b[(j + d * c.mbSize) % ((N / c.mbSize + 2) * c.mbSize)]? =
          (q ++ (R.choicePerm c.rng N).1)[j]?) := by
  set L := (N / c.mbSize + 2) * c.mbSize with hL
  set new := (R.choicePerm c.rng N).1 with hnew
  have hnlen : new.length = N := by simpa using (hR.perm c.rng N).length_eq
  have hLN : N + c.mbSize ≤ L := by
    have h1 := Nat.div_add_mod N c.mbSize
    have h2 := Nat.mod_lt N hmb
    have h3 : L = c.mbSize * (N / c.mbSize) + 2 * c.mbSize := by rw [hL]; ring
    omega
  have hrem' : q.length < c.mbSize := by rw [← h.rem]; exact hrem
  have hLpos : 0 < L := by omega
  -- common part for a buffer `b0` and draw position `d`
  have key : ∀ (b0 : List Nat) (d : Nat), b0.length = L →
      (∀ j, j < q.length → b0[(j + d * c.mbSize) % L]? = q[j]?) →
      ∃ b, npPut b0 ((List.range N).map (fun i => (i + d * c.mbSize + q.length) % L)) new = .ok b ∧
        b.length = L ∧ (∀ j, j < (q ++ new).length →
          b[(j + d * c.mbSize) % L]? = (q ++ new)[j]?) := by
    intro b0 d hb0 hold
    have hnd : ((List.range N).map (fun i => (i + d * c.mbSize + q.length) % L)).Nodup := by
      rw [List.nodup_map_iff_inj_on List.nodup_range]
      intro x hx y hy hxy
      rw [List.mem_range] at hx hy
      have : (d * c.mbSize + q.length + x) % L = (d * c.mbSize + q.length + y) % L := by
        rw [show d * c.mbSize + q.length + x = x + d * c.mbSize + q.length by omega,
          show d * c.mbSize + q.length + y = y + d * c.mbSize + q.length by omega]; exact hxy
      exact ring_inj (by omega) (by omega) this
    obtain ⟨b, h1, h2, h3, h4⟩ := npPut_spec b0
      ((List.range N).map (fun i => (i + d * c.mbSize + q.length) % L)) new (by simp [hnlen])
      (by intro i hi; obtain ⟨a, _, rfl⟩ := List.mem_map.1 hi; rw [hb0]; exact Nat.mod_lt _ hLpos)
      hnd
    refine ⟨b, h1, by omega, ?_⟩
    intro j hj
    rw [List.length_append, hnlen] at hj
    by_cases hjq : j < q.length
    · rw [List.getElem?_append_left hjq, h3 _ ?_, hold j hjq]
      intro hmem
      obtain ⟨i, hi, hij⟩ := List.mem_map.1 hmem
      rw [List.mem_range] at hi
      have : (d * c.mbSize + (i + q.length)) % L = (d * c.mbSize + j) % L := by
        rw [show d * c.mbSize + (i + q.length) = i + d * c.mbSize + q.length by omega,
          show d * c.mbSize + j = j + d * c.mbSize by omega]; exact hij
      have := ring_inj (by omega) (by omega) this
      omega
    · rw [List.getElem?_append_right (by omega)]
      have := h4 (j - q.length) (by simp; omega)
      rw [List.getD_eq_getElem?_getD, List.getElem?_map, List.getElem?_range (by omega)] at this
      simp only [Option.map_some, Option.getD_some] at this
      rw [← this]
      congr 2; omega
  rcases h.buf with ⟨hn, hq⟩ | ⟨b0, hb0, hlen, hd, hold⟩
  · obtain ⟨b, h1, h2, h3⟩ := key (List.replicate L 0) 0 (by simp) (by simp [hq])
    refine ⟨b, 0, ?_, h2, Nat.succ_pos _, h3⟩
    simp only [shuffleRefresh, hn, ← hL, ← hnew, h.rem, h1]
  · obtain ⟨b, h1, h2, h3⟩ := key b0 c.draws hlen hold
    refine ⟨b, c.draws, ?_, h2, hd, h3⟩
    simp only [shuffleRefresh, hb0, ← hL, ← hnew, h.rem, h1]

/-- One shuffled batch: the queue is refilled with a permutation if it is too short, then the batch
is taken from its front. -/
theorem shuffle_step (hR : R.Lawful) (c : RandomChain σ) (q : List Nat)
    (hmb : 0 < c.mbSize) (hN : c.mbSize ≤ N) (h : ShInv N c q) :
    ∃ c', shuffleIndices R N c =
      .ok (((if q.length < c.mbSize then q ++ (R.choicePerm c.rng N).1 else q).take c.mbSize,
          List.replicate c.mbSize true), c') ∧
        ShInv N c' ((if q.length < c.mbSize then q ++ (R.choicePerm c.rng N).1 else q).drop
          c.mbSize) ∧
        c'.rng = (if q.length < c.mbSize then (R.choicePerm c.rng N).2 else c.rng) ∧
        c'.mbSize = c.mbSize ∧ c'.inEpochs = c.inEpochs ∧ c'.shuffle = c.shuffle ∧
        c.mbSize ≤ (if q.length < c.mbSize then c.remainingSamples + N
          else c.remainingSamples) := by
  have hmb' : c.mbSize ≠ 0 := by omega
  have hnlen : (R.choicePerm c.rng N).1.length = N := by simpa using (hR.perm c.rng N).length_eq
  -- the taking part
  have take : ∀ (c1 : RandomChain σ) (q1 b : List Nat), c1.mbSize = c.mbSize →
      c1.randomIndices = some b → b.length = (N / c.mbSize + 2) * c.mbSize →
      c1.draws < N / c.mbSize + 2 → c1.remainingSamples = q1.length → c.mbSize ≤ q1.length →
      (∀ j, j < q1.length → b[(j + c1.draws * c.mbSize) % ((N / c.mbSize + 2) * c.mbSize)]? =
        q1[j]?) →
      npTake b ((List.range c.mbSize).map (fun i => (i + c1.draws * c.mbSize) %
        (c.mbSize * (N / c.mbSize + 2)))) = .ok (q1.take c.mbSize) ∧
      ShInv N { c1 with draws := (c1.draws + 1) % (N / c.mbSize + 2),
                        remainingSamples := c1.remainingSamples - c.mbSize } (q1.drop c.mbSize) := by
    intro c1 q1 b hm hb hlen hd hrem hge hq
    constructor
    · apply npTake_of_spec
      apply List.ext_getElem?
      intro i
      by_cases hi : i < c.mbSize
      · simp only [List.map_map, List.getElem?_map, List.getElem?_range hi, Option.map_some,
          Function.comp]
        rw [Nat.mul_comm c.mbSize, hq i (by omega), List.getElem?_take_of_lt hi,
          List.getElem?_eq_getElem (by omega)]; rfl
      · rw [List.getElem?_eq_none (by simp; omega), List.getElem?_eq_none (by simp; omega)]
    · refine ⟨by simp [hrem], Or.inr ⟨b, hb, by simpa [hm] using hlen, ?_, ?_⟩⟩
      · simp only [hm]; exact Nat.mod_lt _ (Nat.succ_pos _)
      · intro j hj
        simp only [hm]
        rw [List.length_drop] at hj
        rw [List.getElem?_drop, ← hq (c.mbSize + j) (by omega)]
        congr 1
        rw [← Nat.mul_mod_mul_right, Nat.add_mod_mod]
        congr 1; ring
  unfold shuffleIndices
  simp only [hmb', if_false, h.rem]
  by_cases hr : q.length < c.mbSize
  · simp only [hr, if_true]
    obtain ⟨b, d, h1, h2, h3, h4⟩ := shuffleRefresh_spec R N hR c q hmb (by rw [h.rem]; exact hr) h
    rw [h1]
    have hlen : (q ++ (R.choicePerm c.rng N).1).length = q.length + N := by simp [hnlen]
    obtain ⟨t1, t2⟩ := take
      { c with
        rng := (R.choicePerm c.rng N).2, draws := d, randomIndices := some b
        remainingSamples := c.remainingSamples + N }
      (q ++ (R.choicePerm c.rng N).1) b rfl rfl h2 h3 (by simp [h.rem, hlen]) (by rw [hlen]; omega) h4
    simp only [t1]
    exact ⟨_, rfl, t2, rfl, rfl, rfl, rfl, by omega⟩
  · simp only [hr, if_false]
    rcases h.buf with ⟨_, hq⟩ | ⟨b, hb, hlen, hd, hold⟩
    · simp [hq] at hr; omega
    · obtain ⟨t1, t2⟩ := take c q b rfl hb hlen hd h.rem (by omega) hold
      simp only [hb, t1]
      refine ⟨_, rfl, ?_, rfl, rfl, rfl, rfl, by omega⟩
      simpa [hb] using t2

/-- `remaining_samples -= mb_size` never becomes negative (the Python ints are modelled by `Nat`):
whenever `_shuffle_indices` reaches line 428, at least `mb_size` samples remain. -/
theorem shuffle_no_truncation (hR : R.Lawful) (c : RandomChain σ) (q : List Nat)
    (hmb : 0 < c.mbSize) (hN : c.mbSize ≤ N) (h : ShInv N c q) :
    c.mbSize ≤ (if q.length < c.mbSize then c.remainingSamples + N else c.remainingSamples) := by
  obtain ⟨_, _, _, _, _, _, _, h⟩ := shuffle_step R N hR c q hmb hN h
  exact h

/-- All observations drawn by a shuffled chain are a prefix of a concatenation of the permutations
drawn from the generator. -/
theorem shuffle_steps (hR : R.Lawful) (n : Nat) (c : RandomChain σ) (q drawn : List Nat) (e : Nat)
    (hmb : 0 < c.mbSize) (hN : c.mbSize ≤ N) (hie : c.inEpochs = false) (hsh : c.shuffle = true)
    (h : ShInv N c q) (hrng : c.rng = rngAt R N g e)
    (hdr : drawn ++ q = (List.range e).flatMap (permAt R N g)) :
    ∃ sel c' q' e', indexSteps R N n (.random c) = .ok (sel, .random c') ∧
      (∀ x ∈ sel, x.1.length = c.mbSize ∧ x.2 = List.replicate c.mbSize true) ∧
      ShInv N c' q' ∧ c'.mbSize = c.mbSize ∧
      (drawn ++ sel.flatMap (·.1)) ++ q' = (List.range e').flatMap (permAt R N g) := by
  induction n generalizing c q drawn e with
  | zero => exact ⟨[], c, q, e, rfl, by simp, h, rfl, by simpa using hdr⟩
  | succ n ih =>
    obtain ⟨c1, s1, s2, s3, s4, s5, s6, _⟩ := shuffle_step R N hR c q hmb hN h
    set q1 := (if q.length < c.mbSize then q ++ (R.choicePerm c.rng N).1 else q) with hq1
    have hnlen : (R.choicePerm c.rng N).1.length = N := by simpa using (hR.perm c.rng N).length_eq
    have hq1len : c.mbSize ≤ q1.length := by
      rw [hq1]; split
      · simp [hnlen]; omega
      · omega
    have hnew : ∃ e1, c1.rng = rngAt R N g e1 ∧
        (drawn ++ q1.take c.mbSize) ++ q1.drop c.mbSize = (List.range e1).flatMap (permAt R N g) := by
      by_cases hlt : q.length < c.mbSize
      · refine ⟨e + 1, ?_, ?_⟩
        · rw [s3, if_pos hlt, hrng]; rfl
        · rw [List.append_assoc, List.take_append_drop, hq1, if_pos hlt, List.range_succ,
            List.flatMap_append, ← hdr, hrng]
          simp [permAt]
      · refine ⟨e, ?_, ?_⟩
        · rw [s3, if_neg hlt, hrng]
        · rw [List.append_assoc, List.take_append_drop, hq1, if_neg hlt, hdr]
    obtain ⟨e1, r1, r2⟩ := hnew
    obtain ⟨sel, c', q', e', i1, i2, i3, i4, i5⟩ := ih c1 (q1.drop c.mbSize)
      (drawn ++ q1.take c.mbSize) e1 (by omega) (by omega) (by rw [s5, hie]) (by rw [s6, hsh]) s2
      r1 r2
    refine ⟨(q1.take c.mbSize, List.replicate c.mbSize true) :: sel, c', q', e', ?_, ?_, i3,
      by omega, ?_⟩
    · simp only [indexSteps, indexStep, hie, hsh, s1, i1, if_true, Bool.false_eq_true, if_false]
    · intro x hx
      rcases List.mem_cons.1 hx with rfl | hx
      · refine ⟨?_, rfl⟩
        simp; omega
      · obtain ⟨a, b⟩ := i2 x hx
        rw [a, b, s4]; exact ⟨rfl, rfl⟩
    · simpa [List.append_assoc] using i5

end

end JaxSgmc
