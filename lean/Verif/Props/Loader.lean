import Verif.Lemmas.NumpyGood
import Verif.Spec.ToyRng

/-!
# Properties C01–C10: chains of a host data loader

`R` is the numpy generator (`Rng.Lawful`: `choice` returns what its documentation says), `s` is any
state of a loader a user can reach, histories are arbitrary lists of operations, also on other
chains.
-/

namespace JaxSgmc

open Spec

/-! ### auxiliary facts about the vocabulary -/

section
variable {ρ : Type}

theorem rowsOf_flatten {d : List ρ} {idx : List (List Nat)} {rows : List (List ρ)}
    (h : List.Forall₂ (RowsOf d) idx rows) : RowsOf d idx.flatten rows.flatten := by
  induction h with
  | nil => rfl
  | cons h _ ih => simp only [RowsOf, List.flatten_cons, List.map_append] at *; rw [h, ih]

theorem rowsOf_valid {d : List ρ} {idx : List Nat} {rows : List ρ} (ms : List Bool)
    (h : RowsOf d idx rows) : RowsOf d (valid idx ms) (valid rows ms) := by
  simp only [RowsOf] at *
  rw [← valid_map, h, valid_map]

theorem rowsOf_range {d : List ρ} {n : Nat} {rows : List ρ}
    (h : RowsOf d (List.range (min d.length n)) rows) : rows = d.take n := by
  apply List.map_injective_iff.2 (Option.some_injective ρ)
  rw [h]
  apply List.ext_getElem?
  intro i
  by_cases hi : i < min d.length n
  · simp only [List.getElem?_map, List.getElem?_range hi, Option.map_some]
    rw [List.getElem?_take_of_lt (by omega), List.getElem?_eq_getElem (by omega)]; rfl
  · rw [List.getElem?_eq_none (by simp; omega), List.getElem?_eq_none (by simp; omega)]

theorem forall2_drop_take {α β : Type} {P : α → β → Prop} {xs : List α} {ys : List β}
    (h : List.Forall₂ P xs ys) (a b : Nat) :
    List.Forall₂ P ((xs.drop a).take b) ((ys.drop a).take b) :=
  List.forall₂_take _ (List.forall₂_drop _ h)

theorem registered_random {σ : Type} {R : Rng σ} {s s' : LSys σ ρ} {cs mb cid : Nat}
    {ie sh : Bool} {seed : Option Nat}
    (h : lstep R s (.regRandom cs mb ie sh seed) = (s', .registered cid)) :
    cid = s.loader.chains.length ∧ 0 < mb ∧ mb ≤ s.loader.obsCount ∧
      (ie = true → sh = true) ∧
      s'.loader.chains[cid]? = some (.random (newRandom R s.loader.obsCount cid cs mb ie sh seed)) ∧
      s'.loader.data = s.loader.data ∧ s'.loader.obsCount = s.loader.obsCount ∧
      s'.ckpts = s.ckpts := by
  simp only [lstep] at h
  split at h
  · simp at h
  · rename_i hr
    obtain ⟨rfl, h1, h2, h3, rfl⟩ := registerRandom_spec R _ _ _ _ _ _ _ _ hr
    simp only [Prod.mk.injEq, LOut.registered.injEq] at h
    obtain ⟨rfl, rfl⟩ := h
    exact ⟨rfl, h1, h2, h3, by simp, rfl, rfl, rfl⟩

theorem registered_ordered {σ : Type} {R : Rng σ} {s s' : LSys σ ρ} {cs mb cid : Nat}
    (h : lstep R s (.regOrdered cs mb) = (s', .registered cid)) :
    cid = s.loader.chains.length ∧ mb ≤ s.loader.obsCount ∧
      s'.loader.chains[cid]? = some (.ordered ⟨0, mb, cs⟩) ∧
      s'.loader.data = s.loader.data ∧ s'.loader.obsCount = s.loader.obsCount ∧
      s'.ckpts = s.ckpts := by
  simp only [lstep] at h
  split at h
  · simp at h
  · rename_i hr
    obtain ⟨rfl, h1, rfl⟩ := registerOrdered_spec _ _ _ _ _ hr
    simp only [Prod.mk.injEq, LOut.registered.injEq] at h
    obtain ⟨rfl, rfl⟩ := h
    exact ⟨rfl, h1, by simp, rfl, rfl, rfl⟩

theorem lookup_mem {data : List (String × List ρ)} {name : String} {d : List ρ}
    (h : data.lookup name = some d) : (name, d) ∈ data := by
  induction data with
  | nil => simp at h
  | cons x xs ih =>
    rw [List.lookup_cons] at h
    cases hb : name == x.1 with
    | true =>
      simp [hb] at h
      have : name = x.1 := by simpa using hb
      subst h; subst this; simp
    | false => simp [hb] at h; exact List.mem_cons_of_mem _ (ih h)

end

section
variable {σ ρ : Type} (R : Rng σ) {data : List (String × List ρ)} {s : LSys σ ρ}

/-- Everything about the batches of a chain that is never restored, in terms of its index stream. -/
theorem stream_facts (hs : Reachable R data s) (hR : R.Lawful) (cid : Nat) (c : Chain σ)
    (hc : s.loader.chains[cid]? = some c) (hcs : 0 < c.cacheSize) (ops : List LOp)
    (hl : ∀ op ∈ ops, isLoad cid op = false) :
    ∃ sel, (∃ c', indexSteps R s.loader.obsCount ((outcomes cid (lrun R s ops).2).length * c.cacheSize) c
        = .ok (sel, c')) ∧
      sel.length = (outcomes cid (lrun R s ops).2).length * c.cacheSize ∧
      (∀ o ∈ outcomes cid (lrun R s ops).2, ∃ b, o = .batches b) ∧
      masks (outcomes cid (lrun R s ops).2) = sel.map (·.2) ∧
      ∀ name d, data.lookup name = some d →
        List.Forall₂ (RowsOf d) (sel.map (·.1)) (miniBatches name (outcomes cid (lrun R s ops).2)) := by
  obtain ⟨hd, hwf⟩ := hs.data
  obtain ⟨h1, _⟩ := outcomes_eq_chainGets R cid ops s c hc hl
  rw [outcomes_length, h1, hd]
  obtain ⟨sel, c', s1, s2, _, _⟩ := indexSteps_good R hR s.loader.obsCount
    (numGets cid ops * c.cacheSize) c ((hs.good R hR).chains c (List.mem_of_getElem? hc))
  obtain ⟨_, g2, g3, g4⟩ := chainGets_spec R data s.loader.obsCount hwf (numGets cid ops) c c' sel hcs
    s1 (fun x hx => (s2 x hx).2.2)
  exact ⟨sel, ⟨c', s1⟩, indexSteps_length R _ _ _ _ _ s1, g2, g3, g4⟩

/-! ## C01 -/

/-- **C01.** On an ordered chain every `get_batches` succeeds.  Cutting the delivered mini-batches
into passes of `q = ⌈N/mb⌉`, the entries with mask `true` of the first `j ≤ q` mini-batches of pass
`p` are exactly the first `j * mb` observations of the dataset in order (for `j = q`: the whole
dataset), for every array of the dataset; and in all mini-batches of a pass but the last all masks
are `true`. -/
theorem c01_ordered_passes (hs : Reachable R data s) (hR : R.Lawful) {cs mb cid : Nat}
    {s' : LSys σ ρ} (hreg : lstep R s (.regOrdered cs mb) = (s', .registered cid))
    (hcs : 0 < cs) (hmb : 0 < mb) (ops : List LOp) (hl : ∀ op ∈ ops, isLoad cid op = false) :
    let os := outcomes cid (lrun R s' ops).2
    let q := (s.loader.obsCount + mb - 1) / mb
    (∀ o ∈ os, ∃ b, o = .batches b) ∧
    (masks os).length = os.length * cs ∧
    (∀ name d, data.lookup name = some d → ∀ p j, j ≤ q → p * q + j ≤ (masks os).length →
      valid (((miniBatches name os).drop (p * q)).take j).flatten
        (((masks os).drop (p * q)).take j).flatten = d.take (j * mb)) ∧
    (∀ name d, data.lookup name = some d → ∀ p, p * q + q ≤ (masks os).length →
      valid (((miniBatches name os).drop (p * q)).take q).flatten
        (((masks os).drop (p * q)).take q).flatten = d) ∧
    (∀ p j, j + 1 < q → ∀ m, (masks os)[p * q + j]? = some m → m = List.replicate mb true) := by
  intro os q
  obtain ⟨rfl, hmbN, hch, hdat, hobs, _⟩ := registered_ordered hreg
  have hs' : Reachable R data s' := by
    have := hs.step R [.regOrdered cs mb]
    simpa [lrun, hreg] using this
  obtain ⟨sel, ⟨c', hsel⟩, hlen, hok, hmask, hrows⟩ := stream_facts R hs' hR _ _ hch hcs ops hl
  rw [hobs] at hsel
  have hq : q = ceilDiv s.loader.obsCount mb := rfl
  have hqpos : 0 < q := ceilDiv_pos hmb (by omega)
  have hord := ordered_steps R s.loader.obsCount mb cs hmb (os.length * cs) 0 hqpos
  simp only [Nat.zero_mul] at hord
  change indexSteps R _ (os.length * cs) _ = _ at hsel
  rw [hord] at hsel
  simp only [Except.ok.injEq, Prod.mk.injEq, Nat.zero_add] at hsel
  obtain ⟨hsel, _⟩ := hsel
  change masks os = _ at hmask
  have hmlen : (masks os).length = os.length * cs := by rw [hmask, ← hsel]; simp
  -- the part of the index stream belonging to pass `p`
  have hpart : ∀ p j, j ≤ q → p * q + j ≤ os.length * cs →
      (sel.drop (p * q)).take j = (List.range j).map (passBatch s.loader.obsCount mb) := by
    intro p j hj hpj
    rw [← hsel]
    apply List.ext_getElem?
    intro i
    by_cases hi : i < j
    · rw [List.getElem?_take_of_lt hi, List.getElem?_drop, List.getElem?_map, List.getElem?_map,
        List.getElem?_range (by omega), List.getElem?_range hi]
      simp only [Option.map_some]
      rw [← hq, Nat.mul_comm p q, Nat.mul_add_mod, Nat.mod_eq_of_lt (by omega)]
    · rw [List.getElem?_eq_none (by simp; omega), List.getElem?_eq_none (by simp; omega)]
  have hmain : ∀ name d, data.lookup name = some d → ∀ p j, j ≤ q → p * q + j ≤ (masks os).length →
      valid (((miniBatches name os).drop (p * q)).take j).flatten
        (((masks os).drop (p * q)).take j).flatten = d.take (j * mb) := by
    intro name d hd p j hj hpj
    have hdl : d.length = s.loader.obsCount := by
      rw [← hobs]; exact hs'.data.2 _ (lookup_mem hd)
    have hf := forall2_drop_take (hrows name d hd) (p * q) j
    rw [← List.map_drop, ← List.map_take, hpart p j hj (by omega)] at hf
    have hv := rowsOf_valid (((masks os).drop (p * q)).take j).flatten (rowsOf_flatten hf)
    have hpp := pass_prefix s.loader.obsCount mb j
    rw [hmask, ← List.map_drop, ← List.map_take, hpart p j hj (by omega)] at hv ⊢
    rw [List.flatMap_def, List.flatMap_def] at hpp
    rw [hpp] at hv
    conv at hv => arg 2; rw [← hdl]
    exact rowsOf_range hv
  refine ⟨hok, hmlen, hmain, ?_, ?_⟩
  · intro name d hd p hp
    rw [hmain name d hd p q (Nat.le_refl _) hp]
    have hdl : d.length = s.loader.obsCount := by
      rw [← hobs]; exact hs'.data.2 _ (lookup_mem hd)
    apply List.take_of_length_le
    rw [hdl]; exact ceilDiv_le hmb
  · intro p j hj m hm
    have hlt : p * q + j < os.length * cs := by
      by_contra hge
      rw [List.getElem?_eq_none (by omega)] at hm; simp at hm
    rw [hmask, List.getElem?_map, ← hsel, List.getElem?_map, List.getElem?_range hlt] at hm
    simp only [Option.map_some, Option.some.injEq] at hm
    rw [← hq, Nat.mul_comm p q, Nat.mul_add_mod, Nat.mod_eq_of_lt (by omega)] at hm
    rw [← hm]
    simp only [passBatch]
    have h1 := ceilDiv_pred hmb (j := j + 1) (N := s.loader.obsCount) (by omega)
    rw [mask_range_eq]
    have : s.loader.obsCount - j * mb ≥ mb := by rw [Nat.add_mul] at h1; omega
    rw [Nat.min_eq_left this, Nat.sub_eq_zero_of_le this]; simp

/-- The hypotheses of C01 are met, with interleaved use of another chain. -/
example : Reachable toyRng toyData toySys ∧
    (lstep toyRng toySys (.regOrdered 2 2)).2 = .registered 0 ∧
    miniBatches "y" (outcomes 0 (lrun toyRng (lstep toyRng toySys (.regOrdered 2 2)).1
      [.get 0, .regRandom 1 2 false true none, .get 1, .get 0]).2) =
        [[20, 21], [22, 23], [24, 20], [20, 21]] := by
  refine ⟨⟨toySys.loader, [], by rfl, rfl⟩, by decide, by decide⟩

/-! ## C02 -/

/-- C02 with the permutations that are used (needed again for C81). -/
theorem in_epochs_strong (hs : Reachable R data s) (hR : R.Lawful) {cs mb cid : Nat}
    {seed : Option Nat} {s' : LSys σ ρ}
    (hreg : lstep R s (.regRandom cs mb true true seed) = (s', .registered cid))
    (hcs : 0 < cs) (ops : List LOp) (hl : ∀ op ∈ ops, isLoad cid op = false) :
    let os := outcomes cid (lrun R s' ops).2
    let q := (s.loader.obsCount + mb - 1) / mb
    (∀ o ∈ os, ∃ b, o = .batches b) ∧
    (masks os).length = os.length * cs ∧
    (∀ e, e * q + q ≤ (masks os).length →
        ∀ name d, data.lookup name = some d →
          RowsOf d (permAt R s.loader.obsCount (R.seed (seed.getD cid)) e)
            (valid (((miniBatches name os).drop (e * q)).take q).flatten
            (((masks os).drop (e * q)).take q).flatten)) ∧
    (∀ e j, j + 1 < q → ∀ m, (masks os)[e * q + j]? = some m → m = List.replicate mb true) := by
  intro os q
  obtain ⟨rfl, hmb, hmbN, _, hch, hdat, hobs, _⟩ := registered_random hreg
  have hs' : Reachable R data s' := by
    have := hs.step R [.regRandom cs mb true true seed]
    simpa [lrun, hreg] using this
  obtain ⟨sel, ⟨c', hsel⟩, hlen, hok, hmask, hrows⟩ := stream_facts R hs' hR _ _ hch hcs ops hl
  rw [hobs] at hsel
  set N := s.loader.obsCount with hN
  set g := R.seed (seed.getD s.loader.chains.length) with hg
  have hq : q = ceilDiv N mb := rfl
  have hqpos : 0 < q := ceilDiv_pos hmb (by omega)
  have hord := epoch_steps R N g hR (newRandom R N s.loader.chains.length cs mb true true seed)
    hmb hmbN rfl rfl rfl rfl (os.length * cs) 0
  change indexSteps R N (os.length * cs) _ = _ at hsel
  rw [show Chain.random (newRandom R N s.loader.chains.length cs mb true true seed) =
    Chain.random (epochState R N g (newRandom R N s.loader.chains.length cs mb true true seed)
      (newRandom R N s.loader.chains.length cs mb true true seed).mbSize 0) from rfl, hord] at hsel
  simp only [Except.ok.injEq, Prod.mk.injEq, Nat.zero_add] at hsel
  obtain ⟨hsel, _⟩ := hsel
  change (List.range (os.length * cs)).map (epochBatch R N g mb) = sel at hsel
  change masks os = _ at hmask
  have hmlen : (masks os).length = os.length * cs := by rw [hmask, ← hsel]; simp
  have hdiv : ∀ e i, i < q → (e * q + i) / q = e := by
    intro e i hi
    rw [Nat.mul_comm, Nat.mul_add_div hqpos, Nat.div_eq_of_lt hi, Nat.add_zero]
  have hmod : ∀ e i, i < q → (e * q + i) % q = i := by
    intro e i hi
    rw [Nat.mul_comm, Nat.mul_add_mod, Nat.mod_eq_of_lt hi]
  -- one epoch of the index stream
  have hpart : ∀ e, e * q + q ≤ os.length * cs → (sel.drop (e * q)).take q =
      (List.range q).map (fun j =>
        (((permAt R N g e ++ List.replicate (q * mb - N) 0).drop (mb * j)).take mb,
          (List.range mb).map (fun i => decide (i + j * mb < N)))) := by
    intro e he
    rw [← hsel]
    apply List.ext_getElem?
    intro i
    by_cases hi : i < q
    · rw [List.getElem?_take_of_lt hi, List.getElem?_drop, List.getElem?_map, List.getElem?_map,
        List.getElem?_range (by omega), List.getElem?_range hi]
      simp only [Option.map_some, epochBatch, ← hq, hdiv e i hi, hmod e i hi]
    · rw [List.getElem?_eq_none (by simp; omega), List.getElem?_eq_none (by simp; omega)]
  -- the valid entries of the first batches of an epoch
  have hvalid : ∀ (P fill : List Nat), P.length = N → (P ++ fill).length = q * mb → ∀ n, n ≤ q →
      valid ((List.range n).flatMap (fun j => ((P ++ fill).drop (mb * j)).take mb))
        ((List.range n).flatMap (fun j => (List.range mb).map (fun i => decide (i + j * mb < N)))) =
        P.take (n * mb) := by
    intro P fill hP hPf n hn
    induction n with
    | zero => simp [valid]
    | succ n ih =>
      rw [List.range_succ, List.flatMap_append, List.flatMap_append, valid_append, ih (by omega)]
      · simp only [List.flatMap_cons, List.flatMap_nil, List.append_nil]
        have hnq : n * mb + mb ≤ q * mb := by
          have := Nat.mul_le_mul_right mb hn
          rwa [Nat.add_mul, Nat.one_mul] at this
        rw [valid_prefix_mask _ _ _ _ (by
          rw [List.length_take, List.length_drop, hPf, Nat.mul_comm mb n]; omega)]
        have hnN : n * mb < N := ceilDiv_pred hmb (by omega)
        rw [List.take_take, List.drop_append_of_le_length (by rw [hP, Nat.mul_comm mb n]; omega),
          List.take_append_of_le_length (by rw [List.length_drop, hP, Nat.mul_comm mb n]; omega),
          Nat.mul_comm mb n, Nat.add_mul, Nat.one_mul, List.take_add]
        congr 1
        by_cases hle : N - n * mb ≤ mb
        · rw [Nat.min_eq_left hle, List.take_of_length_le (l := P.drop (n * mb))
            (by rw [List.length_drop, hP]), List.take_of_length_le (by rw [List.length_drop, hP]; omega)]
        · rw [Nat.min_eq_right (by omega)]
      · simp only [List.length_flatMap]
        congr 1
        apply List.map_congr_left
        intro k hk
        rw [List.mem_range] at hk
        have : k * mb + mb ≤ q * mb := by
          have := Nat.mul_le_mul_right mb (show k + 1 ≤ q by omega)
          rwa [Nat.add_mul, Nat.one_mul] at this
        rw [List.length_take, List.length_drop, hPf, Nat.mul_comm mb k]; simp; omega
  have hle : N ≤ q * mb := ceilDiv_le hmb
  refine ⟨hok, hmlen, ?_, ?_⟩
  · intro e he name d hd
    have hf := forall2_drop_take (hrows name d hd) (e * q) q
    rw [← List.map_drop, ← List.map_take, hpart e (by omega)] at hf
    have hv := rowsOf_valid (((masks os).drop (e * q)).take q).flatten (rowsOf_flatten hf)
    rw [hmask, ← List.map_drop, ← List.map_take, hpart e (by omega)] at hv ⊢
    have hPN := permAt_length R N g hR e
    have := hvalid (permAt R N g e) (List.replicate (q * mb - N) 0) hPN
      (by simp [hPN]; omega) q (Nat.le_refl _)
    rw [List.take_of_length_le (by omega)] at this
    simp only [List.map_map, List.flatMap_def] at hv this
    rw [show (fun j => List.take mb (List.drop (mb * j)
      (permAt R N g e ++ List.replicate (q * mb - N) 0))) = _ from rfl] at this
    simp only [Function.comp_def] at hv
    rw [this] at hv
    simpa only [List.map_map, Function.comp_def] using hv
  · intro e j hj m hm
    have hlt : e * q + j < os.length * cs := by
      by_contra hge
      rw [List.getElem?_eq_none (by omega)] at hm; simp at hm
    rw [hmask, List.getElem?_map, ← hsel, List.getElem?_map, List.getElem?_range hlt] at hm
    simp only [Option.map_some, Option.some.injEq, epochBatch, ← hq, hmod e j (by omega)] at hm
    rw [← hm]
    have h1 := ceilDiv_pred hmb (j := j + 1) (N := N) (by omega)
    rw [mask_range_eq]
    have : N - j * mb ≥ mb := by rw [Nat.add_mul] at h1; omega
    rw [Nat.min_eq_left this, Nat.sub_eq_zero_of_le this]; simp

/-- **C02.** On a chain that shuffles in epochs every `get_batches` succeeds and for every epoch
(block of `q = ⌈N/mb⌉` mini-batches) there is a permutation of all observations such that, for all
arrays of the dataset simultaneously, the entries with mask `true` are exactly the observations in
the order of this permutation; all mini-batches but the last of an epoch are fully valid. -/
theorem c02_in_epochs (hs : Reachable R data s) (hR : R.Lawful) {cs mb cid : Nat}
    {seed : Option Nat} {s' : LSys σ ρ}
    (hreg : lstep R s (.regRandom cs mb true true seed) = (s', .registered cid))
    (hcs : 0 < cs) (ops : List LOp) (hl : ∀ op ∈ ops, isLoad cid op = false) :
    let os := outcomes cid (lrun R s' ops).2
    let q := (s.loader.obsCount + mb - 1) / mb
    (∀ o ∈ os, ∃ b, o = .batches b) ∧
    (masks os).length = os.length * cs ∧
    (∀ e, e * q + q ≤ (masks os).length →
      ∃ p : List Nat, p.Perm (List.range s.loader.obsCount) ∧
        ∀ name d, data.lookup name = some d →
          RowsOf d p (valid (((miniBatches name os).drop (e * q)).take q).flatten
            (((masks os).drop (e * q)).take q).flatten)) ∧
    (∀ e j, j + 1 < q → ∀ m, (masks os)[e * q + j]? = some m → m = List.replicate mb true) := by
  intro os q
  obtain ⟨h1, h2, h3, h4⟩ := in_epochs_strong R hs hR hreg hcs ops hl
  exact ⟨h1, h2, fun e he => ⟨_, permAt_perm R _ _ hR e, h3 e he⟩, h4⟩

/-- The hypotheses of C02 are met. -/
example : (lstep toyRng toySys (.regRandom 2 2 true true (some 1))).2 = .registered 0 ∧
    miniBatches "x" (outcomes 0 (lrun toyRng (lstep toyRng toySys (.regRandom 2 2 true true (some 1))).1
      [.get 0, .regOrdered 1 2, .get 1, .get 0]).2) = [[11, 12], [13, 14], [10, 10], [12, 13]] ∧
    masks (outcomes 0 (lrun toyRng (lstep toyRng toySys (.regRandom 2 2 true true (some 1))).1
      [.get 0, .get 0]).2) = [[true, true], [true, true], [true, false], [true, true]] := by
  refine ⟨by decide, by decide, by decide⟩

/-! ## C03 -/

/-- C03 with the permutations that are used (needed again for C81). -/
theorem shuffle_strong (hs : Reachable R data s) (hR : R.Lawful) {cs mb cid : Nat}
    {seed : Option Nat} {s' : LSys σ ρ}
    (hreg : lstep R s (.regRandom cs mb false true seed) = (s', .registered cid))
    (hcs : 0 < cs) (ops : List LOp) (hl : ∀ op ∈ ops, isLoad cid op = false) :
    let os := outcomes cid (lrun R s' ops).2
    (∀ o ∈ os, ∃ b, o = .batches b) ∧
    (∀ m ∈ masks os, m = List.replicate mb true) ∧
    ∃ e : Nat,
      ∃ drawn : List Nat, drawn <+: ((List.range e).map
          (permAt R s.loader.obsCount (R.seed (seed.getD cid)))).flatten ∧ drawn.length = os.length * cs * mb ∧
        ∀ name d, data.lookup name = some d → RowsOf d drawn (miniBatches name os).flatten := by
  intro os
  obtain ⟨rfl, hmb, hmbN, _, hch, hdat, hobs, _⟩ := registered_random hreg
  have hs' : Reachable R data s' := by
    have := hs.step R [.regRandom cs mb false true seed]
    simpa [lrun, hreg] using this
  obtain ⟨sel, ⟨c', hsel⟩, hlen, hok, hmask, hrows⟩ := stream_facts R hs' hR _ _ hch hcs ops hl
  rw [hobs] at hsel
  set N := s.loader.obsCount with hN
  set g := R.seed (seed.getD s.loader.chains.length) with hg
  obtain ⟨sel', c1, q', e', h1, h2, _, _, h5⟩ := shuffle_steps R N g hR (os.length * cs)
    (newRandom R N s.loader.chains.length cs mb false true seed) [] [] 0 hmb hmbN rfl rfl
    ⟨rfl, Or.inl ⟨rfl, rfl⟩⟩ rfl (by simp)
  change indexSteps R N (os.length * cs) _ = _ at hsel
  rw [h1] at hsel
  simp only [Except.ok.injEq, Prod.mk.injEq] at hsel
  obtain ⟨rfl, _⟩ := hsel
  change masks os = _ at hmask
  have hlen' : sel'.length = os.length * cs := hlen
  refine ⟨hok, ?_, e', sel'.flatMap (·.1), ?_, ?_, ?_⟩
  · intro m hm
    rw [hmask] at hm
    obtain ⟨x, hx, rfl⟩ := List.mem_map.1 hm
    exact (h2 x hx).2
  · rw [← List.flatMap_def, ← h5]; simp
  · rw [List.length_flatMap, ← hlen']
    have hm : sel'.map (fun x => x.1.length) = List.replicate sel'.length mb := by
      rw [List.eq_replicate_iff]
      refine ⟨by simp, ?_⟩
      intro b hb
      obtain ⟨x, hx, rfl⟩ := List.mem_map.1 hb
      exact (h2 x hx).1
    rw [hm]; simp
  · intro name d hd
    have := rowsOf_flatten (hrows name d hd)
    rwa [← List.flatMap_def] at this

/-- **C03.** On a shuffling chain all observations ever delivered, read in order, are a prefix of a
concatenation of permutations of the dataset (for all arrays with the same permutations), and all
masks are `true`. -/
theorem c03_shuffle (hs : Reachable R data s) (hR : R.Lawful) {cs mb cid : Nat}
    {seed : Option Nat} {s' : LSys σ ρ}
    (hreg : lstep R s (.regRandom cs mb false true seed) = (s', .registered cid))
    (hcs : 0 < cs) (ops : List LOp) (hl : ∀ op ∈ ops, isLoad cid op = false) :
    let os := outcomes cid (lrun R s' ops).2
    (∀ o ∈ os, ∃ b, o = .batches b) ∧
    (∀ m ∈ masks os, m = List.replicate mb true) ∧
    ∃ perms : List (List Nat), (∀ p ∈ perms, p.Perm (List.range s.loader.obsCount)) ∧
      ∃ drawn : List Nat, drawn <+: perms.flatten ∧ drawn.length = os.length * cs * mb ∧
        ∀ name d, data.lookup name = some d → RowsOf d drawn (miniBatches name os).flatten := by
  intro os
  obtain ⟨h1, h2, e, h3⟩ := shuffle_strong R hs hR hreg hcs ops hl
  refine ⟨h1, h2, _, ?_, h3⟩
  intro p hp
  obtain ⟨e, _, rfl⟩ := List.mem_map.1 hp
  exact permAt_perm R _ _ hR e

/-- The hypotheses of C03 are met. -/
example : (lstep toyRng toySys (.regRandom 1 3 false true (some 1))).2 = .registered 0 ∧
    miniBatches "x" (outcomes 0 (lrun toyRng (lstep toyRng toySys (.regRandom 1 3 false true (some 1))).1
      [.get 0, .regOrdered 1 2, .get 1, .get 0, .get 0, .get 0]).2) =
      [[11, 12, 13], [14, 10, 12], [13, 14, 10], [11, 13, 14]] := by
  refine ⟨by decide, by decide⟩

/-! ## C04 -/

/-- **C04.** In every reachable state of a loader, `get_batches` on any chain either fails because the
chain is unknown (`IndexError`) or was registered with cache size zero (`ValueError`), or returns
batches of one shape consisting of rows of the dataset, the same observations in all arrays. -/
theorem c04_answer (hs : Reachable R data s) (hR : R.Lawful) (cid : Nat) :
    (lstep R s (.get cid)).2 = .raised .indexError ∨
    (lstep R s (.get cid)).2 = .raised .valueError ∨
    ∃ cs mb b, 0 < cs ∧ mb ≤ s.loader.obsCount ∧
      (lstep R s (.get cid)).2 = .batches b ∧ IsAnswer data cs mb b := by
  obtain ⟨hd, hwf⟩ := hs.data
  have hg := hs.good R hR
  cases hc : s.loader.chains[cid]? with
  | none => left; simp [lstep, getBatches, hc]
  | some c =>
    obtain ⟨g1, _, _⟩ := lstep_get R s cid c hc
    rw [g1, hd]
    have hgc := hg.chains c (List.mem_of_getElem? hc)
    obtain ⟨_, _, _, h | ⟨h0, b, hb, hi⟩⟩ := chainGet_good R hR data s.loader.obsCount hwf c hgc
    · right; left; exact h.2
    · right; right
      refine ⟨_, _, b, h0, ?_, hb, hi⟩
      cases c with
      | random c => exact hgc.mbLe
      | ordered c => exact hgc

/-- **C04.** A chain registered for `cs` batches of `mb` observations and never restored delivers
exactly this shape in every call, whatever else happens with the loader. -/
theorem c04_registered_shape (hs : Reachable R data s) (hR : R.Lawful) {cs mb cid : Nat}
    {reg : LOp} {s' : LSys σ ρ} (hreg : lstep R s reg = (s', .registered cid))
    (hkind : reg = .regOrdered cs mb ∨ ∃ ie sh seed, reg = .regRandom cs mb ie sh seed)
    (hcs : 0 < cs) (ops : List LOp) (hl : ∀ op ∈ ops, isLoad cid op = false) :
    ∀ o ∈ outcomes cid (lrun R s' ops).2, ∃ b, o = .batches b ∧ IsAnswer data cs mb b := by
  have hs' : Reachable R data s' := by
    have := hs.step R [reg]
    simpa [lrun, hreg] using this
  obtain ⟨hd, hwf⟩ := hs'.data
  have main : ∀ c : Chain σ, s'.loader.chains[cid]? = some c → c.cacheSize = cs → c.mbSize = mb →
      ∀ o ∈ outcomes cid (lrun R s' ops).2, ∃ b, o = .batches b ∧ IsAnswer data cs mb b := by
    intro c hc h1 h2
    rw [(outcomes_eq_chainGets R cid ops s' c hc hl).1, hd, ← h1, ← h2]
    exact chainGets_good R hR data _ hwf _ c
      ((hs'.good R hR).chains c (List.mem_of_getElem? hc)) (by omega)
  rcases hkind with rfl | ⟨ie, sh, seed, rfl⟩
  · obtain ⟨_, _, hch, _⟩ := registered_ordered hreg
    exact main _ hch rfl rfl
  · obtain ⟨_, _, _, _, hch, _⟩ := registered_random hreg
    exact main _ hch rfl rfl

example : ∃ b, outcomes 0 (lrun toyRng (lstep toyRng toySys (.regRandom 2 3 false false (some 2))).1
      [.get 0]).2 = [.batches b] ∧ b.obs = [("x", [[12, 12, 12], [13, 13, 13]]),
        ("y", [[22, 22, 22], [23, 23, 23]])] := by
  refine ⟨⟨[("x", [[12, 12, 12], [13, 13, 13]]), ("y", [[22, 22, 22], [23, 23, 23]])],
    [[true, true, true], [true, true, true]]⟩, by decide, rfl⟩

/-! ## C05 -/

/-- Mini-batches of chains with the same options but different cache sizes. -/
theorem cache_transparent (hR : R.Lawful) {s₁ s₂ : LSys σ ρ} (hs₁ : Reachable R data s₁)
    (hs₂ : Reachable R data s₂) (hN : s₁.loader.obsCount = s₂.loader.obsCount)
    (cid₁ cid₂ : Nat) (c : Chain σ) (cs₁ cs₂ : Nat)
    (hc₁ : s₁.loader.chains[cid₁]? = some (c.withCache cs₁))
    (hc₂ : s₂.loader.chains[cid₂]? = some (c.withCache cs₂))
    (h₁ : 0 < cs₁) (h₂ : 0 < cs₂) (ops₁ ops₂ : List LOp)
    (hl₁ : ∀ op ∈ ops₁, isLoad cid₁ op = false) (hl₂ : ∀ op ∈ ops₂, isLoad cid₂ op = false)
    (hle : (masks (outcomes cid₁ (lrun R s₁ ops₁).2)).length ≤
      (masks (outcomes cid₂ (lrun R s₂ ops₂).2)).length) :
    masks (outcomes cid₁ (lrun R s₁ ops₁).2) <+: masks (outcomes cid₂ (lrun R s₂ ops₂).2) ∧
    ∀ name d, data.lookup name = some d →
      miniBatches name (outcomes cid₁ (lrun R s₁ ops₁).2) <+:
        miniBatches name (outcomes cid₂ (lrun R s₂ ops₂).2) := by
  have hw : ∀ cs, (c.withCache cs).cacheSize = cs := by intro cs; cases c <;> rfl
  obtain ⟨sel₁, ⟨c₁', e₁⟩, l₁, _, m₁, r₁⟩ := stream_facts R hs₁ hR cid₁ _ hc₁ (by rw [hw]; exact h₁) ops₁ hl₁
  obtain ⟨sel₂, ⟨c₂', e₂⟩, l₂, _, m₂, r₂⟩ := stream_facts R hs₂ hR cid₂ _ hc₂ (by rw [hw]; exact h₂) ops₂ hl₂
  rw [hw] at e₁ e₂ l₁ l₂
  rw [m₁, m₂] at hle
  simp only [List.length_map] at hle
  obtain ⟨k, hk⟩ := Nat.exists_eq_add_of_le (l₁ ▸ l₂ ▸ hle)
  rw [hk, ← hN] at e₂
  obtain ⟨xs, ys, c1, i1, _, i3⟩ := indexSteps_split R _ _ _ _ _ _ e₂
  rw [indexSteps_withCache] at i1 e₁
  cases hc : indexSteps R s₁.loader.obsCount ((outcomes cid₁ (lrun R s₁ ops₁).2).length * cs₁) c with
  | error e => rw [hc] at i1; simp at i1
  | ok r =>
    rw [hc] at i1 e₁
    simp only [Except.ok.injEq, Prod.mk.injEq] at i1 e₁
    have hx : xs = sel₁ := i1.1.symm.trans e₁.1
    subst hx
    subst i3
    refine ⟨by rw [m₁, m₂]; simp, ?_⟩
    intro name d hd
    have f1 := r₁ name d hd
    have f2 := r₂ name d hd
    rw [List.map_append] at f2
    have hu := List.forall₂_take (xs.map (·.1)).length f2
    rw [List.take_left] at hu
    have huv := (List.take_append_drop (xs.map (·.1)).length
      (miniBatches name (outcomes cid₂ (lrun R s₂ ops₂).2))).symm
    generalize List.take (xs.map (·.1)).length
      (miniBatches name (outcomes cid₂ (lrun R s₂ ops₂).2)) = u at hu huv
    have : u = miniBatches name (outcomes cid₁ (lrun R s₁ ops₁).2) := by
      have key : ∀ (idx : List (List Nat)) (a b : List (List ρ)), List.Forall₂ (RowsOf d) idx a →
          List.Forall₂ (RowsOf d) idx b → a = b := by
        intro idx a b ha
        induction ha generalizing b with
        | nil => intro hb; cases hb; rfl
        | cons h _ ih =>
          intro hb
          cases hb with
          | cons h' hb' =>
            rw [ih _ hb']
            congr 1
            exact List.map_injective_iff.2 (Option.some_injective ρ) (h.trans h'.symm)
      exact key _ _ _ hu f1
    rw [huv, this]
    simp

/-- **C05.** Two random chains with the same options and seed but different cache sizes (possibly of
different loaders for the same data, with different histories around them) deliver the same sequence
of mini-batches and masks: the shorter sequence is a prefix of the longer one. -/
theorem c05_cache_random (hR : R.Lawful) {s₁ s₂ s₁' s₂' : LSys σ ρ} (hs₁ : Reachable R data s₁)
    (hs₂ : Reachable R data s₂) (hN : s₁.loader.obsCount = s₂.loader.obsCount)
    {cs₁ cs₂ mb cid₁ cid₂ seed : Nat} {ie sh : Bool}
    (hreg₁ : lstep R s₁ (.regRandom cs₁ mb ie sh (some seed)) = (s₁', .registered cid₁))
    (hreg₂ : lstep R s₂ (.regRandom cs₂ mb ie sh (some seed)) = (s₂', .registered cid₂))
    (h₁ : 0 < cs₁) (h₂ : 0 < cs₂) (ops₁ ops₂ : List LOp)
    (hl₁ : ∀ op ∈ ops₁, isLoad cid₁ op = false) (hl₂ : ∀ op ∈ ops₂, isLoad cid₂ op = false)
    (hle : (masks (outcomes cid₁ (lrun R s₁' ops₁).2)).length ≤
      (masks (outcomes cid₂ (lrun R s₂' ops₂).2)).length) :
    masks (outcomes cid₁ (lrun R s₁' ops₁).2) <+: masks (outcomes cid₂ (lrun R s₂' ops₂).2) ∧
    ∀ name d, data.lookup name = some d →
      miniBatches name (outcomes cid₁ (lrun R s₁' ops₁).2) <+:
        miniBatches name (outcomes cid₂ (lrun R s₂' ops₂).2) := by
  have hr₁ : Reachable R data s₁' := by
    simpa [lrun, hreg₁] using hs₁.step R [.regRandom cs₁ mb ie sh (some seed)]
  have hr₂ : Reachable R data s₂' := by
    simpa [lrun, hreg₂] using hs₂.step R [.regRandom cs₂ mb ie sh (some seed)]
  obtain ⟨_, _, _, _, hch₁, _, ho₁, _⟩ := registered_random hreg₁
  obtain ⟨_, _, _, _, hch₂, _, ho₂, _⟩ := registered_random hreg₂
  refine cache_transparent R hR hr₁ hr₂ (by omega) cid₁ cid₂
    (.random (newRandom R s₁.loader.obsCount 0 0 mb ie sh (some seed))) cs₁ cs₂ hch₁ ?_ h₁ h₂ ops₁ ops₂
    hl₁ hl₂ hle
  rw [hch₂, hN]; rfl

/-- **C05.** The same for ordered chains. -/
theorem c05_cache_ordered (hR : R.Lawful) {s₁ s₂ s₁' s₂' : LSys σ ρ} (hs₁ : Reachable R data s₁)
    (hs₂ : Reachable R data s₂) (hN : s₁.loader.obsCount = s₂.loader.obsCount)
    {cs₁ cs₂ mb cid₁ cid₂ : Nat}
    (hreg₁ : lstep R s₁ (.regOrdered cs₁ mb) = (s₁', .registered cid₁))
    (hreg₂ : lstep R s₂ (.regOrdered cs₂ mb) = (s₂', .registered cid₂))
    (h₁ : 0 < cs₁) (h₂ : 0 < cs₂) (ops₁ ops₂ : List LOp)
    (hl₁ : ∀ op ∈ ops₁, isLoad cid₁ op = false) (hl₂ : ∀ op ∈ ops₂, isLoad cid₂ op = false)
    (hle : (masks (outcomes cid₁ (lrun R s₁' ops₁).2)).length ≤
      (masks (outcomes cid₂ (lrun R s₂' ops₂).2)).length) :
    masks (outcomes cid₁ (lrun R s₁' ops₁).2) <+: masks (outcomes cid₂ (lrun R s₂' ops₂).2) ∧
    ∀ name d, data.lookup name = some d →
      miniBatches name (outcomes cid₁ (lrun R s₁' ops₁).2) <+:
        miniBatches name (outcomes cid₂ (lrun R s₂' ops₂).2) := by
  have hr₁ : Reachable R data s₁' := by
    simpa [lrun, hreg₁] using hs₁.step R [.regOrdered cs₁ mb]
  have hr₂ : Reachable R data s₂' := by
    simpa [lrun, hreg₂] using hs₂.step R [.regOrdered cs₂ mb]
  obtain ⟨_, _, hch₁, _, ho₁, _⟩ := registered_ordered hreg₁
  obtain ⟨_, _, hch₂, _, ho₂, _⟩ := registered_ordered hreg₂
  exact cache_transparent R hR hr₁ hr₂ (by omega) cid₁ cid₂ (.ordered ⟨0, mb, 0⟩) cs₁ cs₂ hch₁ hch₂
    h₁ h₂ ops₁ ops₂ hl₁ hl₂ hle

/-- The hypotheses of C05 are met: cache sizes 1 and 3. -/
example :
    let t₁ := (lstep toyRng toySys (.regRandom 1 2 false true (some 3))).1
    let t₂ := (lstep toyRng toySys (.regRandom 3 2 false true (some 3))).1
    (masks (outcomes 0 (lrun toyRng t₁ [.get 0, .get 0]).2)).length ≤
      (masks (outcomes 0 (lrun toyRng t₂ [.get 0]).2)).length ∧
    miniBatches "x" (outcomes 0 (lrun toyRng t₁ [.get 0, .get 0]).2) = [[13, 14], [10, 11]] ∧
    miniBatches "x" (outcomes 0 (lrun toyRng t₂ [.get 0]).2) = [[13, 14], [10, 11], [12, 14]] := by
  refine ⟨by decide, by decide, by decide⟩

/-! ## C06 and C07 -/

theorem lrun_ckpt_unchanged (ops : List LOp) (h : Nat) (s : LSys σ ρ)
    (hh : ∀ op ∈ ops, handle? op ≠ some h) : (lrun R s ops).1.ckpts h = s.ckpts h := by
  induction ops generalizing s with
  | nil => rfl
  | cons op ops ih =>
    have h1 := ih (lstep R s op).1 (fun o ho => hh o (List.mem_cons_of_mem _ ho))
    have h2 := hh op List.mem_cons_self
    rw [lrun, h1]
    cases op with
    | regRandom => simp only [lstep]; split <;> rfl
    | regOrdered => simp only [lstep]; split <;> rfl
    | get => rfl
    | save c k =>
      have hne : h ≠ k := fun e => h2 (by rw [e]; rfl)
      simp only [lstep]; split
      · rfl
      · simp [setCkpt, hne]
    | load c k =>
      have hne : h ≠ k := fun e => h2 (by rw [e]; rfl)
      simp only [lstep]; split
      · rfl
      · simp [setCkpt, hne]

/-- Loading what was saved restores the chain. -/
theorem load_saved (t : LSys σ ρ) (cid h : Nat) (c c' : Chain σ) (L₀ : Loader σ ρ) (cid₀ : Nat)
    (hsv : L₀.chains[cid₀]? = some c) (hck : t.ckpts h = (saveState L₀ cid₀).toOption)
    (hc' : t.loader.chains[cid]? = some c') (hk : c'.kind = c.kind) :
    (lstep R t (.load cid h)).2 = .loaded ∧
    (lstep R t (.load cid h)).1.loader.chains[cid]? = some c ∧
    (lstep R t (.load cid h)).1.ckpts h = some [] := by
  have hlt : cid < t.loader.chains.length := by
    by_contra hge
    rw [List.getElem?_eq_none (by omega)] at hc'; simp at hc'
  cases c with
  | random c =>
    simp only [saveState, hsv, Except.toOption] at hck
    cases c' with
    | ordered c' => simp [Chain.kind] at hk
    | random c' =>
      simp only [lstep, hck, loadState, List.getLast?_singleton, hc', List.dropLast_singleton]
      exact ⟨trivial, List.getElem?_set_self hlt, by simp [setCkpt]⟩
  | ordered c =>
    simp only [saveState, hsv, Except.toOption] at hck
    cases c' with
    | random c' => simp [Chain.kind] at hk
    | ordered c' =>
      simp only [lstep, hck, loadState, List.getLast?_singleton, hc', List.dropLast_singleton]
      refine ⟨trivial, ?_, by simp [setCkpt]⟩
      rw [List.getElem?_set_self hlt]
      simp only [Chain.kind, Option.some.injEq, Prod.mk.injEq] at hk
      obtain ⟨a, b⟩ := hk
      cases c; cases c'; simp_all

theorem saved_inv {s : LSys σ ρ} {cid h : Nat} (hsv : (lstep R s (.save cid h)).2 = .saved) :
    ∃ c, s.loader.chains[cid]? = some c ∧ (lstep R s (.save cid h)).1.loader = s.loader ∧
      (lstep R s (.save cid h)).1.ckpts h = (saveState s.loader cid).toOption ∧
      (∀ k, k ≠ h → (lstep R s (.save cid h)).1.ckpts k = s.ckpts k) := by
  cases hc : s.loader.chains[cid]? with
  | none => simp [lstep, saveState, hc] at hsv
  | some c =>
    refine ⟨c, rfl, ?_, ?_, ?_⟩
    · cases c <;> simp [lstep, saveState, hc]
    · cases c <;> simp [lstep, saveState, hc, setCkpt, Except.toOption]
    · intro k hk; cases c <;> simp [lstep, saveState, hc, setCkpt, hk]

/-- **C06.** Save a chain in any reachable state, perform any operations (drawing, registering,
restoring, also on the same chain; only the checkpoint variable itself is not used), then load the
checkpoint: loading succeeds and from then on every history gives the same batches on this chain as
the original state would have given. -/
theorem c06_resume (cid h : Nat) (hsv : (lstep R s (.save cid h)).2 = .saved)
    (between : List LOp) (hb : ∀ op ∈ between, handle? op ≠ some h)
    (later : List LOp) (hl : ∀ op ∈ later, isLoad cid op = false) :
    let t := (lrun R (lstep R s (.save cid h)).1 between).1
    (lstep R t (.load cid h)).2 = .loaded ∧
    outcomes cid (lrun R (lstep R t (.load cid h)).1 later).2 = outcomes cid (lrun R s later).2 := by
  intro t
  obtain ⟨c, hc, hL, hck, _⟩ := saved_inv R hsv
  obtain ⟨c', hc', hk⟩ := lrun_kind R (lstep R s (.save cid h)).1 between cid c (by rw [hL]; exact hc)
  have hckt : t.ckpts h = (saveState s.loader cid).toOption := by
    rw [lrun_ckpt_unchanged R between h _ hb, hck]
  obtain ⟨l1, l2, _⟩ := load_saved R t cid h c c' s.loader cid hc hckt hc' hk
  refine ⟨l1, ?_⟩
  have hdt : t.loader.data = s.loader.data ∧ t.loader.obsCount = s.loader.obsCount := by
    have := lrun_data R (lstep R s (.save cid h)).1 between
    rwa [hL] at this
  have hdl := lstep_data R t (.load cid h)
  rw [(outcomes_eq_chainGets R cid later _ c l2 hl).1, (outcomes_eq_chainGets R cid later s c hc hl).1,
    hdl.1, hdl.2, hdt.1, hdt.2]

/-- **C06.** A checkpoint can also be restored into a chain of another loader (e.g. of a new process)
for the same data, if the chain was registered by the same call. -/
theorem c06_resume_elsewhere {s₀ t₀ s₁ t₁ : LSys σ ρ} (hs : Reachable R data s₀)
    (ht : Reachable R data t₀) (hN : s₀.loader.obsCount = t₀.loader.obsCount) {reg : LOp}
    {cid cid' : Nat}
    (hregs : lstep R s₀ reg = (s₁, .registered cid)) (hregt : lstep R t₀ reg = (t₁, .registered cid'))
    (opss opst later later' : List LOp) (h k : Nat)
    (hsv : (lstep R (lrun R s₁ opss).1 (.save cid h)).2 = .saved)
    (hck : (lrun R t₁ opst).1.ckpts k = (lstep R (lrun R s₁ opss).1 (.save cid h)).1.ckpts h)
    (hl : ∀ op ∈ later, isLoad cid op = false) (hl' : ∀ op ∈ later', isLoad cid' op = false)
    (hcount : (outcomes cid (lrun R (lrun R s₁ opss).1 later).2).length =
      (outcomes cid' (lrun R (lstep R (lrun R t₁ opst).1 (.load cid' k)).1 later').2).length) :
    (lstep R (lrun R t₁ opst).1 (.load cid' k)).2 = .loaded ∧
    outcomes cid' (lrun R (lstep R (lrun R t₁ opst).1 (.load cid' k)).1 later').2 =
      outcomes cid (lrun R (lrun R s₁ opss).1 later).2 := by
  set s := (lrun R s₁ opss).1 with hsdef
  set t := (lrun R t₁ opst).1 with htdef
  obtain ⟨c, hc, hL, hck0, _⟩ := saved_inv R hsv
  rw [hck0] at hck
  -- kinds
  have hkinds : ∃ ks : Chain σ, ∃ kt : Chain σ, s₁.loader.chains[cid]? = some ks ∧
      t₁.loader.chains[cid']? = some kt ∧ ks.kind = kt.kind := by
    cases reg with
    | regRandom cs mb ie sh seed =>
      obtain ⟨_, _, _, _, h1, _⟩ := registered_random hregs
      obtain ⟨_, _, _, _, h2, _⟩ := registered_random hregt
      exact ⟨_, _, h1, h2, rfl⟩
    | regOrdered cs mb =>
      obtain ⟨_, _, h1, _⟩ := registered_ordered hregs
      obtain ⟨_, _, h2, _⟩ := registered_ordered hregt
      exact ⟨_, _, h1, h2, rfl⟩
    | get c =>
      simp only [lstep, Prod.mk.injEq] at hregs
      have := hregs.2
      split at this <;> simp at this
    | save c h => simp only [lstep] at hregs; split at hregs <;> simp at hregs
    | load c h =>
      simp only [lstep] at hregs
      split at hregs
      · simp at hregs
      · simp only [Prod.mk.injEq] at hregs
        have := hregs.2
        split at this <;> simp at this
  obtain ⟨ks, kt, e1, e2, e3⟩ := hkinds
  obtain ⟨c1, f1, f2⟩ := lrun_kind R s₁ opss cid ks e1
  obtain ⟨c2, f3, f4⟩ := lrun_kind R t₁ opst cid' kt e2
  have hcc : c1 = c := by rw [← hsdef, hc] at f1; exact (Option.some.inj f1).symm
  subst hcc
  obtain ⟨l1, l2, _⟩ := load_saved R t cid' k c1 c2 s.loader cid hc hck f3
    (by rw [f4, f2, e3])
  refine ⟨l1, ?_⟩
  have hdl := lstep_data R t (.load cid' k)
  have hds := lrun_data R s₁ opss
  have hdt := lrun_data R t₁ opst
  have hds0 := lstep_data R s₀ reg
  have hdt0 := lstep_data R t₀ reg
  rw [hregs] at hds0
  rw [hregt] at hdt0
  rw [outcomes_length, outcomes_length] at hcount
  rw [(outcomes_eq_chainGets R cid' later' _ c1 l2 hl').1,
    (outcomes_eq_chainGets R cid later s c1 hc hl).1, hdl.1, hdl.2, hcount,
    hds.1, hds.2, hdt.1, hdt.2, hds0.1, hds0.2, hdt0.1, hdt0.2, hs.data.1, ht.data.1, hN]

/-- The hypotheses of C06 are met: save after one batch, draw two more, restore. -/
example :
    let t := (lstep toyRng toySys (.regRandom 1 3 false true (some 1))).1
    let t' := (lrun toyRng t [.get 0]).1
    (lstep toyRng t' (.save 0 7)).2 = .saved ∧
    outcomes 0 (lrun toyRng t' [.get 0]).2 =
      outcomes 0 (lrun toyRng (lrun toyRng t' [.save 0 7, .get 0, .get 0, .load 0 7]).1 [.get 0]).2 ∧
    outcomes 0 (lrun toyRng t' [.get 0]).2 ≠
      outcomes 0 (lrun toyRng (lrun toyRng t' [.save 0 7, .get 0, .get 0]).1 [.get 0]).2 := by
  refine ⟨by decide, by decide, by decide⟩

/-- **C07 is false of the code**: in *every* state, restoring the same checkpoint object a second time
raises a `KeyError` (`load_state` empties the dictionary with `popitem`), whatever happens in
between. -/
theorem c07_second_load_raises (cid h : Nat) (hsv : (lstep R s (.save cid h)).2 = .saved)
    (between between' : List LOp) (hb : ∀ op ∈ between, handle? op ≠ some h)
    (hb' : ∀ op ∈ between', handle? op ≠ some h) :
    let t := (lstep R (lrun R (lstep R s (.save cid h)).1 between).1 (.load cid h)).1
    (lstep R (lrun R t between').1 (.load cid h)).2 = .raised .keyError := by
  intro t
  obtain ⟨c, hc, hL, hck, _⟩ := saved_inv R hsv
  obtain ⟨c', hc', hk⟩ := lrun_kind R (lstep R s (.save cid h)).1 between cid c (by rw [hL]; exact hc)
  have hckt : (lrun R (lstep R s (.save cid h)).1 between).1.ckpts h =
      (saveState s.loader cid).toOption := by
    rw [lrun_ckpt_unchanged R between h _ hb, hck]
  obtain ⟨_, _, l3⟩ := load_saved R _ cid h c c' s.loader cid hc hckt hc' hk
  have : (lrun R t between').1.ckpts h = some [] := by
    rw [lrun_ckpt_unchanged R between' h _ hb', l3]
  simp [lstep, this, loadState]

/-- The full statement of C07 (restoring a checkpoint twice succeeds). -/
def C07Statement : Prop :=
  ∀ (R : Rng Nat), R.Lawful → ∀ (data : List (String × List Nat)) (s : LSys Nat Nat),
    Reachable R data s → ∀ cid h, (lstep R s (.save cid h)).2 = .saved →
      (lstep R (lrun R s [.save cid h, .load cid h]).1 (.load cid h)).2 = .loaded

/-- **C07 is false of the code** (concrete witness). -/
theorem c07_false : ¬ C07Statement := by
  intro h
  have h1 := h toyRng toyRng_lawful toyData (lrun toyRng toySys [.regOrdered 1 2]).1
    (Reachable.step toyRng ⟨toySys.loader, [], by rfl, rfl⟩ [.regOrdered 1 2]) 0 0 (by decide)
  revert h1; decide

/-- **C07, partial**: the first restore of a checkpoint succeeds and is exact (missing: further
restores from the same object, which raise). -/
theorem c07_first_load_partial (cid h : Nat) (hsv : (lstep R s (.save cid h)).2 = .saved)
    (between : List LOp) (hb : ∀ op ∈ between, handle? op ≠ some h) :
    let t := (lrun R (lstep R s (.save cid h)).1 between).1
    (lstep R t (.load cid h)).2 = .loaded ∧
      (lstep R t (.load cid h)).1.loader.chains[cid]? = s.loader.chains[cid]? := by
  intro t
  obtain ⟨c, hc, hL, hck, _⟩ := saved_inv R hsv
  obtain ⟨c', hc', hk⟩ := lrun_kind R (lstep R s (.save cid h)).1 between cid c (by rw [hL]; exact hc)
  have hckt : t.ckpts h = (saveState s.loader cid).toOption := by
    rw [lrun_ckpt_unchanged R between h _ hb, hck]
  obtain ⟨l1, l2, _⟩ := load_saved R t cid h c c' s.loader cid hc hckt hc' hk
  exact ⟨l1, by rw [l2, hc]⟩

/-! ## C08 -/

/-- **C08.** From its registration on, the history of a chain (all its operations with their
outcomes) in any history of the loader equals the history obtained by performing only the operations
on this chain.  (Checkpoint variables used for this chain are not used for other chains.) -/
theorem c08_isolation {cid : Nat} {reg : LOp} {s' : LSys σ ρ}
    (hreg : lstep R s reg = (s', .registered cid)) (ops : List LOp)
    (hh : ∀ op ∈ ops, ∀ op' ∈ ops, touches cid op = true → touches cid op' = false →
      ∀ h, handle? op = some h → handle? op' ≠ some h) :
    (lrun R s' ops).2.filter (fun x => touches cid x.1) =
      (lrun R s' (ops.filter (touches cid))).2 := by
  have hlt : cid < s'.loader.chains.length := by
    have key : ∃ c, s'.loader.chains[cid]? = some c := by
      cases reg with
      | regRandom cs mb ie sh seed => exact ⟨_, (registered_random hreg).2.2.2.2.1⟩
      | regOrdered cs mb => exact ⟨_, (registered_ordered hreg).2.2.1⟩
      | get c =>
        simp only [lstep, Prod.mk.injEq] at hreg
        have := hreg.2
        split at this <;> simp at this
      | save c h => simp only [lstep] at hreg; split at hreg <;> simp at hreg
      | load c h =>
        simp only [lstep] at hreg
        split at hreg
        · simp at hreg
        · simp only [Prod.mk.injEq] at hreg
          have := hreg.2
          split at this <;> simp at this
    obtain ⟨c, hc⟩ := key
    by_contra hge
    rw [List.getElem?_eq_none (by omega)] at hc; simp at hc
  refine (lrun_isolated R cid
    (fun h => ∃ op ∈ ops, touches cid op = true ∧ handle? op = some h) ops s' s'
    ⟨rfl, rfl, rfl, hlt, fun _ _ => rfl⟩ ?_ ?_).1
  · intro op hop ht h hh'
    exact ⟨op, hop, ht, hh'⟩
  · rintro op hop ht h hh' ⟨op', hop', ht', hh''⟩
    exact hh op' hop' op hop ht' ht h hh'' hh'

/-- The hypotheses of C08 are met by a history mixing two chains with checkpoints. -/
example :
    let t := (lrun toyRng toySys [.regRandom 1 2 false true (some 1), .regRandom 1 2 false true (some 2)]).1
    (lrun toyRng t [.get 0, .save 0 0, .get 1, .save 1 1, .get 1, .load 1 1, .get 0, .load 0 0, .get 0]).2.filter
      (fun x => touches 0 x.1) =
    (lrun toyRng t [.get 0, .save 0 0, .get 0, .load 0 0, .get 0]).2 := by
  decide

/-! ## C09 -/

/-- **C09.** Two random chains with equal options and equal seed (given, or by default the chain id)
deliver identical batches, for every history around them. -/
theorem c09_seed {s₁ s₂ s₁' s₂' : LSys σ ρ} (hs₁ : Reachable R data s₁)
    (hs₂ : Reachable R data s₂) (hN : s₁.loader.obsCount = s₂.loader.obsCount)
    {cs mb cid₁ cid₂ : Nat} {ie sh : Bool} {seed₁ seed₂ : Option Nat}
    (hreg₁ : lstep R s₁ (.regRandom cs mb ie sh seed₁) = (s₁', .registered cid₁))
    (hreg₂ : lstep R s₂ (.regRandom cs mb ie sh seed₂) = (s₂', .registered cid₂))
    (hseed : seed₁.getD cid₁ = seed₂.getD cid₂) (ops₁ ops₂ : List LOp)
    (hl₁ : ∀ op ∈ ops₁, isLoad cid₁ op = false) (hl₂ : ∀ op ∈ ops₂, isLoad cid₂ op = false)
    (hcount : (outcomes cid₁ (lrun R s₁' ops₁).2).length =
      (outcomes cid₂ (lrun R s₂' ops₂).2).length) :
    outcomes cid₁ (lrun R s₁' ops₁).2 = outcomes cid₂ (lrun R s₂' ops₂).2 := by
  obtain ⟨_, _, _, _, hch₁, hd₁, ho₁, _⟩ := registered_random hreg₁
  obtain ⟨_, _, _, _, hch₂, hd₂, ho₂, _⟩ := registered_random hreg₂
  rw [outcomes_length, outcomes_length] at hcount
  rw [(outcomes_eq_chainGets R cid₁ ops₁ s₁' _ hch₁ hl₁).1,
    (outcomes_eq_chainGets R cid₂ ops₂ s₂' _ hch₂ hl₂).1, hcount, hd₁, hd₂, ho₁, ho₂, hN,
    hs₁.data.1, hs₂.data.1]
  simp only [newRandom, hseed]

/-- The hypotheses of C09 are met: chain 1 without seed equals chain 0 of another loader with seed 1. -/
example :
    let t₁ := (lrun toyRng toySys [.regRandom 1 2 false true (some 9), .regRandom 1 2 false true none]).1
    let t₂ := (lrun toyRng toySys [.regRandom 1 2 false true (some 1)]).1
    outcomes 1 (lrun toyRng t₁ [.get 1, .get 0, .get 1]).2 = outcomes 0 (lrun toyRng t₂ [.get 0, .get 0]).2 ∧
    outcomes 1 (lrun toyRng t₁ [.get 1, .get 0, .get 1]).2 ≠ [] := by
  refine ⟨by decide, by decide⟩

/-! ## C10 -/

/-- **C10** (construction).  A data loader is constructed exactly if all arrays have the same length, which is its number
of observations (zero without arrays); otherwise `ValueError` is raised. -/
theorem c10_construct {σ ρ : Type} (data : List (String × List ρ)) :
    ((∃ x ∈ data, ∃ y ∈ data, x.2.length ≠ y.2.length) → mkLoader (σ := σ) data = .error .valueError) ∧
    (∀ N, (∀ x ∈ data, x.2.length = N) → (data = [] → N = 0) →
      mkLoader (σ := σ) data = .ok { data := data, obsCount := N, chains := [] }) := by
  cases data with
  | nil =>
    refine ⟨?_, ?_⟩
    · rintro ⟨x, hx, -⟩
      cases hx
    · intro N _ h
      rw [h rfl]
      rfl
  | cons d ds =>
    constructor
    · rintro ⟨x, hx, y, hy, hne⟩
      have : (d :: ds).any (fun x => x.2.length != d.2.length) = true := by
        rw [List.any_eq_true]
        by_cases h : x.2.length = d.2.length
        · exact ⟨y, hy, by simp only [bne_iff_ne, ne_eq]; omega⟩
        · exact ⟨x, hx, by simpa only [bne_iff_ne, ne_eq] using h⟩
      simp only [mkLoader, this, if_true]
    · intro N h _
      have hd := h d (by simp)
      have : ¬ (d :: ds).any (fun x => x.2.length != d.2.length) = true := by
        rw [List.any_eq_true]
        rintro ⟨x, hx, hne⟩
        have := h x hx
        simp only [bne_iff_ne, ne_eq] at hne
        omega
      simp only [mkLoader]
      rw [if_neg this, hd]

/-- Two arrays of different length. -/
example : mkLoader (σ := Unit) [("x", [1, 2]), ("y", [1])] = .error .valueError :=
  (c10_construct _).1 ⟨("x", [1, 2]), by simp, ("y", [1]), by simp, by decide⟩

/-- **C10.** Registration: too large batches, `in_epochs` without `shuffle` and (random) empty
batches are rejected without any effect; everything else is accepted. -/
theorem c10_register (cs mb : Nat) (ie sh : Bool) (seed : Option Nat) :
    (mb > s.loader.obsCount → lstep R s (.regRandom cs mb ie sh seed) = (s, .raised .valueError)) ∧
    (mb ≤ s.loader.obsCount → ie = true → sh = false →
      lstep R s (.regRandom cs mb ie sh seed) = (s, .raised .valueError)) ∧
    ((ie = true → sh = true) → mb = 0 →
      lstep R s (.regRandom cs mb ie sh seed) = (s, .raised .zeroDivisionError)) ∧
    (mb ≤ s.loader.obsCount → (ie = true → sh = true) → 0 < mb →
      ∃ s' cid, lstep R s (.regRandom cs mb ie sh seed) = (s', .registered cid)) ∧
    (mb > s.loader.obsCount → lstep R s (.regOrdered cs mb) = (s, .raised .assertionError)) ∧
    (mb ≤ s.loader.obsCount → ∃ s' cid, lstep R s (.regOrdered cs mb) = (s', .registered cid)) := by
  refine ⟨?_, ?_, ?_, ?_, ?_, ?_⟩
  · intro h; simp [lstep, registerRandom, h]
  · intro h h1 h2
    have : ¬ mb > s.loader.obsCount := by omega
    simp [lstep, registerRandom, this, h1, h2]
  · intro h h0
    subst h0
    have : ¬ (!sh && ie) = true := by
      cases ie <;> simp at h ⊢; exact h
    simp [lstep, registerRandom, this]
  · intro h h1 h0
    have h2 : ¬ mb > s.loader.obsCount := by omega
    have h3 : ¬ (!sh && ie) = true := by
      cases ie <;> simp at h1 ⊢; exact h1
    have h4 : mb ≠ 0 := by omega
    simp only [lstep, registerRandom, h2, h3, h4, if_false]
    exact ⟨_, _, rfl⟩
  · intro h
    have : ¬ mb ≤ s.loader.obsCount := by omega
    simp [lstep, registerOrdered, this]
  · intro h
    simp only [lstep, registerOrdered, h, if_true]
    exact ⟨_, _, rfl⟩

/-- **C10.** The ids handed out by a loader are `0, 1, 2, …` in this order, hence pairwise different,
and the k-th registered chain is the chain with id k, for every history of operations. -/
theorem c10_fresh_ids (L : Loader σ ρ) (hL : mkLoader data = .ok L) (ops : List LOp) :
    registeredIds (lrun R { loader := L, ckpts := fun _ => none } ops).2 =
      List.range (registeredIds (lrun R { loader := L, ckpts := fun _ => none } ops).2).length := by
  have gen : ∀ (ops : List LOp) (s : LSys σ ρ),
      registeredIds (lrun R s ops).2 =
        List.range' s.loader.chains.length (registeredIds (lrun R s ops).2).length := by
    intro ops
    induction ops with
    | nil => intro s; rfl
    | cons op ops ih =>
      intro s
      simp only [lrun]
      have ihs := ih (lstep R s op).1
      have same : (lstep R s op).1.loader.chains.length = s.loader.chains.length →
          (∀ c, (lstep R s op).2 ≠ .registered c) →
          registeredIds ((op, (lstep R s op).2) :: (lrun R (lstep R s op).1 ops).2) =
            List.range' s.loader.chains.length
              (registeredIds ((op, (lstep R s op).2) :: (lrun R (lstep R s op).1 ops).2)).length := by
        intro hl hr
        have : registeredIds ((op, (lstep R s op).2) :: (lrun R (lstep R s op).1 ops).2) =
            registeredIds (lrun R (lstep R s op).1 ops).2 := by
          cases hout : (lstep R s op).2 with
          | registered c => exact absurd hout (hr c)
          | _ => rfl
        rw [this, ← hl]; exact ihs
      cases op with
      | regRandom cs mb ie sh seed =>
        cases hr : registerRandom R s.loader cs mb ie sh seed with
        | error e => exact same (by simp [lstep, hr]) (by simp [lstep, hr])
        | ok r =>
          obtain ⟨h1, _, _, _, h2⟩ := registerRandom_spec R _ _ _ _ _ _ _ _ hr
          simp only [lstep, hr, registeredIds] at ihs ⊢
          rw [ihs, h2, h1]; simp [List.range'_succ]
      | regOrdered cs mb =>
        cases hr : registerOrdered s.loader cs mb with
        | error e => exact same (by simp [lstep, hr]) (by simp [lstep, hr])
        | ok r =>
          obtain ⟨h1, _, h2⟩ := registerOrdered_spec _ _ _ _ _ hr
          simp only [lstep, hr, registeredIds] at ihs ⊢
          rw [ihs, h2, h1]; simp [List.range'_succ]
      | get c =>
        refine same ?_ ?_
        · cases hcc : s.loader.chains[c]? with
          | none => simp [lstep, getBatches, hcc]
          | some ch => rw [(lstep_get R s c ch hcc).2.1]; simp
        · intro c'; simp only [lstep]; split <;> simp
      | save c h =>
        refine same ?_ ?_
        · simp only [lstep]; split <;> rfl
        · intro c'; simp only [lstep]; split <;> simp
      | load c h =>
        refine same ?_ ?_
        · simp only [lstep]
          split
          · rfl
          · simp only [loadState]
            split
            · rfl
            · split
              · rfl
              · split <;> simp
        · intro c'
          simp only [lstep]
          split
          · simp
          · simp only []; split <;> simp
  have := gen ops { loader := L, ckpts := fun _ => none }
  rwa [(mkLoader_spec data L hL).2.2.1, List.length_nil, ← List.range_eq_range'] at this

example : registeredIds (lrun toyRng toySys
    [.regOrdered 1 2, .regOrdered 1 6, .regRandom 1 2 true false none, .get 0, .regRandom 1 2 true true none]).2
    = [0, 1] := by decide

end

end JaxSgmc
