import Verif.Lemmas.Race
import Verif.Props.Scheduler
import Mathlib.Probability.Independence.InfinitePi
import Mathlib.Tactic.FinCases

/-!
# Property C159: the iterations selected by `random_thinning`
-/

namespace JaxSgmc

open MeasureTheory ProbabilityTheory Spec

/-- The beginning of a sorted list is a race. -/
theorem race_of_sorted (sc : ℕ → EReal) (z : ℕ → ℝ) (l rest : List ℕ) (S : Finset ℕ) (t : ℝ)
    (hsc : ∀ i ∈ S, ∀ j ∈ S, sc i ≤ sc j → z i ≤ z j)
    (hsorted : (l ++ rest).Pairwise (fun i j => sc i ≤ sc j)) (hnd : (l ++ rest).Nodup)
    (hS : ∀ i ∈ S, i ∈ l ++ rest) (hl : ∀ i ∈ l, i ∈ S) (ht : ∀ i ∈ S, t ≤ z i) :
    Race (fun a b => a ≤ b) S l t z := by
  induction l generalizing S t with
  | nil => exact ht
  | cons i l ih =>
    have hi := hl i (by simp)
    rw [List.cons_append, List.pairwise_cons] at hsorted
    rw [List.cons_append, List.nodup_cons] at hnd
    have hS' : ∀ j ∈ S.erase i, j ∈ l ++ rest := by
      intro j hj
      have h1 := hS j (Finset.mem_of_mem_erase hj)
      rcases List.mem_cons.1 h1 with h | h
      · exact absurd h (Finset.ne_of_mem_erase hj)
      · exact h
    refine ⟨ht i hi, ih (S.erase i) (z i) ?_ hsorted.2 hnd.2 hS' ?_ ?_⟩
    · intro a ha b hb
      exact hsc a (Finset.mem_of_mem_erase ha) b (Finset.mem_of_mem_erase hb)
    · intro j hj
      refine Finset.mem_erase.2 ⟨?_, hl j (List.mem_cons_of_mem _ hj)⟩
      rintro rfl
      exact hnd.1 (List.mem_append_left _ hj)
    · intro j hj
      exact hsc i hi j (Finset.mem_of_mem_erase hj) (hsorted.1 j (hS' j hj))

theorem race_lt_all (l : List ℕ) (S : Finset ℕ) (t : ℝ) (z : ℕ → ℝ)
    (h : Race (fun a b => a < b) S l t z) (j : ℕ) (hj : j ∈ S) : t < z j := by
  induction l generalizing S t with
  | nil => exact h j hj
  | cons i l ih =>
    by_cases hij : j = i
    · rw [hij]; exact h.1
    · exact lt_trans h.1 (ih (S.erase i) (z i) h.2 (Finset.mem_erase.2 ⟨hij, hj⟩))

theorem race_le_all (l : List ℕ) (S : Finset ℕ) (t : ℝ) (z : ℕ → ℝ)
    (h : Race (fun a b => a ≤ b) S l t z) (j : ℕ) (hj : j ∈ S) : t ≤ z j := by
  induction l generalizing S t with
  | nil => exact h j hj
  | cons i l ih =>
    by_cases hij : j = i
    · rw [hij]; exact h.1
    · exact le_trans h.1 (ih (S.erase i) (z i) h.2 (Finset.mem_erase.2 ⟨hij, hj⟩))

/-- Without ties the order of arrival is unique. -/
theorem race_unique (l l' : List ℕ) (S : Finset ℕ) (t t' : ℝ) (z : ℕ → ℝ)
    (h : Race (fun a b => a < b) S l t z) (h' : Race (fun a b => a ≤ b) S l' t' z)
    (hl : ∀ i ∈ l, i ∈ S) (hl' : ∀ i ∈ l', i ∈ S) (hnd : l.Nodup) (hnd' : l'.Nodup)
    (hlen : l.length = l'.length) : l = l' := by
  induction l generalizing S t t' l' with
  | nil => exact (List.length_eq_zero_iff.1 hlen.symm).symm
  | cons i l ih =>
    cases l' with
    | nil => simp at hlen
    | cons i' l' =>
      have hii : i = i' := by
        by_contra hne
        have h1 := race_lt_all l (S.erase i) (z i) z h.2 i'
          (Finset.mem_erase.2 ⟨fun e => hne e.symm, hl' i' (by simp)⟩)
        have h2 := race_le_all l' (S.erase i') (z i') z h'.2 i
          (Finset.mem_erase.2 ⟨hne, hl i (by simp)⟩)
        linarith
      subst hii
      rw [List.nodup_cons] at hnd hnd'
      congr 1
      apply ih l' (S.erase i) (z i) (z i) h.2 h'.2 _ _ hnd.2 hnd'.2 (by simpa using hlen)
      · exact fun j hj => Finset.mem_erase.2 ⟨fun e => hnd.1 (e ▸ hj), hl j (List.mem_cons_of_mem _ hj)⟩
      · exact fun j hj => Finset.mem_erase.2 ⟨fun e => hnd'.1 (e ▸ hj), hl' j (List.mem_cons_of_mem _ hj)⟩

section
variable {κ Ω Ks Kb σs σb : Type} [Inhabited Ks] [Inhabited Kb] [MeasurableSpace Ω]
  {prob : Measure Ω} [IsProbabilityMeasure prob]

open Classical in
/-- What `random_thinning` does with one realisation of the noise. -/
theorem thinning_race (gumbel : κ → ℕ → ℝ) (ss : ParamSched Ks σs XF) (bi : SelectSched Kb σb)
    (selections : ℕ) (key : κ) (its : ℕ) (kw : ThinKw κ) (s : σs) (hs : ss.init its default = .ok s)
    (b : σb) (nb : Int) (hb : bi.init its default = .ok (b, nb)) (p : ℕ → ℝ)
    (hp : ∀ i < its, 0 < p i ∧ ss.get (ParamAfter ss s (fun _ => none) i) i = .fin (p i))
    (hk : kw.selections.getD selections ≤ (availableIterations bi b its).length)
    (u : ℕ → ℝ) (hu : ∀ i, 0 < u i ∧ u i < 1)
    (hg : ∀ i, gumbel (kw.key.getD key) i = -Real.log (-Real.log (u i))) :
    ∃ c : List ℕ, (randomThinning gumbel ss bi selections key).init its kw =
        .ok (c, (kw.selections.getD selections : Int)) ∧ c.Nodup ∧
      c.length = kw.selections.getD selections ∧
      (∀ i ∈ c, i ∈ (availableIterations bi b its).toFinset) ∧
      Race (fun a b => a ≤ b) (availableIterations bi b its).toFinset c 0 (waiting p u) := by
  set k := kw.selections.getD selections with hkdef
  set good : ℕ → Bool := fun i => bi.get (SelectAfter bi b (fun _ => none) i) i with hgood
  set probs := thinningProbs ss bi its 0 s b with hprobs
  have hget := thinningProbs_get ss bi s b its 0
  simp only [ParamAfter, SelectAfter, Nat.zero_add, ← hprobs] at hget
  have hlen : probs.length = its := by rw [hget]; simp
  have hentry : ∀ i < its, probs[i]? = some (.fin (if good i then p i else 0)) := by
    intro i hi
    rw [hget]
    simp only [List.getElem?_map, List.getElem?_range hi, Option.map_some, (hp i hi).2, XF.mul, good]
    split_ifs <;> simp
  have hpos : PositiveSteps ss s its := fun i hi => ⟨p i, (hp i hi).1, (hp i hi).2⟩
  obtain ⟨t, h1, -, -⟩ := (c33_random_thinning gumbel ss bi selections key its kw s hs b nb hb hpos).1 hk
  have ht : t = choiceNoReplace gumbel (kw.key.getD key) probs k := by
    simp only [randomThinning, hs, hb, ← hprobs] at h1
    split at h1
    · simp at h1
    · simp only [Except.ok.injEq, Prod.mk.injEq] at h1
      exact h1.1.symm
  subst ht
  set c := choiceNoReplace gumbel (kw.key.getD key) probs k with hc
  obtain ⟨f1, f2, f3⟩ := choice_facts gumbel (kw.key.getD key) probs k
  have hkits : k ≤ its := by
    refine hk.trans ?_
    simp only [availableIterations]
    exact (List.length_filter_le _ _).trans (by simp)
  have hmem : ∀ i, i ∈ (availableIterations bi b its).toFinset ↔ i < its ∧ good i = true := by
    intro i; simp [availableIterations, good]
  have hscore : ∀ i < its, good i = true →
      choiceScore (gumbel (kw.key.getD key) i) ((probs[i]?).getD .nan) =
        ((Real.log (waiting p u i) : ℝ) : EReal) := by
    intro i hi hgi
    have hlog : 0 < -Real.log (u i) := by
      have := Real.log_neg (hu i).1 (hu i).2
      linarith
    simp only [hentry i hi, hgi, if_true, Option.getD_some, choiceScore, (hp i hi).1, hg]
    congr 1
    rw [waiting, Real.log_div hlog.ne' (hp i hi).1.ne']
    ring
  have hwpos : ∀ i, i < its → 0 < waiting p u i := by
    intro i hi
    have := Real.log_neg (hu i).1 (hu i).2
    exact div_pos (by linarith) (hp i hi).1
  have hgoodc : ∀ i ∈ c, i ∈ (availableIterations bi b its).toFinset := by
    intro i hi
    refine (hmem i).2 ⟨by have := f3 i hi; omega, ?_⟩
    refine choice_finite gumbel (kw.key.getD key) probs k good ?_ ?_ ?_ i hi
    · intro i hi hgi
      simp [hentry i (by omega), hgi, choiceScore]
    · intro i hi hgi
      rw [hscore i (by omega) hgi]
      exact EReal.coe_ne_top _
    · rw [hlen]; exact hk
  refine ⟨c, h1, f1, by rw [f2, hlen, Nat.min_eq_left hkits], hgoodc, ?_⟩
  set sc : ℕ → EReal := fun i => choiceScore (gumbel (kw.key.getD key) i) ((probs[i]?).getD .nan) with hsc
  set L := (List.range probs.length).mergeSort (fun i j => decide (sc i ≤ sc j)) with hL
  have hperm : L.Perm (List.range probs.length) := List.mergeSort_perm _ _
  have hcL : c = L.take k := rfl
  have hsorted : L.Pairwise (fun i j => sc i ≤ sc j) := by
    have := List.pairwise_mergeSort (le := fun i j => decide (sc i ≤ sc j))
      (by intro a b c h1 h2; simp only [decide_eq_true_eq] at *; exact le_trans h1 h2)
      (by intro a b; simp only [Bool.or_eq_true, decide_eq_true_eq]; exact le_total _ _)
      (List.range probs.length)
    simpa [hL] using this
  have happ : c ++ L.drop k = L := by rw [hcL]; exact List.take_append_drop k L
  apply race_of_sorted sc (waiting p u) c (L.drop k)
  · intro i hi j hj hij
    obtain ⟨hi1, hi2⟩ := (hmem i).1 hi
    obtain ⟨hj1, hj2⟩ := (hmem j).1 hj
    simp only [hsc] at hij
    rw [hscore i hi1 hi2, hscore j hj1 hj2, EReal.coe_le_coe_iff] at hij
    exact (Real.log_le_log_iff (hwpos i hi1) (hwpos j hj1)).1 hij
  · rw [happ]; exact hsorted
  · rw [happ]; exact hperm.nodup_iff.2 List.nodup_range
  · intro i hi
    rw [happ]
    exact hperm.mem_iff.2 (List.mem_range.2 (by rw [hlen]; exact ((hmem i).1 hi).1))
  · exact hgoodc
  · exact fun i hi => (hwpos i ((hmem i).1 hi).1).le

open Classical in
/-- The event that `l` is selected lies between two events of the same probability. -/
theorem draws_sandwich (gumbel : Ω → κ → ℕ → ℝ) (hgum : IdealGumbel prob gumbel)
    (ss : ParamSched Ks σs XF) (bi : SelectSched Kb σb)
    (selections : ℕ) (key : κ) (its : ℕ) (kw : ThinKw κ) (s : σs) (hs : ss.init its default = .ok s)
    (b : σb) (nb : Int) (hb : bi.init its default = .ok (b, nb)) (p : ℕ → ℝ)
    (hp : ∀ i < its, 0 < p i ∧ ss.get (ParamAfter ss s (fun _ => none) i) i = .fin (p i))
    (l : List ℕ) (hlen : l.length = kw.selections.getD selections) (hnd : l.Nodup)
    (hl : ∀ i ∈ l, i ∈ availableIterations bi b its) :
    ∃ A B : Set Ω, MeasurableSet A ∧
      A ≤ᵐ[prob] {ω | (randomThinning (gumbel ω) ss bi selections key).init its kw =
        .ok (l, (kw.selections.getD selections : Int))} ∧
      {ω | (randomThinning (gumbel ω) ss bi selections key).init its kw =
        .ok (l, (kw.selections.getD selections : Int))} ≤ᵐ[prob] B ∧
      prob A = ENNReal.ofReal (drawProb p (availableIterations bi b its).toFinset l) ∧
      prob B = ENNReal.ofReal (drawProb p (availableIterations bi b its).toFinset l) := by
  obtain ⟨U, hind, hUm, hlaw, hg⟩ := hgum (kw.key.getD key)
  set S := (availableIterations bi b its).toFinset with hS
  have hk : kw.selections.getD selections ≤ (availableIterations bi b its).length := by
    rw [← hlen]
    exact (List.subperm_of_subset hnd hl).length_le
  have hlS : ∀ i ∈ l, i ∈ S := fun i hi => List.mem_toFinset.2 (hl i hi)
  have hpS : ∀ i ∈ S, 0 < p i := by
    intro i hi
    have h1 := List.mem_toFinset.1 hi
    simp only [availableIterations, List.mem_filter, List.mem_range] at h1
    exact (hp i h1.1).1
  have hgood : ∀ᵐ ω ∂prob, ∀ i, 0 < U i ω ∧ U i ω < 1 := by
    rw [ae_all_iff]
    intro i
    have h1 : ∀ᵐ u ∂unif, 0 < u ∧ u < 1 := by
      have h0 : ∀ᵐ u ∂(volume : Measure ℝ), u ≠ 0 := by simp [ae_iff]
      filter_upwards [ae_restrict_of_ae h0, ae_restrict_mem measurableSet_Ico] with u hu hu1
      exact ⟨lt_of_le_of_ne hu1.1 (Ne.symm hu), hu1.2⟩
    rw [← hlaw i] at h1
    exact ae_of_ae_map (hUm i).aemeasurable h1
  have hprob : ∀ r, TimeRel r → prob {ω | Race r S l 0 (waiting p fun i => U i ω)} =
      ENNReal.ofReal (drawProb p S l) := by
    intro r hr
    rw [race_prob r hr U hind hUm hlaw p S hpS l hlS hnd 0 le_rfl]
    simp
  refine ⟨_, _, race_event_measurable _ timeRel_lt U hUm p S l 0, ?_, ?_, hprob _ timeRel_lt,
    hprob _ timeRel_le⟩
  rotate_left
  · filter_upwards [hgood] with ω hω hE
    obtain ⟨c, h1, -, -, -, h5⟩ := thinning_race (gumbel ω) ss bi selections key its kw s hs b nb hb p
      hp hk (fun i => U i ω) hω (hg ω)
    have hE' : (randomThinning (gumbel ω) ss bi selections key).init its kw =
        .ok (l, (kw.selections.getD selections : Int)) := hE
    rw [h1] at hE'
    simp only [Except.ok.injEq, Prod.mk.injEq] at hE'
    rw [← hE'.1]
    exact h5
  · filter_upwards [hgood] with ω hω hE
    obtain ⟨c, h1, h2, h3, h4, h5⟩ := thinning_race (gumbel ω) ss bi selections key its kw s hs b nb hb
      p hp hk (fun i => U i ω) hω (hg ω)
    have : l = c := race_unique l c S 0 0 _ hE h5 hlS h4 hnd h2 (by rw [hlen, h3])
    show (randomThinning (gumbel ω) ss bi selections key).init its kw = _
    rw [h1, ← this]

open Classical in
/-- **C159, partial** (the exact distribution): with ideal Gumbel noise, positive step sizes `p` and
enough available iterations, `random_thinning` selects the iterations `l` in this order with the
probability with which they are drawn, one after the other and without replacement, from the
iterations which are not subject to burn in, where in each draw the probability of every remaining
iteration is proportional to its step size. -/
theorem c159_draws_partial (gumbel : Ω → κ → ℕ → ℝ) (hgum : IdealGumbel prob gumbel)
    (ss : ParamSched Ks σs XF) (bi : SelectSched Kb σb)
    (selections : ℕ) (key : κ) (its : ℕ) (kw : ThinKw κ) (s : σs) (hs : ss.init its default = .ok s)
    (b : σb) (nb : Int) (hb : bi.init its default = .ok (b, nb)) (p : ℕ → ℝ)
    (hp : ∀ i < its, 0 < p i ∧ ss.get (ParamAfter ss s (fun _ => none) i) i = .fin (p i))
    (l : List ℕ) (hlen : l.length = kw.selections.getD selections) (hnd : l.Nodup)
    (hl : ∀ i ∈ l, i ∈ availableIterations bi b its) :
    prob {ω | (randomThinning (gumbel ω) ss bi selections key).init its kw =
        .ok (l, (kw.selections.getD selections : Int))} =
      ENNReal.ofReal (drawProb p (availableIterations bi b its).toFinset l) := by
  obtain ⟨A, B, -, h1, h2, h3, h4⟩ :=
    draws_sandwich gumbel hgum ss bi selections key its kw s hs b nb hb p hp l hlen hnd hl
  exact le_antisymm ((measure_mono_ae h2).trans h4.le) (h3.ge.trans (measure_mono_ae h1))

open Classical in
/-- **C159, partial** (one selection): if a single iteration is selected, every iteration which is not
subject to burn in is selected with a probability proportional to its step size. -/
theorem c159_single_partial (gumbel : Ω → κ → ℕ → ℝ) (hgum : IdealGumbel prob gumbel)
    (ss : ParamSched Ks σs XF) (bi : SelectSched Kb σb)
    (selections : ℕ) (key : κ) (its : ℕ) (kw : ThinKw κ) (s : σs) (hs : ss.init its default = .ok s)
    (b : σb) (nb : Int) (hb : bi.init its default = .ok (b, nb)) (p : ℕ → ℝ)
    (hp : ∀ i < its, 0 < p i ∧ ss.get (ParamAfter ss s (fun _ => none) i) i = .fin (p i))
    (hone : kw.selections.getD selections = 1) (i : ℕ) (hi : i ∈ availableIterations bi b its) :
    prob {ω | ∃ t n, (randomThinning (gumbel ω) ss bi selections key).init its kw = .ok (t, n) ∧
        (randomThinning (gumbel ω) ss bi selections key).get t i = true} =
      ENNReal.ofReal (p i / ∑ j ∈ (availableIterations bi b its).toFinset, p j) := by
  have h := c159_draws_partial gumbel hgum ss bi selections key its kw s hs b nb hb p hp [i]
    (by simp [hone]) (by simp) (by simpa using hi)
  have hd : drawProb p (availableIterations bi b its).toFinset [i] =
      p i / ∑ j ∈ (availableIterations bi b its).toFinset, p j := by
    have : i ∈ (availableIterations bi b its).toFinset := List.mem_toFinset.2 hi
    simp [drawProb, hi]
  rw [← hd, ← h]
  congr 1
  ext ω
  have hpos : PositiveSteps ss s its := fun i hi => ⟨p i, (hp i hi).1, (hp i hi).2⟩
  have hk : kw.selections.getD selections ≤ (availableIterations bi b its).length := by
    rw [hone]; exact List.length_pos_of_mem hi
  constructor
  · rintro ⟨t, n, h1, h2⟩
    obtain ⟨t', h3, h4, h5⟩ :=
      (c33_random_thinning (gumbel ω) ss bi selections key its kw s hs b nb hb hpos).1 hk
    rw [h3] at h1
    simp only [Except.ok.injEq, Prod.mk.injEq] at h1
    obtain ⟨rfl, rfl⟩ := h1
    show (randomThinning (gumbel ω) ss bi selections key).init its kw = _
    rw [h3]
    have hlen1 : t'.length = 1 ∧ t'.Nodup := by
      have h6 := h3
      simp only [randomThinning, hs, hb] at h6
      split at h6
      · simp at h6
      · simp only [Except.ok.injEq, Prod.mk.injEq] at h6
        obtain ⟨f1, f2, f3⟩ := choice_facts (gumbel ω) (kw.key.getD key)
          (thinningProbs ss bi its 0 s b) (kw.selections.getD selections)
        rw [h6.1] at f1 f2
        refine ⟨?_, f1⟩
        have hget := thinningProbs_get ss bi s b its 0
        simp only [ParamAfter, SelectAfter] at hget
        rw [f2, hget, hone]
        have : 1 ≤ its := by
          rw [hone] at hk
          have := hk.trans (List.length_filter_le _ _)
          simpa using this
        simp [this]
    obtain ⟨a, ha⟩ := List.length_eq_one_iff.1 hlen1.1
    subst ha
    simp only [randomThinning, List.any_cons, List.any_nil, Bool.or_false, beq_iff_eq] at h2
    rw [h2]
  · intro h1
    exact ⟨[i], _, h1, by simp [randomThinning]⟩

/-- **C159, partial** (inclusion probabilities): the probability that an iteration is marked is the sum
of the probabilities of the draws which contain it. -/
theorem c159_inclusion_partial (gumbel : Ω → κ → ℕ → ℝ) (hgum : IdealGumbel prob gumbel)
    (ss : ParamSched Ks σs XF) (bi : SelectSched Kb σb)
    (selections : ℕ) (key : κ) (its : ℕ) (kw : ThinKw κ) (s : σs) (hs : ss.init its default = .ok s)
    (b : σb) (nb : Int) (hb : bi.init its default = .ok (b, nb)) (p : ℕ → ℝ)
    (hp : ∀ i < its, 0 < p i ∧ ss.get (ParamAfter ss s (fun _ => none) i) i = .fin (p i))
    (hk : kw.selections.getD selections ≤ (availableIterations bi b its).length) (i : ℕ) :
    prob {ω | ∃ t n, (randomThinning (gumbel ω) ss bi selections key).init its kw = .ok (t, n) ∧
        (randomThinning (gumbel ω) ss bi selections key).get t i = true} =
      ∑ f ∈ (Fintype.piFinset fun _ : Fin (kw.selections.getD selections) =>
          (availableIterations bi b its).toFinset).filter
          (fun f => Function.Injective f ∧ ∃ j, f j = i),
        ENNReal.ofReal (drawProb p (availableIterations bi b its).toFinset (List.ofFn f)) := by
  set k := kw.selections.getD selections with hkdef
  set S := (availableIterations bi b its).toFinset with hS
  set F := (Fintype.piFinset fun _ : Fin k => S).filter
    (fun f => Function.Injective f ∧ ∃ j, f j = i) with hF
  set E : (Fin k → ℕ) → Set Ω := fun f => {ω | (randomThinning (gumbel ω) ss bi selections key).init its
    kw = .ok (List.ofFn f, (k : Int))} with hE
  have hFmem : ∀ f ∈ F, (List.ofFn f).Nodup ∧ (∀ j ∈ List.ofFn f, j ∈ availableIterations bi b its) ∧
      i ∈ List.ofFn f := by
    intro f hf
    simp only [hF, Finset.mem_filter, Fintype.mem_piFinset] at hf
    refine ⟨List.nodup_ofFn.2 hf.2.1, ?_, ?_⟩
    · intro j hj
      obtain ⟨m, rfl⟩ := List.mem_ofFn.1 hj
      exact List.mem_toFinset.1 (hf.1 m)
    · exact List.mem_ofFn.2 hf.2.2
  have hnull : ∀ f ∈ F, NullMeasurableSet (E f) prob ∧
      prob (E f) = ENNReal.ofReal (drawProb p S (List.ofFn f)) := by
    intro f hf
    obtain ⟨h1, h2, -⟩ := hFmem f hf
    obtain ⟨A, B, hA, a1, a2, a3, a4⟩ := draws_sandwich gumbel hgum ss bi selections key its kw s hs b nb
      hb p hp (List.ofFn f) (by simp [hkdef]) h1 h2
    have hle : prob (E f) ≤ prob A := by rw [a3, ← a4]; exact measure_mono_ae a2
    have hae : A =ᵐ[prob] E f := ae_eq_of_ae_subset_of_measure_ge a1 hle hA.nullMeasurableSet
      (measure_ne_top _ _)
    exact ⟨hA.nullMeasurableSet.congr hae, by rw [← measure_congr hae, a3]⟩
  have hdisj : Set.Pairwise (↑F) (Function.onFun (AEDisjoint prob) E) := by
    intro f _ g _ hfg
    apply Disjoint.aedisjoint
    rw [Set.disjoint_left]
    intro ω h1 h2
    have h1' : (randomThinning (gumbel ω) ss bi selections key).init its kw =
      .ok (List.ofFn f, (k : Int)) := h1
    have h2' : (randomThinning (gumbel ω) ss bi selections key).init its kw =
      .ok (List.ofFn g, (k : Int)) := h2
    rw [h1'] at h2'
    simp only [Except.ok.injEq, Prod.mk.injEq, and_true] at h2'
    exact hfg (List.ofFn_injective h2')
  rw [Finset.sum_congr rfl fun f hf => (hnull f hf).2.symm,
    ← measure_biUnion_finset₀ hdisj fun f hf => (hnull f hf).1]
  apply measure_congr
  obtain ⟨U, hind, hUm, hlaw, hg⟩ := hgum (kw.key.getD key)
  have hgood : ∀ᵐ ω ∂prob, ∀ i, 0 < U i ω ∧ U i ω < 1 := by
    rw [ae_all_iff]
    intro i
    have h1 : ∀ᵐ u ∂unif, 0 < u ∧ u < 1 := by
      have h0 : ∀ᵐ u ∂(volume : Measure ℝ), u ≠ 0 := by simp [ae_iff]
      filter_upwards [ae_restrict_of_ae h0, ae_restrict_mem measurableSet_Ico] with u hu hu1
      exact ⟨lt_of_le_of_ne hu1.1 (Ne.symm hu), hu1.2⟩
    rw [← hlaw i] at h1
    exact ae_of_ae_map (hUm i).aemeasurable h1
  filter_upwards [hgood] with ω hω
  apply propext
  obtain ⟨c, h1, h2, h3, h4, -⟩ := thinning_race (gumbel ω) ss bi selections key its kw s hs b nb hb p hp
    hk (fun i => U i ω) hω (hg ω)
  constructor
  · intro hsel
    obtain ⟨t, n, e1, e2⟩ : ∃ t n, (randomThinning (gumbel ω) ss bi selections key).init its kw =
      .ok (t, n) ∧ (randomThinning (gumbel ω) ss bi selections key).get t i = true := hsel
    rw [h1] at e1
    simp only [Except.ok.injEq, Prod.mk.injEq] at e1
    obtain ⟨rfl, rfl⟩ := e1
    simp only [randomThinning, List.any_eq_true, beq_iff_eq] at e2
    obtain ⟨j, hj, rfl⟩ := e2
    have hcf : List.ofFn (fun m : Fin k => c.get (m.cast h3.symm)) = c := by
      apply List.ext_getElem
      · simp [h3, hkdef]
      · intro m _ _; simp
    refine Set.mem_biUnion (x := fun m : Fin k => c.get (m.cast h3.symm)) ?_ ?_
    · simp only [hF, Finset.coe_filter, Set.mem_ofPred_eq, Fintype.mem_piFinset]
      refine ⟨fun m => h4 _ (List.get_mem _ _), ?_, ?_⟩
      · rw [← List.nodup_ofFn, hcf]; exact h2
      · rw [← hcf] at hj
        exact List.mem_ofFn.1 hj
    · show (randomThinning (gumbel ω) ss bi selections key).init its kw = _
      rw [hcf, h1]
  · intro hU'
    obtain ⟨f, hf, hω'⟩ := Set.mem_iUnion₂.1 hU'
    have hω2 : (randomThinning (gumbel ω) ss bi selections key).init its kw =
      .ok (List.ofFn f, (k : Int)) := hω'
    refine ⟨List.ofFn f, _, hω2, ?_⟩
    simp only [randomThinning, List.any_eq_true, beq_iff_eq]
    exact ⟨i, (hFmem f (by simpa using hf)).2.2, rfl⟩

end

/-! ### Ideal Gumbel noise exists -/

instance unif_isProbability : IsProbabilityMeasure unif :=
  ⟨by simp [unif]⟩

/-- Ideal Gumbel noise for a single key. -/
theorem idealGumbel_exists : IdealGumbel (κ := Unit) (Measure.infinitePi fun _ : ℕ => unif)
    (fun (ω : ℕ → ℝ) _ i => -Real.log (-Real.log (ω i))) := by
  intro _
  refine ⟨fun i ω => ω i, ?_, fun i => measurable_pi_apply i, ?_, fun ω i => rfl⟩
  · exact iIndepFun_infinitePi (P := fun _ : ℕ => unif) (X := fun _ x => x) (fun _ => measurable_id)
  · intro i
    exact Measure.infinitePi_map_eval (fun _ : ℕ => unif) i

/-! ### The claim of the documentation -/

/-- The full statement of C159 (the documentation of `random_thinning`): the probability that an
iteration which is not subject to burn in is selected is proportional to its step size. -/
def C159Statement : Prop :=
  ∀ (Ω : Type) (_ : MeasurableSpace Ω) (prob : Measure Ω) (_ : IsProbabilityMeasure prob)
    (gumbel : Ω → Unit → ℕ → ℝ), IdealGumbel prob gumbel →
  ∀ (ss : ParamSched PolyKw (List XF) XF) (bi : SelectSched (Option Int) Int) (selections its : ℕ)
    (s : List XF), ss.init its default = .ok s →
  ∀ (b : Int) (nb : Int), bi.init its default = .ok (b, nb) →
  ∀ p : ℕ → ℝ, (∀ i < its, 0 < p i ∧ ss.get (ParamAfter ss s (fun _ => none) i) i = .fin (p i)) →
    selections < (availableIterations bi b its).length →
    ∃ C : ENNReal, ∀ i ∈ availableIterations bi b its,
      prob {ω | ∃ t n, (randomThinning (gumbel ω) ss bi selections ()).init its {} = .ok (t, n) ∧
        (randomThinning (gumbel ω) ss bi selections ()).get t i = true} = C * ENNReal.ofReal (p i)

theorem toy_thinning (its : ℕ) :
    ∃ s, (polynomialStepSize (.fin 1) (.fin 1) 1).init its default = .ok s ∧
      ∀ i < its, 0 < 1 / (1 + (i : ℝ)) ∧ (polynomialStepSize (.fin 1) (.fin 1) 1).get
        (ParamAfter (polynomialStepSize (.fin 1) (.fin 1) 1) s (fun _ => none) i) i =
          .fin (1 / (1 + (i : ℝ))) := by
  have hs := polySteps_ok its 1 1 1 one_pos one_pos zero_le_one
  refine ⟨(List.range its).map (fun n : Nat => XF.fin (1 * (1 + (n : ℝ)) ^ (-(1 : ℝ)))), hs, ?_⟩
  intro i hi
  refine ⟨by positivity, ?_⟩
  rw [paramAfter_static _ (fun _ _ _ => rfl)]
  have h1 : jnpGet ((List.range its).map (fun n : Nat => XF.fin (1 * (1 + (n : ℝ)) ^ (-(1 : ℝ))))) i =
      XF.fin (1 * (1 + (i : ℝ)) ^ (-(1 : ℝ))) := jnpGet_range its i _ hi
  have h2 : (1 : ℝ) * (1 + (i : ℝ)) ^ (-(1 : ℝ)) = 1 / (1 + (i : ℝ)) := by
    rw [Real.rpow_neg_one, one_mul, one_div]
  rw [← h2]
  exact h1

/-- The hypotheses of the theorems above can be met: with step sizes `1` and `1 / 2`, one selection
takes the first iteration with probability `2 / 3`. -/
example : ∃ s, (polynomialStepSize (.fin 1) (.fin 1) 1).init 2 default = .ok s ∧
    (Measure.infinitePi fun _ : ℕ => unif) {ω | ∃ t n,
      (randomThinning (fun (_ : Unit) i => -Real.log (-Real.log (ω i)))
        (polynomialStepSize (.fin 1) (.fin 1) 1) (initialBurnIn 0) 1 ()).init 2 {} = .ok (t, n) ∧
      (randomThinning (fun (_ : Unit) i => -Real.log (-Real.log (ω i)))
        (polynomialStepSize (.fin 1) (.fin 1) 1) (initialBurnIn 0) 1 ()).get t 0 = true} =
      ENNReal.ofReal (2 / 3) := by
  obtain ⟨s, h1, h2⟩ := toy_thinning 2
  refine ⟨s, h1, ?_⟩
  have h := c159_single_partial _ idealGumbel_exists (polynomialStepSize (.fin 1) (.fin 1) 1)
    (initialBurnIn 0) 1 () 2 {} s h1 0 2 rfl (fun i => 1 / (1 + (i : ℝ))) h2 rfl 0 (by decide)
  refine h.trans ?_
  have e : (availableIterations (initialBurnIn 0) (0 : Int) 2).toFinset = {0, 1} := by decide
  rw [e]
  congr 1
  norm_num

/-- **C159 is false of the code** as soon as several iterations are selected: with step sizes `1`,
`1 / 2`, `1 / 3` and two selections the probabilities `115 / 132`, … are not proportional to the step
sizes. -/
theorem c159_false : ¬ C159Statement := by
  intro H
  obtain ⟨s, h1, h2⟩ := toy_thinning 3
  obtain ⟨C, hC⟩ := H (ℕ → ℝ) inferInstance (Measure.infinitePi fun _ : ℕ => unif) inferInstance _
    idealGumbel_exists (polynomialStepSize (.fin 1) (.fin 1) 1) (initialBurnIn 0) 2 3 s h1 0 3 rfl
    (fun i => 1 / (1 + (i : ℝ))) h2 (by decide)
  have hincl := fun i => c159_inclusion_partial _ idealGumbel_exists (polynomialStepSize (.fin 1) (.fin 1) 1)
    (initialBurnIn 0) 2 () 3 {} s h1 0 3 rfl (fun i => 1 / (1 + (i : ℝ))) h2 (by decide) i
  have e : (availableIterations (initialBurnIn 0) (0 : Int) 3).toFinset = {0, 1, 2} := by decide
  have h0 := (hincl 0).symm.trans (hC 0 (by decide))
  have h3 := (hincl 2).symm.trans (hC 2 (by decide))
  have f0 : ((Fintype.piFinset fun _ : Fin 2 => ({0, 1, 2} : Finset ℕ)).filter
      (fun f => Function.Injective f ∧ ∃ j, f j = 0)) = {![0, 1], ![0, 2], ![1, 0], ![2, 0]} := by
    decide
  have f2 : ((Fintype.piFinset fun _ : Fin 2 => ({0, 1, 2} : Finset ℕ)).filter
      (fun f => Function.Injective f ∧ ∃ j, f j = 2)) = {![2, 0], ![2, 1], ![0, 2], ![1, 2]} := by
    decide
  have d : ∀ i j : ℕ, i ∈ ({0, 1, 2} : Finset ℕ) → j ∈ ({0, 1, 2} : Finset ℕ).erase i →
      drawProb (fun i => 1 / (1 + (i : ℝ))) {0, 1, 2} (List.ofFn ![i, j]) =
        (1 / (1 + (i : ℝ))) / (11 / 6) * ((1 / (1 + (j : ℝ))) / (11 / 6 - 1 / (1 + (i : ℝ)))) := by
    intro i j hi hj
    have e1 : ∑ j ∈ ({0, 1, 2} : Finset ℕ), 1 / (1 + (j : ℝ)) = 11 / 6 := by
      norm_num [Finset.sum_insert]
    have e2 : ∑ j ∈ ({0, 1, 2} : Finset ℕ).erase i, 1 / (1 + (j : ℝ)) =
        11 / 6 - 1 / (1 + (i : ℝ)) := by
      rw [← e1, ← Finset.sum_erase_add _ _ hi]; ring
    simp only [List.ofFn_succ, List.ofFn_zero, Matrix.cons_val_zero, Matrix.cons_val_succ, drawProb, hi,
      hj, if_true, e1, e2, mul_one]
  change (∑ f ∈ ((Fintype.piFinset fun _ : Fin 2 => (availableIterations (initialBurnIn 0) (0 : Int) 3).toFinset).filter
      (fun f => Function.Injective f ∧ ∃ j, f j = 0)), _) = _ at h0
  change (∑ f ∈ ((Fintype.piFinset fun _ : Fin 2 => (availableIterations (initialBurnIn 0) (0 : Int) 3).toFinset).filter
      (fun f => Function.Injective f ∧ ∃ j, f j = 2)), _) = _ at h3
  rw [e, f0, Finset.sum_insert (by decide), Finset.sum_insert (by decide), Finset.sum_insert (by decide),
    Finset.sum_singleton, d 0 1 (by decide) (by decide), d 0 2 (by decide) (by decide),
    d 1 0 (by decide) (by decide), d 2 0 (by decide) (by decide),
    ← ENNReal.ofReal_add (by norm_num) (by norm_num), ← ENNReal.ofReal_add (by norm_num) (by norm_num),
    ← ENNReal.ofReal_add (by norm_num) (by norm_num)] at h0
  rw [e, f2, Finset.sum_insert (by decide), Finset.sum_insert (by decide), Finset.sum_insert (by decide),
    Finset.sum_singleton, d 2 0 (by decide) (by decide), d 2 1 (by decide) (by decide),
    d 0 2 (by decide) (by decide), d 1 2 (by decide) (by decide),
    ← ENNReal.ofReal_add (by norm_num) (by norm_num), ← ENNReal.ofReal_add (by norm_num) (by norm_num),
    ← ENNReal.ofReal_add (by norm_num) (by norm_num)] at h3
  norm_num at h0 h3
  rw [← h0, ← ENNReal.ofReal_mul (by norm_num)] at h3
  have := (ENNReal.ofReal_eq_ofReal_iff (by norm_num) (by norm_num)).1 h3
  norm_num at this

end JaxSgmc
