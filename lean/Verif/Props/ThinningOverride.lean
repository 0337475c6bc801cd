import Verif.Model.ThinningOverride
import Verif.Props.Scheduler

/-!
# C164: burn in overridden for a chain with random thinning
-/

namespace JaxSgmc

open Spec

/-- The full statement of C164: the announced samples are kept whatever burn in is given for the chain. -/
def C164Statement : Prop :=
  ∀ (gumbel : Unit → Nat → ℝ) (ss : ParamSched PolyKw (List XF) XF) (sel : Nat)
    (S : Scheduler PolyKw (List XF) XF (Option ℝ) ℝ ℝ (Option Int) Int
      (ThinSchedKw Unit PolyKw (List XF) (Option Int) Int) (List Nat)) (n : Nat),
    S.burnIn = initialBurnIn n → S.thinning = randomThinningKw gumbel ss (initialBurnIn n) sel () →
    ∀ (its : Nat) (s : List XF), ss.init its default = .ok s → PositiveSteps ss s its →
    ∀ kw st count, schedInit S its kw = .ok (st, count) → kw.burnIn.getD n ≤ its →
    ∀ fb, ((keptIterations S st fb its).length : Int) = count

section
variable {Ks σs Vs Kt σt Vt κ Ks' σs' Kb' : Type} [Inhabited Ks'] [Inhabited Kb']

theorem schedInit_mk {Kb σb Kh σh : Type} (S : Scheduler Ks σs Vs Kt σt Vt Kb σb Kh σh) (its : Nat)
    (kw : SchedKw Ks Kt Kb Kh) {thin : σh} {total : Int} {burn : σb} {collected : Int} {ss : σs} {ts : σt}
    (h1 : S.thinning.init its kw.thinning = .ok (thin, total)) (h2 : S.burnIn.init its kw.burnIn = .ok (burn, collected))
    (h3 : S.stepSize.init its kw.stepSize = .ok ss) (h4 : S.temperature.init its kw.temperature = .ok ts) :
    ∃ st, schedInit S its kw = .ok (st, min total collected) ∧ st.thinning = thin := by
  simp only [schedInit, h1, h2, h3, h4]
  exact ⟨_, rfl, rfl⟩

theorem keptIterations_override (gumbel : κ → Nat → ℝ) (ss : ParamSched Ks' σs' XF)
    (bi : SelectSched (Option Int) Int) (sel : Nat) (key : κ)
    (S : Scheduler Ks σs Vs Kt σt Vt (Option Int) Int (ThinSchedKw κ Ks' σs' (Option Int) Int) (List Nat)) (n : Int)
    (hb : S.burnIn = initialBurnIn n) (ht : S.thinning = randomThinningKw gumbel ss bi sel key) (its : Nat)
    (kw : SchedKw Ks Kt (Option Int) (ThinSchedKw κ Ks' σs' (Option Int) Int))
    (st : SchedState σs σt Int (List Nat)) (count : Int) (h : schedInit S its kw = .ok (st, count))
    (fb : Nat → Stats) :
    keptIterations S st fb its = (List.range its).filter (fun i : Nat =>
      decide (kw.burnIn.getD n ≤ (i : Int)) && st.thinning.any (fun j => i == j)) := by
  apply List.filter_congr
  intro i _
  obtain ⟨h1, h2, -⟩ := keep_eq S n hb its kw st count h fb i
  rw [Schedule.keep, h1, h2, ht, selectAfter_static _ (fun _ _ _ => rfl)]
  rfl

/-- **C164** (partial).  `n'` is the burn in used by the thinning of the chain (the global one or its override), `m` the
burn in of the chain.  At most the samples between `n'` and `m` are missing. -/
theorem c164_bound_partial (gumbel : κ → Nat → ℝ) (ss : ParamSched Ks' σs' XF)
    (bi : SelectSched (Option Int) Int) (sel : Nat) (key : κ)
    (S : Scheduler Ks σs Vs Kt σt Vt (Option Int) Int (ThinSchedKw κ Ks' σs' (Option Int) Int) (List Nat)) (n : Int)
    (hb : S.burnIn = initialBurnIn n) (ht : S.thinning = randomThinningKw gumbel ss bi sel key) (its : Nat)
    (kw : SchedKw Ks Kt (Option Int) (ThinSchedKw κ Ks' σs' (Option Int) Int)) (n' : Nat)
    (hbi : kw.thinning.burnIn.getD bi = initialBurnIn n')
    (s : σs') (hs : (kw.thinning.stepSize.getD ss).init its default = .ok s)
    (hpos : PositiveSteps (kw.thinning.stepSize.getD ss) s its)
    (st : SchedState σs σt Int (List Nat)) (count : Int) (h : schedInit S its kw = .ok (st, count))
    (fb : Nat → Stats) :
    let k := kw.thinning.thin.selections.getD sel
    let m := kw.burnIn.getD n
    k ≤ its - n' ∧ count = min (k : Int) (its - m) ∧ (keptIterations S st fb its).length ≤ k ∧
      k ≤ (keptIterations S st fb its).length + (m.toNat - n') := by
  intro k m
  obtain ⟨hA, hB⟩ := c33_random_thinning gumbel (kw.thinning.stepSize.getD ss) (initialBurnIn (n' : Int)) sel key its
    kw.thinning.thin s hs (n' : Int) (its - n') rfl hpos
  have hav : (availableIterations (initialBurnIn (n' : Int)) (n' : Int) its).length = its - n' := by
    have := count_burnIn (n' : Int) its
    simp only [Int.toNat_natCast] at this
    rw [← this]
    apply congrArg List.length
    apply List.filter_congr
    intro i _
    rw [selectAfter_static _ (fun _ _ _ => rfl)]
    rfl
  obtain ⟨-, -, nh, h3, h4⟩ := keep_eq S n hb its kw st count h fb 0
  have h3 : (randomThinning gumbel (kw.thinning.stepSize.getD ss) (initialBurnIn (n' : Int)) sel key).init its
      kw.thinning.thin = .ok (st.thinning, nh) := by
    rw [ht, randomThinningKw] at h3
    simpa only [hbi] using h3
  have hk : k ≤ its - n' := by
    rw [← hav]
    by_contra hlt
    rw [hB (by omega)] at h3
    simp at h3
  obtain ⟨t, h5, h6, h7⟩ := hA (by rw [hav]; exact hk)
  rw [h5] at h3
  simp only [Except.ok.injEq, Prod.mk.injEq] at h3
  obtain ⟨h3, h3'⟩ := h3
  have h6 : ((List.range its).filter (fun i => st.thinning.any (fun j => i == j))).length = k := by
    rw [← h3]; exact h6
  have h7 : ∀ i : Nat, st.thinning.any (fun j => i == j) = true → n' ≤ i := by
    intro i hi
    rw [← h3] at hi
    have := (h7 i hi).2
    rw [selectAfter_static _ (fun _ _ _ => rfl)] at this
    have : decide ((n' : Int) ≤ i) = true := this
    simpa using this
  rw [keptIterations_override gumbel ss bi sel key S n hb ht its kw st count h fb]
  refine ⟨hk, by rw [h4, ← h3'], ?_, ?_⟩
  · rw [← h6]
    exact (List.monotone_filter_right _ (fun i hi => by
      simp only [Bool.and_eq_true] at hi; exact hi.2)).length_le
  · rw [← h6]
    have hd : ((List.range its).filter (fun i : Nat => decide (m ≤ (i : Int)) && st.thinning.any (fun j => i == j))).length +
        ((List.range its).filter (fun i : Nat => !decide (m ≤ (i : Int)) && st.thinning.any (fun j => i == j))).length =
        ((List.range its).filter (fun i => st.thinning.any (fun j => i == j))).length := by
      generalize List.range its = l
      induction l with
      | nil => rfl
      | cons x l ih =>
        simp only [List.filter_cons]
        cases decide (m ≤ (x : Int)) <;> cases st.thinning.any (fun j => x == j) <;>
          simp only [Bool.true_and, Bool.false_and, Bool.not_true, Bool.not_false, if_true, Bool.false_eq_true, if_false,
            List.length_cons] <;> omega
    have hle : ((List.range its).filter
        (fun i : Nat => !decide (m ≤ (i : Int)) && st.thinning.any (fun j => i == j))).length ≤ m.toNat - n' := by
      have : (List.range' n' (m.toNat - n')).length = m.toNat - n' := List.length_range'
      rw [← this]
      apply List.Subperm.length_le
      apply List.subperm_of_subset (List.nodup_range.filter _)
      intro i hi
      simp only [List.mem_filter, Bool.and_eq_true, Bool.not_eq_true', decide_eq_false_iff_not] at hi
      obtain ⟨-, h8, h9⟩ := hi
      have := h7 i h9
      rw [List.mem_range'_1]
      omega
    show _ ≤ ((List.range its).filter (fun i : Nat => decide (m ≤ (i : Int)) && st.thinning.any (fun j => i == j))).length + _
    omega

/-- **C164** (partial).  If the thinning of the chain uses a burn in which is at least that of the chain (for instance the
same, given as override), exactly the requested number of samples is announced and kept. -/
theorem c164_kept_partial (gumbel : κ → Nat → ℝ) (ss : ParamSched Ks' σs' XF)
    (bi : SelectSched (Option Int) Int) (sel : Nat) (key : κ)
    (S : Scheduler Ks σs Vs Kt σt Vt (Option Int) Int (ThinSchedKw κ Ks' σs' (Option Int) Int) (List Nat)) (n : Int)
    (hb : S.burnIn = initialBurnIn n) (ht : S.thinning = randomThinningKw gumbel ss bi sel key) (its : Nat)
    (kw : SchedKw Ks Kt (Option Int) (ThinSchedKw κ Ks' σs' (Option Int) Int)) (n' : Nat)
    (hbi : kw.thinning.burnIn.getD bi = initialBurnIn n') (hm : kw.burnIn.getD n ≤ n') (hn : kw.burnIn.getD n ≤ its)
    (s : σs') (hs : (kw.thinning.stepSize.getD ss).init its default = .ok s)
    (hpos : PositiveSteps (kw.thinning.stepSize.getD ss) s its)
    (st : SchedState σs σt Int (List Nat)) (count : Int) (h : schedInit S its kw = .ok (st, count))
    (fb : Nat → Stats) :
    (keptIterations S st fb its).length = kw.thinning.thin.selections.getD sel ∧
      count = (kw.thinning.thin.selections.getD sel : Nat) := by
  obtain ⟨h1, h2, h3, h4⟩ := c164_bound_partial gumbel ss bi sel key S n hb ht its kw n' hbi s hs hpos st count h fb
  constructor <;> omega

end

/-- Thinning of two iterations to one, constant step size, no burn in; the generator prefers the first iteration. -/
noncomputable def overrideScheduler : Scheduler PolyKw (List XF) XF (Option ℝ) ℝ ℝ (Option Int) Int
    (ThinSchedKw Unit PolyKw (List XF) (Option Int) Int) (List Nat) where
  stepSize := polynomialStepSize (.fin 1) (.fin 1) 0
  temperature := constantTemperature 1
  burnIn := initialBurnIn 0
  thinning := randomThinningKw (fun _ i => -(i : ℝ)) (polynomialStepSize (.fin 1) (.fin 1) 0) (initialBurnIn 0) 1 ()
  progressBar := false
  barSteps := 20

theorem overrideScheduler_steps (its : Nat) : ∃ s, (polynomialStepSize (.fin 1) (.fin 1) 0).init its default = .ok s ∧
    PositiveSteps (polynomialStepSize (.fin 1) (.fin 1) 0) s its ∧ s = List.replicate its (.fin 1) := by
  have hs := polySteps_ok its 1 1 0 one_pos one_pos le_rfl
  refine ⟨_, hs, ?_, ?_⟩
  · intro i hi
    refine ⟨_, poly_pos 1 1 0 one_pos one_pos i, ?_⟩
    rw [paramAfter_static _ (fun _ _ _ => rfl)]
    exact jnpGet_range its i _ hi
  · rw [List.eq_replicate_iff]
    simp

theorem overrideScheduler_select : (randomThinningKw (fun (_ : Unit) i => -(i : ℝ))
    (polynomialStepSize (.fin 1) (.fin 1) 0) (initialBurnIn 0) 1 ()).init 2 default = .ok ([0], 1) := by
  obtain ⟨s, hs, -, rfl⟩ := overrideScheduler_steps 2
  have hp : thinningProbs (polynomialStepSize (.fin 1) (.fin 1) 0) (initialBurnIn 0) 2 0 [.fin 1, .fin 1] 0 =
      [.fin 1, .fin 1] := by
    simp [thinningProbs, polynomialStepSize, initialBurnIn, jnpGet, XF.mul]
  have hc : choiceNoReplace (fun (_ : Unit) i => -(i : ℝ)) () [.fin 1, .fin 1] 1 = [0] := by
    have : (List.range 2).mergeSort (fun i j =>
        decide (choiceScore (-(i : ℝ)) (([.fin 1, .fin 1] : List XF)[i]?.getD .nan) ≤
          choiceScore (-(j : ℝ)) (([.fin 1, .fin 1] : List XF)[j]?.getD .nan))) = List.range 2 := by
      apply List.mergeSort_of_pairwise
      simp [List.range_succ, choiceScore]
    simp only [choiceNoReplace, List.length_cons, List.length_nil]
    rw [this]
    rfl
  simp only [randomThinningKw, randomThinning]
  have hs' : (polynomialStepSize (.fin 1) (.fin 1) 0).init 2 default = .ok [.fin 1, .fin 1] := hs
  have hb : (initialBurnIn 0).init 2 default = .ok (0, 2) := rfl
  have hn : countNonzero [.fin 1, .fin 1] = 2 := by simp [countNonzero]
  have e1 : ((default : ThinSchedKw Unit PolyKw (List XF) (Option Int) Int).stepSize.getD
    (polynomialStepSize (.fin 1) (.fin 1) 0)) = polynomialStepSize (.fin 1) (.fin 1) 0 := rfl
  have e2 : ((default : ThinSchedKw Unit PolyKw (List XF) (Option Int) Int).burnIn.getD (initialBurnIn 0)) =
    initialBurnIn 0 := rfl
  have e3 : (default : ThinSchedKw Unit PolyKw (List XF) (Option Int) Int).thin = {} := rfl
  simp only [e1, e2, e3, hs', hb, hp, hn, hc, Option.getD_none]
  rfl

/-- C164 is false of the code: `random_thinning` selects iterations for the globally given burn in, so that selected
iterations fall into the burn in of the chain. -/
theorem c164_false : ¬ C164Statement := by
  intro h
  obtain ⟨s, hs, hp, -⟩ := overrideScheduler_steps 2
  have hi : ∃ st, schedInit overrideScheduler 2 { (default : SchedKw PolyKw (Option ℝ) (Option Int)
      (ThinSchedKw Unit PolyKw (List XF) (Option Int) Int)) with burnIn := some 1 } = .ok (st, 1) ∧ st.thinning = [0] := by
    exact schedInit_mk overrideScheduler 2 { (default : SchedKw PolyKw (Option ℝ) (Option Int)
      (ThinSchedKw Unit PolyKw (List XF) (Option Int) Int)) with burnIn := some 1 } overrideScheduler_select (burn := 1) (collected := 1) rfl hs (ts := 1) rfl
  obtain ⟨st, hst, ht⟩ := hi
  have h1 := h _ _ 1 overrideScheduler 0 rfl rfl 2 s hs hp _ st 1 hst (by decide) (fun _ => none)
  rw [keptIterations_override _ _ _ _ _ overrideScheduler 0 rfl rfl 2 _ st 1 hst, ht] at h1
  revert h1
  decide

/-- Overriding the burn in of the thinning as well: one of two iterations is announced and kept. -/
example (fb : Nat → Stats) : ∃ st count, schedInit overrideScheduler 2 { (default : SchedKw PolyKw (Option ℝ) (Option Int)
      (ThinSchedKw Unit PolyKw (List XF) (Option Int) Int)) with
        burnIn := some 1, thinning := { burnIn := some (initialBurnIn 1) } } = .ok (st, count) ∧
    (keptIterations overrideScheduler st fb 2).length = 1 ∧ count = 1 := by
  obtain ⟨s, hs, hp, -⟩ := overrideScheduler_steps 2
  obtain ⟨hA, -⟩ := c33_random_thinning (fun (_ : Unit) i => -(i : ℝ)) (polynomialStepSize (.fin 1) (.fin 1) 0)
    (initialBurnIn 1) 1 () 2 default s hs 1 1 rfl hp
  obtain ⟨t, h1, -⟩ := hA (by decide)
  have hi : ∃ st count, schedInit overrideScheduler 2 { (default : SchedKw PolyKw (Option ℝ) (Option Int)
      (ThinSchedKw Unit PolyKw (List XF) (Option Int) Int)) with
        burnIn := some 1, thinning := { burnIn := some (initialBurnIn 1) } } = .ok (st, count) := by
    obtain ⟨st, h2, -⟩ := schedInit_mk overrideScheduler 2 { (default : SchedKw PolyKw (Option ℝ) (Option Int)
      (ThinSchedKw Unit PolyKw (List XF) (Option Int) Int)) with
        burnIn := some 1, thinning := { burnIn := some (initialBurnIn 1) } } h1 (burn := 1) (collected := 1) rfl hs
      (ts := 1) rfl
    exact ⟨st, _, h2⟩
  obtain ⟨st, count, hst⟩ := hi
  exact ⟨st, count, hst, c164_kept_partial _ _ _ _ _ overrideScheduler 0 rfl rfl 2
    { (default : SchedKw PolyKw (Option ℝ) (Option Int)
      (ThinSchedKw Unit PolyKw (List XF) (Option Int) Int)) with
        burnIn := some 1, thinning := { burnIn := some (initialBurnIn 1) } } 1 rfl (by decide) (by decide) s hs hp
    st count hst fb⟩

end JaxSgmc
