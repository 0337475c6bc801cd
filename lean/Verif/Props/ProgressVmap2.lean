import Verif.Props.ProgressVmap

/-!
# C170: the progress bar with the strategies `map` and `vmap`
-/

namespace JaxSgmc

open Spec

section
variable {Ks σs Vs Kt σt Vt Kb σb Kh σh : Type}

/-- The full statement of C170: each of the chains prints its lines with `strategy="vmap"`, too. -/
def C170Statement : Prop :=
  ∀ (S : Scheduler PolyKw (List XF) XF (Option ℝ) ℝ ℝ (Option Int) Int Unit Unit) (its chains : Nat) main n,
    schedInit S its default = .ok (main, n) → 0 < chains → ∀ fb i,
      ∀ r, (schedUpdate S (schedAfter S main fb i) (fb i)).2 = some r ↔
        (.ok r) ∈ barCallsVmap S (List.replicate chains main) fb i

theorem schedInfo_after (S : Scheduler Ks σs Vs Kt σt Vt Kb σb Kh σh)
    (hb : ∀ s i fb, S.burnIn.get (S.burnIn.update s i fb) i = S.burnIn.get s i)
    (ht : ∀ s i fb, S.thinning.get (S.thinning.update s i fb) i = S.thinning.get s i)
    (hbar : S.progressBar = true) (its : Nat) (kw : SchedKw Ks Kt Kb Kh) (st : SchedState σs σt σb σh) (count : Int)
    (h : schedInit S its kw = .ok (st, count)) (fb : Nat → Stats) (i : Nat) :
    schedInfo S (fb i) (schedAfter S st fb i) = some ⟨i, its, (keptIterations S st fb (i + 1)).length, count⟩ := by
  obtain ⟨h0, -, nh, nb, g1, g2, g3, g4, g5, gb⟩ := schedInit_spec S its kw st count h
  have inv : ∀ i, (schedAfter S st fb i).bar = some ⟨its, count, (keptIterations S st fb i).length,
      kw.barSteps.getD S.barSteps, kw.enabled.getD S.progressBar⟩ := by
    intro i
    induction i with
    | zero => simp [schedAfter, gb, hbar, keptIterations]
    | succ i ih =>
      obtain ⟨e0, -⟩ := schedAfter_spec S st fb h0 i
      simp only [schedAfter, schedUpdate, ih, Option.map_some, barStep, e0, hb, ht]
      congr 2
      unfold keptIterations
      rw [List.range_succ, List.filter_append, List.length_append]
      congr 1
      simp only [schedGet, Schedule.keep, e0, List.filter_cons, List.filter_nil]
      split_ifs <;> rfl
  obtain ⟨e0, -⟩ := schedAfter_spec S st fb h0 i
  simp only [schedInfo, inv i, Option.map_some, e0, hb, ht]
  congr 2
  unfold keptIterations
  rw [List.range_succ, List.filter_append, List.length_append]
  congr 1
  simp only [schedGet, Schedule.keep, e0, List.filter_cons, List.filter_nil]
  split_ifs <;> rfl

/-- **C170** (partial).  With `strategy="vmap"` and enabled bar a single chain prints a line in every iteration, not only in
the multiples of `iterations / steps`, and also if the bar was disabled by an override; for several chains the callback raises
TypeError in every iteration. -/
theorem c170_lanes_partial (S : Scheduler Ks σs Vs Kt σt Vt Kb σb Kh σh)
    (hb : ∀ s i fb, S.burnIn.get (S.burnIn.update s i fb) i = S.burnIn.get s i)
    (ht : ∀ s i fb, S.thinning.get (S.thinning.update s i fb) i = S.thinning.get s i)
    (hbar : S.progressBar = true) (its : Nat) (kw : SchedKw Ks Kt Kb Kh) (st : SchedState σs σt σb σh) (count : Int)
    (h : schedInit S its kw = .ok (st, count)) (fb : Nat → Stats) (i : Nat) :
    barCallsVmap S [st] fb i = [.ok ⟨i, its, (keptIterations S st fb (i + 1)).length, count⟩] ∧
    ∀ chains, 2 ≤ chains → barCallsVmap S (List.replicate chains st) fb i = [.error .typeError] := by
  have hi := schedInfo_after S hb ht hbar its kw st count h fb i
  constructor
  · simp [barCallsVmap, hbar, hi, printLanes]
  · intro chains hc
    obtain ⟨c, rfl⟩ := Nat.exists_eq_add_of_le' hc
    simp [barCallsVmap, hbar, hi, printLanes, List.replicate_succ]

end

/-- C170 is false of the code, for two chains. -/
theorem c170_false : ¬ C170Statement := by
  intro h
  have hs := polySteps_ok 39 1 1 0 one_pos one_pos le_rfl
  have hinit : ∃ st n, schedInit barScheduler 39 default = .ok (st, n) := by
    have h3 : barScheduler.stepSize.init 39 (default : SchedKw PolyKw (Option ℝ) (Option Int) Unit).stepSize = .ok _ := hs
    simp only [schedInit, h3]
    exact ⟨_, _, rfl⟩
  obtain ⟨st, n, hst⟩ := hinit
  have hb : ∀ s i fb, barScheduler.burnIn.get (barScheduler.burnIn.update s i fb) i = barScheduler.burnIn.get s i :=
    fun _ _ _ => rfl
  have ht : ∀ s i fb, barScheduler.thinning.get (barScheduler.thinning.update s i fb) i = barScheduler.thinning.get s i :=
    fun _ _ _ => rfl
  obtain ⟨-, h2⟩ := c170_lanes_partial barScheduler hb ht rfl 39 default st n hst (fun _ => none) 0
  have h3 := c38_counts barScheduler hb ht 39 default st n hst (fun _ => none) 0
  rw [if_pos ⟨rfl, by decide, by simp⟩] at h3
  have h4 := (h _ _ 2 _ _ hst (by decide) (fun _ => none) 0 _).1 h3
  rw [h2 2 le_rfl] at h4
  simp at h4

end JaxSgmc
