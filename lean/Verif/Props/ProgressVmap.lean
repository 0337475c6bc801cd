import Verif.Model.ProgressVmap
import Verif.Props.ProgressPrint
import Verif.Props.HelperStates

/-!
# C169: the progress bar of a run with additional schedulers
-/

namespace JaxSgmc

open Spec

section
variable {Ks σs Vs Kt σt Vt Kb σb Kh σh : Type}

/-- What the progress bar of the main chain prints in iteration `i` of a run without additional schedulers. -/
def Spec.mainReports (S : Scheduler Ks σs Vs Kt σt Vt Kb σb Kh σh) (main : SchedState σs σt σb σh) (fb : Nat → Stats)
    (i : Nat) : List (Except PyErr Report) :=
  (schedUpdate S (schedAfter S main fb i) (fb i)).2.toList.map .ok

/-- The full statement of C169: with additional schedulers the bar prints the same lines. -/
def C169Statement : Prop :=
  ∀ (S : Scheduler PolyKw (List XF) XF (Option ℝ) ℝ ℝ (Option Int) Int Unit Unit) (its : Nat) helpers main rest n,
    mcmcSchedulers S its helpers = .ok (main :: rest, n) → ∀ fb i,
      barCalls S (main :: rest) fb i = mainReports S main fb i

/-- **C169** (partial, states).  The vectorized update does to every scheduler state what the update of this scheduler does. -/
theorem c169_states_partial (S : Scheduler Ks σs Vs Kt σt Vt Kb σb Kh σh) (scheds : List (SchedState σs σt σb σh))
    (fb : Nat → Stats) : ∀ i, allAfter S scheds fb i = scheds.map fun st => schedAfter S st fb i
  | 0 => by simp [allAfter, schedAfter]
  | i + 1 => by
    rw [allAfter, c169_states_partial S scheds fb i]
    match scheds with
    | [] => rfl
    | [s] => rfl
    | s :: s' :: l => simp [updateAll, schedAfter]

/-- **C169** (partial, one chain).  Without additional schedulers the bar prints the lines of C167. -/
theorem c169_alone_partial (S : Scheduler Ks σs Vs Kt σt Vt Kb σb Kh σh) (main : SchedState σs σt σb σh)
    (fb : Nat → Stats) (i : Nat) : barCalls S [main] fb i = mainReports S main fb i := by
  rw [barCalls, c169_states_partial]
  rfl

/-- **C169** (partial, additional schedulers).  In a run with additional schedulers and progress bar, nothing is ever printed:
the callback is called in every iteration, also if it is disabled by an override, and raises TypeError. -/
theorem c169_silent_partial [Inhabited Ks] [Inhabited Kt] [Inhabited Kb] [Inhabited Kh]
    (S : Scheduler Ks σs Vs Kt σt Vt Kb σb Kh σh) (hbar : S.progressBar = true) (its : Nat)
    (helpers : List (SchedKw Ks Kt Kb Kh)) (hne : helpers ≠ []) (scheds : List (SchedState σs σt σb σh)) (n : Int)
    (h : mcmcSchedulers S its helpers = .ok (scheds, n)) (fb : Nat → Stats) (i : Nat) :
    barCalls S scheds fb i = [.error .typeError] := by
  obtain ⟨main, hs, h1, rfl, h2⟩ := c42_schedulers S helpers its scheds n h
  have hb : ∀ (kw : SchedKw Ks Kt Kb Kh) st n', schedInit S its kw = .ok (st, n') →
      ∃ r, schedInfo S (fb i) (schedAfter S st fb i) = some r := by
    intro kw st n' hst
    obtain ⟨-, -, nh, nb, -, -, -, -, -, gb⟩ := schedInit_spec S its kw st n' hst
    have := schedAfter_bar S st fb i
    rw [gb, hbar] at this
    obtain ⟨b, hb⟩ := Option.isSome_iff_exists.1 this
    rw [schedInfo, hb]
    exact ⟨_, rfl⟩
  rw [barCalls, c169_states_partial]
  cases h2 with
  | nil => exact absurd rfl hne
  | cons h3 h4 =>
    obtain ⟨r1, e1⟩ := hb _ _ _ h1
    obtain ⟨n', h3⟩ := h3
    obtain ⟨r2, e2⟩ := hb _ _ _ h3
    simp [updateAll, hbar, e1, e2, printLanes]

/-- The values passed to the callback are those which are printed for a single chain. -/
theorem schedInfo_report (S : Scheduler Ks σs Vs Kt σt Vt Kb σb Kh σh) (st : SchedState σs σt σb σh) (stats : Stats)
    (r : Report) (h : (schedUpdate S st stats).2 = some r) : schedInfo S stats st = some r := by
  unfold schedUpdate at h
  unfold schedInfo
  cases hb : st.bar with
  | none => simp [hb] at h
  | some b =>
    simp only [hb, Option.map_some, Option.bind_some, barStep] at h
    by_cases h1 : st.iteration % (b.iterations / b.steps) = 0 ∧ b.enabled = true
    · rw [if_pos h1] at h
      exact h
    · rw [if_neg h1] at h
      cases h

/-- **C169** (partial, no bar).  Without progress bar the callback is never called with additional schedulers. -/
theorem c169_disabled_partial (S : Scheduler Ks σs Vs Kt σt Vt Kb σb Kh σh) (hbar : S.progressBar = false)
    (main helper : SchedState σs σt σb σh) (hs : List (SchedState σs σt σb σh)) (fb : Nat → Stats) (i : Nat) :
    barCalls S (main :: helper :: hs) fb i = [] := by
  rw [barCalls, c169_states_partial]
  simp [updateAll, hbar]

end

/-- A run of `barScheduler` with one additional scheduler. -/
theorem barScheduler_two : ∃ main rest n, mcmcSchedulers barScheduler 39 [default] = .ok (main :: rest, n) := by
  have hs := polySteps_ok 39 1 1 0 one_pos one_pos le_rfl
  have hinit : ∃ st n, schedInit barScheduler 39 default = .ok (st, n) := by
    have h3 : barScheduler.stepSize.init 39 (default : SchedKw PolyKw (Option ℝ) (Option Int) Unit).stepSize = .ok _ := hs
    simp only [schedInit, h3]
    exact ⟨_, _, rfl⟩
  obtain ⟨st, n, hst⟩ := hinit
  exact ⟨st, [st], n, by simp only [mcmcSchedulers, hst, mapExcept, Except.map]⟩

/-- C169 is false of the code; the hypotheses of `c169_silent_partial` are met. -/
theorem c169_false : ¬ C169Statement := by
  intro h
  obtain ⟨main, rest, n, hs⟩ := barScheduler_two
  have h1 := h _ _ _ _ _ _ hs (fun _ => none) 0
  rw [c169_silent_partial barScheduler rfl 39 [default] (by simp) _ n hs] at h1
  unfold mainReports at h1
  cases hr : (schedUpdate barScheduler (schedAfter barScheduler main (fun _ => none) 0) none).2 with
  | none => simp [hr] at h1
  | some r => simp [hr] at h1

end JaxSgmc
