import Verif.Spec.Scheduler
import Mathlib.Data.List.Sort
import Mathlib.Data.List.Nodup
import Mathlib.Tactic.Ring
import Mathlib.Tactic.Linarith
import Mathlib.Tactic.FieldSimp
import Mathlib.Tactic.NormNum
import Mathlib.Tactic.Positivity

/-!
# C30-C39: scheduler
-/

namespace JaxSgmc

open Spec

section
variable {Ks σs Vs Kt σt Vt Kb σb Kh σh : Type}

/-! ### C39 -/

/-- The states of the specific schedulers inside the scheduler are their states on their own. -/
theorem schedAfter_spec (S : Scheduler Ks σs Vs Kt σt Vt Kb σb Kh σh) (st : SchedState σs σt σb σh)
    (fb : Nat → Stats) (h0 : st.iteration = 0) : ∀ i,
    (schedAfter S st fb i).iteration = i ∧
    (schedAfter S st fb i).stepSize = ParamAfter S.stepSize st.stepSize fb i ∧
    (schedAfter S st fb i).temperature = ParamAfter S.temperature st.temperature fb i ∧
    (schedAfter S st fb i).burnIn = SelectAfter S.burnIn st.burnIn fb i ∧
    (schedAfter S st fb i).thinning = SelectAfter S.thinning st.thinning fb i
  | 0 => ⟨h0, rfl, rfl, rfl, rfl⟩
  | i + 1 => by
    obtain ⟨h1, h2, h3, h4, h5⟩ := schedAfter_spec S st fb h0 i
    simp only [schedAfter, schedUpdate, h1, h2, h3, h4, h5, ParamAfter, SelectAfter, and_self]

/-- What a successful initialisation returns. -/
theorem schedInit_spec (S : Scheduler Ks σs Vs Kt σt Vt Kb σb Kh σh) (its : Nat)
    (kw : SchedKw Ks Kt Kb Kh) (st : SchedState σs σt σb σh) (count : Int)
    (h : schedInit S its kw = .ok (st, count)) :
    st.iteration = 0 ∧ st.total = its ∧ ∃ nh nb,
      S.thinning.init its kw.thinning = .ok (st.thinning, nh) ∧
      S.burnIn.init its kw.burnIn = .ok (st.burnIn, nb) ∧ count = min nh nb ∧
      S.stepSize.init its kw.stepSize = .ok st.stepSize ∧
      S.temperature.init its kw.temperature = .ok st.temperature ∧
      st.bar = if S.progressBar then some ⟨its, count, 0, kw.barSteps.getD S.barSteps,
        kw.enabled.getD S.progressBar⟩ else none := by
  simp only [schedInit] at h
  split at h
  · simp at h
  · rename_i hth
    split at h
    · simp at h
    · rename_i hbu
      split at h
      · simp at h
      · rename_i hss
        split at h
        · simp at h
        · rename_i hts
          simp only [Except.ok.injEq, Prod.mk.injEq] at h
          obtain ⟨rfl, rfl⟩ := h
          exact ⟨rfl, rfl, _, _, hth, hbu, rfl, hss, hts, rfl⟩

/-- **C39.** After `i` updates (with whatever statistics) the schedule consists of the values of the
specific schedulers for iteration `i`, each updated on its own for the iterations `0, …, i - 1`. -/
theorem c39_schedule (S : Scheduler Ks σs Vs Kt σt Vt Kb σb Kh σh) (its : Nat)
    (kw : SchedKw Ks Kt Kb Kh) (st : SchedState σs σt σb σh) (count : Int)
    (h : schedInit S its kw = .ok (st, count)) (fb : Nat → Stats) (i : Nat) :
    ∃ ss ts bs nb hs nh,
      S.stepSize.init its kw.stepSize = .ok ss ∧ S.temperature.init its kw.temperature = .ok ts ∧
      S.burnIn.init its kw.burnIn = .ok (bs, nb) ∧ S.thinning.init its kw.thinning = .ok (hs, nh) ∧
      schedGet S (schedAfter S st fb i) =
        ⟨S.stepSize.get (ParamAfter S.stepSize ss fb i) i,
         S.temperature.get (ParamAfter S.temperature ts fb i) i,
         S.burnIn.get (SelectAfter S.burnIn bs fb i) i,
         S.thinning.get (SelectAfter S.thinning hs fb i) i⟩ := by
  obtain ⟨h0, -, nh, nb, h1, h2, -, h3, h4, -⟩ := schedInit_spec S its kw st count h
  obtain ⟨e1, e2, e3, e4, e5⟩ := schedAfter_spec S st fb h0 i
  exact ⟨_, _, _, _, _, _, h3, h4, h2, h1, by simp only [schedGet, e1, e2, e3, e4, e5]⟩

end

theorem paramAfter_static {Kw σ V : Type} (P : ParamSched Kw σ V) (hP : ∀ s i fb, P.update s i fb = s)
    (s : σ) (fb : Nat → Stats) : ∀ i, ParamAfter P s fb i = s
  | 0 => rfl
  | i + 1 => by rw [ParamAfter, hP, paramAfter_static P hP s fb i]

theorem selectAfter_static {Kw σ : Type} (P : SelectSched Kw σ) (hP : ∀ s i fb, P.update s i fb = s)
    (s : σ) (fb : Nat → Stats) : ∀ i, SelectAfter P s fb i = s
  | 0 => rfl
  | i + 1 => by rw [SelectAfter, hP, selectAfter_static P hP s fb i]

/-! ### C34 -/

theorem polySteps_ok (its : Nat) (a b gamma : ℝ) (ha : 0 < a) (hb : 0 < b) (hg : 0 ≤ gamma) :
    polySteps its (.fin a) (.fin b) gamma =
      .ok ((List.range its).map (fun n : Nat => .fin (a * (b + n) ^ (-gamma)))) := by
  simp only [polySteps, not_lt.2 hg, if_false, XF.Pos, ha, hb, not_true]
  congr 1
  apply List.map_congr_left
  intro n _
  have : (0 : ℝ) < b + n := by positivity
  simp [XF.add, XF.pow, XF.mul, this]

theorem jnpGet_range (its i : Nat) (f : Nat → XF) (hi : i < its) :
    jnpGet ((List.range its).map f) i = f i := by
  have : min i (its - 1) = i := by omega
  simp [jnpGet, this, hi]

theorem poly_pos (a b gamma : ℝ) (ha : 0 < a) (hb : 0 < b) (n : Nat) : 0 < a * (b + n) ^ (-gamma) := by
  have : (0 : ℝ) < b + n := by positivity
  positivity

theorem poly_anti (a b gamma : ℝ) (ha : 0 < a) (hb : 0 < b) (hg : 0 ≤ gamma) (n m : Nat) (h : n ≤ m) :
    a * (b + m) ^ (-gamma) ≤ a * (b + n) ^ (-gamma) := by
  have h1 : (0 : ℝ) < b + n := by positivity
  have h2 : b + (n : ℝ) ≤ b + m := by
    have : (n : ℝ) ≤ m := by exact_mod_cast h
    linarith
  exact mul_le_mul_of_nonneg_left (Real.rpow_le_rpow_of_nonpos h1 h2 (by linarith)) ha.le

/-- **C34.** For valid parameters the step size of iteration `i` is `a * (b + i)^(-gamma)`; the step
sizes are positive and never increase. -/
theorem c34_polynomial (a b gamma : ℝ) (ha : 0 < a) (hb : 0 < b) (hg : 0 ≤ gamma) (its : Nat) :
    ∃ s, (polynomialStepSize (.fin a) (.fin b) gamma).init its {} = .ok s ∧
      ∀ (fb : Nat → Stats) (i : Nat), i < its →
        (polynomialStepSize (.fin a) (.fin b) gamma).get
          (ParamAfter (polynomialStepSize (.fin a) (.fin b) gamma) s fb i) i =
            .fin (a * (b + i) ^ (-gamma)) ∧
        0 < a * (b + i) ^ (-gamma) ∧
        ∀ j, i ≤ j → a * (b + j) ^ (-gamma) ≤ a * (b + i) ^ (-gamma) := by
  refine ⟨_, polySteps_ok its a b gamma ha hb hg, ?_⟩
  intro fb i hi
  rw [paramAfter_static _ (fun _ _ _ => rfl)]
  exact ⟨jnpGet_range its i _ hi, poly_pos a b gamma ha hb i, fun j hj => poly_anti a b gamma ha hb hg i j hj⟩

/-- **C34.** Invalid parameters are rejected. -/
theorem c34_rejected (a b gamma : ℝ) (h : a ≤ 0 ∨ b ≤ 0 ∨ gamma < 0) (its : Nat) :
    (polynomialStepSize (.fin a) (.fin b) gamma).init its {} = .error .assertionError := by
  simp only [polynomialStepSize, Option.getD_none, polySteps, XF.Pos, not_lt]
  split_ifs with h1 h2 h3
  · rfl
  · rfl
  · rfl
  · rcases h with h | h | h
    · exact absurd h h2
    · exact absurd h h3
    · exact absurd h h1

/-- **C39** (defaults).  Missing schedulers: step size 1, temperature 1, no burn in, no thinning; all
iterations are announced. -/
theorem c39_defaults (bar : Bool) (steps its : Nat) :
    ∃ st, schedInit (defaultScheduler bar steps) its default = .ok (st, (its : Int)) ∧
      ∀ fb i, i < its → schedGet (defaultScheduler bar steps)
        (schedAfter (defaultScheduler bar steps) st fb i) = ⟨.fin 1, 1, true, true⟩ := by
  have hs := polySteps_ok its 1 1 0 one_pos one_pos le_rfl
  have hinit : ∃ st, schedInit (defaultScheduler bar steps) its default = .ok (st, (its : Int)) := by
    simp only [schedInit, defaultScheduler, noThinning, initialBurnIn, polynomialStepSize,
      constantTemperature]
    have e1 : ((default : SchedKw PolyKw (Option ℝ) (Option Int) Unit).burnIn).getD 0 = 0 := rfl
    have e2 : (default : SchedKw PolyKw (Option ℝ) (Option Int) Unit).stepSize = {} := rfl
    simp only [e1, e2, Option.getD_none, hs, Int.sub_zero, min_self]
    exact ⟨_, rfl⟩
  obtain ⟨st, hst⟩ := hinit
  refine ⟨st, hst, ?_⟩
  intro fb i hi
  obtain ⟨ss, ts, bs, nb, hs', nh, h1, h2, h3, h4, h5⟩ := c39_schedule _ _ _ _ _ hst fb i
  have e1 : polySteps its (.fin 1) (.fin 1) 0 = .ok ss := h1
  rw [hs] at e1
  simp only [Except.ok.injEq] at e1
  have e2 : (1 : ℝ) = ts := by
    have : Except.ok (1 : ℝ) = (.ok ts : Except PyErr ℝ) := h2
    simpa using this
  have e3 : bs = 0 := by
    have : Except.ok ((0 : Int), (its : Int) - 0) = (.ok (bs, nb) : Except PyErr (Int × Int)) := h3
    simp only [Except.ok.injEq, Prod.mk.injEq] at this
    exact this.1.symm
  rw [h5, paramAfter_static _ (fun _ _ _ => rfl), paramAfter_static _ (fun _ _ _ => rfl),
    selectAfter_static _ (fun _ _ _ => rfl), ← e1, ← e2, e3]
  have : (defaultScheduler bar steps).stepSize.get
      ((List.range its).map (fun n : Nat => XF.fin (1 * (1 + (n : ℝ)) ^ (-(0 : ℝ))))) i = .fin 1 := by
    show jnpGet _ _ = _
    rw [jnpGet_range its i _ hi]
    simp
  rw [this]
  simp only [defaultScheduler, constantTemperature, initialBurnIn, noThinning, Schedule.mk.injEq,
    true_and, decide_eq_true_eq, and_true]
  omega

/-! ### C35 -/

/-- The statement of C35: `polynomial_step_size_first_last` accepts all parameters
`first ≥ last > 0`, `gamma > 0` and meets the first and the last step size. -/
def C35Statement : Prop :=
  ∀ (first last gamma : ℝ) (its : Nat), 0 < last → last ≤ first → 0 < gamma → 1 ≤ its →
    ∃ s, (polynomialFirstLast first last gamma).init its {} = .ok s ∧
      (polynomialFirstLast first last gamma).get s 0 = .fin first ∧
      (its = 1 ∨ (polynomialFirstLast first last gamma).get s (its - 1) = .fin last)

/-- **C35 is false** for equal step sizes: all step sizes are NaN. -/
theorem c35_false_equal (x gamma : ℝ) (hx : 0 < x) (hg : 0 < gamma) (its : Nat) (hits : 2 ≤ its) :
    ∃ s, (polynomialFirstLast x x gamma).init its {} = .ok s ∧
      ∀ i, (polynomialFirstLast x x gamma).get s i = .nan := by
  have hne : (its : ℝ) - 1 ≠ 0 := by
    have : (2 : ℝ) ≤ its := by exact_mod_cast hits
    intro h; linarith
  have h1 : (findAb its gamma (.fin x) (.fin x)) = (.pinf, .pinf) := by
    simp only [findAb, XF.pow, hx, if_true, XF.neg, XF.add, add_neg_cancel, XF.div, hne, if_false,
      zero_div, lt_self_iff_false, neg_eq_zero, hg.ne', neg_lt_zero, hg, inv_eq_zero, inv_pos]
  refine ⟨(List.range its).map (fun _ : Nat => .nan), ?_, ?_⟩
  · simp only [polynomialFirstLast, Option.getD_none, hg, not_true, if_false, ge_iff_le, le_refl, h1,
      polynomialStepSize]
    have hd : (default : PolyKw) = {} := rfl
    simp only [hd, Option.getD_none, polySteps, not_lt.2 hg.le, if_false, XF.Pos, not_true]
    congr 1
    apply List.map_congr_left
    intro n _
    simp [XF.add, XF.pow, hg, XF.mul, XF.infMul]
  · intro i
    simp only [polynomialFirstLast, jnpGet, List.getElem?_map]
    cases (List.range its)[min i (((List.range its).map (fun _ => XF.nan)).length - 1)]? <;> rfl

/-- **C35 is false** for a single iteration: the initialisation fails. -/
theorem c35_false_single (first last gamma : ℝ) (hl : 0 < last) (hfl : last ≤ first) (hg : 0 < gamma) :
    (polynomialFirstLast first last gamma).init 1 {} = .error .assertionError := by
  have hf : 0 < first := lt_of_lt_of_le hl hfl
  simp only [polynomialFirstLast, Option.getD_none, hg, not_true, if_false, ge_iff_le, hfl,
    polynomialStepSize]
  have hd : (default : PolyKw) = {} := rfl
  simp only [hd, Option.getD_none, polySteps, not_lt.2 hg.le, if_false]
  have ha : ¬ (findAb 1 gamma (.fin first) (.fin last)).1.Pos := by
    simp only [findAb, XF.pow, hf, hl, if_true, XF.neg, XF.add, XF.div, Nat.cast_one, sub_self]
    simp only [XF.infMul]
    have hle : first ^ (-gamma⁻¹) ≤ last ^ (-gamma⁻¹) :=
      Real.rpow_le_rpow_of_nonpos hl hfl (by have := inv_pos.2 hg; linarith)
    split_ifs with h1 h2
    · simp [hg, XF.Pos]
    · exact absurd h2 (by linarith)
    · simp [hg.ne', XF.Pos]
  exact if_pos ha

theorem c35_false : ¬ C35Statement := by
  intro h
  obtain ⟨s, h1, -⟩ := h 1 1 1 1 one_pos le_rfl one_pos le_rfl
  rw [c35_false_single 1 1 1 one_pos le_rfl one_pos] at h1
  simp at h1

/-- What holds instead of C35: for `first > last > 0` and at least two iterations both step sizes are
met and the step sizes decrease in between. -/
theorem c35_first_last_partial (first last gamma : ℝ) (hl : 0 < last) (hfl : last < first)
    (hg : 0 < gamma) (its : Nat) (hits : 2 ≤ its) :
    ∃ s, (polynomialFirstLast first last gamma).init its {} = .ok s ∧
      (polynomialFirstLast first last gamma).get s 0 = .fin first ∧
      (polynomialFirstLast first last gamma).get s (its - 1) = .fin last ∧
      ∃ step : Nat → ℝ, (∀ i < its, (polynomialFirstLast first last gamma).get s i = .fin (step i)) ∧
        (∀ i, 0 < step i) ∧ ∀ i j, i < j → step j < step i := by
  have hf : 0 < first := lt_trans hl hfl
  have hits' : (2 : ℝ) ≤ its := by exact_mod_cast hits
  have hginv : 0 < gamma⁻¹ := inv_pos.2 hg
  set F := first ^ (-gamma⁻¹) with hF
  set L := last ^ (-gamma⁻¹) with hL
  have hFpos : 0 < F := Real.rpow_pos_of_pos hf _
  have hLpos : 0 < L := Real.rpow_pos_of_pos hl _
  have hFL : F < L := Real.rpow_lt_rpow_of_neg hl hfl (by linarith)
  set d := (L - F) / ((its : ℝ) - 1) with hd
  have hdpos : 0 < d := div_pos (by linarith) (by linarith)
  have hapos : 0 < d ^ (-gamma) := Real.rpow_pos_of_pos hdpos _
  have hab : findAb its gamma (.fin first) (.fin last) =
      (.fin (d ^ (-gamma)), .fin ((first / d ^ (-gamma)) ^ (-gamma⁻¹))) := by
    have h1 : (its : ℝ) - 1 ≠ 0 := by intro h; linarith
    have h2 : 0 < first / d ^ (-gamma) := div_pos hf hapos
    simp only [findAb, XF.pow, hf, hl, if_true, XF.neg, XF.add, XF.div, h1, if_false,
      ← hF, ← hL, ← sub_eq_add_neg, ← hd, hdpos, hapos.ne', h2]
  have hb : (first / d ^ (-gamma)) ^ (-gamma⁻¹) = F / d := by
    rw [Real.div_rpow hf.le hapos.le, ← Real.rpow_mul hdpos.le]
    have : -gamma * -gamma⁻¹ = 1 := by field_simp
    rw [this, Real.rpow_one]
  have hbpos : 0 < F / d := div_pos hFpos hdpos
  have hstep : ∀ n : Nat, d ^ (-gamma) * (F / d + n) ^ (-gamma) = (F + n * d) ^ (-gamma) := by
    intro n
    have h1 : (0 : ℝ) ≤ F / d + n := by positivity
    rw [← Real.mul_rpow hdpos.le h1]
    congr 1
    field_simp
  have hanti : ∀ i j : Nat, i < j → (F + j * d) ^ (-gamma) < (F + i * d) ^ (-gamma) := by
    intro i j hij
    have h1 : (0 : ℝ) < F + i * d := by positivity
    have h2 : (i : ℝ) < j := by exact_mod_cast hij
    apply Real.rpow_lt_rpow_of_neg h1 _ (by linarith)
    have := mul_lt_mul_of_pos_right h2 hdpos
    linarith
  have hroot : ∀ x : ℝ, 0 < x → (x ^ (-gamma⁻¹)) ^ (-gamma) = x := by
    intro x hx
    rw [← Real.rpow_mul hx.le]
    have : -gamma⁻¹ * -gamma = 1 := by field_simp
    rw [this, Real.rpow_one]
  have hinit : (polynomialFirstLast first last gamma).init its {} =
      .ok ((List.range its).map (fun n : Nat => .fin ((F + n * d) ^ (-gamma)))) := by
    simp only [polynomialFirstLast, Option.getD_none, hg, not_true, if_false, ge_iff_le, hfl.le, hab,
      polynomialStepSize, hb]
    have hd : (default : PolyKw) = {} := rfl
    simp only [hd, Option.getD_none]
    rw [polySteps_ok its _ _ gamma hapos hbpos hg.le]
    simp only [hstep]
  refine ⟨_, hinit, ?_, ?_, fun n : Nat => (F + n * d) ^ (-gamma), ?_, ?_, hanti⟩
  · show jnpGet _ _ = _
    rw [jnpGet_range its 0 _ (by omega)]
    simp only [Nat.cast_zero, zero_mul, add_zero]
    rw [hF, hroot first hf]
  · show jnpGet _ _ = _
    rw [jnpGet_range its (its - 1) _ (by omega), Nat.cast_sub (by omega), Nat.cast_one]
    have h1 : (its : ℝ) - 1 ≠ 0 := by intro h; linarith
    have : F + ((its : ℝ) - 1) * d = L := by rw [hd]; field_simp; ring
    rw [this, hL, hroot last hl]
  · intro i hi
    exact jnpGet_range its i _ hi
  · intro i
    have h1 : (0 : ℝ) < F + i * d := by positivity
    exact Real.rpow_pos_of_pos h1 _

/-! ### C36 -/

theorem adaptive_burnIn (p : AdaptiveParams) (s : AdaptiveState) (fb : Nat → Stats) : ∀ i,
    (ParamAfter (adaptiveStepSize p) s fb i).burnIn = s.burnIn
  | 0 => rfl
  | i + 1 => by
    have := adaptive_burnIn p s fb i
    simpa only [ParamAfter, adaptiveStepSize] using this

/-- **C36.** The adaptive step size starts at the (positive) initial step size, is positive in every
iteration, and from iteration `burn_in` on it does not change any more, whatever acceptance ratios are
reported. -/
theorem c36_adaptive (p : AdaptiveParams) (kw : AdaptiveKw) (its : Nat)
    (hinit : 0 < kw.initialStepSize.getD p.initialStepSize) :
    ∃ s, (adaptiveStepSize p).init its kw = .ok s ∧
      (adaptiveStepSize p).get s 0 = kw.initialStepSize.getD p.initialStepSize ∧
      ∀ (fb : Nat → Stats), (∀ i, 0 < (adaptiveStepSize p).get (ParamAfter (adaptiveStepSize p) s fb i) i) ∧
        ∀ i j : Nat, kw.burnIn.getD p.burnIn ≤ i → i ≤ j →
          (adaptiveStepSize p).get (ParamAfter (adaptiveStepSize p) s fb j) j =
            (adaptiveStepSize p).get (ParamAfter (adaptiveStepSize p) s fb i) i := by
  refine ⟨_, rfl, Real.exp_log hinit, ?_⟩
  intro fb
  refine ⟨fun i => Real.exp_pos _, ?_⟩
  intro i j hi hij
  obtain ⟨d, rfl⟩ := Nat.exists_eq_add_of_le hij
  clear hij
  induction d with
  | zero => rfl
  | succ d ih =>
    rw [← ih]
    have hb := adaptive_burnIn p (⟨kw.burnIn.getD p.burnIn,
      Real.log (kw.initialStepSize.getD p.initialStepSize), 0,
      kw.targetAcceptanceRate.getD p.targetAcceptanceRate,
      kw.stabilizationConstant.getD p.stabilizationConstant, kw.decayConstant.getD p.decayConstant,
      kw.speedConstant.getD p.speedConstant,
      Real.log (10 * kw.initialStepSize.getD p.initialStepSize)⟩) fb (i + d)
    rw [← Nat.add_assoc]
    conv_lhs => rw [ParamAfter]
    simp only [adaptiveStepSize] at hb ⊢
    rw [if_neg]
    rw [hb]
    simp only [not_lt]
    push_cast
    omega

/-! ### C37 -/

/-- The statement of C37 for `adaptive_step_size`: a keyword given to `init` has the same effect as the
global parameter. -/
def C37AdaptiveStatement : Prop :=
  ∀ (p : AdaptiveParams) (kw : AdaptiveKw) (its : Nat) (fb : Nat → Stats) (i : Nat)
    (s s' : AdaptiveState),
    let p' : AdaptiveParams := ⟨kw.burnIn.getD p.burnIn, kw.initialStepSize.getD p.initialStepSize,
      kw.stabilizationConstant.getD p.stabilizationConstant, kw.decayConstant.getD p.decayConstant,
      kw.speedConstant.getD p.speedConstant, kw.targetAcceptanceRate.getD p.targetAcceptanceRate⟩
    (adaptiveStepSize p).init its kw = .ok s → (adaptiveStepSize p').init its {} = .ok s' →
    (adaptiveStepSize p).get (ParamAfter (adaptiveStepSize p) s fb i) i =
      (adaptiveStepSize p').get (ParamAfter (adaptiveStepSize p') s' fb i) i

/-- **C37 is false** for `target_acceptance_rate`: with burn in, an override `1` of the global rate `0`
changes nothing, although the global rate `1` gives another step size after the first iteration. -/
theorem c37_false : ¬ C37AdaptiveStatement := by
  intro h
  have h1 := h ⟨1, 1, 0, 0, 1, 0⟩ { targetAcceptanceRate := some 1 } 1 (fun _ => none) 1 _ _ rfl rfl
  simp only [adaptiveStepSize, ParamAfter, Option.getD_none, Option.getD_some] at h1
  have h2 := Real.exp_injective h1
  norm_num at h2
  linarith

/-- What holds instead: overrides of all other parameters of `adaptive_step_size` have the effect of
the global parameter. -/
theorem c37_adaptive_partial (p : AdaptiveParams) (kw : AdaptiveKw) (its : Nat) (fb : Nat → Stats)
    (i : Nat) (h : kw.targetAcceptanceRate = none) :
    let p' : AdaptiveParams := ⟨kw.burnIn.getD p.burnIn, kw.initialStepSize.getD p.initialStepSize,
      kw.stabilizationConstant.getD p.stabilizationConstant, kw.decayConstant.getD p.decayConstant,
      kw.speedConstant.getD p.speedConstant, p.targetAcceptanceRate⟩
    ∃ s, (adaptiveStepSize p).init its kw = .ok s ∧ (adaptiveStepSize p').init its {} = .ok s ∧
      (adaptiveStepSize p).get (ParamAfter (adaptiveStepSize p) s fb i) i =
        (adaptiveStepSize p').get (ParamAfter (adaptiveStepSize p') s fb i) i := by
  intro p'
  refine ⟨_, rfl, ?_, ?_⟩
  · simp only [adaptiveStepSize, Option.getD_none, h, p']
  · have : ∀ s n, ParamAfter (adaptiveStepSize p) s fb n = ParamAfter (adaptiveStepSize p') s fb n := by
      intro s n
      induction n with
      | zero => rfl
      | succ n ih => simp only [ParamAfter, ih]; rfl
    rw [this]
    rfl

/-- What holds instead: the other specific schedulers honour overrides. -/
theorem c37_others_partial :
    (∀ (V : Type) (tau tau' : V) (its : Nat),
      (constantTemperature tau).init its (some tau') = (constantTemperature tau').init its none) ∧
    (∀ (n n' : Int) (its : Nat), (initialBurnIn n).init its (some n') = (initialBurnIn n').init its none) ∧
    (∀ (a b a' b' : XF) (g g' : ℝ) (its : Nat),
      (polynomialStepSize a b g).init its ⟨some a', some b', some g'⟩ =
        (polynomialStepSize a' b' g').init its {}) ∧
    (∀ (a b : XF) (g g' : ℝ) (its : Nat),
      (polynomialStepSize a b g).init its { gamma := some g' } = (polynomialStepSize a b g').init its {}) ∧
    (∀ (f l g f' l' g' : ℝ) (its : Nat),
      (polynomialFirstLast f l g).init its ⟨some f', some l', some g'⟩ =
        (polynomialFirstLast f' l' g').init its {}) ∧
    (∀ {Ks Kb σs σb κ : Type} [Inhabited Ks] [Inhabited Kb] (gumbel : κ → Nat → ℝ)
      (ss : ParamSched Ks σs XF) (bi : SelectSched Kb σb) (k k' : Nat) (key key' : κ) (its : Nat),
      (randomThinning gumbel ss bi k key).init its ⟨some k', some key'⟩ =
        (randomThinning gumbel ss bi k' key').init its {}) :=
  ⟨fun _ _ _ _ => rfl, fun _ _ _ => rfl, fun _ _ _ _ _ _ _ => rfl, fun _ _ _ _ _ => rfl,
   fun _ _ _ _ _ _ _ => rfl, fun _ _ _ _ _ _ _ _ => rfl⟩

/-! ### C33 -/

section
variable {κ : Type}

/-- The order used by `choiceNoReplace`. -/
theorem choice_facts (gumbel : κ → Nat → ℝ) (key : κ) (probs : List XF) (k : Nat) :
    (choiceNoReplace gumbel key probs k).Nodup ∧
    (choiceNoReplace gumbel key probs k).length = min k probs.length ∧
    (∀ i ∈ choiceNoReplace gumbel key probs k, i < probs.length) := by
  classical
  set l := (List.range probs.length).mergeSort (fun i j =>
    decide (choiceScore (gumbel key i) ((probs[i]?).getD .nan) ≤
      choiceScore (gumbel key j) ((probs[j]?).getD .nan))) with hl
  have hperm : l.Perm (List.range probs.length) := List.mergeSort_perm _ _
  have he : choiceNoReplace gumbel key probs k = l.take k := rfl
  rw [he]
  refine ⟨(hperm.nodup_iff.2 List.nodup_range).sublist (List.take_sublist _ _), ?_, ?_⟩
  · rw [List.length_take, hperm.length_eq, List.length_range]
  · intro i hi
    exact List.mem_range.1 (hperm.mem_iff.1 (List.mem_of_mem_take hi))

/-- If enough entries have a finite score, only those are chosen. -/
theorem choice_finite (gumbel : κ → Nat → ℝ) (key : κ) (probs : List XF) (k : Nat)
    (good : Nat → Bool)
    (hgood : ∀ i < probs.length, good i = false →
      choiceScore (gumbel key i) ((probs[i]?).getD .nan) = ⊤)
    (hgood' : ∀ i < probs.length, good i = true →
      choiceScore (gumbel key i) ((probs[i]?).getD .nan) ≠ ⊤)
    (hk : k ≤ ((List.range probs.length).filter good).length) :
    ∀ i ∈ choiceNoReplace gumbel key probs k, good i = true := by
  classical
  set sc : Nat → EReal := fun i => choiceScore (gumbel key i) ((probs[i]?).getD .nan) with hsc
  set l := (List.range probs.length).mergeSort (fun i j => decide (sc i ≤ sc j)) with hl
  have hperm : l.Perm (List.range probs.length) := List.mergeSort_perm _ _
  have he : choiceNoReplace gumbel key probs k = l.take k := rfl
  have hsorted : l.Pairwise (fun i j => sc i ≤ sc j) := by
    have := List.pairwise_mergeSort (le := fun i j => decide (sc i ≤ sc j))
      (by intro a b c h1 h2; simp only [decide_eq_true_eq] at *; exact le_trans h1 h2)
      (by intro a b; simp only [Bool.or_eq_true, decide_eq_true_eq]; exact le_total _ _)
      (List.range probs.length)
    simpa [hl] using this
  rw [he]
  intro i hi
  by_contra hbad
  have hbad' : good i = false := by simpa using hbad
  have hil : i < probs.length := List.mem_range.1 (hperm.mem_iff.1 (List.mem_of_mem_take hi))
  have htop := hgood i hil hbad'
  -- everything behind position `k` is bad, and one entry before it is bad
  have hdrop : ∀ j ∈ l.drop k, good j = false := by
    intro j hj
    by_contra hj'
    have hj'' : good j = true := by simpa using hj'
    have hjl : j < probs.length := List.mem_range.1 (hperm.mem_iff.1 (List.mem_of_mem_drop hj))
    have h1 : sc i ≤ sc j := by
      have h2 := hsorted
      rw [← List.take_append_drop k l, List.pairwise_append] at h2
      exact h2.2.2 i hi j hj
    have h3 : sc j = ⊤ := by
      have : sc i = ⊤ := htop
      rw [this] at h1
      exact top_le_iff.1 h1
    exact hgood' j hjl hj'' h3
  have hcount : ((List.range probs.length).filter good).length = ((l.take k).filter good).length := by
    rw [← (hperm.filter good).length_eq]
    conv_lhs => rw [← List.take_append_drop k l, List.filter_append]
    have : (l.drop k).filter good = [] := by
      rw [List.filter_eq_nil_iff]
      intro j hj
      simp [hdrop j hj]
    rw [this, List.append_nil]
  have hlt : ((l.take k).filter good).length < (l.take k).length := by
    rw [List.length_filter_lt_length_iff_exists]
    exact ⟨i, hi, by simp [hbad']⟩
  have : (l.take k).length ≤ k := by simp
  omega

variable {Ks Kb σs σb : Type} [Inhabited Ks] [Inhabited Kb]

omit [Inhabited Ks] [Inhabited Kb] in
theorem thinningProbs_get (ss : ParamSched Ks σs XF) (bi : SelectSched Kb σb) (s : σs) (b : σb) (n : Nat) :
    ∀ it, (thinningProbs ss bi n it (ParamAfter ss s (fun _ => none) it)
        (SelectAfter bi b (fun _ => none) it)) =
      (List.range n).map (fun j => (ss.get (ParamAfter ss s (fun _ => none) (it + j)) (it + j)).mul
        (.fin (if bi.get (SelectAfter bi b (fun _ => none) (it + j)) (it + j) then 1 else 0))) := by
  induction n with
  | zero => intro it; rfl
  | succ n ih =>
    intro it
    rw [thinningProbs, List.range_succ_eq_map, List.map_cons, List.map_map, Nat.add_zero]
    congr 1
    have := ih (it + 1)
    simp only [ParamAfter, SelectAfter] at this
    rw [this]
    apply List.map_congr_left
    intro j _
    have : it + 1 + j = it + Nat.succ j := by simp only [Nat.succ_eq_add_one]; omega
    simp only [Function.comp_def, this]

/-- **C33.** For a step size schedule with positive step sizes: `random_thinning` can be initialised
exactly if there are enough iterations which are not subject to burn in (otherwise the initialisation
fails), and it then accepts exactly `selections` different iterations of the run, none of which is
subject to burn in. -/
theorem c33_random_thinning (gumbel : κ → Nat → ℝ) (ss : ParamSched Ks σs XF) (bi : SelectSched Kb σb)
    (selections : Nat) (key : κ) (its : Nat) (kw : ThinKw κ) (s : σs) (hs : ss.init its default = .ok s)
    (b : σb) (nb : Int) (hb : bi.init its default = .ok (b, nb)) (hpos : PositiveSteps ss s its) :
    let k := kw.selections.getD selections
    let T := randomThinning gumbel ss bi selections key
    (k ≤ (availableIterations bi b its).length →
      ∃ t, T.init its kw = .ok (t, (k : Int)) ∧
        ((List.range its).filter (fun i => T.get t i)).length = k ∧
        (∀ i, T.get t i = true → i < its ∧ bi.get (SelectAfter bi b (fun _ => none) i) i = true)) ∧
    ((availableIterations bi b its).length < k → T.init its kw = .error .assertionError) := by
  classical
  intro k T
  set good : Nat → Bool := fun i => bi.get (SelectAfter bi b (fun _ => none) i) i with hgooddef
  set probs := thinningProbs ss bi its 0 s b with hprobs
  have hget := thinningProbs_get ss bi s b its 0
  simp only [ParamAfter, SelectAfter, Nat.zero_add, ← hprobs] at hget
  have hlen : probs.length = its := by rw [hget]; simp
  have hentry : ∀ i < its, ∃ r : ℝ, 0 < r ∧ probs[i]? = some (.fin (if good i then r else 0)) := by
    intro i hi
    obtain ⟨r, hr, hr2⟩ := hpos i hi
    refine ⟨r, hr, ?_⟩
    rw [hget]
    simp only [List.getElem?_map, List.getElem?_range hi, Option.map_some, hr2, XF.mul, good]
    split_ifs <;> simp
  have hcount : countNonzero probs = (availableIterations bi b its).length := by
    simp only [countNonzero, availableIterations]
    have : probs.map (fun p => decide (p ≠ .fin 0)) = (List.range its).map good := by
      apply List.ext_getElem?
      intro i
      by_cases hi : i < its
      · obtain ⟨r, hr, h1⟩ := hentry i hi
        simp only [List.getElem?_map, h1, List.getElem?_range hi, Option.map_some]
        cases hg : good i
        · simp
        · simp [hr.ne']
      · rw [List.getElem?_eq_none (by simp [hlen]; omega), List.getElem?_eq_none (by simp; omega)]
    have hc : ∀ {α : Type} (f : α → Bool) (l : List α), (l.filter f).length = (l.map f).count true := by
      intro α f l
      induction l with
      | nil => rfl
      | cons a l ih => cases h : f a <;> simp [h, ih]
    rw [hc, hc, this]
  have hT : T.init its kw = if countNonzero probs < k then .error .assertionError
      else .ok (choiceNoReplace gumbel (kw.key.getD key) probs k, (k : Int)) := by
    simp only [T, randomThinning, hs, hb, ← hprobs]
    rfl
  constructor
  · intro hk
    refine ⟨choiceNoReplace gumbel (kw.key.getD key) probs k, ?_, ?_, ?_⟩
    · rw [hT, if_neg (by omega)]
    · obtain ⟨h1, h2, h3⟩ := choice_facts gumbel (kw.key.getD key) probs k
      set c := choiceNoReplace gumbel (kw.key.getD key) probs k with hc
      have hkits : k ≤ its := by
        refine hk.trans ?_
        simp only [availableIterations]
        exact (List.length_filter_le _ _).trans (by simp)
      have hperm : ((List.range its).filter (fun i => T.get c i)).Perm c := by
        rw [List.perm_ext_iff_of_nodup (List.nodup_range.filter _) h1]
        intro i
        simp only [List.mem_filter, List.mem_range, T, randomThinning, List.any_eq_true, beq_iff_eq]
        constructor
        · rintro ⟨-, j, hj, rfl⟩
          exact hj
        · intro hi
          exact ⟨by have := h3 i hi; omega, i, hi, rfl⟩
      rw [hperm.length_eq, h2, hlen, Nat.min_eq_left hkits]
    · intro i hi
      simp only [T, randomThinning, List.any_eq_true, beq_iff_eq] at hi
      obtain ⟨j, hj, rfl⟩ := hi
      obtain ⟨-, -, h3⟩ := choice_facts gumbel (kw.key.getD key) probs k
      refine ⟨by have := h3 i hj; omega, ?_⟩
      refine choice_finite gumbel (kw.key.getD key) probs k good ?_ ?_ ?_ i hj
      · intro i hi hg
        obtain ⟨r, hr, h1⟩ := hentry i (by omega)
        simp [h1, hg, choiceScore]
      · intro i hi hg
        obtain ⟨r, hr, h1⟩ := hentry i (by omega)
        simp only [h1, hg, if_true, Option.getD_some, choiceScore, hr]
        exact EReal.coe_ne_top _
      · rw [hlen]; exact hk
  · intro hk
    rw [hT, if_pos (by omega)]

end

/-! ### C30, C31, C32 -/

section
variable {Ks σs Vs Kt σt Vt Kh σh : Type}

/-- The burn in and the thinning decision of iteration `i`. -/
theorem keep_eq (S : Scheduler Ks σs Vs Kt σt Vt (Option Int) Int Kh σh) (n : Int)
    (hb : S.burnIn = initialBurnIn n) (its : Nat) (kw : SchedKw Ks Kt (Option Int) Kh)
    (st : SchedState σs σt Int σh) (count : Int) (h : schedInit S its kw = .ok (st, count))
    (fb : Nat → Stats) (i : Nat) :
    (schedGet S (schedAfter S st fb i)).burnIn = decide (kw.burnIn.getD n ≤ (i : Int)) ∧
    (schedGet S (schedAfter S st fb i)).accept =
      S.thinning.get (SelectAfter S.thinning st.thinning fb i) i ∧
    ∃ nh, S.thinning.init its kw.thinning = .ok (st.thinning, nh) ∧
      count = min nh (its - kw.burnIn.getD n) := by
  obtain ⟨h0, -, nh, nb, h1, h2, h3, -⟩ := schedInit_spec S its kw st count h
  obtain ⟨e1, -, -, e4, e5⟩ := schedAfter_spec S st fb h0 i
  have hbu : st.burnIn = kw.burnIn.getD n ∧ nb = its - kw.burnIn.getD n := by
    rw [hb] at h2
    simp only [initialBurnIn, Except.ok.injEq, Prod.mk.injEq] at h2
    exact ⟨h2.1.symm, h2.2.symm⟩
  refine ⟨?_, ?_, nh, h1, by rw [h3, hbu.2]⟩
  · simp only [schedGet, e1, e4]
    rw [hb, selectAfter_static _ (fun _ _ _ => rfl), hbu.1]
    rfl
  · simp only [schedGet, e1, e5]

theorem count_burnIn (n : Int) (its : Nat) :
    ((List.range its).filter (fun i : Nat => decide (n ≤ (i : Int)))).length = its - n.toNat := by
  induction its with
  | zero => simp
  | succ its ih =>
    rw [List.range_succ, List.filter_append, List.length_append, ih]
    by_cases h : n ≤ (its : Int)
    · simp [h]; omega
    · simp [h]; omega

/-- **C32.** With `initial_burn_in(n)` (or a chain specific `n`) no sample of the first `n` iterations
is kept, whatever the thinning and the other schedules are. -/
theorem c32_burn_in (S : Scheduler Ks σs Vs Kt σt Vt (Option Int) Int Kh σh) (n : Int)
    (hb : S.burnIn = initialBurnIn n) (its : Nat) (kw : SchedKw Ks Kt (Option Int) Kh)
    (st : SchedState σs σt Int σh) (count : Int) (h : schedInit S its kw = .ok (st, count))
    (fb : Nat → Stats) (i : Nat) (hi : (i : Int) < kw.burnIn.getD n) :
    (schedGet S (schedAfter S st fb i)).keep = false := by
  obtain ⟨h1, -⟩ := keep_eq S n hb its kw st count h fb i
  simp only [Schedule.keep, h1, Bool.and_eq_false_imp, decide_eq_true_eq]
  intro h'
  omega

/-- **C32.** Without thinning, every later sample is kept. -/
theorem c32_after_burn_in (S : Scheduler Ks σs Vs Kt σt Vt (Option Int) Int Unit Unit) (n : Int)
    (hb : S.burnIn = initialBurnIn n) (ht : S.thinning = noThinning) (its : Nat)
    (kw : SchedKw Ks Kt (Option Int) Unit)
    (st : SchedState σs σt Int Unit) (count : Int) (h : schedInit S its kw = .ok (st, count))
    (fb : Nat → Stats) (i : Nat) (hi : kw.burnIn.getD n ≤ (i : Int)) :
    (schedGet S (schedAfter S st fb i)).keep = true := by
  obtain ⟨h1, h2, -⟩ := keep_eq S n hb its kw st count h fb i
  simp only [Schedule.keep, h1, h2, Bool.and_eq_true, decide_eq_true_eq]
  exact ⟨hi, by rw [ht]; rfl⟩

/-- Without thinning: exactly the announced samples are kept (none, if a burn in longer than the run
makes the announced number negative). -/
theorem kept_default (S : Scheduler Ks σs Vs Kt σt Vt (Option Int) Int Unit Unit) (n : Int)
    (hb : S.burnIn = initialBurnIn n) (ht : S.thinning = noThinning) (its : Nat)
    (kw : SchedKw Ks Kt (Option Int) Unit)
    (st : SchedState σs σt Int Unit) (count : Int) (h : schedInit S its kw = .ok (st, count))
    (fb : Nat → Stats) :
    ((keptIterations S st fb its).length : Int) = max 0 count := by
  have hk : keptIterations S st fb its =
      (List.range its).filter (fun i : Nat => decide (kw.burnIn.getD n ≤ (i : Int))) := by
    apply List.filter_congr
    intro i _
    obtain ⟨h1, h2, -⟩ := keep_eq S n hb its kw st count h fb i
    rw [Schedule.keep, h1, h2, ht]
    exact Bool.and_true _
  obtain ⟨-, -, nh, h3, h4⟩ := keep_eq S n hb its kw st count h fb 0
  rw [ht] at h3
  simp only [noThinning, Except.ok.injEq, Prod.mk.injEq] at h3
  rw [hk, count_burnIn, h4, ← h3.2]
  omega

/-- **C30** (no thinning).  Never more samples are kept than announced, whatever the overrides and the
statistics are. -/
theorem c30_no_thinning (S : Scheduler Ks σs Vs Kt σt Vt (Option Int) Int Unit Unit) (n : Int)
    (hb : S.burnIn = initialBurnIn n) (ht : S.thinning = noThinning) (its : Nat)
    (kw : SchedKw Ks Kt (Option Int) Unit)
    (st : SchedState σs σt Int Unit) (count : Int) (h : schedInit S its kw = .ok (st, count))
    (fb : Nat → Stats) :
    ((keptIterations S st fb its).length : Int) ≤ max 0 count :=
  le_of_eq (kept_default S n hb ht its kw st count h fb)

/-- **C31** (no thinning).  Exactly `iterations - n` samples are kept, as announced. -/
theorem c31_no_thinning (S : Scheduler Ks σs Vs Kt σt Vt (Option Int) Int Unit Unit) (n : Nat)
    (hb : S.burnIn = initialBurnIn n) (ht : S.thinning = noThinning) (its : Nat) (hn : n ≤ its)
    (kw : SchedKw Ks Kt (Option Int) Unit) (hkw : kw.burnIn = none)
    (st : SchedState σs σt Int Unit) (count : Int) (h : schedInit S its kw = .ok (st, count))
    (fb : Nat → Stats) :
    (keptIterations S st fb its).length = its - n ∧ count = ((its - n : Nat) : Int) := by
  have h1 := kept_default S n hb ht its kw st count h fb
  obtain ⟨-, -, nh, h3, h4⟩ := keep_eq S n hb its kw st count h fb 0
  rw [ht] at h3
  simp only [noThinning, Except.ok.injEq, Prod.mk.injEq] at h3
  rw [hkw, Option.getD_none, ← h3.2] at h4
  constructor <;> omega

section
variable {κ Ks' σs' Kb' σb' : Type} [Inhabited Ks'] [Inhabited Kb']

theorem randomThinning_init (gumbel : κ → Nat → ℝ) (ss : ParamSched Ks' σs' XF)
    (bi : SelectSched Kb' σb') (sel : Nat) (key : κ) (its : Nat) (kw : ThinKw κ) (t : List Nat) (k : Int)
    (h : (randomThinning gumbel ss bi sel key).init its kw = .ok (t, k)) :
    k = (kw.selections.getD sel : Nat) ∧ t.Nodup ∧ (t.length : Int) ≤ k := by
  simp only [randomThinning] at h
  split at h
  · simp at h
  · split at h
    · simp at h
    · split at h
      · simp at h
      · simp only [Except.ok.injEq, Prod.mk.injEq] at h
        obtain ⟨rfl, rfl⟩ := h
        obtain ⟨h1, h2, -⟩ := choice_facts gumbel (kw.key.getD key)
          (thinningProbs ss bi its 0 _ _) (kw.selections.getD sel)
        exact ⟨rfl, h1, by rw [h2]; push_cast; exact min_le_left _ _⟩

/-- **C30** (random thinning).  The schedules used for thinning may be others than those of the run, and
burn in and thinning may be overridden: never more samples are kept than announced. -/
theorem c30_random_thinning (gumbel : κ → Nat → ℝ) (ss : ParamSched Ks' σs' XF)
    (bi : SelectSched Kb' σb') (sel : Nat) (key : κ)
    (S : Scheduler Ks σs Vs Kt σt Vt (Option Int) Int (ThinKw κ) (List Nat)) (n : Int)
    (hb : S.burnIn = initialBurnIn n) (ht : S.thinning = randomThinning gumbel ss bi sel key) (its : Nat)
    (kw : SchedKw Ks Kt (Option Int) (ThinKw κ))
    (st : SchedState σs σt Int (List Nat)) (count : Int) (h : schedInit S its kw = .ok (st, count))
    (fb : Nat → Stats) :
    ((keptIterations S st fb its).length : Int) ≤ max 0 count := by
  have hk : keptIterations S st fb its = (List.range its).filter (fun i : Nat =>
      decide (kw.burnIn.getD n ≤ (i : Int)) && st.thinning.any (fun j => i == j)) := by
    apply List.filter_congr
    intro i _
    obtain ⟨h1, h2, -⟩ := keep_eq S n hb its kw st count h fb i
    rw [Schedule.keep, h1, h2, ht, selectAfter_static _ (fun _ _ _ => rfl)]
    rfl
  obtain ⟨-, -, nh, h3, h4⟩ := keep_eq S n hb its kw st count h fb 0
  rw [ht] at h3
  obtain ⟨-, h5, h6⟩ := randomThinning_init gumbel ss bi sel key its kw.thinning st.thinning nh h3
  rw [hk]
  have a1 : ((List.range its).filter (fun i : Nat =>
      decide (kw.burnIn.getD n ≤ (i : Int)) && st.thinning.any (fun j => i == j))).length ≤
      its - (kw.burnIn.getD n).toNat := by
    rw [← count_burnIn]
    exact (List.monotone_filter_right _ (fun i hi => by
      simp only [Bool.and_eq_true] at hi; exact hi.1)).length_le
  have a2 : ((List.range its).filter (fun i : Nat =>
      decide (kw.burnIn.getD n ≤ (i : Int)) && st.thinning.any (fun j => i == j))).length ≤
      st.thinning.length := by
    apply List.Subperm.length_le
    apply List.subperm_of_subset (List.nodup_range.filter _)
    intro i hi
    simp only [List.mem_filter, Bool.and_eq_true, List.any_eq_true, beq_iff_eq] at hi
    obtain ⟨-, -, j, hj, rfl⟩ := hi
    exact hj
  omega

/-- **C31** (random thinning).  If thinning is set up with the burn in schedule of the run and step
sizes are positive, exactly the requested number of samples is announced and kept. -/
theorem c31_random_thinning (gumbel : κ → Nat → ℝ) (ss : ParamSched Ks' σs' XF)
    (sel : Nat) (key : κ)
    (S : Scheduler Ks σs Vs Kt σt Vt (Option Int) Int (ThinKw κ) (List Nat)) (n : Nat)
    (hb : S.burnIn = initialBurnIn n)
    (ht : S.thinning = randomThinning gumbel ss (initialBurnIn n) sel key) (its : Nat)
    (s : σs') (hs : ss.init its default = .ok s) (hpos : PositiveSteps ss s its) (hn : n ≤ its)
    (kw : SchedKw Ks Kt (Option Int) (ThinKw κ)) (hkw : kw.burnIn = none)
    (st : SchedState σs σt Int (List Nat)) (count : Int) (h : schedInit S its kw = .ok (st, count))
    (fb : Nat → Stats) :
    (keptIterations S st fb its).length = kw.thinning.selections.getD sel ∧
    count = (kw.thinning.selections.getD sel : Nat) := by
  obtain ⟨hA, hB⟩ := c33_random_thinning gumbel ss (initialBurnIn (n : Int)) sel key its kw.thinning s hs
    (n : Int) (its - n) rfl hpos
  have hav : (availableIterations (initialBurnIn (n : Int)) (n : Int) its).length = its - n := by
    have := count_burnIn (n : Int) its
    simp only [Int.toNat_natCast] at this
    rw [← this]
    apply congrArg List.length
    apply List.filter_congr
    intro i _
    rw [selectAfter_static _ (fun _ _ _ => rfl)]
    rfl
  obtain ⟨-, -, nh, h3, h4⟩ := keep_eq S n hb its kw st count h fb 0
  rw [ht] at h3
  have hk : kw.thinning.selections.getD sel ≤ its - n := by
    rw [← hav]
    by_contra hlt
    rw [hB (by omega)] at h3
    simp at h3
  obtain ⟨t, h5, h6, h7⟩ := hA (by rw [hav]; exact hk)
  rw [h5] at h3
  simp only [Except.ok.injEq, Prod.mk.injEq] at h3
  obtain ⟨h3, h3'⟩ := h3
  refine ⟨?_, by rw [h4, ← h3', hkw]; simp only [Option.getD_none]; omega⟩
  rw [← h6]
  apply congrArg List.length
  apply List.filter_congr
  intro i _
  obtain ⟨e1, e2, -⟩ := keep_eq S n hb its kw st count h fb i
  rw [Schedule.keep, e1, e2, ht, selectAfter_static _ (fun _ _ _ => rfl), hkw, ← h3]
  cases hi : (randomThinning gumbel ss (initialBurnIn (n : Int)) sel key).get t i with
  | false => simp
  | true =>
    have := (h7 i hi).2
    rw [selectAfter_static _ (fun _ _ _ => rfl)] at this
    have : decide ((n : Int) ≤ i) = true := this
    simpa using this

end

end

/-! ### C38 -/

section
variable {Ks σs Vs Kt σt Vt Kb σb Kh σh : Type}

/-- **C38** (non-interference).  Two schedulers which differ only in the progress bar (enabled or not,
number of steps, overrides of the bar) announce the same number of samples and give the same schedule in
every iteration, for all statistics. -/
theorem c38_no_interference (S : Scheduler Ks σs Vs Kt σt Vt Kb σb Kh σh) (bar' : Bool) (steps' : Nat)
    (its : Nat) (kw : SchedKw Ks Kt Kb Kh) (o1 : Option Nat) (o2 : Option Bool)
    (st st' : SchedState σs σt σb σh) (count count' : Int)
    (h : schedInit S its kw = .ok (st, count))
    (h' : schedInit { S with progressBar := bar', barSteps := steps' } its
      { kw with barSteps := o1, enabled := o2 } = .ok (st', count')) :
    count = count' ∧ ∀ fb i,
      schedGet S (schedAfter S st fb i) =
        schedGet { S with progressBar := bar', barSteps := steps' }
          (schedAfter { S with progressBar := bar', barSteps := steps' } st' fb i) := by
  obtain ⟨h0, -, nh, nb, h1, h2, h3, h4, h5, -⟩ := schedInit_spec _ _ _ _ _ h
  obtain ⟨h0', -, nh', nb', h1', h2', h3', h4', h5', -⟩ := schedInit_spec _ _ _ _ _ h'
  dsimp only at h1' h2' h4' h5'
  rw [h1] at h1'
  rw [h2] at h2'
  rw [h4] at h4'
  rw [h5] at h5'
  simp only [Except.ok.injEq, Prod.mk.injEq] at h1' h2' h4' h5'
  refine ⟨by rw [h3, h3', h1'.2, h2'.2], ?_⟩
  intro fb i
  obtain ⟨e1, e2, e3, e4, e5⟩ := schedAfter_spec S st fb h0 i
  obtain ⟨e1', e2', e3', e4', e5'⟩ :=
    schedAfter_spec { S with progressBar := bar', barSteps := steps' } st' fb h0' i
  simp only [schedGet, e1, e2, e3, e4, e5, e1', e2', e3', e4', e5', h1'.1, h2'.1, h4', h5']

/-- **C38** (errors): the progress bar does not decide whether the initialisation fails. -/
theorem c38_same_errors (S : Scheduler Ks σs Vs Kt σt Vt Kb σb Kh σh) (bar' : Bool) (steps' : Nat)
    (its : Nat) (kw : SchedKw Ks Kt Kb Kh) (o1 : Option Nat) (o2 : Option Bool) (e : PyErr) :
    schedInit S its kw = .error e ↔
    schedInit { S with progressBar := bar', barSteps := steps' } its
      { kw with barSteps := o1, enabled := o2 } = .error e := by
  simp only [schedInit]
  cases S.thinning.init its kw.thinning with
  | error e => exact Iff.rfl
  | ok a =>
    cases S.burnIn.init its kw.burnIn with
    | error e => exact Iff.rfl
    | ok b =>
      cases S.stepSize.init its kw.stepSize with
      | error e => exact Iff.rfl
      | ok c =>
        cases S.temperature.init its kw.temperature with
        | error e => exact Iff.rfl
        | ok d => simp

/-- **C38** (counting).  For burn in and thinning schedules whose decision for an iteration is not
changed by the update of this iteration (all schedules of the package): if the bar is enabled, it prints exactly in
the iterations which are multiples of `iterations / steps`; what it prints in iteration `i` is the number of samples
kept in the iterations `0, …, i`, the number of the iteration and the announced totals. -/
theorem c38_counts (S : Scheduler Ks σs Vs Kt σt Vt Kb σb Kh σh)
    (hb : ∀ s i fb, S.burnIn.get (S.burnIn.update s i fb) i = S.burnIn.get s i)
    (ht : ∀ s i fb, S.thinning.get (S.thinning.update s i fb) i = S.thinning.get s i)
    (its : Nat) (kw : SchedKw Ks Kt Kb Kh) (st : SchedState σs σt σb σh) (count : Int)
    (h : schedInit S its kw = .ok (st, count)) (fb : Nat → Stats) (i : Nat) :
    (schedUpdate S (schedAfter S st fb i) (fb i)).2 =
      if S.progressBar = true ∧ kw.enabled ≠ some false ∧ i % (its / kw.barSteps.getD S.barSteps) = 0 then
        some ⟨i, its, (keptIterations S st fb (i + 1)).length, count⟩
      else none := by
  obtain ⟨h0, -, -, -, -, -, -, -, -, hbar⟩ := schedInit_spec S its kw st count h
  have hinv : ∀ i, (schedAfter S st fb i).bar =
      (if S.progressBar then some ⟨its, count, (keptIterations S st fb i).length,
        kw.barSteps.getD S.barSteps, kw.enabled.getD S.progressBar⟩ else none) := by
    intro i
    induction i with
    | zero => rw [schedAfter, hbar]; rfl
    | succ i ih =>
      obtain ⟨e1, -⟩ := schedAfter_spec S st fb h0 i
      simp only [schedAfter, schedUpdate, ih]
      cases S.progressBar with
      | false => simp
      | true =>
        simp only [if_true, Option.map_some, barStep, hb, ht, Option.some.injEq, BarState.mk.injEq,
          true_and, and_true]
        simp only [keptIterations, List.range_succ, List.filter_append, List.length_append]
        congr 1
        simp only [List.filter_cons, List.filter_nil, Schedule.keep, schedGet]
        split_ifs <;> simp_all
  have h1 := hinv (i + 1)
  obtain ⟨e1, -⟩ := schedAfter_spec S st fb h0 i
  simp only [schedAfter, schedUpdate, hinv i] at h1
  simp only [schedUpdate, hinv i]
  cases hp : S.progressBar with
  | false => simp
  | true =>
    simp only [hp, if_true, Option.map_some, Option.bind_some, true_and] at h1 ⊢
    simp only [barStep, e1] at h1 ⊢
    simp only [Option.some.injEq, BarState.mk.injEq, true_and, and_true] at h1
    rw [h1]
    have he : (kw.enabled.getD true = true) ↔ kw.enabled ≠ some false := by
      rcases kw.enabled with _ | _ | _ <;> simp
    have hiff : (i % (its / kw.barSteps.getD S.barSteps) = 0 ∧ kw.enabled.getD true = true) ↔
        (kw.enabled ≠ some false ∧ i % (its / kw.barSteps.getD S.barSteps) = 0) := by
      rw [he]; exact And.comm
    by_cases hc : i % (its / kw.barSteps.getD S.barSteps) = 0 ∧ kw.enabled.getD true = true
    · rw [if_pos hc, if_pos (hiff.1 hc)]
    · rw [if_neg hc, if_neg (fun h => hc (hiff.2 h))]

/-- The schedules of the package satisfy the hypotheses of `c38_counts`. -/
example (n : Int) (s : Int) (i : Nat) (fb : Stats) :
    (initialBurnIn n).get ((initialBurnIn n).update s i fb) i = (initialBurnIn n).get s i := rfl

end

/-! ### Non-vacuity -/

/-- A scheduler with burn in and random thinning of three samples, decreasing step size. -/
noncomputable def toyScheduler :
    Scheduler PolyKw (List XF) XF (Option ℝ) ℝ ℝ (Option Int) Int (ThinKw Unit) (List Nat) where
  stepSize := polynomialStepSize (.fin 1) (.fin 1) 1
  temperature := constantTemperature 1
  burnIn := initialBurnIn 2
  thinning := randomThinning (fun _ _ => 0) (polynomialStepSize (.fin 1) (.fin 1) 1) (initialBurnIn 2) 3 ()
  progressBar := true
  barSteps := 2

/-- The hypotheses of C31 and C33 are met for seven iterations: three samples are kept. -/
example (fb : Nat → Stats) : ∃ st, schedInit toyScheduler 7 default = .ok (st, 3) ∧
    (keptIterations toyScheduler st fb 7).length = 3 := by
  have hs := polySteps_ok 7 1 1 1 one_pos one_pos zero_le_one
  set s := (List.range 7).map (fun n : Nat => XF.fin (1 * (1 + (n : ℝ)) ^ (-(1 : ℝ)))) with hsdef
  have hs' : (polynomialStepSize (.fin 1) (.fin 1) 1).init 7 default = .ok s := hs
  have hpos : PositiveSteps (polynomialStepSize (.fin 1) (.fin 1) 1) s 7 := by
    intro i hi
    refine ⟨_, poly_pos 1 1 1 one_pos one_pos i, ?_⟩
    rw [paramAfter_static _ (fun _ _ _ => rfl)]
    exact jnpGet_range 7 i _ hi
  obtain ⟨hA, -⟩ := c33_random_thinning (fun (_ : Unit) (_ : Nat) => (0 : ℝ))
    (polynomialStepSize (.fin 1) (.fin 1) 1) (initialBurnIn 2) 3 () 7 default s hs' 2 5 rfl hpos
  obtain ⟨t, h1, -⟩ := hA (by decide)
  have hinit : ∃ st, schedInit toyScheduler 7 default = .ok (st, 3) := by
    have h2 : toyScheduler.thinning.init 7 (default : SchedKw PolyKw (Option ℝ) (Option Int)
      (ThinKw Unit)).thinning = .ok (t, 3) := h1
    have h3 : toyScheduler.stepSize.init 7 (default : SchedKw PolyKw (Option ℝ) (Option Int)
      (ThinKw Unit)).stepSize = .ok s := hs'
    simp only [schedInit, h2, h3]
    exact ⟨_, rfl⟩
  obtain ⟨st, hst⟩ := hinit
  exact ⟨st, hst, (c31_random_thinning _ _ 3 () toyScheduler 2 rfl rfl 7 s hs' hpos (by decide) default
    rfl st 3 hst fb).1⟩

end JaxSgmc
