import Verif.Model.ProgressPrint
import Verif.Spec.ProgressPrint
import Verif.Props.Scheduler
import Verif.Props.Rounding
import Verif.Props.Json
import Mathlib.Data.Int.CardIntervalMod
import Mathlib.Data.Int.Log

/-!
# C167: the lines of the progress bar
-/

namespace JaxSgmc

open Spec

/-! ### Rounding to an integer -/

theorem pyRound_bounds (x : ℝ) : ⌊x⌋ ≤ pyRound x ∧ pyRound x ≤ ⌊x⌋ + 1 := by
  unfold pyRound
  split_ifs <;> omega

theorem pyRound_near (x : ℝ) : |(pyRound x : ℝ) - x| ≤ 1 / 2 := by
  have h1 := Int.floor_le x
  have h2 := Int.lt_floor_add_one x
  unfold pyRound
  split_ifs with h3 h4 h5 <;> rw [abs_le] <;> push_cast <;> constructor <;> linarith

theorem pyRound_mono {x y : ℝ} (h : x ≤ y) : pyRound x ≤ pyRound y := by
  have hf := Int.floor_mono h
  rcases hf.lt_or_eq with h1 | h1
  · have := (pyRound_bounds x).2
    have := (pyRound_bounds y).1
    omega
  · unfold pyRound
    rw [h1]
    have hx : (⌊x⌋ : ℝ) = ⌊y⌋ := by rw [h1]
    split_ifs <;> first | omega | (exfalso; linarith) | skip
    all_goals simp_all

theorem pyRound_int (n : ℤ) : pyRound n = n := by
  simp [pyRound]

/-! ### Rounding to a floating point number -/

section
variable {p : ℕ} {fl : ℝ → ℝ}

theorem round_mono (hfl : RoundsToNearest p fl) {x y : ℝ} (hx : x = 0 ∨ ((2 : ℝ) ^ 100)⁻¹ ≤ x ∧ x ≤ 2 ^ 100)
    (hy : y = 0 ∨ ((2 : ℝ) ^ 100)⁻¹ ≤ y ∧ y ≤ 2 ^ 100) (h : x ≤ y) : fl x ≤ fl y := by
  by_contra hlt
  rcases h.lt_or_eq with h1 | rfl
  · have a := sq_le_sq.2 ((hfl x hx).2 _ (hfl y hy).1)
    have b := sq_le_sq.2 ((hfl y hy).2 _ (hfl x hx).1)
    have hlt := not_le.1 hlt
    have a' : fl x + fl y ≤ 2 * x := by nlinarith
    have b' : 2 * y ≤ fl x + fl y := by nlinarith
    linarith
  · exact hlt le_rfl

/-- The relative error of rounding. -/
theorem round_error (hfl : RoundsToNearest p fl) (hp : 0 < p) {x : ℝ} (hx : ((2 : ℝ) ^ 100)⁻¹ ≤ x ∧ x ≤ 2 ^ 100) :
    |fl x - x| ≤ x * 2 / 2 ^ p := by
  have h0 : 0 < x := lt_of_lt_of_le (by positivity) hx.1
  have l1 : (2 : ℝ) ^ Int.log 2 x ≤ x := by exact_mod_cast Int.zpow_log_le_self (b := 2) (by norm_num) h0
  have l2 : x < (2 : ℝ) ^ (Int.log 2 x + 1) := by exact_mod_cast Int.lt_zpow_succ_log_self (b := 2) (by norm_num) x
  set e : ℤ := Int.log 2 x + 1 - p with he
  have hpos : (0 : ℝ) < 2 ^ e := by positivity
  have hep : (2 : ℝ) ^ e * 2 ^ p = 2 ^ (Int.log 2 x + 1) := by
    rw [he, ← zpow_natCast, ← zpow_add₀ (by norm_num)]
    congr 1
    ring
  have f1 := Int.floor_le (x / 2 ^ e)
  have f2 := Int.lt_floor_add_one (x / 2 ^ e)
  have f0 : 0 ≤ ⌊x / (2 : ℝ) ^ e⌋ := Int.floor_nonneg.2 (by positivity)
  have hm : |⌊x / (2 : ℝ) ^ e⌋| < 2 ^ p := by
    rw [abs_of_nonneg f0]
    have : x / 2 ^ e < 2 ^ p := by rw [div_lt_iff₀ hpos, mul_comm, hep]; exact l2
    have : ((⌊x / (2 : ℝ) ^ e⌋ : ℤ) : ℝ) < 2 ^ p := lt_of_le_of_lt f1 this
    exact_mod_cast this
  refine le_trans ((hfl x (.inr hx)).2 _ ⟨_, e, hm, rfl⟩) ?_
  rw [le_div_iff₀ hpos] at f1
  rw [div_lt_iff₀ hpos] at f2
  rw [abs_of_nonpos (by linarith), le_div_iff₀ (by positivity)]
  have : x * 2 ≥ 2 ^ e * 2 ^ p := by
    rw [hep, zpow_add₀ (by norm_num), zpow_one]
    linarith
  have h2 : (x - ⌊x / (2 : ℝ) ^ e⌋ * 2 ^ e) * 2 ^ p ≤ 2 ^ e * 2 ^ p := by
    apply mul_le_mul_of_nonneg_right _ (by positivity)
    linarith
  linarith

end

section
variable {fl : ℝ → ℝ}

/-- The numbers which occur in the computation of the percentage. -/
theorem percentage_quotient (hfl : RoundsToNearest 53 fl) {i n : ℕ} (hn : n < 2 ^ 53) (hi : i ≤ n) (h0 : 0 < n) :
    ((i : ℝ) / n = 0 ∨ ((2 : ℝ) ^ 100)⁻¹ ≤ (i : ℝ) / n ∧ (i : ℝ) / n ≤ 2 ^ 100) ∧
    (fl ((i : ℝ) / n) * 100 = 0 ∨ ((2 : ℝ) ^ 100)⁻¹ ≤ fl ((i : ℝ) / n) * 100 ∧ fl ((i : ℝ) / n) * 100 ≤ 2 ^ 100) ∧
    0 ≤ fl ((i : ℝ) / n) ∧ fl ((i : ℝ) / n) ≤ 1 := by
  have z0 : fl 0 = 0 := round_exact hfl (y := 0) (by simpa using representable_nat (p := 53) (k := 0) (by norm_num) (by norm_num)) (.inl rfl)
  rcases Nat.eq_zero_or_pos i with rfl | hi0
  · simp [z0]
  · have hq := small_quotient (N := i) (mb := n) h0 (by omega) (by omega) hi0
    have hn0 : (0 : ℝ) < n := by exact_mod_cast h0
    have hle : (i : ℝ) / n ≤ 1 := by rw [div_le_one hn0]; exact_mod_cast hi
    have hge : (1 : ℝ) * 2 ^ (-53 : ℤ) ≤ (i : ℝ) / n := by
      rw [le_div_iff₀ hn0]
      have h1 : (n : ℝ) ≤ 2 ^ 53 := by exact_mod_cast hn.le
      have h2 : (1 : ℝ) ≤ i := by exact_mod_cast hi0
      have h3 : (2 : ℝ) ^ (-53 : ℤ) * 2 ^ 53 = 1 := by norm_num
      have h4 : (0 : ℝ) < 2 ^ (-53 : ℤ) := by positivity
      nlinarith
    have f1 : fl ((i : ℝ) / n) ≤ 1 := by
      refine round_le hfl hq ?_ hle
      simpa using representable_nat (p := 53) (k := 1) (by norm_num) (by norm_num)
    have f2 : (1 : ℝ) * 2 ^ (-53 : ℤ) ≤ fl ((i : ℝ) / n) := by
      refine round_ge hfl hq ?_ hge
      simpa using representable_of_le (p := 53) (m := 1) (-53) (by norm_num) (by norm_num)
    have f3 : (0 : ℝ) < 1 * 2 ^ (-53 : ℤ) := by positivity
    have f4 : ((2 : ℝ) ^ 100)⁻¹ ≤ 1 * 2 ^ (-53 : ℤ) := by norm_num
    refine ⟨.inr hq, .inr ⟨by linarith, ?_⟩, by linarith, f1⟩
    have : (100 : ℝ) ≤ 2 ^ 100 := by norm_num
    linarith

/-- **C167** (percentage).  The printed percentage lies between 0 and 100 and is a nearest integer of the progress, up to an
error of 10⁻¹³. -/
theorem c167_percentage (hfl : RoundsToNearest 53 fl) (r : Report) (hn : r.totalIterations < 2 ^ 53)
    (hi : r.currentIteration ≤ r.totalIterations) (h0 : 0 < r.totalIterations) :
    0 ≤ percentage fl r ∧ percentage fl r ≤ 100 ∧
      |(percentage fl r : ℝ) - 100 * r.currentIteration / r.totalIterations| ≤ 1 / 2 + 1 / 10 ^ 13 := by
  obtain ⟨q1, q2, q3, q4⟩ := percentage_quotient hfl hn hi h0
  have z0 : fl 0 = 0 := round_exact hfl (y := 0) (by simpa using representable_nat (p := 53) (k := 0) (by norm_num) (by norm_num)) (.inl rfl)
  have z100 : fl 100 = 100 := round_exact hfl
    (by simpa using representable_nat (p := 53) (k := 100) (by norm_num) (by norm_num)) (.inr ⟨by norm_num, by norm_num⟩)
  have g1 : 0 ≤ fl (fl ((r.currentIteration : ℝ) / r.totalIterations) * 100) := by
    have := round_mono hfl (.inl rfl) q2 (by linarith)
    rwa [z0] at this
  have g2 : fl (fl ((r.currentIteration : ℝ) / r.totalIterations) * 100) ≤ 100 := by
    have := round_mono hfl q2 (y := 100) (.inr ⟨by norm_num, by norm_num⟩) (by linarith)
    rwa [z100] at this
  refine ⟨?_, ?_, ?_⟩
  · have := pyRound_mono g1
    rwa [show pyRound 0 = 0 by simpa using pyRound_int 0] at this
  · have := pyRound_mono g2
    rwa [show pyRound 100 = 100 by simpa using pyRound_int 100] at this
  · have e1 : |fl ((r.currentIteration : ℝ) / r.totalIterations) - (r.currentIteration : ℝ) / r.totalIterations| ≤
        2 / 2 ^ 53 := by
      rcases q1 with h | h
      · rw [h, z0]; norm_num
      · refine (round_error hfl (by norm_num) h).trans ?_
        have : (r.currentIteration : ℝ) / r.totalIterations ≤ 1 := by
          rw [div_le_one (by exact_mod_cast h0)]; exact_mod_cast hi
        apply div_le_div_of_nonneg_right _ (by positivity)
        linarith
    have e2 : |fl (fl ((r.currentIteration : ℝ) / r.totalIterations) * 100) -
        fl ((r.currentIteration : ℝ) / r.totalIterations) * 100| ≤ 200 / 2 ^ 53 := by
      rcases q2 with h | h
      · rw [h, z0]; norm_num
      · refine (round_error hfl (by norm_num) h).trans ?_
        apply div_le_div_of_nonneg_right _ (by positivity)
        linarith
    have e3 := pyRound_near (fl (fl ((r.currentIteration : ℝ) / r.totalIterations) * 100))
    rw [percentage, mul_div_assoc]
    rw [abs_le] at e1 e2 e3 ⊢
    constructor <;> linarith [e1.1, e1.2, e2.1, e2.2, e3.1, e3.2]

/-- **C167** (ties).  If the computed progress lies in the middle between two integers, the even one is printed. -/
theorem c167_ties (r : Report) (k : ℤ)
    (h : fl (fl ((r.currentIteration : ℝ) / r.totalIterations) * 100) = k + 1 / 2) :
    Even (percentage fl r) ∧ (percentage fl r = k ∨ percentage fl r = k + 1) := by
  have hf : ⌊(k : ℝ) + 1 / 2⌋ = k := by
    rw [Int.floor_eq_iff]
    constructor <;> linarith
  rw [percentage, h, pyRound, hf]
  rw [if_neg (by linarith), if_neg (by linarith)]
  split_ifs with he
  · exact ⟨he, .inl rfl⟩
  · exact ⟨Int.even_add_one.2 he, .inr rfl⟩

/-- **C167** (order).  The percentage does not decrease. -/
theorem c167_monotone (hfl : RoundsToNearest 53 fl) (r r' : Report) (hn : r.totalIterations < 2 ^ 53)
    (ht : r.totalIterations = r'.totalIterations) (hi : r.currentIteration ≤ r'.currentIteration)
    (hi' : r'.currentIteration ≤ r'.totalIterations) : percentage fl r ≤ percentage fl r' := by
  rcases Nat.eq_zero_or_pos r.totalIterations with h0 | h0
  · rw [percentage, percentage, ← ht, h0]
    simp
  · obtain ⟨a1, a2, -, -⟩ := percentage_quotient (fl := fl) hfl hn (by omega : r.currentIteration ≤ _) h0
    obtain ⟨b1, b2, -, -⟩ := percentage_quotient (fl := fl) hfl hn (by omega : r'.currentIteration ≤ _) h0
    rw [percentage, percentage, ← ht]
    apply pyRound_mono
    apply round_mono hfl a2 b2
    apply mul_le_mul_of_nonneg_right _ (by norm_num)
    apply round_mono hfl a1 b1
    apply div_le_div_of_nonneg_right _ (by positivity)
    exact_mod_cast hi

end

/-! ### The lines -/

theorem decimal_inj {x y : ℤ} (h : decimal x = decimal y) : x = y := by
  have hd : ∀ (n : ℕ) (l : List Char), Nat.toDigits 10 n ≠ '-' :: l := by
    intro n l hl
    have := isDigit_toDigits n '-' (by rw [hl]; exact List.mem_cons_self)
    revert this
    decide
  unfold decimal at h
  split_ifs at h with h1 h2 h2
  · have := toDigits_inj _ _ (List.cons.inj h).2
    omega
  · exact absurd h.symm (hd _ _)
  · exact absurd h (hd _ _)
  · have := toDigits_inj _ _ h
    omega

/-- **C167** (lines).  A line shows the report: different reports give different lines. -/
theorem c167_line (fl : ℝ → ℝ) (r r' : Report) (h : printLine fl r = printLine fl r') : r = r' := by
  unfold printLine at h
  have h := List.append_cancel_left h
  obtain ⟨h1, h⟩ := digits_append_inj _ _ '/' '/' _ _ (isDigit_toDigits _) (isDigit_toDigits _) rfl rfl h
  obtain ⟨h2, h⟩ := digits_append_inj _ _ ']' ']' _ _ (isDigit_toDigits _) (isDigit_toDigits _) rfl rfl h
  have e1 := toDigits_inj _ _ h1
  have e2 := toDigits_inj _ _ h2
  have ep : percentage fl r = percentage fl r' := by rw [percentage, percentage, e1, e2]
  rw [ep] at h
  have h := List.append_cancel_left (List.append_cancel_left (List.cons.inj h).2)
  obtain ⟨h3, h⟩ := digits_append_inj _ _ ' ' ' ' _ _ (isDigit_toDigits _) (isDigit_toDigits _) rfl rfl h
  have e3 := toDigits_inj _ _ h3
  have e4 := decimal_inj (List.append_cancel_right (List.append_cancel_left h))
  cases r
  cases r'
  simp_all

/-! ### The reports of a run -/

section
variable {Ks σs Vs Kt σt Vt Kb σb Kh σh : Type}

theorem multiples_length (n q : ℕ) (hq : 0 < q) :
    ((List.range n).filter fun i : Nat => i % q = 0).length = n / q + if 0 < n % q then 1 else 0 := by
  have h := Nat.count_modEq_card (r := q) (b := n) hq 0
  rw [Nat.zero_mod] at h
  rw [← h]
  clear h
  induction n with
  | zero => simp
  | succ n ih =>
    rw [List.range_succ, List.filter_append, List.length_append, ih, Nat.count_succ]
    congr 1
    by_cases h : n % q = 0
    · simp [h, Nat.ModEq]
    · simp [h, Nat.ModEq]

/-- **C167** (reports of a run).  If the bar is enabled, the lines report exactly the iterations which are multiples of
`iterations / steps`, in their order, with the number of samples kept so far. -/
theorem c167_reports (S : Scheduler Ks σs Vs Kt σt Vt Kb σb Kh σh)
    (hb : ∀ s i fb, S.burnIn.get (S.burnIn.update s i fb) i = S.burnIn.get s i)
    (ht : ∀ s i fb, S.thinning.get (S.thinning.update s i fb) i = S.thinning.get s i)
    (its : Nat) (kw : SchedKw Ks Kt Kb Kh) (st : SchedState σs σt σb σh) (count : Int)
    (h : schedInit S its kw = .ok (st, count)) (fb : Nat → Stats) (n : Nat)
    (hbar : S.progressBar = true) (hen : kw.enabled ≠ some false) :
    runReports S st fb n =
      ((List.range n).filter fun i : Nat => i % (its / kw.barSteps.getD S.barSteps) = 0).map fun i =>
        ⟨i, its, (keptIterations S st fb (i + 1)).length, count⟩ := by
  unfold runReports
  induction n with
  | zero => rfl
  | succ n ih =>
    rw [List.range_succ, List.filterMap_append, ih, List.filter_append, List.map_append]
    congr 1
    simp only [List.filterMap_cons, List.filterMap_nil, c38_counts S hb ht its kw st count h fb n]
    by_cases hc : n % (its / kw.barSteps.getD S.barSteps) = 0
    · simp [hbar, hen, hc]
    · simp [hc]

/-- **C167** (number of lines).  A run of at least `steps` iterations prints at least `steps` and less than `2 * steps` lines;
a shorter run prints one line. -/
theorem c167_lines (S : Scheduler Ks σs Vs Kt σt Vt Kb σb Kh σh)
    (hb : ∀ s i fb, S.burnIn.get (S.burnIn.update s i fb) i = S.burnIn.get s i)
    (ht : ∀ s i fb, S.thinning.get (S.thinning.update s i fb) i = S.thinning.get s i)
    (its : Nat) (kw : SchedKw Ks Kt Kb Kh) (st : SchedState σs σt σb σh) (count : Int)
    (h : schedInit S its kw = .ok (st, count)) (fb : Nat → Stats)
    (hbar : S.progressBar = true) (hen : kw.enabled ≠ some false) (steps : Nat)
    (hs : kw.barSteps.getD S.barSteps = steps) (h0 : 0 < steps) (hi : 0 < its) :
    (steps ≤ its → steps ≤ (runReports S st fb its).length ∧ (runReports S st fb its).length < 2 * steps) ∧
    (its < steps → (runReports S st fb its).length = 1) := by
  rw [c167_reports S hb ht its kw st count h fb its hbar hen, hs, List.length_map]
  constructor
  · intro hle
    have hq : 0 < its / steps := Nat.div_pos hle h0
    rw [multiples_length its _ hq]
    have hm := Nat.div_add_mod its steps
    have hr := Nat.mod_lt its h0
    set q := its / steps
    have d1 : steps ≤ its / q := by
      rw [Nat.le_div_iff_mul_le hq]
      calc steps * q ≤ steps * q + its % steps := Nat.le_add_right _ _
        _ = its := hm
    have hm2 := Nat.div_add_mod its q
    refine ⟨by omega, ?_⟩
    have d2 : its / q + (if 0 < its % q then 1 else 0) ≤ steps + its % steps := by
      by_contra hlt
      have h3 : steps + its % steps + 1 ≤ its / q + (if 0 < its % q then 1 else 0) := by omega
      split_ifs at h3 with h4
      · have : steps + its % steps ≤ its / q := by omega
        have := Nat.mul_le_mul_left q this
        have e : q * (steps + its % steps) = steps * q + q * (its % steps) := by ring
        have : its % steps ≤ q * (its % steps) := Nat.le_mul_of_pos_left _ hq
        omega
      · have : steps + its % steps + 1 ≤ its / q := by omega
        have := Nat.mul_le_mul_left q this
        have e : q * (steps + its % steps + 1) = steps * q + q * (its % steps) + q := by ring
        have : its % steps ≤ q * (its % steps) := Nat.le_mul_of_pos_left _ hq
        omega
    omega
  · intro hlt
    rw [Nat.div_eq_of_lt hlt]
    obtain ⟨m, rfl⟩ := Nat.exists_eq_succ_of_ne_zero hi.ne'
    have : ((List.range m.succ).filter fun i : Nat => i % 0 = 0) = [0] := by
      rw [List.range_succ_eq_map]
      simp
    rw [this]
    rfl

/-- **C167** (order of the lines).  From line to line the reported iteration increases, and neither the number of collected
samples nor the percentage decreases; every line reports an iteration of the run and no more samples than the run keeps. -/
theorem c167_order (S : Scheduler Ks σs Vs Kt σt Vt Kb σb Kh σh)
    (hb : ∀ s i fb, S.burnIn.get (S.burnIn.update s i fb) i = S.burnIn.get s i)
    (ht : ∀ s i fb, S.thinning.get (S.thinning.update s i fb) i = S.thinning.get s i)
    (its : Nat) (kw : SchedKw Ks Kt Kb Kh) (st : SchedState σs σt σb σh) (count : Int)
    (h : schedInit S its kw = .ok (st, count)) (fb : Nat → Stats)
    (hbar : S.progressBar = true) (hen : kw.enabled ≠ some false) (fl : ℝ → ℝ) (hfl : RoundsToNearest 53 fl)
    (hits : its < 2 ^ 53) :
    (runReports S st fb its).Pairwise (fun r r' => r.currentIteration < r'.currentIteration ∧
      r.collectedSamples ≤ r'.collectedSamples ∧ percentage fl r ≤ percentage fl r') ∧
    ∀ r ∈ runReports S st fb its, r.currentIteration < its ∧ r.totalIterations = its ∧ r.totalSamples = count ∧
      r.collectedSamples ≤ (keptIterations S st fb its).length := by
  have hk : ∀ a b, a ≤ b → (keptIterations S st fb a).length ≤ (keptIterations S st fb b).length := by
    intro a b hab
    obtain ⟨c, rfl⟩ := Nat.exists_eq_add_of_le hab
    unfold keptIterations
    rw [List.range_add, List.filter_append, List.length_append]
    omega
  rw [c167_reports S hb ht its kw st count h fb its hbar hen]
  constructor
  · rw [List.pairwise_map]
    refine List.Pairwise.imp_of_mem ?_ (List.Pairwise.filter _ List.pairwise_lt_range)
    intro a b ha hb' hab
    have hb1 := List.mem_range.1 (List.mem_filter.1 hb').1
    exact ⟨hab, hk _ _ (by omega), c167_monotone hfl _ _ hits rfl hab.le hb1.le⟩
  · intro r hr
    obtain ⟨i, hi, rfl⟩ := List.mem_map.1 hr
    have hi1 := List.mem_range.1 (List.mem_filter.1 hi).1
    exact ⟨hi1, rfl, rfl, hk _ _ hi1⟩

end

/-! ### Non-vacuity -/

/-- A scheduler with progress bar. -/
noncomputable def barScheduler : Scheduler PolyKw (List XF) XF (Option ℝ) ℝ ℝ (Option Int) Int Unit Unit where
  stepSize := polynomialStepSize (.fin 1) (.fin 1) 0
  temperature := constantTemperature 1
  burnIn := initialBurnIn 4
  thinning := noThinning
  progressBar := true
  barSteps := 20

/-- The hypotheses are met: a run of 39 iterations with the default number of steps prints between 20 and 39 lines (in fact
39), the last one with 38 iterations. -/
example (fb : Nat → Stats) : ∃ st n, schedInit barScheduler 39 default = .ok (st, n) ∧
    20 ≤ (runReports barScheduler st fb 39).length ∧ (runReports barScheduler st fb 39).length < 40 ∧
    (runReports barScheduler st fb 39).map Report.currentIteration = List.range 39 := by
  have hs := polySteps_ok 39 1 1 0 one_pos one_pos le_rfl
  have hb : ∀ s i fb, barScheduler.burnIn.get (barScheduler.burnIn.update s i fb) i = barScheduler.burnIn.get s i :=
    fun _ _ _ => rfl
  have ht : ∀ s i fb, barScheduler.thinning.get (barScheduler.thinning.update s i fb) i = barScheduler.thinning.get s i :=
    fun _ _ _ => rfl
  have hinit : ∃ st n, schedInit barScheduler 39 default = .ok (st, n) := by
    have h3 : barScheduler.stepSize.init 39 (default : SchedKw PolyKw (Option ℝ) (Option Int) Unit).stepSize = .ok _ := hs
    simp only [schedInit, h3]
    exact ⟨_, _, rfl⟩
  obtain ⟨st, n, hst⟩ := hinit
  obtain ⟨h1, -⟩ := c167_lines barScheduler hb ht 39 default st n hst fb rfl (by decide) 20 rfl (by decide) (by decide)
  obtain ⟨h2, h3⟩ := h1 (by decide)
  refine ⟨st, n, hst, h2, h3, ?_⟩
  rw [c167_reports barScheduler hb ht 39 default st n hst fb 39 rfl (by decide)]
  rw [List.map_map]
  have : ((List.range 39).filter fun i : Nat =>
      i % (39 / (default : SchedKw PolyKw (Option ℝ) (Option Int) Unit).barSteps.getD barScheduler.barSteps) = 0) =
      List.range 39 := by decide
  rw [this]
  exact List.map_id _

/-- The percentage of exact rounding: 38 of 39 iterations are 97 percent, one of eight (12.5) is rounded to 12, and 402 of 404
are already 100. -/
example : percentage id ⟨38, 39, 0, 0⟩ = 97 ∧ percentage id ⟨1, 8, 0, 0⟩ = 12 ∧ percentage id ⟨402, 404, 0, 0⟩ = 100 := by
  have f1 : ⌊(38 : ℝ) / 39 * 100⌋ = 97 := by rw [Int.floor_eq_iff]; norm_num
  have f2 : ⌊(1 : ℝ) / 8 * 100⌋ = 12 := by rw [Int.floor_eq_iff]; norm_num
  have f3 : ⌊(402 : ℝ) / 404 * 100⌋ = 99 := by rw [Int.floor_eq_iff]; norm_num
  refine ⟨?_, ?_, ?_⟩
  · simp only [percentage, pyRound, id, Nat.cast_ofNat, f1]; norm_num
  · simp only [percentage, pyRound, id, Nat.cast_ofNat, Nat.cast_one, f2]; norm_num; decide
  · simp only [percentage, pyRound, id, Nat.cast_ofNat, f3]; norm_num

end JaxSgmc
