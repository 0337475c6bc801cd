import Verif.Model.Rounding
import Verif.Model.NumpyLoader
import Verif.Model.Scheduler
import Verif.Spec.Rounding
import Mathlib.Data.Nat.Log
import Mathlib.Tactic.Linarith
import Mathlib.Tactic.Positivity
import Mathlib.Tactic.FieldSimp
import Mathlib.Tactic.Ring
import Mathlib.Data.Int.Log

/-!
# C141: integers computed with floating point division are exact
-/

namespace JaxSgmc

open Spec

variable {p : ℕ} {fl : ℝ → ℝ}

theorem representable_of_le {m : ℕ} (e : ℤ) (hp : 0 < p) (hm : m ≤ 2 ^ p) : Representable p ((m : ℝ) * 2 ^ e) := by
  rcases hm.lt_or_eq with h | h
  · refine ⟨m, e, ?_, by push_cast; rfl⟩
    rw [abs_of_nonneg (by positivity)]
    exact_mod_cast h
  · refine ⟨2 ^ (p - 1), e + 1, ?_, ?_⟩
    · rw [abs_of_nonneg (by positivity)]
      exact pow_lt_pow_right₀ (by norm_num) (by omega)
    · rw [h, zpow_add₀ (by norm_num)]
      obtain ⟨q, rfl⟩ : ∃ q, p = q + 1 := ⟨p - 1, by omega⟩
      push_cast
      rw [pow_succ]
      ring

theorem representable_nat {k : ℕ} (hp : 0 < p) (hk : k ≤ 2 ^ p) : Representable p (k : ℝ) := by
  have := representable_of_le (p := p) 0 hp hk
  simpa using this

/-- Numbers with `p` bits next to an integer. -/
theorem representable_near {k : ℕ} (h0 : 0 < k) (hk : k < 2 ^ p) :
    ∃ t : ℝ, 0 < t ∧ t ≤ 2 * k / 2 ^ p ∧ Representable p (k + t) ∧ Representable p (k + 1 - t) := by
  have hp : 0 < p := by
    rcases Nat.eq_zero_or_pos p with h | h
    · subst h
      omega
    · exact h
  set e := Nat.log 2 k with he
  have h1 : 2 ^ e ≤ k := Nat.pow_log_le_self 2 (by omega)
  have h2 : k < 2 ^ (e + 1) := Nat.lt_pow_succ_log_self (by norm_num) k
  have h3 : e < p := by
    by_contra h
    exact absurd (Nat.pow_le_pow_right (n := 2) (by norm_num) (not_lt.1 h)) (by omega)
  obtain ⟨r, hr⟩ : ∃ r, p = e + 1 + r := ⟨p - (e + 1), by omega⟩
  have hpow : (2 : ℕ) ^ p = 2 ^ (e + 1) * 2 ^ r := by rw [hr, pow_add]
  have hpos : 0 < 2 ^ r := by positivity
  have ht : ((2 : ℝ) ^ (-(r : ℤ))) = 1 / 2 ^ r := by rw [zpow_neg, zpow_natCast, one_div]
  have hr0 : (2 : ℝ) ^ r ≠ 0 := by positivity
  refine ⟨1 / 2 ^ r, by positivity, ?_, ?_, ?_⟩
  · rw [hr, pow_add, pow_succ, div_le_div_iff₀ (by positivity) (by positivity)]
    have : (2 : ℝ) ^ e ≤ k := by exact_mod_cast h1
    nlinarith [(by positivity : (0 : ℝ) < 2 ^ r)]
  · have h : k * 2 ^ r + 1 ≤ 2 ^ p := by
      rw [hpow]
      nlinarith
    have := representable_of_le (-(r : ℤ)) hp h
    rw [ht] at this
    convert this using 1
    push_cast
    field_simp
  · have h : (k + 1) * 2 ^ r - 1 ≤ 2 ^ p := by
      rw [hpow]
      have : (k + 1) * 2 ^ r ≤ 2 ^ (e + 1) * 2 ^ r := Nat.mul_le_mul_right _ h2
      omega
    have := representable_of_le (-(r : ℤ)) hp h
    rw [ht] at this
    convert this using 1
    have h4 : 1 ≤ (k + 1) * 2 ^ r := Nat.one_le_iff_ne_zero.2 (by positivity)
    rw [Nat.cast_sub h4]
    push_cast
    field_simp

theorem abs_sub_lt_of_between {a b x : ℝ} (h1 : a < b) (h2 : 2 * x < a + b) : |a - x| < |b - x| := by
  rw [abs_lt, abs_of_nonneg (by linarith)]
  constructor <;> linarith

theorem abs_sub_lt_of_between' {a b x : ℝ} (h1 : a < b) (h2 : a + b < 2 * x) : |b - x| < |a - x| := by
  rw [abs_lt, abs_of_nonpos (by linarith : a - x ≤ 0)]
  constructor <;> linarith

section
variable (hfl : RoundsToNearest p fl) {x : ℝ} (hx : ((2 : ℝ) ^ 100)⁻¹ ≤ x ∧ x ≤ 2 ^ 100)

include hfl hx in
theorem round_ge {y : ℝ} (hy : Representable p y) (h : y ≤ x) : y ≤ fl x := by
  by_contra hlt
  have := (hfl x (.inr hx)).2 y hy
  rw [abs_of_nonpos (by linarith), abs_of_nonpos (by linarith)] at this
  linarith

include hfl hx in
theorem round_le {y : ℝ} (hy : Representable p y) (h : x ≤ y) : fl x ≤ y := by
  by_contra hlt
  have := (hfl x (.inr hx)).2 y hy
  rw [abs_of_nonneg (by linarith), abs_of_nonneg (by linarith)] at this
  linarith

include hfl in
theorem round_exact {y : ℝ} (hy : Representable p y) (h : y = 0 ∨ ((2 : ℝ) ^ 100)⁻¹ ≤ y ∧ y ≤ 2 ^ 100) : fl y = y := by
  have := (hfl y h).2 y hy
  rw [sub_self, abs_zero] at this
  have h2 := le_antisymm this (abs_nonneg _)
  rw [abs_eq_zero, sub_eq_zero] at h2
  exact h2

end

theorem small_quotient {N mb : ℕ} (hmb : 0 < mb) (hm : mb < 2 ^ 100) (hN : N < 2 ^ 100) (h0 : 0 < N) :
    ((2 : ℝ) ^ 100)⁻¹ ≤ (N : ℝ) / mb ∧ (N : ℝ) / mb ≤ 2 ^ 100 := by
  have h1 : (0 : ℝ) < mb := by exact_mod_cast hmb
  have h2 : (1 : ℝ) ≤ mb := by exact_mod_cast hmb
  have h3 : (1 : ℝ) ≤ N := by exact_mod_cast h0
  have h4 : (mb : ℝ) ≤ 2 ^ 100 := by exact_mod_cast hm.le
  have h5 : (N : ℝ) ≤ 2 ^ 100 := by exact_mod_cast hN.le
  constructor
  · rw [inv_eq_one_div, div_le_div_iff₀ (by positivity) h1]
    nlinarith
  · rw [div_le_iff₀ h1]
    nlinarith

theorem floor_round (hfl : RoundsToNearest p fl) (hp : p ≤ 100) {N mb : ℕ} (hmb : 0 < mb) (hm : mb < 2 ^ p) (hN : N < 2 ^ p) :
    ⌊fl ((N : ℝ) / mb)⌋ = ((N / mb : ℕ) : ℤ) := by
  have hpow : (2 : ℕ) ^ p ≤ 2 ^ 100 := Nat.pow_le_pow_right (by norm_num) hp
  have hp0 : 0 < p := by
    rcases Nat.eq_zero_or_pos p with h | h
    · subst h
      omega
    · exact h
  have h1 : (0 : ℝ) < mb := by exact_mod_cast hmb
  rcases Nat.eq_zero_or_pos N with rfl | h0
  · have : fl ((0 : ℕ) / (mb : ℝ)) = 0 := by
      rw [Nat.cast_zero, zero_div]
      exact round_exact hfl ⟨0, 0, by simp, by simp⟩ (.inl rfl)
    rw [this]
    simp
  have hx := small_quotient hmb (hm.trans_le hpow) (hN.trans_le hpow) h0
  set k := N / mb with hk
  have hdiv : mb * k + N % mb = N := Nat.div_add_mod N mb
  have hmod : N % mb < mb := Nat.mod_lt _ hmb
  have hkN : k ≤ N := Nat.div_le_self _ _
  have hxe : (N : ℝ) / mb = k + ((N % mb : ℕ) : ℝ) / mb := by
    have : (mb : ℝ) * k + ((N % mb : ℕ) : ℝ) = N := by exact_mod_cast hdiv
    field_simp
    linarith
  have hmod' : ((N % mb : ℕ) : ℝ) + 1 ≤ mb := by exact_mod_cast hmod
  have hlo : (k : ℝ) ≤ (N : ℝ) / mb := by rw [hxe]; linarith [(by positivity : (0 : ℝ) ≤ ((N % mb : ℕ) : ℝ) / mb)]
  have hhi : (N : ℝ) / mb ≤ k + 1 - 1 / mb := by
    rw [hxe]
    have : ((N % mb : ℕ) : ℝ) / mb + 1 / mb ≤ 1 := by rw [← add_div, div_le_one h1]; exact hmod'
    linarith
  have hmbi : (0 : ℝ) < 1 / mb := by positivity
  rw [Int.floor_eq_iff]
  have hge : (k : ℝ) ≤ fl ((N : ℝ) / mb) := round_ge hfl hx (representable_nat hp0 (by omega)) hlo
  refine ⟨by exact_mod_cast hge, ?_⟩
  push_cast
  by_contra hcon
  have hcon' : (k : ℝ) + 1 ≤ fl ((N : ℝ) / mb) := not_lt.1 hcon
  -- a number with `p` bits between
  obtain ⟨y, hy, hy1, hy2⟩ : ∃ y, Representable p y ∧ y < (k : ℝ) + 1 ∧ 2 * ((N : ℝ) / mb) < y + (k + 1) := by
    rcases Nat.eq_zero_or_pos k with h | h
    · refine ⟨((2 ^ p - 1 : ℕ) : ℝ) * 2 ^ (-(p : ℤ)), representable_of_le _ hp0 (by omega), ?_, ?_⟩
      · rw [h, zpow_neg, zpow_natCast, Nat.cast_sub Nat.one_le_two_pow]
        push_cast
        rw [sub_mul, mul_inv_cancel₀ (by positivity)]
        have : (0 : ℝ) < 1 * (2 ^ p)⁻¹ := by positivity
        linarith
      · rw [zpow_neg, zpow_natCast, Nat.cast_sub Nat.one_le_two_pow]
        push_cast
        rw [sub_mul, mul_inv_cancel₀ (by positivity), one_mul]
        have h3 : ((2 : ℝ) ^ p)⁻¹ < 1 / mb := by
          rw [inv_eq_one_div]
          exact one_div_lt_one_div_of_lt h1 (by exact_mod_cast hm)
        rw [h] at hhi ⊢
        push_cast at hhi ⊢
        linarith
    · obtain ⟨t, t1, t2, -, t3⟩ := representable_near h (lt_of_le_of_lt hkN hN)
      refine ⟨k + 1 - t, t3, by linarith, ?_⟩
      have h4 : t < 2 * (1 / mb) := by
        refine lt_of_le_of_lt t2 ?_
        rw [mul_div_assoc]
        refine mul_lt_mul_of_pos_left ?_ (by norm_num)
        rw [div_lt_div_iff₀ (by positivity) h1, one_mul]
        have : k * mb < 2 ^ p := by
          rw [Nat.mul_comm]
          omega
        exact_mod_cast this
      linarith
  have h5 := (hfl _ (.inr hx)).2 y hy
  have h6 := abs_sub_lt_of_between (x := (N : ℝ) / mb) (lt_of_lt_of_le hy1 hcon') (by linarith)
  linarith

theorem ceil_round (hfl : RoundsToNearest p fl) (hp : p ≤ 100) {N mb : ℕ} (hmb : 0 < mb) (hm : mb < 2 ^ p) (hN : N < 2 ^ p) :
    ⌈fl ((N : ℝ) / mb)⌉ = ((ceilDiv N mb : ℕ) : ℤ) := by
  have hpow : (2 : ℕ) ^ p ≤ 2 ^ 100 := Nat.pow_le_pow_right (by norm_num) hp
  have hp0 : 0 < p := by
    rcases Nat.eq_zero_or_pos p with h | h
    · subst h
      omega
    · exact h
  have h1 : (0 : ℝ) < mb := by exact_mod_cast hmb
  rcases Nat.eq_zero_or_pos N with rfl | h0
  · have : fl ((0 : ℕ) / (mb : ℝ)) = 0 := by
      rw [Nat.cast_zero, zero_div]
      exact round_exact hfl ⟨0, 0, by simp, by simp⟩ (.inl rfl)
    have h2 : ceilDiv 0 mb = 0 := by
      unfold ceilDiv
      exact Nat.div_eq_of_lt (by omega)
    rw [this, h2]
    simp
  have hx := small_quotient hmb (hm.trans_le hpow) (hN.trans_le hpow) h0
  rcases lt_or_ge N mb with hlt | hle
  · have e1 : ceilDiv N mb = 1 := by
      unfold ceilDiv
      have : N + mb - 1 = mb * 1 + (N - 1) := by omega
      rw [this, Nat.mul_add_div hmb, Nat.div_eq_of_lt (by omega)]
    have h2 : fl ((N : ℝ) / mb) ≤ (1 : ℕ) := by
      refine round_le hfl hx (representable_nat hp0 Nat.one_le_two_pow) ?_
      rw [Nat.cast_one, div_le_one h1]
      exact_mod_cast hlt.le
    have h3 : ((1 : ℕ) : ℝ) * 2 ^ (-100 : ℤ) ≤ fl ((N : ℝ) / mb) := by
      refine round_ge hfl hx (representable_of_le (-100) hp0 Nat.one_le_two_pow) ?_
      rw [Nat.cast_one, one_mul, zpow_neg]
      exact_mod_cast hx.1
    have h4 : (0 : ℝ) < ((1 : ℕ) : ℝ) * 2 ^ (-100 : ℤ) := by positivity
    rw [e1, Int.ceil_eq_iff]
    refine ⟨?_, by exact_mod_cast h2⟩
    push_cast at h3 h4 ⊢
    linarith
  set k := N / mb with hk
  have hdiv : mb * k + N % mb = N := Nat.div_add_mod N mb
  have hmod : N % mb < mb := Nat.mod_lt _ hmb
  have hkN : k ≤ N := Nat.div_le_self _ _
  have hk1 : 1 ≤ k := (Nat.one_le_div_iff hmb).2 hle
  have hxe : (N : ℝ) / mb = k + ((N % mb : ℕ) : ℝ) / mb := by
    have : (mb : ℝ) * k + ((N % mb : ℕ) : ℝ) = N := by exact_mod_cast hdiv
    field_simp
    linarith
  rcases Nat.eq_zero_or_pos (N % mb) with hz | hz
  · have e1 : ceilDiv N mb = k := by
      unfold ceilDiv
      rw [← hdiv, hz, Nat.add_zero, Nat.add_sub_assoc hmb, Nat.mul_add_div hmb, Nat.div_eq_of_lt (by omega), Nat.add_zero]
    have e2 : (N : ℝ) / mb = k := by rw [hxe, hz]; simp
    have e3 : fl ((N : ℝ) / mb) = k := by
      rw [e2]
      rw [e2] at hx
      exact round_exact hfl (representable_nat hp0 (by omega)) (.inr hx)
    rw [e1, e3]
    exact_mod_cast Int.ceil_natCast k
  · have e1 : ceilDiv N mb = k + 1 := by
      unfold ceilDiv
      have : N + mb - 1 = mb * (k + 1) + (N % mb - 1) := by
        rw [Nat.mul_add, Nat.mul_one]
        omega
      rw [this, Nat.mul_add_div hmb, Nat.div_eq_of_lt (by omega), Nat.add_zero]
    have hmod' : ((N % mb : ℕ) : ℝ) ≤ mb := by exact_mod_cast hmod.le
    have hz' : (1 : ℝ) ≤ ((N % mb : ℕ) : ℝ) := by exact_mod_cast hz
    have hlo : (k : ℝ) + 1 / mb ≤ (N : ℝ) / mb := by
      rw [hxe]
      have := div_le_div_of_nonneg_right hz' h1.le
      linarith
    have hhi : (N : ℝ) / mb ≤ (k + 1 : ℕ) := by
      rw [hxe]
      push_cast
      have : ((N % mb : ℕ) : ℝ) / mb ≤ 1 := by rw [div_le_one h1]; exact hmod'
      linarith
    have hmbi : (0 : ℝ) < 1 / mb := by positivity
    rw [e1, Int.ceil_eq_iff]
    have hle2 : fl ((N : ℝ) / mb) ≤ (k + 1 : ℕ) := round_le hfl hx (representable_nat hp0 (by omega)) hhi
    refine ⟨?_, by exact_mod_cast hle2⟩
    push_cast
    rw [add_sub_cancel_right]
    by_contra hcon
    have hcon' : fl ((N : ℝ) / mb) ≤ k := not_lt.1 hcon
    obtain ⟨t, t1, t2, t3, -⟩ := representable_near hk1 (lt_of_le_of_lt hkN hN)
    have h4 : t < 2 * (1 / mb) := by
      refine lt_of_le_of_lt t2 ?_
      rw [mul_div_assoc]
      refine mul_lt_mul_of_pos_left ?_ (by norm_num)
      rw [div_lt_div_iff₀ (by positivity) h1, one_mul]
      have : k * mb < 2 ^ p := by
        rw [Nat.mul_comm]
        omega
      exact_mod_cast this
    have h5 := (hfl _ (.inr hx)).2 _ t3
    have h6 := abs_sub_lt_of_between' (x := (N : ℝ) / mb) (a := fl ((N : ℝ) / mb)) (b := k + t) (by linarith) (by linarith)
    linarith

/-- **C141 (batches).** For fewer than 2⁵³ observations and batch sizes below 2⁵³ (also batches larger than the data set), the numbers of batches which the program computes by rounding a
quotient of doubles up or down are the exact numbers. -/
theorem c141_batches (hfl : RoundsToNearest 53 fl) {N mb : ℕ} (hmb : 0 < mb) (hm : mb < 2 ^ 53) (hN : N < 2 ^ 53) :
    ceilQuotient fl N mb = ((N + mb - 1) / mb : ℕ) ∧ floorQuotient fl N mb = (N / mb : ℕ) :=
  ⟨ceil_round hfl (by norm_num) hmb hm hN, floor_round hfl (by norm_num) hmb hm hN⟩

/-- **C141 (progress bar).** For fewer than 2²⁴ iterations and steps the number of iterations between two reports, computed by
rounding down a quotient of singles, is exact. -/
theorem c141_bar (hfl : RoundsToNearest 24 fl) {iterations steps : ℕ} (hs : 0 < steps) (hs' : steps < 2 ^ 24)
    (hi : iterations < 2 ^ 24) : barQuotient fl iterations steps = (iterations / steps : ℕ) := by
  have h : ∀ k : ℕ, k < 2 ^ 24 → fl k = k := by
    intro k hk
    refine round_exact hfl (representable_nat (by norm_num) hk.le) ?_
    rcases Nat.eq_zero_or_pos k with rfl | h0
    · exact .inl Nat.cast_zero
    · refine .inr ⟨?_, ?_⟩
      · have : (1 : ℝ) ≤ k := by exact_mod_cast h0
        refine le_trans ?_ this
        exact inv_le_one_of_one_le₀ (one_le_pow₀ (by norm_num))
      · have h2 : (k : ℝ) ≤ 2 ^ 24 := by exact_mod_cast hk.le
        exact h2.trans (pow_le_pow_right₀ (by norm_num) (by norm_num))
  unfold barQuotient
  rw [h _ hi, h _ hs']
  exact floor_round hfl (by norm_num) hs hs' hi

/-- **C141.** The bound on the number of observations is sharp: with 2⁵³ + 1 observations in batches of one observation
the number of batches is wrong for every rounding to nearest. -/
theorem c141_sharp (hfl : RoundsToNearest 53 fl) : ceilQuotient fl (2 ^ 53 + 1) 1 ≠ (2 ^ 53 + 1 : ℕ) := by
  intro h
  unfold ceilQuotient at h
  rw [Nat.cast_one, div_one, Int.ceil_eq_iff] at h
  have hc : ((2 ^ 53 + 1 : ℕ) : ℝ) = 9007199254740993 := by norm_num
  have hz : (((2 ^ 53 + 1 : ℕ) : ℤ) : ℝ) = 9007199254740993 := by norm_num
  rw [hc, hz] at h
  obtain ⟨h1, h2⟩ := h
  obtain ⟨m, e, hm, he⟩ := (hfl 9007199254740993 (.inr ⟨by norm_num, by norm_num⟩)).1
  rw [he] at h1 h2
  have hm' : |(m : ℝ)| < 2 ^ 53 := by exact_mod_cast hm
  have hm2 := (abs_lt.1 hm').2
  have hc2 : (2 : ℝ) ^ 53 = 9007199254740992 := by norm_num
  rw [hc2] at hm2
  rcases le_or_gt e 0 with h0 | h0
  · -- too small
    have : (2 : ℝ) ^ e ≤ 1 := zpow_le_one_of_nonpos₀ (by norm_num) h0
    have hpos : (0 : ℝ) < 2 ^ e := by positivity
    have : (m : ℝ) * 2 ^ e < 9007199254740992 := by
      rcases le_or_gt (m : ℝ) 0 with h3 | h3
      · have : (m : ℝ) * 2 ^ e ≤ 0 := mul_nonpos_of_nonpos_of_nonneg h3 hpos.le
        linarith
      · nlinarith
    linarith
  · -- an even integer
    obtain ⟨n, rfl⟩ : ∃ n : ℕ, e = n + 1 := ⟨(e - 1).toNat, by omega⟩
    have e1 : (m : ℝ) * 2 ^ ((n : ℤ) + 1) = ((2 * (m * 2 ^ n) : ℤ) : ℝ) := by
      rw [zpow_add₀ (by norm_num), zpow_natCast, zpow_one]
      push_cast
      ring
    rw [e1] at h1 h2
    have h3 : (9007199254740992 : ℤ) < 2 * (m * 2 ^ n) := by
      have : ((9007199254740992 : ℤ) : ℝ) < ((2 * (m * 2 ^ n) : ℤ) : ℝ) := by
        refine lt_of_eq_of_lt ?_ h1
        norm_num
      exact_mod_cast this
    have h4 : 2 * (m * 2 ^ n) ≤ (9007199254740993 : ℤ) := by
      have : ((2 * (m * 2 ^ n) : ℤ) : ℝ) ≤ ((9007199254740993 : ℤ) : ℝ) := by
        refine h2.trans_eq ?_
        norm_num
      exact_mod_cast this
    omega

/-- A rounding to a nearest number with `p` bits. -/
noncomputable def nearest (p : ℕ) (x : ℝ) : ℝ := round (x / 2 ^ (Int.log 2 x + 1 - p)) * (2 : ℝ) ^ (Int.log 2 x + 1 - p)

/-- The hypothesis of the theorems can be met: there is a rounding to nearest for every number of bits. -/
theorem nearest_rounds (hp : 0 < p) : RoundsToNearest p (nearest p) := by
  intro x hx
  have hx0 : 0 ≤ x := by
    rcases hx with rfl | h
    · exact le_rfl
    · exact le_trans (by positivity) h.1
  rcases hx0.eq_or_lt with rfl | hpos
  · have h0 : nearest p 0 = 0 := by unfold nearest; simp
    rw [h0]
    refine ⟨⟨0, 0, by simp, by simp⟩, fun y _ => by simp⟩
  clear hx hx0
  set e := Int.log 2 x with he
  have h1 : (2 : ℝ) ^ e ≤ x := by exact_mod_cast Int.zpow_log_le_self (b := 2) (by norm_num) hpos
  have h2 : x < (2 : ℝ) ^ (e + 1) := by exact_mod_cast Int.lt_zpow_succ_log_self (b := 2) (by norm_num) x
  set u : ℝ := (2 : ℝ) ^ (e + 1 - p) with hu
  have hupos : 0 < u := by positivity
  have hdef : nearest p x = round (x / u) * u := rfl
  have hmul : ∀ z : ℤ, |nearest p x - x| ≤ |z * u - x| := by
    intro z
    have h3 := _root_.round_le (x / u) z
    have e1 : ∀ a : ℝ, |a * u - x| = |x / u - a| * u := by
      intro a
      rw [← abs_of_pos hupos, ← abs_mul, abs_of_pos hupos, abs_sub_comm]
      congr 1
      field_simp
    rw [hdef, e1, e1]
    exact mul_le_mul_of_nonneg_right h3 hupos.le
  have hpu : (2 : ℝ) ^ (e + 1) = ((2 ^ p : ℤ) : ℝ) * u := by
    rw [hu]
    push_cast
    rw [← zpow_natCast, ← zpow_add₀ (by norm_num)]
    congr 1
    ring
  constructor
  · have h4 : 0 ≤ x / u := by positivity
    have h5 : x / u ≤ ((2 ^ p : ℤ) : ℝ) := by
      rw [div_le_iff₀ hupos, ← hpu]
      exact h2.le
    have h6 : 0 ≤ round (x / u) := by
      rw [round_eq]
      exact Int.floor_nonneg.2 (by positivity)
    have h7 : round (x / u) ≤ 2 ^ p := by
      rw [round_eq, ← Int.lt_add_one_iff, Int.floor_lt]
      push_cast at h5 ⊢
      linarith
    obtain ⟨n, hn⟩ := Int.eq_ofNat_of_zero_le h6
    rw [hdef, hn]
    rw [hn] at h7
    exact representable_of_le _ hp (by exact_mod_cast h7)
  · rintro y ⟨m, f, hm, rfl⟩
    rcases le_or_gt (e + 1 - p) f with h | h
    · obtain ⟨n, hn⟩ : ∃ n : ℕ, f = n + (e + 1 - p) := ⟨(f - (e + 1 - p)).toNat, by omega⟩
      have := hmul (m * 2 ^ n)
      rw [hn, zpow_add₀ (by norm_num), zpow_natCast, ← mul_assoc]
      push_cast at this
      exact this
    · -- `y` is below the power of two
      have hy : (m : ℝ) * 2 ^ f ≤ 2 ^ e := by
        have hm1 : (m : ℝ) ≤ 2 ^ p := by exact_mod_cast (le_abs_self m).trans hm.le
        calc (m : ℝ) * 2 ^ f ≤ 2 ^ p * 2 ^ f := mul_le_mul_of_nonneg_right hm1 (by positivity)
          _ = (2 : ℝ) ^ ((p : ℤ) + f) := by rw [zpow_add₀ (by norm_num), zpow_natCast]
          _ ≤ 2 ^ e := zpow_le_zpow_right₀ (by norm_num) (by omega)
      have h8 := hmul (2 ^ (p - 1))
      have h9 : ((2 ^ (p - 1) : ℤ) : ℝ) * u = 2 ^ e := by
        rw [hu]
        push_cast
        rw [← zpow_natCast, ← zpow_add₀ (by norm_num)]
        congr 1
        omega
      rw [h9] at h8
      refine h8.trans ?_
      rw [abs_of_nonpos (by linarith), abs_of_nonpos (by linarith)]
      linarith

example : ceilQuotient (nearest 53) 1000003 7 = 142858 ∧ floorQuotient (nearest 53) 1000003 7 = 142857 := by
  have h := c141_batches (nearest_rounds (p := 53) (by norm_num)) (N := 1000003) (mb := 7) (by norm_num) (by norm_num)
    (by norm_num)
  simpa using h

example : barQuotient (nearest 24) 1000003 20 = 50000 := by
  have h := c141_bar (nearest_rounds (p := 24) (by norm_num)) (iterations := 1000003) (steps := 20) (by norm_num) (by norm_num)
    (by norm_num)
  simpa using h

end JaxSgmc
