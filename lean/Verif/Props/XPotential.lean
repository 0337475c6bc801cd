import Verif.Model.XPotential
import Verif.Spec.XPotential
import Verif.Props.HostFull
import Verif.Props.Solver

/-!
# C107: the full potential of samples with zero posterior density
-/

namespace JaxSgmc

open Spec

/-! ### Sums of extended numbers -/

/-- `v` is NaN if `bad`, otherwise the infinity `i` if `zero`, otherwise the number `s`. -/
def Codes (i v : XF) (bad zero : Prop) (s : ℝ) : Prop :=
  (bad ∧ v = .nan) ∨ (¬bad ∧ zero ∧ v = i) ∨ (¬bad ∧ ¬zero ∧ v = .fin s)

theorem Codes.congr {i v : XF} {b z b' z' : Prop} {s s' : ℝ} (h : Codes i v b z s) (hb : b ↔ b')
    (hz : z ↔ z') (hs : s = s') : Codes i v b' z' s' := by
  subst hs
  unfold Codes at h ⊢
  rw [← hb, ← hz]
  exact h

theorem Codes.add {i v w : XF} (hi : i = .ninf ∨ i = .pinf) {b z b' z' : Prop} {s s' : ℝ}
    (h : Codes i v b z s) (h' : Codes i w b' z' s') : Codes i (XF.add v w) (b ∨ b') (z ∨ z') (s + s') := by
  rcases h with ⟨h1, rfl⟩ | ⟨h1, h2, rfl⟩ | ⟨h1, h2, rfl⟩ <;>
    rcases h' with ⟨g1, rfl⟩ | ⟨g1, g2, rfl⟩ | ⟨g1, g2, rfl⟩ <;> rcases hi with rfl | rfl <;>
    simp_all [Codes, XF.add]

theorem Codes.zero (i : XF) : Codes i (.fin 0) False False 0 := Or.inr (Or.inr ⟨id, id, rfl⟩)

/-- The number of a log-density which is not `-inf`. -/
noncomputable def finPart : XF → ℝ
  | .fin a => a
  | _ => 0

theorem codes_entry {a : XF} (ha : IsLogDensity a) (m : Bool) :
    Codes .ninf (XF.mul a (maskNum m)) (m = false ∧ a = .ninf) (m = true ∧ a = .ninf)
      (if m then finPart a else 0) := by
  cases a <;> cases m <;> simp_all [Codes, IsLogDensity, maskNum, XF.mul, XF.infMul, XF.neg, finPart]

section
variable {ρ θ : Type}

/-- The entries whose mask is `false`. -/
def masked (xs : List ρ) (mask : List Bool) : List ρ := valid xs (mask.map (! ·))

theorem masked_append (xs ys : List ρ) (ms ns : List Bool) (h : xs.length = ms.length) :
    masked (xs ++ ys) (ms ++ ns) = masked xs ms ++ masked ys ns := by
  rw [masked, List.map_append, valid_append _ _ _ _ (by simpa using h)]
  rfl

theorem codes_dot (ℓ : ρ → XF) (hℓ : ∀ r, IsLogDensity (ℓ r)) (rows : List ρ) :
    ∀ mask : List Bool, mask.length = rows.length →
    Codes .ninf (xdot (rows.map ℓ) mask) (∃ r ∈ masked rows mask, ℓ r = .ninf)
      (∃ r ∈ valid rows mask, ℓ r = .ninf) ((valid rows mask).map fun r => finPart (ℓ r)).sum := by
  induction rows with
  | nil =>
    intro mask hm
    have := List.length_eq_zero_iff.1 hm
    subst this
    exact (Codes.zero _).congr (by simp [masked, valid]) (by simp [valid]) (by simp [valid])
  | cons r rows ih =>
    intro mask hm
    obtain ⟨m, mask, rfl⟩ := List.exists_cons_of_length_eq_add_one hm
    have h := (codes_entry (hℓ r) m).add (Or.inl rfl) (ih mask (by simpa using hm))
    refine h.congr ?_ ?_ ?_
    · cases m <;> simp [masked, valid]
    · cases m <;> simp [valid]
    · cases m <;> simp [valid]

theorem codes_batch (lik : θ → ρ → XF) (x : θ) (hℓ : ∀ r, IsLogDensity (lik x r)) (rows : List ρ)
    (mask : List Bool) (hm : mask.length = rows.length) (N n : Nat) (hN : 0 < N) (hn : 0 < n) :
    Codes .pinf (xBatchEvaluation lik x rows N n mask) (∃ r ∈ masked rows mask, lik x r = .ninf)
      (∃ r ∈ valid rows mask, lik x r = .ninf) (-((valid rows mask).map fun r => finPart (lik x r)).sum) := by
  have hN' : (N : ℝ) ≠ 0 := by positivity
  have hn' : (n : ℝ) ≠ 0 := by positivity
  have hneg : -(N : ℝ) / n < 0 := div_neg_of_neg_of_pos (by simpa using hN) (by positivity)
  have hnp : (0 : ℝ) < n := by positivity
  have hNp : (0 : ℝ) < N := by positivity
  rcases codes_dot (lik x) hℓ rows mask hm with ⟨h1, h2⟩ | ⟨h1, h2, h3⟩ | ⟨h1, h2, h3⟩
  · refine Or.inl ⟨h1, ?_⟩
    unfold xBatchEvaluation
    rw [h2]
    simp [XF.div, XF.mul, hn', XF.sub, XF.add, XF.neg]
  · refine Or.inr (Or.inl ⟨h1, h2, ?_⟩)
    unfold xBatchEvaluation
    rw [h3]
    simp [XF.div, XF.mul, hn', XF.sub, XF.add, XF.neg, XF.infMul, hneg, not_lt.2 hneg.le, hnp, hNp, hN']
  · refine Or.inr (Or.inr ⟨h1, h2, ?_⟩)
    unfold xBatchEvaluation
    rw [h3]
    simp only [XF.div, XF.mul, hn', XF.sub, XF.add, XF.neg, hN', if_false, one_ne_zero]
    congr 1
    field_simp
    ring

theorem codes_scan {Z β : Type} (lik : θ → ρ → XF) (x : θ) (hℓ : ∀ r, IsLogDensity (lik x r)) (N bs : Nat)
    (hN : 0 < N) (hbs : 0 < bs) (src : Z → Except PyErr β × Z) (rowsOf : β → List ρ) (z' : Z)
    (bl : List β) : ∀ (it : Nat) (z : Z), Supplies src z bl z' → (∀ b ∈ bl, (rowsOf b).length = bs) →
    ∃ rs, scanBatches src (fun it b (_ : Unit) =>
        .ok (xBatchEvaluation lik x (rowsOf b) N bs (iterMask N bs it), ())) bl.length it z ()
          = (.ok (rs, ()), z') ∧
      Codes .pinf (xsum rs)
        (∃ r ∈ masked (bl.flatMap rowsOf) ((List.range bl.length).flatMap (fun j => iterMask N bs (it + j))),
          lik x r = .ninf)
        (∃ r ∈ valid (bl.flatMap rowsOf) ((List.range bl.length).flatMap (fun j => iterMask N bs (it + j))),
          lik x r = .ninf)
        (-((valid (bl.flatMap rowsOf)
          ((List.range bl.length).flatMap (fun j => iterMask N bs (it + j)))).map
            fun r => finPart (lik x r)).sum) := by
  induction bl with
  | nil =>
    intro it z hsup _
    simp only [Supplies] at hsup
    subst hsup
    exact ⟨[], rfl, (Codes.zero _).congr (by simp [masked, valid]) (by simp [valid]) (by simp [valid])⟩
  | cons b bl ih =>
    intro it z hsup hr
    obtain ⟨z1, h1, hsup⟩ := hsup
    have hb := hr b List.mem_cons_self
    obtain ⟨rs, h2, h3⟩ := ih (it + 1) z1 hsup (fun b' hb' => hr b' (List.mem_cons_of_mem _ hb'))
    refine ⟨xBatchEvaluation lik x (rowsOf b) N bs (iterMask N bs it) :: rs, by simp only [List.length_cons, scanBatches, h1, h2], ?_⟩
    have h4 := codes_batch lik x hℓ (rowsOf b) (iterMask N bs it) (by simp [hb, iterMask]) N bs hN hbs
    have hlen : (rowsOf b).length = (iterMask N bs it).length := by simp [hb, iterMask]
    have hj : ∀ j, it + 1 + j = it + Nat.succ j := fun j => by simp only [Nat.succ_eq_add_one]; omega
    refine (h4.add (Or.inr rfl) h3).congr ?_ ?_ ?_
    · rw [List.length_cons, List.range_succ_eq_map, List.flatMap_cons, List.flatMap_cons, Nat.add_zero it,
        masked_append _ _ _ _ hlen, List.flatMap_map]
      simp only [hj, List.mem_append, or_and_right, exists_or]
    · rw [List.length_cons, List.range_succ_eq_map, List.flatMap_cons, List.flatMap_cons, Nat.add_zero it,
        valid_append _ _ _ _ hlen, List.flatMap_map]
      simp only [hj, List.mem_append, or_and_right, exists_or]
    · rw [List.length_cons, List.range_succ_eq_map, List.flatMap_cons, List.flatMap_cons, Nat.add_zero it,
        valid_append _ _ _ _ hlen, List.flatMap_map, List.map_append, List.sum_append]
      simp only [hj]
      ring

theorem masked_iterMask (N bs q : Nat) (xs : List ρ) (h : xs.length = q * bs) :
    masked xs ((List.range q).flatMap (fun j => iterMask N bs (0 + j))) = xs.drop N := by
  have hm : (List.range q).flatMap (fun j => iterMask N bs (0 + j)) =
      (List.range xs.length).map (fun i => decide (i + 0 < N)) := by
    have := range_blocks (fun k => decide (k + 0 < N)) bs q
    rw [h, ← this]
    congr 1
    funext j
    simp only [iterMask, Nat.zero_add]
    apply List.map_congr_left
    intro i _
    rw [Nat.add_zero, Nat.add_comm]
  rw [hm, masked, List.map_map]
  have gen : ∀ (xs : List ρ) (k : Nat), valid xs ((List.range xs.length).map
      ((fun b => !b) ∘ fun i => decide (i + k < N))) = xs.drop (N - k) := by
    intro xs
    induction xs with
    | nil => intro k; simp [valid]
    | cons a xs ih =>
      intro k
      have e : (fun b => !b) ∘ (fun i => decide (i + k < N)) ∘ Nat.succ =
          (fun b => !b) ∘ fun i => decide (i + (k + 1) < N) := by
        funext i
        simp only [Function.comp_apply, Nat.succ_eq_add_one]
        congr 2
        rw [Nat.add_assoc, Nat.add_comm 1 k]
      rw [List.length_cons, List.range_succ_eq_map, List.map_cons, List.map_map, Function.comp_assoc, e]
      by_cases hk : k < N
      · have : N - k = (N - (k + 1)) + 1 := by omega
        rw [this, List.drop_succ_cons, ← ih (k + 1)]
        simp [valid, hk]
      · have h0 : N - k = 0 := by omega
        have h1 : N - (k + 1) = 0 := by omega
        have := ih (k + 1)
        rw [h1, List.drop_zero] at this
        rw [h0, List.drop_zero]
        simp only [Function.comp_apply, Nat.zero_add, hk, decide_false, Bool.not_false, valid]
        rw [this]
  exact gen xs 0

/-- What `full_potential` computes from any source which supplies full batches. -/
theorem xFullPotential_supplied {Z β : Type} (prior : θ → XF) (lik : θ → ρ → XF) (T : ℝ) (hT : 0 < T)
    (src : Z → Except PyErr β × Z) (rowsOf : β → List ρ) (N bs : Nat) (hN : 0 < N) (hbs : 0 < bs) (x : θ)
    (hℓ : ∀ r, IsLogDensity (lik x r)) (hp : IsLogDensity (prior x)) (z z' : Z) (batches : List β)
    (hlen : batches.length = ceilDiv N bs) (hsup : Supplies src z batches z')
    (hrows : ∀ b ∈ batches, (rowsOf b).length = bs) :
    ∃ v, xFullPotential prior lik T src rowsOf N bs x z = (.ok v, z') ∧
      ((∃ r ∈ (batches.flatMap rowsOf).drop N, lik x r = .ninf) → v = .nan) ∧
      ((∀ r ∈ (batches.flatMap rowsOf).drop N, lik x r ≠ .ninf) →
        IsPotential (lik x) (prior x) T ((batches.flatMap rowsOf).take N) v) := by
  obtain ⟨rs, h1, h2⟩ := codes_scan lik x hℓ N bs hN hbs src rowsOf z' batches 0 z hsup hrows
  have hl : (batches.flatMap rowsOf).length = ceilDiv N bs * bs := by
    rw [List.length_flatMap, ← hlen, List.map_congr_left hrows]
    simp
  have hv : valid (batches.flatMap rowsOf) ((List.range batches.length).flatMap
      (fun j => iterMask N bs (0 + j))) = (batches.flatMap rowsOf).take N := by
    simp only [Nat.zero_add]
    exact valid_iterMask N bs _ _ (by rw [hl, hlen])
  rw [hv, masked_iterMask N bs _ _ (by rw [hl, hlen])] at h2
  have hne : bs ≠ 0 := by omega
  rw [hlen] at h1
  refine ⟨XF.div (XF.sub (xsum rs) (prior x)) (.fin T), ?_, ?_, ?_⟩
  · simp only [xFullPotential, numIterations, hne, if_false, h1]
  · intro hb
    rcases h2 with ⟨-, h3⟩ | ⟨h3, -⟩ | ⟨h3, -⟩
    · rw [h3]
      simp [XF.sub, XF.add, XF.div]
    · exact absurd hb h3
    · exact absurd hb h3
  · intro hb
    rcases h2 with ⟨⟨r, hr, h3⟩, -⟩ | ⟨-, h3, h4⟩ | ⟨-, h3, h4⟩
    · exact absurd h3 (hb r hr)
    · refine Or.inr ⟨Or.inl h3, ?_⟩
      rw [h4]
      cases hq : prior x <;> simp_all [IsLogDensity, XF.sub, XF.add, XF.neg, XF.div, XF.infMul, hT.ne']
    · cases hq : prior x with
      | fin g =>
        refine Or.inl ⟨fun r => finPart (lik x r), g, ?_, rfl, ?_⟩
        · intro r hr
          cases hr' : lik x r with
          | fin a => simp [finPart, hr']
          | ninf => exact absurd ⟨r, hr, hr'⟩ h3
          | pinf => have := hℓ r; rw [hr'] at this; exact this.elim
          | nan => have := hℓ r; rw [hr'] at this; exact this.elim
        · rw [h4]
          simp only [XF.sub, XF.neg, XF.add, XF.div, hT.ne', if_false]
          congr 2
          ring
      | ninf =>
        refine Or.inr ⟨Or.inr rfl, ?_⟩
        rw [h4]
        simp [XF.sub, XF.neg, XF.add, XF.div, hT.ne', XF.infMul, hT]
      | pinf => rw [hq] at hp; exact hp.elim
      | nan => rw [hq] at hp; exact hp.elim

/-- `obs` has no entry of zero density. -/
theorem isPotential_perm {ℓ : ρ → XF} {p : XF} {T : ℝ} {obs obs' : List ρ} {v : XF} (h : obs.Perm obs')
    (hv : IsPotential ℓ p T obs v) : IsPotential ℓ p T obs' v := by
  rcases hv with ⟨f, g, h1, h2, h3⟩ | ⟨h1, h2⟩
  · exact Or.inl ⟨f, g, fun r hr => h1 r (h.mem_iff.2 hr), h2, by rw [h3, (h.map f).sum_eq]⟩
  · refine Or.inr ⟨?_, h2⟩
    rcases h1 with ⟨r, hr, h1⟩ | h1
    · exact Or.inl ⟨r, h.mem_iff.1 hr, h1⟩
    · exact Or.inr h1

/-- The statement of C107 (for data on the device, the first evaluation): the full potential of a sample is the
negative log-posterior, `+inf` where the posterior density is zero. -/
def C107Statement : Prop :=
  ∀ (θ ρ : Type) (prior : θ → XF) (lik : θ → ρ → XF) (T : ℝ) (data : List ρ) (bs : Nat) (x : θ), 0 < T →
    0 < bs → 0 < data.length → (∀ r, IsLogDensity (lik x r)) → IsLogDensity (prior x) →
    ∃ v, (xFullPotential prior lik T (deviceSource data bs) id data.length bs x 0).1 = .ok v ∧
      IsPotential (lik x) (prior x) T data v

/-- **C107** (data on the device).  From every state of the data, exactly: the potential is NaN if one of the
`ceil(N / bs) * bs - N` observations which fill up the last batch has zero density, otherwise it is the negative
log-posterior, in particular `+inf` if any other observation (or the prior) has zero density.  What is
missing to C107 is the case that a filler has zero density. -/
theorem c107_device_partial (prior : θ → XF) (lik : θ → ρ → XF) (T : ℝ) (hT : 0 < T) (data : List ρ)
    (bs line : Nat) (hbs : 0 < bs) (hline : line < data.length) (x : θ)
    (hℓ : ∀ r, IsLogDensity (lik x r)) (hp : IsLogDensity (prior x)) :
    ∃ v, ∃ line' < data.length,
      xFullPotential prior lik T (deviceSource data bs) id data.length bs x line = (.ok v, line') ∧
      ((∃ k r, k < ceilDiv data.length bs * bs - data.length ∧ data[(line + k) % data.length]? = some r ∧
          lik x r = .ninf) → v = .nan) ∧
      ((∀ k r, k < ceilDiv data.length bs * bs - data.length → data[(line + k) % data.length]? = some r →
          lik x r ≠ .ninf) → IsPotential (lik x) (prior x) T data v) := by
  have hN : 0 < data.length := by omega
  have hsup := device_supplies data bs hbs hN (ceilDiv data.length bs) line 0
  rw [Nat.zero_mul, Nat.add_zero, Nat.mod_eq_of_lt hline] at hsup
  obtain ⟨v, h1, h2, h3⟩ := xFullPotential_supplied prior lik T hT (deviceSource data bs) id data.length bs hN
    hbs x hℓ hp _ _ _ (by simp) hsup
    (by
      intro b hb
      obtain ⟨k, -, rfl⟩ := List.mem_map.1 hb
      exact deviceBatch_length data bs line _ hN)
  rw [List.flatMap_id, deviceBatches_flatten] at h2 h3
  have hrot := (rotated_perm data line hline).length_eq
  have hsplit : ceilDiv data.length bs * bs = data.length + (ceilDiv data.length bs * bs - data.length) := by
    have := ceilDiv_le (N := data.length) hbs
    omega
  have e1 : ((List.range (ceilDiv data.length bs * bs)).filterMap
      (fun k => data[(line + k) % data.length]?)).take data.length = rotated data line := by
    rw [hsplit, List.range_add, List.filterMap_append, List.take_append_of_le_length, List.take_of_length_le]
    · rfl
    · exact le_of_eq hrot
    · exact le_of_eq hrot.symm
  have e2 : ((List.range (ceilDiv data.length bs * bs)).filterMap
      (fun k => data[(line + k) % data.length]?)).drop data.length =
      (List.range (ceilDiv data.length bs * bs - data.length)).filterMap
        (fun k => data[(line + k) % data.length]?) := by
    rw [hsplit, List.range_add, List.filterMap_append, List.drop_append_of_le_length, List.drop_of_length_le,
      List.nil_append, List.filterMap_map, Nat.add_sub_cancel_left]
    · apply List.filterMap_congr
      intro k _
      simp only [Function.comp_apply]
      rw [← Nat.add_assoc, Nat.add_right_comm, Nat.add_mod_right]
    · exact le_of_eq hrot
    · exact le_of_eq hrot.symm
  rw [e2] at h2
  rw [e1, e2] at h3
  refine ⟨v, _, Nat.mod_lt (line + (0 + ceilDiv data.length bs) * bs) hN, h1, ?_, ?_⟩
  · rintro ⟨k, r, hk, hr, hn⟩
    exact h2 ⟨r, List.mem_filterMap.2 ⟨k, List.mem_range.2 hk, hr⟩, hn⟩
  · intro h
    refine isPotential_perm (rotated_perm data line hline) (h3 ?_)
    intro r hr
    obtain ⟨k, hk, hr⟩ := List.mem_filterMap.1 hr
    exact h k r (List.mem_range.1 hk) hr

/-- **C107** holds if the batch size divides the number of observations. -/
theorem c107_divides_partial (prior : θ → XF) (lik : θ → ρ → XF) (T : ℝ) (hT : 0 < T) (data : List ρ)
    (bs line : Nat) (hbs : 0 < bs) (hdvd : bs ∣ data.length) (hline : line < data.length) (x : θ)
    (hℓ : ∀ r, IsLogDensity (lik x r)) (hp : IsLogDensity (prior x)) :
    ∃ v, ∃ line' < data.length,
      xFullPotential prior lik T (deviceSource data bs) id data.length bs x line = (.ok v, line') ∧
      IsPotential (lik x) (prior x) T data v := by
  obtain ⟨v, l, hl, h1, -, h2⟩ := c107_device_partial prior lik T hT data bs line hbs hline x hℓ hp
  refine ⟨v, l, hl, h1, h2 ?_⟩
  intro k r hk
  obtain ⟨q, hq⟩ := hdvd
  have : ceilDiv data.length bs * bs = data.length := by
    rw [hq, ceilDiv, Nat.mul_comm bs q]
    have : (q * bs + bs - 1) / bs = q := by
      rw [Nat.add_sub_assoc (by omega), Nat.mul_comm q bs, Nat.mul_add_div hbs,
        Nat.div_eq_of_lt (by omega), Nat.add_zero]
    rw [this]
  omega

/-- **C107 is false**: with three observations, batches of two and zero density of the first observation the
potential is NaN instead of `+inf`. -/
theorem c107_false : ¬ C107Statement := by
  intro h
  obtain ⟨v, h1, h2⟩ := h Unit Nat (fun _ => .fin 0) (fun _ r => if r = 0 then .ninf else .fin 0) 1 [0, 1, 2] 2 ()
    one_pos (by norm_num) (by norm_num) (by intro r; split <;> trivial) trivial
  obtain ⟨w, l, -, h3, h4, -⟩ := c107_device_partial (fun _ : Unit => .fin 0)
    (fun _ (r : Nat) => if r = 0 then .ninf else .fin 0) 1 one_pos [0, 1, 2] 2 0 (by norm_num) (by norm_num) ()
    (by intro r; split <;> trivial) trivial
  have hw := h4 ⟨0, 0, by decide, rfl, rfl⟩
  rw [h3] at h1
  cases h1
  subst hw
  rcases h2 with ⟨f, g, -, -, h2⟩ | ⟨-, h2⟩ <;> simp at h2

section
variable {σ : Type} {R : Rng σ} {devices : Nat} {objs : Nat → Loader σ ρ}

/-- **C107** (data on the host), for every evaluation in a run. -/
theorem c107_host_partial {θ : Type} (hdev : 1 ≤ devices)
    (hobjs : ∀ i, ∃ data, mkLoader data = .ok (objs i)) {loader mb : Nat} (hmb : 0 < mb)
    {d : HostData (Loader σ ρ) NumpyKw (List (String × List ρ) × List Bool)}
    (hd : FullStreamOf R devices objs loader mb d)
    (prior : θ → XF) (lik : θ → List (String × Option ρ) → XF) (T : ℝ) (hT : 0 < T) (m : Nat) (x : θ)
    (hℓ : ∀ r, IsLogDensity (lik x r)) (hp : IsLogDensity (prior x)) :
    let N := (objs loader).obsCount
    let row := batchRow (objs loader).data
    let after := fun m : Nat => (fun x => (hostFullSource (numpyHost R) devices x).2)^[m * ceilDiv N mb] d
    ∃ v, xFullPotential prior lik T (hostFullSource (numpyHost R) devices)
        (fun b => (List.range mb).map (batchRow b.1)) N mb x (after m) = (.ok v, after (m + 1)) ∧
      ((∃ k < ceilDiv N mb * mb - N, lik x (row k) = .ninf) → v = .nan) ∧
      ((∀ k < ceilDiv N mb * mb - N, lik x (row k) ≠ .ninf) →
        IsPotential (lik x) (prior x) T ((List.range N).map row) v) := by
  intro N row after
  obtain ⟨-, hwf, hle⟩ := hostFull_call hdev hobjs hmb hd 0
  have hsup := hostFull_supplies hdev hobjs hmb hd m (ceilDiv N mb) (le_refl _)
  rw [Nat.sub_self, Nat.add_zero] at hsup
  simp only [Nat.zero_add] at hsup
  obtain ⟨v, h1, h2, h3⟩ := xFullPotential_supplied prior lik T hT (hostFullSource (numpyHost R) devices)
    (fun b => (List.range mb).map (batchRow b.1)) N mb (lt_of_lt_of_le hmb hle) hmb x hℓ hp _ _ _
    (by simp [N]) hsup (by simp)
  have hall : (((List.range (ceilDiv N mb)).map fun i => passRows (objs loader).data N mb i).flatMap
      fun b => (List.range mb).map (batchRow b.1)) =
      (List.range (ceilDiv N mb * mb)).map fun i => row (i % N) := by
    have hq := range_blocks (fun i => row (i % N)) mb (ceilDiv N mb)
    rw [List.flatMap_map, ← hq]
    congr 1
    funext j
    apply List.map_congr_left
    intro i hi
    exact passRows_row _ _ _ _ _ hwf hmb hle (List.mem_range.1 hi)
  have hc := ceilDiv_le (N := N) hmb
  have hlt : ceilDiv N mb * mb - N < N := by
    have : ceilDiv N mb * mb < N + mb := by
      have := Nat.div_mul_le_self (N + mb - 1) mb
      unfold ceilDiv
      omega
    omega
  have htake : ((List.range (ceilDiv N mb * mb)).map fun i => row (i % N)).take N = (List.range N).map row := by
    rw [← List.map_take, List.take_range, Nat.min_eq_left hc]
    apply List.map_congr_left
    intro i hi
    rw [Nat.mod_eq_of_lt (List.mem_range.1 hi)]
  have hdrop : ((List.range (ceilDiv N mb * mb)).map fun i => row (i % N)).drop N =
      (List.range (ceilDiv N mb * mb - N)).map row := by
    have hs : ceilDiv N mb * mb = N + (ceilDiv N mb * mb - N) := by omega
    rw [hs, List.range_add, List.map_append, List.drop_append_of_le_length (by simp),
      List.drop_of_length_le (by simp), List.nil_append, List.map_map, Nat.add_sub_cancel_left]
    apply List.map_congr_left
    intro i hi
    simp only [Function.comp_apply]
    rw [Nat.add_mod_left, Nat.mod_eq_of_lt (lt_trans (List.mem_range.1 hi) hlt)]
  rw [hall, hdrop] at h2
  rw [hall, hdrop, htake] at h3
  refine ⟨v, h1, ?_, ?_⟩
  · rintro ⟨k, hk, hn⟩
    exact h2 ⟨_, List.mem_map_of_mem (List.mem_range.2 hk), hn⟩
  · intro h
    apply h3
    intro r hr
    obtain ⟨k, hk, rfl⟩ := List.mem_map.1 hr
    exact h k (List.mem_range.1 hk)

end

/-- **C107** (consequence).  SGGMC with data on the device accepts, with reported acceptance ratio 1, every
proposal for which an observation at a filler position has zero density: samples of zero posterior density are
accepted. -/
theorem c107_zero_density_accepted {ι κ δ μ Ms : Type} [Fintype ι] (P : Prng κ)
    (ma : Option (MassAdaption ι Ms))
    (integ : ObaboState ι XF κ δ μ → Params → Option (MassMatrix ι) → ObaboState ι XF κ δ μ)
    (prior : (ι → ℝ) → XF) (lik : (ι → ℝ) → ρ → XF) (T : ℝ) (hT : 0 < T) (data : List ρ) (bs : Nat)
    (hbs : 0 < bs) (fullPot : FullPotFn ι Nat μ)
    (hfull : ∀ x line ms v line', xFullPotential prior lik T (deviceSource data bs) id data.length bs x line =
      (.ok v, line') → fullPot x line ms = (v, (line', ms)))
    (s : SggmcState ι κ δ μ Nat Ms) (hline : s.fullDataState < data.length) (p : Params)
    (hu : 0 ≤ P.uniform (P.split s.key 2 1) ∧ P.uniform (P.split s.key 2 1) < 1)
    (prop : ObaboState ι XF κ δ μ) (hprop : prop = integ s.integratorState p (currentMass ma s.massState))
    (hℓ : ∀ r, IsLogDensity (lik prop.positions r)) (hp : IsLogDensity (prior prop.positions))
    (k : Nat) (r : ρ) (hk : k < ceilDiv data.length bs * bs - data.length)
    (hr : data[(s.fullDataState + k) % data.length]? = some r) (hz : lik prop.positions r = .ninf) :
    let out := sggmcUpdate P ma integ fullPot s p
    out.1.integratorState.positions = prop.positions ∧ out.1.potential = .nan ∧ out.2 = .fin 1 := by
  obtain ⟨v, l, -, h1, h2, -⟩ := c107_device_partial prior lik T hT data bs s.fullDataState hbs hline
    prop.positions hℓ hp
  have hv := h2 ⟨k, r, hk, hr, hz⟩
  subst hv
  have h3 := hfull _ _ prop.modelState _ _ h1
  have := c78_nan_accepted P ma integ fullPot s p hu (by
    dsimp only
    rw [← hprop, h3])
  rw [← hprop] at this
  exact this

/-- The hypotheses are met: three observations in batches of two, a uniform density. -/
example : (0 : Nat) < ceilDiv [0, 1, 2].length 2 * 2 - [0, 1, 2].length ∧
    IsPotential (fun r : Nat => if r = 0 then .ninf else .fin 0) (.fin 0) 1 [0, 1, 2] .pinf ∧
    IsPotential (fun r : Nat => .fin r) (.fin 4) 2 [0, 1, 2] (.fin (-(3 + 4) / 2)) := by
  refine ⟨by decide, Or.inr ⟨Or.inl ⟨0, by simp, rfl⟩, rfl⟩,
    Or.inl ⟨fun r => r, 4, fun _ _ => rfl, rfl, ?_⟩⟩
  norm_num

end

end JaxSgmc
