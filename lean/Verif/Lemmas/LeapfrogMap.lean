import Verif.Lemmas.LeapfrogFlow

/-! # The path map of the reversible leapfrog integrator -/

namespace JaxSgmc

open MeasureTheory

variable {ι β μ : Type} [Fintype ι] {L : ℕ}

/-- The first `n` steps. -/
noncomputable def leapFlow (γ h : ℝ) (m : MassMatrix ι) (w : (ι → ℝ) →ₗ[ℝ] (ι → ℝ))
    (g : ℕ → (ι → ℝ) → (ι → ℝ)) : ℕ → PathSpace ι L → PathSpace ι L
  | 0, x => x
  | n + 1, x => if hn : n < L then kickMap γ h m w (g n) ⟨n, hn⟩
      (if n = 0 then leapFlow γ h m w g n x else drift h m (leapFlow γ h m w g n x))
    else leapFlow γ h m w g n x

/-- A whole proposal, followed by momentum flip and reversal of the noises. -/
noncomputable def leapMap (γ h : ℝ) (m : MassMatrix ι) (w : (ι → ℝ) →ₗ[ℝ] (ι → ℝ))
    (g : ℕ → (ι → ℝ) → (ι → ℝ)) (x : PathSpace ι L) : PathSpace ι L :=
  flipMap (drift (h / 2) m (leapFlow γ h m w g L (drift (h / 2) m x)))

theorem leapFlow_measurePreserving {γ h : ℝ} (hγ : 0 ≤ γ) (hh : 0 ≤ h) {m : MassMatrix ι}
    {w : (ι → ℝ) →ₗ[ℝ] (ι → ℝ)} (hw : ∀ r, m.sqrt.mul (w r) = r) {g : ℕ → (ι → ℝ) → (ι → ℝ)}
    (hg : ∀ n, Measurable (g n)) (n : ℕ) :
    MeasurePreserving (leapFlow γ h m w g n : PathSpace ι L → PathSpace ι L) volume volume := by
  induction n with
  | zero => exact MeasurePreserving.id _
  | succ n ih =>
    by_cases hn : n < L
    · have hk := kickMap_measurePreserving (L := L) ⟨n, hn⟩ hγ hh hw (hg n)
      by_cases h0 : n = 0
      · subst h0
        exact mp_congr (hk.comp ih) fun x => by simp [leapFlow, hn]
      · exact mp_congr (hk.comp ((drift_measurePreserving h m).comp ih)) fun x => by
          simp [leapFlow, hn, h0]
    · exact mp_congr ih fun x => by simp [leapFlow, hn]

theorem leapMap_measurePreserving {γ h : ℝ} (hγ : 0 ≤ γ) (hh : 0 ≤ h) {m : MassMatrix ι}
    {w : (ι → ℝ) →ₗ[ℝ] (ι → ℝ)} (hw : ∀ r, m.sqrt.mul (w r) = r) {g : ℕ → (ι → ℝ) → (ι → ℝ)}
    (hg : ∀ n, Measurable (g n)) :
    MeasurePreserving (leapMap γ h m w g : PathSpace ι L → PathSpace ι L) volume volume :=
  flipMap_measurePreserving.comp ((drift_measurePreserving _ m).comp
    ((leapFlow_measurePreserving hγ hh hw hg L).comp (drift_measurePreserving _ m)))

/-- The initial state of the integrator with scripted noises. -/
noncomputable def scriptedStart (x : PathSpace ι L) (ms : μ) : LeapfrogState ι ℝ Spec.SKey ℕ μ :=
  ⟨0, .main 0, x.1.1, x.1.2, 0, ms, []⟩

section
variable {lay : Layout ι} (hl : Spec.Layout.Injective lay) (γ : ℝ) (prm : Params) (m : MassMatrix ι)
  (w : (ι → ℝ) →ₗ[ℝ] (ι → ℝ)) (b : ℕ → β) (sg : StochGrad ι β μ) {G : (ι → ℝ) → β → (ι → ℝ)}
  (hG : ∀ x b ms, (sg x b ms).2 = G x b) (u : ℝ) (ms : μ)

include hl hG in
theorem leapFlow_eq (x : PathSpace ι L) (n : ℕ) (hn : n ≤ L) :
    leapFlow γ prm.stepSize m w (fun n q => G q (b n)) n x =
      (((revState (Spec.scripted lay (Spec.noiseSeq x.2) u) lay γ (Spec.batchSource b) sg prm m
          (scriptedStart x ms) n).positions,
        (revState (Spec.scripted lay (Spec.noiseSeq x.2) u) lay γ (Spec.batchSource b) sg prm m
          (scriptedStart x ms) n).momentum),
        fun j => if (j.1 : ℕ) < n then backNoise (Spec.scripted lay (Spec.noiseSeq x.2) u) lay γ
          (Spec.batchSource b) sg prm m w (scriptedStart x ms) j.1 j.2 else x.2 j) := by
  induction n with
  | zero => simp [leapFlow, revState, scriptedStart]
  | succ n ih =>
    have hn' : n < L := by omega
    set S := revState (Spec.scripted lay (Spec.noiseSeq x.2) u) lay γ (Spec.batchSource b) sg prm m
      (scriptedStart x ms) with hS
    have hp := revState_positions (Spec.scripted lay (Spec.noiseSeq x.2) u) lay γ (Spec.batchSource b)
      sg prm m (scriptedStart x ms) n
    have hq := revState_momentum (Spec.scripted lay (Spec.noiseSeq x.2) u) lay γ (Spec.batchSource b)
      sg prm m (scriptedStart x ms) hG n
    have hb : Spec.nthBatch (Spec.batchSource b) (scriptedStart x ms).dataState n = b n :=
      Spec.batchSource_nth b n
    have hnoise : Spec.leapNoise (Spec.scripted lay (Spec.noiseSeq x.2) u) lay
        (scriptedStart x ms).key n = fun i => x.2 (⟨n, hn'⟩, i) := by
      show Spec.leapNoise (Spec.scripted lay (Spec.noiseSeq x.2) u) lay (.main 0) n = _
      rw [Spec.scripted_leapNoise hl]
      funext i
      simp [Spec.noiseSeq, hn']
    rw [← hS] at hp hq
    rw [hb, hnoise] at hq
    -- the state after the position update
    have hmid : (if n = 0 then leapFlow γ prm.stepSize m w (fun n q => G q (b n)) n x
        else drift prm.stepSize m (leapFlow γ prm.stepSize m w (fun n q => G q (b n)) n x)) =
        (((S (n + 1)).positions, (S n).momentum),
          fun j => if (j.1 : ℕ) < n then backNoise (Spec.scripted lay (Spec.noiseSeq x.2) u) lay γ
          (Spec.batchSource b) sg prm m w (scriptedStart x ms) j.1 j.2 else x.2 j) := by
      rw [ih (by omega), hp]
      by_cases h0 : n = 0
      · simp [h0]
      · simp [h0, drift]
    show (if hn : n < L then kickMap γ prm.stepSize m w (fun q => G q (b n)) ⟨n, hn⟩
      (if n = 0 then leapFlow γ prm.stepSize m w (fun n q => G q (b n)) n x
        else drift prm.stepSize m (leapFlow γ prm.stepSize m w (fun n q => G q (b n)) n x))
      else leapFlow γ prm.stepSize m w (fun n q => G q (b n)) n x) = _
    rw [dif_pos hn', hmid]
    have hξ : (fun i => (fun j : Fin L × ι => if (j.1 : ℕ) < n then
        backNoise (Spec.scripted lay (Spec.noiseSeq x.2) u) lay γ
          (Spec.batchSource b) sg prm m w (scriptedStart x ms) j.1 j.2 else x.2 j)
          ((⟨n, hn'⟩ : Fin L), i)) = fun i => x.2 (⟨n, hn'⟩, i) := by
      funext i; simp
    simp only [kickMap]
    rw [hξ, ← hq]
    refine Prod.ext rfl ?_
    funext j
    dsimp only
    by_cases hj : j.1 = ⟨n, hn'⟩
    · have hj' : (j.1 : ℕ) = n := by rw [hj]
      rw [if_pos hj, if_pos (by omega), hj']
      unfold backNoise
      rw [← hS, hnoise]
    · have hj' : (j.1 : ℕ) ≠ n := fun h => hj (Fin.ext h)
      rw [if_neg hj]
      by_cases hlt : (j.1 : ℕ) < n
      · rw [if_pos hlt, if_pos (by omega)]
      · rw [if_neg hlt, if_neg (by omega)]

include hl hG in
/-- The path map in terms of the states of the integrator; `y` is the point after the first half
position step. -/
theorem leapMap_eq (x : PathSpace ι L) :
    let y := drift (prm.stepSize / 2) m x
    let S := revState (Spec.scripted lay (Spec.noiseSeq x.2) u) lay γ (Spec.batchSource b) sg prm m
      (scriptedStart y ms)
    leapMap γ prm.stepSize m w (fun n q => G q (b n)) x =
      (((S L).positions + (prm.stepSize / 2) • m.inv.mul (S L).momentum, -(S L).momentum),
        fun j => backNoise (Spec.scripted lay (Spec.noiseSeq x.2) u) lay γ
          (Spec.batchSource b) sg prm m w (scriptedStart y ms) (L - 1 - j.1) j.2) := by
  intro y S
  have h := leapFlow_eq (L := L) hl γ prm m w b sg hG u ms y L le_rfl
  have hy : y.2 = x.2 := rfl
  rw [hy] at h
  unfold leapMap
  rw [show drift (prm.stepSize / 2) m x = y from rfl, h]
  simp only [flipMap, drift]
  refine Prod.ext rfl ?_
  funext j
  dsimp only
  have e : ((Fin.rev j.1 : Fin L) : ℕ) = L - 1 - j.1 := by rw [Fin.val_rev]; omega
  rw [if_pos (Fin.rev j.1).isLt, e]

/-- The energy of positions, momenta and noises. -/
noncomputable def pathEnergy (m : MassMatrix ι) (U : (ι → ℝ) → ℝ) (x : PathSpace ι L) : ℝ :=
  U x.1.1 + Spec.kinetic m x.1.2 + (∑ j, x.2 j * x.2 j) / 2

theorem noiseEnergy_seq (x : Fin L × ι → ℝ) :
    Spec.noiseEnergy (Spec.noiseSeq x) L = (∑ j, x j * x j) / 2 := by
  unfold Spec.noiseEnergy
  rw [Fintype.sum_prod_type, Finset.sum_range]
  congr 1
  refine Finset.sum_congr rfl fun k _ => Finset.sum_congr rfl fun i _ => ?_
  simp [Spec.noiseSeq, k.isLt]

theorem noiseEnergy_fin (ζ : ℕ → ι → ℝ) :
    (∑ j : Fin L × ι, ζ (L - 1 - j.1) j.2 * ζ (L - 1 - j.1) j.2) / 2 = Spec.noiseEnergy ζ L := by
  unfold Spec.noiseEnergy
  rw [Fintype.sum_prod_type, ← Finset.sum_range_reflect, Finset.sum_range]

variable {γ m w}

include hl hG in
/-- The energy error of a proposal. -/
theorem leapMap_energy (hγ : 0 ≤ γ) (hh : 0 ≤ prm.stepSize) (hm : Spec.MassOk m)
    (hw : ∀ r, m.sqrt.mul (w r) = r) (U : (ι → ℝ) → ℝ) (x : PathSpace ι L) :
    let y := drift (prm.stepSize / 2) m x
    let S := revState (Spec.scripted lay (Spec.noiseSeq x.2) u) lay γ (Spec.batchSource b) sg prm m
      (scriptedStart y ms)
    pathEnergy m U (leapMap γ prm.stepSize m w (fun n q => G q (b n)) x) - pathEnergy m U x =
      U ((S L).positions + (prm.stepSize / 2) • m.inv.mul (S L).momentum) - U x.1.1 -
        (S L).potential := by
  intro y S
  rw [leapMap_eq hl γ prm m w b sg hG u ms x]
  obtain ⟨-, hE⟩ := rev_energy' (Spec.scripted lay (Spec.noiseSeq x.2) u) lay hγ (Spec.batchSource b)
    sg prm hh hm hw (scriptedStart y ms) hG rfl
  have := hE L
  simp only [pathEnergy, kinetic_neg]
  rw [noiseEnergy_fin (backNoise (Spec.scripted lay (Spec.noiseSeq x.2) u) lay γ (Spec.batchSource b)
    sg prm m w (scriptedStart y ms))]
  have h2 : Spec.noiseEnergy (Spec.leapNoise (Spec.scripted lay (Spec.noiseSeq x.2) u) lay
      (scriptedStart y ms).key) L = (∑ j, x.2 j * x.2 j) / 2 := by
    rw [← noiseEnergy_seq]
    congr 1
    exact Spec.scripted_leapNoise hl _ _
  have h3 : (scriptedStart y ms).momentum = x.1.2 := rfl
  rw [h2, h3] at this
  simp only [S]
  linarith

include hl hG u ms in
/-- The path map with mini-batches in reversed order inverts the path map. -/
theorem leapMap_inverse (hγ : 0 ≤ γ) (hh : 0 ≤ prm.stepSize) (hm : Spec.MassOk m)
    (hw : ∀ r, m.sqrt.mul (w r) = r) (b' : ℕ → β) (hb : ∀ i < L, b' i = b (L - 1 - i))
    (x : PathSpace ι L) :
    leapMap γ prm.stepSize m w (fun n q => G q (b' n))
      (leapMap γ prm.stepSize m w (fun n q => G q (b n)) x) = x := by
  have e1 := leapMap_eq hl γ prm m w b sg hG u ms x
  set x' := leapMap γ prm.stepSize m w (fun n q => G q (b n)) x with hx'
  have e2 := leapMap_eq hl γ prm m w b' sg hG u ms x'
  set y := drift (prm.stepSize / 2) m x with hy
  set y' := drift (prm.stepSize / 2) m x' with hy'
  dsimp only at e1 e2
  obtain ⟨hζ, -⟩ := rev_energy' (Spec.scripted lay (Spec.noiseSeq x.2) u) lay hγ (Spec.batchSource b)
    sg prm hh hm hw (scriptedStart y ms) hG rfl
  have hst := rev_states (Spec.scripted lay (Spec.noiseSeq x.2) u) lay (Spec.batchSource b) sg prm
    (scriptedStart y ms) hG _ hζ L (Spec.scripted lay (Spec.noiseSeq x'.2) u) (Spec.batchSource b') sg
    hG (scriptedStart y' ms) (by
      show x'.1.1 + (prm.stepSize / 2) • m.inv.mul x'.1.2 = _
      rw [e1]
      dsimp only
      rw [VTensor.mul_neg, smul_neg, add_neg_cancel_right])
    (by
      show x'.1.2 = _
      rw [e1])
    rfl rfl
    (by
      intro i hi
      show Spec.nthBatch _ 0 i = Spec.nthBatch _ 0 _
      rw [Spec.batchSource_nth, Spec.batchSource_nth, hb i hi])
    (by
      intro i hi
      show Spec.leapNoise _ _ (Spec.SKey.main 0) i = _
      rw [Spec.scripted_leapNoise hl]
      funext k
      simp only [Spec.noiseSeq, hi, dif_pos]
      rw [e1])
  rw [e2]
  set S := revState (Spec.scripted lay (Spec.noiseSeq x.2) u) lay γ (Spec.batchSource b) sg prm m
    (scriptedStart y ms) with hS
  set S' := revState (Spec.scripted lay (Spec.noiseSeq x'.2) u) lay γ (Spec.batchSource b') sg prm m
    (scriptedStart y' ms) with hS'
  obtain ⟨h1, h2, -⟩ := hst L le_rfl
  have h0 : (S (L + 1 - max 1 L)).positions = (scriptedStart y ms).positions := by
    rcases Nat.eq_zero_or_pos L with h | h
    · have : L + 1 - max 1 L = 0 := by omega
      rw [this]; rfl
    · have : L + 1 - max 1 L = 0 + 1 := by omega
      rw [this, hS, revState_positions, if_pos rfl]; rfl
  have h00 : S (L - L) = scriptedStart y ms := by
    rw [Nat.sub_self]; rfl
  rw [h0] at h1
  rw [h00] at h2
  rw [h1, h2]
  refine Prod.ext (Prod.ext ?_ ?_) ?_
  · show (x.1.1 + (prm.stepSize / 2) • m.inv.mul x.1.2) + (prm.stepSize / 2) • m.inv.mul (-x.1.2) = _
    rw [VTensor.mul_neg, smul_neg, add_neg_cancel_right]
  · show -(-x.1.2) = _
    rw [neg_neg]
  · funext j
    dsimp only
    have hj := j.1.isLt
    set i := L - 1 - (j.1 : ℕ) with hi
    obtain ⟨-, m1, -⟩ := hst i (by omega)
    obtain ⟨-, m2, -⟩ := hst (i + 1) (by omega)
    have a1 : L - i = j.1 + 1 := by omega
    have a2 : L - (i + 1) = j.1 := by omega
    rw [a1] at m1
    rw [a2] at m2
    have hi' : i < L := by omega
    have hnoise : Spec.leapNoise (Spec.scripted lay (Spec.noiseSeq x'.2) u) lay
        (scriptedStart y' ms).key i = backNoise (Spec.scripted lay (Spec.noiseSeq x.2) u) lay γ
          (Spec.batchSource b) sg prm m w (scriptedStart y ms) j.1 := by
      show Spec.leapNoise _ _ (Spec.SKey.main 0) i = _
      rw [Spec.scripted_leapNoise hl]
      funext k
      simp only [Spec.noiseSeq, hi', dif_pos]
      rw [e1]
      dsimp only
      have : L - 1 - i = j.1 := by omega
      rw [this]
    unfold backNoise at hnoise ⊢
    rw [hnoise, ← hS', m1, m2, ← hS]
    have e : -(S (↑j.1 + 1)).momentum + -(S ↑j.1).momentum =
        -((S ↑j.1).momentum + (S (↑j.1 + 1)).momentum) := by abel
    rw [e, w.map_neg]
    have hξ : Spec.leapNoise (Spec.scripted lay (Spec.noiseSeq x.2) u) lay
        (scriptedStart y ms).key j.1 j.2 = x.2 j := by
      show Spec.leapNoise _ _ (Spec.SKey.main 0) _ _ = _
      rw [Spec.scripted_leapNoise hl]
      simp [Spec.noiseSeq]
    simp only [kickRev, Pi.add_apply, Pi.smul_apply, Pi.neg_apply, smul_eq_mul, hξ]
    ring

end

end JaxSgmc
