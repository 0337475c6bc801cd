import Verif.Spec.IdealKeys
import Verif.Lemmas.Oracle

/-!
# From an ideal generator to the random numbers of a run

The keys derived from the key of a chain form a generator of their own, and the mini-batches drawn with keys derived from an
independent key are independent of all numbers drawn with it.
-/

namespace JaxSgmc

open MeasureTheory ProbabilityTheory

variable {ι κ Ω : Type}

/-! ## The keys of a chain -/

/-- The keys derived from `key`. -/
abbrev ChainKey (sp : κ → ℕ → ℕ → κ) (key : κ) : Type := {k : κ // Spec.Derived (splitPrng sp) key k}

/-- The generator restricted to the keys derived from `key`. -/
def chainPrng (sp : κ → ℕ → ℕ → κ) (key : κ) (P : Prng κ) : Prng (ChainKey sp key) where
  split k n i := if h : i < n then ⟨sp k.1 n i, k.2.tail ⟨n, i, h, rfl⟩⟩ else k
  normal k := P.normal k.1
  uniform k := P.uniform k.1

/-- The key of the chain. -/
def chainRoot (sp : κ → ℕ → ℕ → κ) (key : κ) : ChainKey sp key := ⟨key, Relation.ReflTransGen.refl⟩

theorem chainPrng_split {sp : κ → ℕ → ℕ → κ} {key : κ} (P : Prng κ) (k : ChainKey sp key) {n i : ℕ} (h : i < n) :
    ((chainPrng sp key P).split k n i).1 = sp k.1 n i := by
  unfold chainPrng
  dsimp only
  rw [dif_pos h]

theorem chainPrng_derived {sp : κ → ℕ → ℕ → κ} {key : κ} (P : Prng κ) {a b : ChainKey sp key}
    (h : Spec.Derived (chainPrng sp key P) a b) : Spec.Derived (splitPrng sp) a.1 b.1 := by
  induction h with
  | refl => exact Relation.ReflTransGen.refl
  | tail _ h2 ih =>
    obtain ⟨n, i, hi, rfl⟩ := h2
    exact ih.tail ⟨n, i, hi, chainPrng_split P _ hi⟩

theorem chainPrng_ideal {sp : κ → ℕ → ℕ → κ} {key : κ} (P : Prng κ) (hs : Spec.IdealSplit (splitPrng sp)) :
    Spec.IdealSplit (chainPrng sp key P) := by
  intro k n i j hi hj hij x ⟨h1, h2⟩
  have h1' := chainPrng_derived P h1
  have h2' := chainPrng_derived P h2
  rw [chainPrng_split P k hi] at h1'
  rw [chainPrng_split P k hj] at h2'
  exact hs k.1 n i j hi hj hij x.1 ⟨h1', h2'⟩

/-! ## Mini-batches as lists of indices -/

/-- The indices of a batch. -/
def toIndices {N : ℕ} (hN : 0 < N) (mb : ℕ) (l : List ℕ) (i : Fin mb) : Fin N := ⟨l.getD i 0 % N, Nat.mod_lt _ hN⟩

theorem toIndices_ofFn {N mb : ℕ} (hN : 0 < N) {l : List ℕ} (hl : l.length = mb) (hlt : ∀ i ∈ l, i < N) :
    (List.ofFn fun i => ((toIndices hN mb l i : Fin N) : ℕ)) = l := by
  refine List.ext_getElem (by rw [List.length_ofFn, hl]) fun i h1 h2 => ?_
  rw [List.getElem_ofFn]
  show l.getD i 0 % N = l[i]
  rw [List.getD_eq_getElem?_getD, List.getElem?_eq_getElem h2, Option.getD_some, Nat.mod_eq_of_lt (hlt _ (List.getElem_mem h2))]

theorem toIndices_eq_iff {N mb : ℕ} (hN : 0 < N) {l : List ℕ} (hl : l.length = mb) (hlt : ∀ i ∈ l, i < N) (d : Fin mb → Fin N) :
    toIndices hN mb l = d ↔ l = List.ofFn fun i => (d i : ℕ) := by
  constructor
  · rintro rfl
    exact (toIndices_ofFn hN hl hlt).symm
  · intro h
    funext i
    refine Fin.ext ?_
    have hi : (i : ℕ) < l.length := by rw [hl]; exact i.2
    show l.getD i 0 % N = d i
    rw [List.getD_eq_getElem?_getD, List.getElem?_eq_getElem hi, Option.getD_some, Nat.mod_eq_of_lt (hlt _ (List.getElem_mem hi))]
    simp [h]

/-- The indices of the mini-batches drawn with the keys derived from the state. -/
def indexBatches (sp : κ → ℕ → ℕ → κ) {N : ℕ} (hN : 0 < N) (mb : ℕ) (I : Randint κ) (d : κ) : κ × (Fin mb → Fin N) :=
  (sp d 2 0, toIndices hN mb (I.randint (sp d 2 1) mb N))

theorem indexBatches_nth (sp : κ → ℕ → ℕ → κ) {N : ℕ} (hN : 0 < N) (mb : ℕ) (I : Randint κ) (dk : κ) (n : ℕ) :
    Spec.nthBatch (indexBatches sp hN mb I) dk n = toIndices hN mb (I.randint (unifKey (splitPrng sp) dk n) mb N) := by
  unfold Spec.nthBatch
  rfl

section
variable [MeasurableSpace Ω] {prob : Measure Ω} [IsProbabilityMeasure prob] {P : Ω → Prng κ} {I : Ω → Randint κ}
  {sp : κ → ℕ → ℕ → κ} (hK : Spec.IdealKeys prob P I sp)

include hK in
theorem idealKeys_split : Spec.IdealSplit (splitPrng sp) := by
  obtain ⟨ω⟩ : Nonempty Ω := by
    by_contra h
    rw [not_nonempty_iff] at h
    have := measure_univ (μ := prob)
    rw [Set.univ_eq_empty_iff.2 h, measure_empty] at this
    exact zero_ne_one this
  have h1 := hK.ideal ω
  have h2 := hK.split_eq ω
  generalize P ω = Q at h1 h2
  subst h2
  exact h1

omit [MeasurableSpace Ω] in
theorem indices_measurable {N : ℕ} (hN : 0 < N) (mb : ℕ) (k : κ) :
    Measurable[Spec.keyDrawn P I k] fun ω => toIndices hN mb ((I ω).randint k mb N) := by
  have h1 : Measurable[Spec.keyDrawn P I k, ⊤] fun ω => (I ω).randint k mb N := by
    refine Measurable.mono (comap_measurable (m := ⊤) fun ω => (I ω).randint k mb N) ?_ le_rfl
    exact le_trans (le_iSup₂ (f := fun n N => MeasurableSpace.comap (fun ω => (I ω).randint k n N) ⊤) mb N) le_sup_right
  have h2 : Measurable[⊤] (toIndices hN mb) := measurable_from_top
  exact h2.comp h1

omit [MeasurableSpace Ω] in
theorem numbers_le (key : κ) (k : ChainKey sp key) {δ β : Type} [MeasurableSpace β] (data : Ω → δ → δ × β) (d₀ : δ) (L : ℕ) :
    Spec.drawn (fun ω => chainPrng sp key (P ω)) data d₀ L (.inl k) ≤ Spec.keyDrawn P I k.1 := le_sup_left

include hK in
/-- The noise of a chain and the mini-batches drawn with an independent key are ideal random numbers. -/
theorem chain_ideal {key dk : κ} (hind : Spec.KeysApart sp dk key) {N : ℕ} (hN : 0 < N) (mb : ℕ) :
    Spec.IdealRandom prob (fun ω => chainPrng sp key (P ω)) (fun ω => indexBatches sp hN mb (I ω)) dk 1
      (fun b : Fin 1 → Fin mb → Fin N => (fun _ => ((N : ENNReal) ^ mb)⁻¹ : (Fin mb → Fin N) → ENNReal) (b 0))
      (chainPrng sp key ⟨sp, fun _ _ _ => 0, fun _ => 0⟩).split := by
  have hs := idealKeys_split hK
  -- the key behind the random numbers of the run
  let e : ChainKey sp key ⊕ ℕ → κ := fun j => match j with
    | .inl k => k.1
    | .inr n => unifKey (splitPrng sp) dk n
  have he : Function.Injective e := by
    rintro (a | a) (b | b) h
    · exact congrArg _ (Subtype.ext h)
    · exact absurd ⟨unifKey_derived _ dk b, by have := a.2; rwa [show a.1 = _ from h] at this⟩ (hind _)
    · exact absurd ⟨unifKey_derived _ dk a, by have := b.2; rwa [show b.1 = _ from h.symm] at this⟩ (hind _)
    · exact congrArg _ (unifKey_inj hs dk h)
  have hub : ∀ (ω : Ω) (n : ℕ), Spec.updateBatches (indexBatches sp hN mb (I ω)) dk 1 n =
      fun _ => toIndices hN mb ((I ω).randint (unifKey (splitPrng sp) dk n) mb N) := by
    intro ω n
    funext i
    unfold Spec.updateBatches
    rw [indexBatches_nth, show n * 1 + (i : ℕ) = n by omega]
  have hle : ∀ j, Spec.drawn (fun ω => chainPrng sp key (P ω)) (fun ω => indexBatches sp hN mb (I ω)) dk 1 j ≤
      Spec.keyDrawn P I (e j) := by
    rintro (k | n)
    · exact numbers_le key k _ _ _
    · refine Measurable.comap_le (m₁ := Spec.keyDrawn P I (unifKey (splitPrng sp) dk n)) ?_
      simp only [hub]
      exact @measurable_pi_lambda _ _ _ (Spec.keyDrawn P I (unifKey (splitPrng sp) dk n)) _ _ fun _ =>
        indices_measurable hN mb _
  refine ⟨fun ω => rfl, fun ω => chainPrng_ideal _ hs, fun j => (hle j).trans (hK.measurable _), fun k n => hK.normal_law k.1 n,
    fun k => hK.uniform_law k.1, fun n b => ?_, iIndep_of_iIndep_of_le (hK.independent.precomp he) hle⟩
  rw [← hK.randint_law (unifKey (splitPrng sp) dk n) mb N (b 0)]
  congr 1
  ext ω
  show Spec.updateBatches (indexBatches sp hN mb (I ω)) dk 1 n = b ↔ _ = _
  rw [hub, ← toIndices_eq_iff hN ((hK.lawful ω).length _ _ _ hN) (fun i hi => (hK.lawful ω).lt _ _ _ _ hN hi)]
  constructor
  · rintro rfl; rfl
  · intro h
    funext i
    rw [Subsingleton.elim i 0]
    exact h

end

end JaxSgmc
