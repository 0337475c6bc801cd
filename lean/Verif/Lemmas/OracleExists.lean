import Verif.Spec.Oracle
import Mathlib.Probability.Independence.InfinitePi
import Mathlib.Probability.ProbabilityMassFunction.Constructions

/-!
# Ideal random numbers exist

A probability space with a generator and mini-batches as demanded by `Spec.IdealRandom`: the hypotheses of the
theorems about runs with ideal random numbers can be met, for every number of mini-batches per update and every
distribution of these mini-batches.
-/

namespace JaxSgmc

open MeasureTheory ProbabilityTheory

namespace IdealSpace

variable (L : ℕ) (β : Type)

/-- The numbers belonging to one key or one update. -/
abbrev Cell := (Option (ℕ × ℕ) → ℝ) × (Fin L → β)

/-- A point of the space: numbers for every key and every update. -/
abbrev Space := List ℕ ⊕ ℕ → Cell L β

variable {L β}

/-- The generator. -/
def gen (ω : Space L β) : Prng (List ℕ) :=
  Spec.pathPrng (fun k n i => (ω (.inl k)).1 (some (n, i))) (fun k => (ω (.inl k)).1 none)

/-- The mini-batches: `L` for every update. -/
def batches [Inhabited β] (ω : Space L β) (d : ℕ) : ℕ × β :=
  (d + 1, if h : 0 < L then (ω (.inr (d / L))).2 ⟨d % L, Nat.mod_lt _ h⟩ else default)

theorem updateBatches_eq [Inhabited β] (ω : Space L β) (n : ℕ) :
    Spec.updateBatches (batches ω) 0 L n = (ω (.inr n)).2 := by
  funext i
  have hL : 0 < L := i.pos
  have h1 : ∀ m d : ℕ, (fun d => (batches ω d).1)^[m] d = d + m := by
    intro m
    induction m with
    | zero => intro d; rfl
    | succ m ih =>
      intro d
      rw [Function.iterate_succ_apply, ih]
      show d + 1 + m = d + (m + 1)
      omega
  unfold Spec.updateBatches Spec.nthBatch
  rw [h1, zero_add]
  unfold batches
  dsimp only
  rw [dif_pos hL]
  have h2 : (n * L + i) / L = n := by
    rw [Nat.mul_comm, Nat.mul_add_div hL, Nat.div_eq_of_lt i.2, Nat.add_zero]
  have h3 : (n * L + (i : ℕ)) % L = i := by
    rw [Nat.mul_comm, Nat.mul_add_mod, Nat.mod_eq_of_lt i.2]
  have h4 : (⟨(n * L + (i : ℕ)) % L, Nat.mod_lt _ hL⟩ : Fin L) = i := Fin.ext h3
  rw [h4, h2]

variable [MeasurableSpace β]

/-- The distribution of the numbers drawn with one key. -/
noncomputable def keyLaw : Measure (Option (ℕ × ℕ) → ℝ) :=
  Measure.infinitePi fun o => match o with
    | none => Spec.unif
    | some _ => gaussianReal 0 1

instance keyFactor_prob (o : Option (ℕ × ℕ)) : IsProbabilityMeasure (match o with
    | none => Spec.unif
    | some _ => gaussianReal 0 1 : Measure ℝ) := by
  cases o with
  | none =>
    refine ⟨?_⟩
    show Spec.unif Set.univ = 1
    unfold Spec.unif
    simp
  | some j => show IsProbabilityMeasure (gaussianReal 0 1); infer_instance

instance keyLaw_prob : IsProbabilityMeasure keyLaw := by unfold keyLaw; infer_instance

omit [MeasurableSpace β] in
theorem keyLaw_normals (n : ℕ) : keyLaw.map (fun (c : Option (ℕ × ℕ) → ℝ) (i : Fin n) => c (some (n, (i : ℕ)))) =
    Spec.normals (Fin n) := by
  have h1 : Function.Injective fun i : Fin n => (some (n, (i : ℕ)) : Option (ℕ × ℕ)) := by
    intro i j h
    exact Fin.ext (Prod.mk.inj (Option.some.inj h)).2
  have h2 := Measure.map_infinitePi_infinitePi_of_inj (P := fun o : Option (ℕ × ℕ) => (match o with
    | none => Spec.unif
    | some _ => gaussianReal 0 1 : Measure ℝ)) h1
  rw [Measure.infinitePi_eq_pi (fun i : Fin n => _)] at h2
  exact h2

omit [MeasurableSpace β] in
theorem keyLaw_uniform : keyLaw.map (fun c : Option (ℕ × ℕ) → ℝ => c none) = Spec.unif :=
  Measure.infinitePi_map_eval _ none

/-- The distribution of all numbers. -/
noncomputable def law (p : PMF (Fin L → β)) : Measure (Space L β) :=
  Measure.infinitePi fun _ => keyLaw.prod p.toMeasure

theorem cell_law (p : PMF (Fin L → β)) (j : List ℕ ⊕ ℕ) : (law p).map (fun ω => ω j) = keyLaw.prod p.toMeasure :=
  Measure.infinitePi_map_eval (fun _ : List ℕ ⊕ ℕ => keyLaw.prod p.toMeasure) j

theorem key_law (p : PMF (Fin L → β)) (j : List ℕ ⊕ ℕ) : (law p).map (fun ω => (ω j).1) = keyLaw := by
  have h := congrArg (fun m => Measure.map Prod.fst m) (cell_law p j)
  rw [Measure.map_map measurable_fst (measurable_pi_apply j)] at h
  rw [Measure.map_fst_prod, measure_univ, one_smul] at h
  exact h

theorem batch_law (p : PMF (Fin L → β)) (j : List ℕ ⊕ ℕ) : (law p).map (fun ω => (ω j).2) = p.toMeasure := by
  have h := congrArg (fun m => Measure.map Prod.snd m) (cell_law p j)
  rw [Measure.map_map measurable_snd (measurable_pi_apply j)] at h
  rw [Measure.map_snd_prod, measure_univ, one_smul] at h
  exact h

/-- Ideal random numbers exist, for every distribution of the mini-batches of one update. -/
theorem ideal [Inhabited β] [Countable β] [MeasurableSingletonClass β] (p : PMF (Fin L → β)) :
    Spec.IdealRandom (law p) gen batches 0 L p (fun k _ i => i :: k) := by
  have hle : ∀ j, Spec.drawn (gen (L := L) (β := β)) batches 0 L j ≤
      MeasurableSpace.comap (fun ω : Space L β => ω j) inferInstance := by
    intro j
    cases j with
    | inl k =>
      refine Measurable.comap_le (m₁ := MeasurableSpace.comap (fun ω : Space L β => ω (.inl k)) inferInstance) ?_
      have h1 : Measurable fun c : Cell L β =>
          ((fun n i => c.1 (some (n, i)), c.1 none) : (ℕ → ℕ → ℝ) × ℝ) := by
        refine Measurable.prodMk ?_ ((measurable_pi_apply none).comp measurable_fst)
        exact measurable_pi_lambda _ fun n => measurable_pi_lambda _ fun i =>
          (measurable_pi_apply (some (n, i))).comp measurable_fst
      exact h1.comp (comap_measurable _)
    | inr n =>
      refine Measurable.comap_le (m₁ := MeasurableSpace.comap (fun ω : Space L β => ω (.inr n)) inferInstance) ?_
      have e : (fun ω : Space L β => Spec.updateBatches (batches ω) 0 L n) = fun ω => (ω (.inr n)).2 :=
        funext fun ω => updateBatches_eq ω n
      rw [e]
      exact measurable_snd.comp (comap_measurable _)
  have hm : ∀ j, MeasurableSpace.comap (fun ω : Space L β => ω j) inferInstance ≤
      (inferInstance : MeasurableSpace (Space L β)) := fun j => (measurable_pi_apply j).comap_le
  refine ⟨fun ω => rfl, fun ω => Spec.pathPrng_ideal _ _, fun j => (hle j).trans (hm j), ?_, ?_, ?_, ?_⟩
  · intro k n
    have h1 : Function.Injective fun i : Fin n => (some (n, (i : ℕ)) : Option (ℕ × ℕ)) := by
      intro i j h
      exact Fin.ext (Prod.mk.inj (Option.some.inj h)).2
    have h2 := Measure.map_infinitePi_infinitePi_of_inj (P := fun o : Option (ℕ × ℕ) => (match o with
      | none => Spec.unif
      | some _ => gaussianReal 0 1 : Measure ℝ)) h1
    rw [Measure.infinitePi_eq_pi (fun i : Fin n => _)] at h2
    have h3 : Measurable fun (c : Option (ℕ × ℕ) → ℝ) (i : Fin n) => c (some (n, (i : ℕ))) :=
      measurable_pi_lambda _ fun i => measurable_pi_apply _
    have h4 : Measurable fun ω : Space L β => (ω (.inl k)).1 := measurable_fst.comp (measurable_pi_apply _)
    have h5 := Measure.map_map (μ := law p) h3 h4
    rw [key_law] at h5
    exact h5.symm.trans h2
  · intro k
    have h3 : Measurable fun c : Option (ℕ × ℕ) → ℝ => c none := measurable_pi_apply _
    have h4 : Measurable fun ω : Space L β => (ω (.inl k)).1 := measurable_fst.comp (measurable_pi_apply _)
    have h5 := Measure.map_map (μ := law p) h3 h4
    rw [key_law] at h5
    exact h5.symm.trans (Measure.infinitePi_map_eval _ none)
  · intro n b
    have h4 : Measurable fun ω : Space L β => (ω (.inr n)).2 := measurable_snd.comp (measurable_pi_apply _)
    have h5 := congrArg (fun m => m {b}) (batch_law p (.inr n))
    rw [Measure.map_apply h4 (MeasurableSet.singleton b), PMF.toMeasure_apply_singleton p b
      (MeasurableSet.singleton b)] at h5
    rw [← h5]
    congr 1
    ext ω
    show Spec.updateBatches (batches ω) 0 L n = b ↔ (ω (.inr n)).2 = b
    rw [updateBatches_eq]
  · refine iIndep_of_iIndep_of_le (m₂ := fun j => MeasurableSpace.comap (fun ω : Space L β => ω j) inferInstance) ?_ hle
    exact iIndepFun_infinitePi (P := fun _ : List ℕ ⊕ ℕ => keyLaw.prod p.toMeasure) (X := fun _ c => c)
      fun _ => measurable_id

end IdealSpace

end JaxSgmc
