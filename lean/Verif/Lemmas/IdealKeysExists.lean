import Verif.Spec.IdealKeys
import Verif.Lemmas.OracleExists
import Mathlib.Probability.Distributions.Uniform

/-!
# An ideal generator exists
-/

namespace JaxSgmc

open MeasureTheory ProbabilityTheory

namespace IdealGenerator

/-- The integers belonging to one key: one array for every length and bound. -/
abbrev Ints := (p : ℕ × ℕ) → Fin p.1 → Fin (p.2 + 1)

/-- A point of the space: numbers for every key. -/
abbrev Space := List ℕ → (Option (ℕ × ℕ) → ℝ) × Ints

/-- The generator. -/
def gen (ω : Space) : Prng (List ℕ) :=
  Spec.pathPrng (fun k n i => (ω k).1 (some (n, i))) (fun k => (ω k).1 none)

/-- The integers drawn. -/
def ints (c : Ints) (n : ℕ) : ℕ → List ℕ
  | 0 => []
  | N + 1 => List.ofFn fun i => (c (n, N) i : ℕ)

/-- `random.randint`. -/
def randints (ω : Space) : Randint (List ℕ) := ⟨fun k n N => ints (ω k).2 n N⟩

/-- The distribution of the integers. -/
noncomputable def intLaw : Measure Ints :=
  Measure.infinitePi fun p : ℕ × ℕ => (PMF.uniformOfFintype (Fin p.1 → Fin (p.2 + 1))).toMeasure

instance intLaw_prob : IsProbabilityMeasure intLaw := by unfold intLaw; infer_instance

/-- The distribution of all numbers. -/
noncomputable def law : Measure Space := Measure.infinitePi fun _ => IdealSpace.keyLaw.prod intLaw

instance law_prob : IsProbabilityMeasure law := by unfold law; infer_instance

theorem cell_law (k : List ℕ) : law.map (fun ω => ω k) = IdealSpace.keyLaw.prod intLaw :=
  Measure.infinitePi_map_eval (fun _ : List ℕ => IdealSpace.keyLaw.prod intLaw) k

theorem key_law (k : List ℕ) : law.map (fun ω => (ω k).1) = IdealSpace.keyLaw := by
  have h := congrArg (fun m => Measure.map Prod.fst m) (cell_law k)
  rw [Measure.map_map measurable_fst (measurable_pi_apply k)] at h
  rw [Measure.map_fst_prod, measure_univ, one_smul] at h
  exact h

theorem int_law (k : List ℕ) : law.map (fun ω => (ω k).2) = intLaw := by
  have h := congrArg (fun m => Measure.map Prod.snd m) (cell_law k)
  rw [Measure.map_map measurable_snd (measurable_pi_apply k)] at h
  rw [Measure.map_snd_prod, measure_univ, one_smul] at h
  exact h

theorem ints_measurable (n N : ℕ) : Measurable[inferInstance, ⊤] fun c : Ints => ints c n N := by
  cases N with
  | zero => exact measurable_const
  | succ N =>
    have h1 : Measurable[inferInstance, ⊤] fun d : Fin n → Fin (N + 1) => List.ofFn fun i => (d i : ℕ) :=
      fun _ _ => (Set.toFinite _).measurableSet
    exact h1.comp (measurable_pi_apply (n, N))

/-- An ideal generator exists. -/
theorem ideal : Spec.IdealKeys law gen randints (fun k _ i => i :: k) := by
  have hle : ∀ k, Spec.keyDrawn gen randints k ≤ MeasurableSpace.comap (fun ω : Space => ω k) inferInstance := by
    intro k
    refine sup_le ?_ (iSup₂_le fun n N => ?_)
    · refine Measurable.comap_le (m₁ := MeasurableSpace.comap (fun ω : Space => ω k) inferInstance) ?_
      have h1 : Measurable fun c : (Option (ℕ × ℕ) → ℝ) × Ints =>
          ((fun n i => c.1 (some (n, i)), c.1 none) : (ℕ → ℕ → ℝ) × ℝ) := by
        refine Measurable.prodMk ?_ ((measurable_pi_apply none).comp measurable_fst)
        exact measurable_pi_lambda _ fun n => measurable_pi_lambda _ fun i =>
          (measurable_pi_apply (some (n, i))).comp measurable_fst
      exact h1.comp (comap_measurable _)
    · refine Measurable.comap_le (m₁ := MeasurableSpace.comap (fun ω : Space => ω k) inferInstance) (m₂ := ⊤) ?_
      have h1 : Measurable[inferInstance, ⊤] fun c : (Option (ℕ × ℕ) → ℝ) × Ints => ints c.2 n N :=
        (ints_measurable n N).comp measurable_snd
      exact h1.comp (comap_measurable _)
  have hm : ∀ k, MeasurableSpace.comap (fun ω : Space => ω k) inferInstance ≤
      (inferInstance : MeasurableSpace Space) := fun k => (measurable_pi_apply k).comap_le
  refine ⟨fun ω => rfl, fun ω => Spec.pathPrng_ideal _ _, fun ω => ⟨?_, ?_⟩, fun j => (hle j).trans (hm j), ?_, ?_, ?_, ?_⟩
  · intro k n N hN
    obtain ⟨M, rfl⟩ : ∃ M, N = M + 1 := ⟨N - 1, by omega⟩
    exact List.length_ofFn
  · intro k n N i hN hi
    obtain ⟨M, rfl⟩ : ∃ M, N = M + 1 := ⟨N - 1, by omega⟩
    obtain ⟨j, rfl⟩ := (List.mem_ofFn' _ _).1 hi
    exact ((ω k).2 (n, M) j).2
  · intro k n
    have h3 : Measurable fun (c : Option (ℕ × ℕ) → ℝ) (i : Fin n) => c (some (n, (i : ℕ))) :=
      measurable_pi_lambda _ fun i => measurable_pi_apply _
    have h4 : Measurable fun ω : Space => (ω k).1 := measurable_fst.comp (measurable_pi_apply _)
    have h5 := Measure.map_map (μ := law) h3 h4
    rw [key_law] at h5
    exact h5.symm.trans (IdealSpace.keyLaw_normals n)
  · intro k
    have h3 : Measurable fun c : Option (ℕ × ℕ) → ℝ => c none := measurable_pi_apply _
    have h4 : Measurable fun ω : Space => (ω k).1 := measurable_fst.comp (measurable_pi_apply _)
    have h5 := Measure.map_map (μ := law) h3 h4
    rw [key_law] at h5
    exact h5.symm.trans IdealSpace.keyLaw_uniform
  · intro k n N d
    cases N with
    | zero =>
      cases n with
      | zero =>
        have e : {ω : Space | (randints ω).randint k 0 0 = List.ofFn fun i => (d i : ℕ)} = Set.univ := by
          ext ω
          simp [randints, ints]
        rw [e, measure_univ]
        simp
      | succ n => exact (d 0).elim0
    | succ N =>
      have h3 : Measurable fun c : Ints => c (n, N) := measurable_pi_apply _
      have h4 : Measurable fun ω : Space => (ω k).2 := measurable_snd.comp (measurable_pi_apply _)
      have h5 := Measure.map_map (μ := law) h3 h4
      rw [int_law] at h5
      have h6 := h5.symm.trans (Measure.infinitePi_map_eval _ (n, N))
      have h7 := congrArg (fun ν => ν {d}) h6
      simp only at h7
      rw [Measure.map_apply (h3.comp h4) (MeasurableSet.singleton d), PMF.toMeasure_apply_singleton _ d
        (MeasurableSet.singleton d), PMF.uniformOfFintype_apply, Fintype.card_fun, Fintype.card_fin, Fintype.card_fin, Nat.cast_pow] at h7
      rw [← h7]
      congr 1
      ext ω
      show (List.ofFn fun i => ((ω k).2 (n, N) i : ℕ)) = (List.ofFn fun i => (d i : ℕ)) ↔ (ω k).2 (n, N) = d
      rw [List.ofFn_inj]
      constructor
      · intro h
        funext i
        exact Fin.ext (congrFun h i)
      · intro h
        rw [h]
  · refine iIndep_of_iIndep_of_le (m₂ := fun k => MeasurableSpace.comap (fun ω : Space => ω k) inferInstance) ?_ hle
    exact iIndepFun_infinitePi (P := fun _ : List ℕ => IdealSpace.keyLaw.prod intLaw) (X := fun _ c => c)
      fun _ => measurable_id

end IdealGenerator

end JaxSgmc
