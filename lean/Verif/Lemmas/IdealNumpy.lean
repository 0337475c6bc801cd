import Verif.Spec.IdealNumpy
import Verif.Lemmas.IdealKeys

/-!
# From ideal draws of the `NumpyDataLoader` to the random numbers of a run
-/

namespace JaxSgmc

open MeasureTheory ProbabilityTheory

variable {κ σ ρ Ω : Type}

/-- Independent pieces of information remain independent if they are collected in disjoint groups. -/
theorem iIndep_group {I J : Type} {m0 : MeasurableSpace Ω} {prob : Measure Ω} [IsProbabilityMeasure prob] {m : I → MeasurableSpace Ω}
    (hle : ∀ i, m i ≤ m0) (h : iIndep m prob) (f : I → J) : iIndep (fun j => ⨆ i ∈ {i | f i = j}, m i) prob := by
  classical
  rw [iIndep_iff]
  intro S
  induction S using Finset.induction_on with
  | empty => intro A _; simp
  | insert j S hj ih =>
    intro A hA
    rw [Finset.set_biInter_insert, Finset.prod_insert hj, ← ih fun i hi => hA i (Finset.mem_insert_of_mem hi)]
    have hd : Disjoint {i | f i = j} {i | f i ∈ S} := by
      rw [Set.disjoint_left]
      intro i h1 h2
      exact hj (h1 ▸ h2)
    have hind := indep_iSup_of_disjoint hle h hd
    rw [Indep_iff] at hind
    refine hind _ _ (hA j (Finset.mem_insert_self _ _)) ?_
    refine Finset.measurableSet_biInter S fun t ht => ?_
    have hsub : (⨆ i ∈ {i | f i = t}, m i) ≤ ⨆ i ∈ {i | f i ∈ S}, m i :=
      biSup_mono fun i (hi : f i = t) => show f i ∈ S from hi ▸ ht
    exact hsub _ (hA t (Finset.mem_insert_of_mem ht))

/-- The indices drawn from the numpy generator. -/
def numpyIndices {N : ℕ} (hN : 0 < N) (mb seed : ℕ) (R : Rng σ) (k : ℕ) : Fin mb → Fin N :=
  toIndices hN mb (Spec.nthDraw (fun g => R.choiceRepl g N mb) (R.seed seed) k)

variable [MeasurableSpace Ω] {prob : Measure Ω} [IsProbabilityMeasure prob] {P : Ω → Prng κ} {R : Ω → Rng σ}
  {N mb seed : ℕ} {sp : κ → ℕ → ℕ → κ} (hK : Spec.IdealNumpy prob P R N mb seed sp)

include hK in
theorem numpyIndices_law (hN : 0 < N) (n : ℕ) (d : Fin mb → Fin N) :
    prob {ω | numpyIndices hN mb seed (R ω) n = d} = ((N : ENNReal) ^ mb)⁻¹ := by
  rw [← hK.choice_law n d]
  congr 1
  ext ω
  exact toIndices_eq_iff hN ((hK.lawful ω).replLength _ _ _ hN) (fun i hi => (hK.lawful ω).replLt _ _ _ _ hN hi) d

omit [MeasurableSpace Ω] in
theorem numpyIndices_measurable (hN : 0 < N) (n : ℕ) :
    Measurable[Spec.numpyDrawn P R N mb seed (.inr n)] fun ω => numpyIndices hN mb seed (R ω) n := by
  have h2 : Measurable[⊤] (toIndices hN mb) := measurable_from_top
  exact h2.comp (comap_measurable (m := ⊤) _)

include hK in
/-- The noise of the run and the mini-batches drawn from the numpy generator are ideal random numbers. -/
theorem numpy_ideal (hN : 0 < N) (L : ℕ) :
    Spec.IdealRandom prob P (fun ω => Spec.batchSource (numpyIndices hN mb seed (R ω))) 0 L
      (fun _ => (((N : ENNReal) ^ mb) ^ L)⁻¹) sp := by
  have hub : ∀ (ω : Ω) (n : ℕ), Spec.updateBatches (Spec.batchSource (numpyIndices hN mb seed (R ω))) 0 L n =
      fun i : Fin L => numpyIndices hN mb seed (R ω) (n * L + i) := by
    intro ω n
    funext i
    unfold Spec.updateBatches
    exact Spec.batchSource_nth _ _
  let f : κ ⊕ ℕ → κ ⊕ ℕ := fun j => match j with
    | .inl k => .inl k
    | .inr t => .inr (t / L)
  have hle : ∀ j, Spec.drawn P (fun ω => Spec.batchSource (numpyIndices hN mb seed (R ω))) 0 L j ≤
      ⨆ i ∈ {i | f i = j}, Spec.numpyDrawn P R N mb seed i := by
    rintro (k | n)
    · exact le_biSup (Spec.numpyDrawn P R N mb seed) (show (Sum.inl k : κ ⊕ ℕ) ∈ {i | f i = .inl k} from rfl)
    · refine Measurable.comap_le (m₁ := ⨆ i ∈ {i | f i = .inr n}, Spec.numpyDrawn P R N mb seed i) ?_
      simp only [hub]
      refine @measurable_pi_lambda _ _ _ (⨆ i ∈ {i | f i = .inr n}, Spec.numpyDrawn P R N mb seed i) _ _ fun i => ?_
      have hi : f (.inr (n * L + i)) = .inr n := by
        show Sum.inr ((n * L + i) / L) = Sum.inr n
        rw [Nat.mul_comm, Nat.mul_add_div i.pos, Nat.div_eq_of_lt i.2, Nat.add_zero]
      exact (numpyIndices_measurable hN (n * L + i)).mono (le_biSup (Spec.numpyDrawn P R N mb seed)
        (show (Sum.inr (n * L + i) : κ ⊕ ℕ) ∈ {i | f i = .inr n} from hi)) le_rfl
  have hsup : ∀ j, (⨆ i ∈ {i | f i = j}, Spec.numpyDrawn P R N mb seed i) ≤ (inferInstance : MeasurableSpace Ω) :=
    fun j => iSup₂_le fun i _ => hK.measurable i
  refine ⟨hK.split_eq, hK.ideal, fun j => (hle j).trans (hsup j), hK.normal_law, hK.uniform_law, fun n b => ?_,
    iIndep_of_iIndep_of_le (iIndep_group hK.measurable hK.independent f) hle⟩
  have hset : {ω | Spec.updateBatches (Spec.batchSource (numpyIndices hN mb seed (R ω))) 0 L n = b} =
      ⋂ i ∈ (Finset.univ : Finset (Fin L)), {ω | numpyIndices hN mb seed (R ω) (n * L + i) = b i} := by
    ext ω
    simp only [Set.mem_setOf_eq, hub, Finset.mem_univ, Set.iInter_true, Set.mem_iInter]
    exact ⟨fun h i => congrFun h i, fun h => funext h⟩
  have hinj : Function.Injective fun i : Fin L => (Sum.inr (n * L + i) : κ ⊕ ℕ) := by
    intro i j h
    have := Sum.inr.inj h
    exact Fin.ext (by omega)
  have hind := (iIndep_iff _ _).1 (hK.independent.precomp hinj) Finset.univ (f := fun i : Fin L =>
    {ω | numpyIndices hN mb seed (R ω) (n * L + i) = b i}) (fun i _ => by
      exact (numpyIndices_measurable (P := P) (R := R) (seed := seed) hN (n * L + i)) (measurableSet_singleton (b i)))
  rw [hset, hind, Finset.prod_congr rfl fun (i : Fin L) _ => numpyIndices_law hK hN (n * L + i) (b i), Finset.prod_const, Finset.card_univ,
    Fintype.card_fin]
  exact ENNReal.inv_pow.symm

end JaxSgmc
