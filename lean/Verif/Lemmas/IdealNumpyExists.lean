import Verif.Spec.IdealNumpy
import Verif.Lemmas.OracleExists
import Verif.Lemmas.NumpyDraws
import Verif.Lemmas.FullData
import Mathlib.Probability.Distributions.Uniform

/-!
# Ideal draws of the `NumpyDataLoader` exist, and chains which use them
-/

namespace JaxSgmc

open MeasureTheory ProbabilityTheory

namespace IdealNumpySpace

variable {N mb : ℕ}

/-- A point of the space: numbers for every key of JAX and the draws of numpy. -/
abbrev Space (N mb : ℕ) := IdealSpace.Space 1 (Fin mb → Fin N)

/-- The numpy generator: its state is the number of draws. -/
def rng (ω : Space N mb) : Rng ℕ where
  seed _ := 0
  choiceRepl g n m := (if n = N ∧ m = mb then List.ofFn fun i => (((ω (.inr g)).2 0 i : Fin N) : ℕ) else List.replicate m 0, g + 1)
  choicePerm g n := (List.range n, g)

theorem rng_lawful (ω : Space N mb) : (rng ω).Lawful where
  replLength g n m hn := by
    show (if n = N ∧ m = mb then _ else _ : List ℕ).length = m
    split
    · rename_i h
      rw [List.length_ofFn, h.2]
    · rw [List.length_replicate]
  replLt g n m i hn hi := by
    change i ∈ (if n = N ∧ m = mb then _ else _ : List ℕ) at hi
    split at hi
    · rename_i h
      obtain ⟨k, rfl⟩ := (List.mem_ofFn' _ _).1 hi
      rw [h.1]
      exact (((ω (.inr g)).2 0 k : Fin N)).2
    · rw [(List.mem_replicate.1 hi).2]
      exact hn
  perm g n := List.Perm.refl _

theorem rng_draws (ω : Space N mb) (seed n : ℕ) : Spec.nthDraw (fun g => (rng ω).choiceRepl g N mb) ((rng ω).seed seed) n =
    List.ofFn fun i => (((ω (.inr n)).2 0 i : Fin N) : ℕ) := by
  have h : ∀ m g : ℕ, (fun x => ((rng ω).choiceRepl x N mb).2)^[m] g = g + m := by
    intro m
    induction m with
    | zero => intro g; rfl
    | succ m ih =>
      intro g
      rw [Function.iterate_succ_apply, ih]
      show g + 1 + m = g + (m + 1)
      omega
  unfold Spec.nthDraw
  rw [h]
  show (if N = N ∧ mb = mb then _ else _ : List ℕ) = _
  rw [if_pos ⟨rfl, rfl⟩, show (rng ω).seed seed = 0 from rfl, Nat.zero_add]

/-- All numbers are ideal. -/
noncomputable def law (N mb : ℕ) [NeZero N] : Measure (Space N mb) :=
  IdealSpace.law (PMF.uniformOfFintype (Fin 1 → Fin mb → Fin N))

theorem ideal [NeZero N] (seed : ℕ) :
    Spec.IdealNumpy (law N mb) IdealSpace.gen rng N mb seed (fun k _ i => i :: k) := by
  have hle : ∀ j, Spec.numpyDrawn (IdealSpace.gen (L := 1) (β := Fin mb → Fin N)) rng N mb seed j ≤
      MeasurableSpace.comap (fun ω : Space N mb => ω j) inferInstance := by
    intro j
    cases j with
    | inl k =>
      refine Measurable.comap_le (m₁ := MeasurableSpace.comap (fun ω : Space N mb => ω (.inl k)) inferInstance) ?_
      have h1 : Measurable fun c : IdealSpace.Cell 1 (Fin mb → Fin N) =>
          ((fun n i => c.1 (some (n, i)), c.1 none) : (ℕ → ℕ → ℝ) × ℝ) := by
        refine Measurable.prodMk ?_ ((measurable_pi_apply none).comp measurable_fst)
        exact measurable_pi_lambda _ fun n => measurable_pi_lambda _ fun i =>
          (measurable_pi_apply (some (n, i))).comp measurable_fst
      exact h1.comp (comap_measurable _)
    | inr n =>
      have e : (fun ω : Space N mb => Spec.nthDraw (fun g => (rng ω).choiceRepl g N mb) ((rng ω).seed seed) n) =
          fun ω => List.ofFn fun i => (((ω (.inr n)).2 0 i : Fin N) : ℕ) := funext fun ω => rng_draws ω seed n
      have h2 : Measurable[_, ⊤] fun c : IdealSpace.Cell 1 (Fin mb → Fin N) => List.ofFn fun i => ((c.2 0 i : Fin N) : ℕ) := by
        have h3 : Measurable[_, ⊤] fun d : Fin 1 → Fin mb → Fin N => List.ofFn fun i => ((d 0 i : Fin N) : ℕ) :=
          @measurable_of_countable _ _ _ ⊤ _ _ _
        exact h3.comp measurable_snd
      show MeasurableSpace.comap (fun ω : Space N mb => Spec.nthDraw (fun g => (rng ω).choiceRepl g N mb) ((rng ω).seed seed) n) ⊤ ≤ _
      rw [e]
      refine Measurable.comap_le (m₁ := MeasurableSpace.comap (fun ω : Space N mb => ω (.inr n)) inferInstance) ?_
      exact h2.comp (comap_measurable _)
  have hm : ∀ j, MeasurableSpace.comap (fun ω : Space N mb => ω j) inferInstance ≤
      (inferInstance : MeasurableSpace (Space N mb)) := fun j => (measurable_pi_apply j).comap_le
  have hI := IdealSpace.ideal (L := 1) (β := Fin mb → Fin N) (p := PMF.uniformOfFintype (Fin 1 → Fin mb → Fin N))
  refine ⟨hI.split_eq, hI.ideal, rng_lawful, fun j => (hle j).trans (hm j), hI.normal_law, hI.uniform_law, ?_, ?_⟩
  · intro n d
    have h := hI.batch_law n fun _ => d
    have e : {ω | Spec.nthDraw (fun g => (rng ω).choiceRepl g N mb) ((rng ω).seed seed) n = List.ofFn fun i => (d i : ℕ)} =
        {ω : Space N mb | Spec.updateBatches (IdealSpace.batches ω) 0 1 n = fun _ => d} := by
      ext ω
      show _ = _ ↔ _ = _
      rw [rng_draws, IdealSpace.updateBatches_eq]
      constructor
      · intro h
        funext i
        rw [Subsingleton.elim i 0]
        funext k
        exact Fin.ext (congrFun (List.ofFn_injective h) k)
      · intro h
        rw [h]
    rw [e]
    refine h.trans ?_
    simp
  · refine iIndep_of_iIndep_of_le (m₂ := fun j => MeasurableSpace.comap (fun ω : Space N mb => ω j) inferInstance) ?_ hle
    exact iIndepFun_infinitePi (P := fun _ : List ℕ ⊕ ℕ => IdealSpace.keyLaw.prod
      (PMF.uniformOfFintype (Fin 1 → Fin mb → Fin N)).toMeasure) (X := fun _ c => c) fun _ => measurable_id

end IdealNumpySpace

section
variable {σ ρ : Type} (R : Rng σ) (devices : ℕ) (objs : ℕ → Loader σ ρ) (loader cc mb : ℕ) (given : Option ℕ) (kw : NumpyKw)

/-- The program state after `random_reference_data` or `full_reference_data` has been called once. -/
def afterSetup : PSys (Loader σ ρ) (List (String × List ρ) × List Bool) :=
  (pstep (numpyHost R) devices (pinit objs) (.setup loader cc mb true)).1

/-- A chain initialised next. -/
def firstChain : HostData (Loader σ ρ) NumpyKw (List (String × List ρ) × List Bool) :=
  ⟨(pstep (numpyHost R) devices (afterSetup R devices objs loader cc mb) (.init 0 kw 0)).1, 0, fun _ => [], 0⟩

theorem afterSetup_eq (h1 : 0 < cc) (h2 : 0 < mb) (h3 : mb ≤ (objs loader).obsCount) : afterSetup R devices objs loader cc mb =
    { host := { objs := objs, loaders := upd (fun _ => none) 0 (some loader), requests := fun _ _ => none,
                cached := fun _ => none, next := 1, fetches := [] }
      cfgs := upd (fun _ => none) 0 (some ⟨loader, cc, mb, true⟩)
      vars := fun _ => none } := by
  have e1 : ¬ (((numpyHost (ρ := ρ) R).obsCount (objs loader) : ℤ) < (mb : ℤ)) := by
    show ¬ (((objs loader).obsCount : ℤ) < (mb : ℤ))
    omega
  have e2 : ¬ ((cc : ℤ) ≤ 0 ∨ (mb : ℤ) ≤ 0) := by omega
  unfold afterSetup pinit
  simp only [pstep, setupFn, if_neg e1, if_neg e2, Int.toNat_natCast]

theorem afterSetup_reachable : Spec.PReachable (numpyHost R) devices objs (afterSetup R devices objs loader cc mb) :=
  ⟨[.setup loader cc mb true], rfl⟩

variable {R devices objs loader cc mb given}

/-- A chain which draws with replacement can be initialised. -/
theorem firstChain_random (hR : R.Lawful) (hobj : ∃ data, mkLoader data = .ok (objs loader)) (h1 : 0 < cc) (h2 : 0 < mb)
    (h3 : mb ≤ (objs loader).obsCount) : Spec.RandomStreamOf R devices objs loader mb (given.getD 0)
      (firstChain R devices objs loader cc mb (.random false false given)) := by
  obtain ⟨data, hd⟩ := hobj
  obtain ⟨d1, d2, d3, -⟩ := mkLoader_spec data _ hd
  have hreg : (numpyHost R).register (objs loader) cc mb (.random false false given) =
      .ok ((objs loader).chains.length, { objs loader with chains := (objs loader).chains ++
        [.random (newRandom R (objs loader).obsCount (objs loader).chains.length cc mb false false given)] }) := by
    have e1 : ¬ (objs loader).obsCount < mb := by omega
    have e2 : mb ≠ 0 := by omega
    simp [numpyHost, registerRandom, newRandom, e1, e2]
  obtain ⟨b, hb, -⟩ := random_answers R hR (objs loader) _ (d1 ▸ d2) cc mb h1 given _ hreg 0 0 h1
  have hs := afterSetup_eq R devices objs loader cc mb h1 h2 h3
  refine ⟨afterSetup R devices objs loader cc mb, 0, ⟨loader, cc, mb, true⟩, given, afterSetup_reachable .., ?_, rfl, rfl, ?_, ?_, rfl, rfl,
    fun n op hop => by simp [firstChain] at hop⟩
  · rw [hs]
    rfl
  · rw [hs]
    show _ = given.getD (objs loader).chains.length
    rw [d3]
    rfl
  · show (initFn _ _ 0 _ 0).2 = _
    rw [hs]
    have hg : ((numpyHost R).getBatches { objs loader with chains := (objs loader).chains ++
        [.random (newRandom R (objs loader).obsCount (objs loader).chains.length cc mb false false given)] }
        (objs loader).chains.length).1 = .ok b.lines := by
      show (match getBatches R _ _ with | (.ok b, L') => (.ok b.lines, L') | (.error e, L') => (.error e, L') :
        Except PyErr _ × Loader σ ρ).1 = _
      have hb' : (getBatches R { objs loader with chains := (objs loader).chains ++
        [.random (newRandom R (objs loader).obsCount (objs loader).chains.length cc mb false false given)] }
        (objs loader).chains.length).1 = .ok b := hb
      split <;> simp_all
    unfold initFn
    simp only [upd, if_true, hreg, hg]

/-- A chain of the full data map can be initialised. -/
theorem firstChain_ordered (hobj : ∃ data, mkLoader data = .ok (objs loader)) (h1 : 0 < cc) (h2 : 0 < mb)
    (h3 : mb ≤ (objs loader).obsCount) : Spec.FullStreamOf R devices objs loader mb
      (firstChain R devices objs loader cc mb .ordered) := by
  obtain ⟨data, hd⟩ := hobj
  obtain ⟨d1, d2, -, -⟩ := mkLoader_spec data _ hd
  have hreg : (numpyHost R).register (objs loader) cc mb .ordered =
      .ok ((objs loader).chains.length, { objs loader with chains := (objs loader).chains ++ [.ordered ⟨0, mb, cc⟩] }) := if_pos h3
  have hg := ordered_answers R (objs loader) _ (d1 ▸ d2) cc mb h1 h2 _ hreg 0
  have hs := afterSetup_eq R devices objs loader cc mb h1 h2 h3
  refine ⟨afterSetup R devices objs loader cc mb, 0, ⟨loader, cc, mb, true⟩, afterSetup_reachable .., ?_, rfl, rfl, ?_, rfl, rfl,
    fun n op hop => by simp [firstChain] at hop⟩
  · rw [hs]
    rfl
  · show (initFn _ _ 0 _ 0).2 = _
    rw [hs]
    unfold Spec.nthAnswer Spec.nthLoader at hg
    unfold initFn
    simp only [upd, if_true, hreg, hg]

end

end JaxSgmc
