import Verif.Model.Alias
import Verif.Props.Keys

/-!
# Chains of the alias solvers: C75
-/

namespace JaxSgmc

variable {ι κ δ β μ A : Type} [Fintype ι]

/-- The keys drawn by a Langevin run only depend on the initial key and the number of iterations. -/
theorem langevinRun_drawn (P : Prng κ) (lay : Layout ι) (ad : Option (AdaptStrategy ι β A))
    (getData : δ → δ × β) (sg : StochGradLik ι β μ) (s : LangevinState ι κ δ μ A) (ps : List Params) :
    (langevinRun P lay ad getData sg s ps).drawn = s.drawn ++
      ((List.range ps.length).map fun i => (List.range lay.leaves).map
        (P.split (P.split ((fun k => P.split k 2 0)^[i] s.key) 2 1) lay.leaves)).flatten := by
  induction ps using List.reverseRecOn with
  | nil => simp [langevinRun]
  | append_singleton ps p ih =>
    rw [langevinRun_snoc, List.length_append, List.length_singleton, List.range_succ, List.map_append,
      List.flatten_append, ← List.append_assoc, ← ih]
    show _ ++ (randomTree P lay (P.split (langevinRun P lay ad getData sg _ ps).key 2 1)).2 = _
    rw [langevinRun_key]
    simp [randomTree]

/-- The full claim C75: chains started by one call draw their noise with different keys, if the generator
is ideal. -/
def C75Statement : Prop :=
  ∀ (n : ℕ) (P : Prng (List ℕ)) (key0 : List ℕ) (lay : Layout (Fin n)) (getData : ℕ → ℕ × ℕ)
    (sg : StochGradLik (Fin n) ℕ Unit) (chains : List ((Fin n → ℝ) × ℕ)) (ps : List Params),
    Spec.IdealSplit P →
    (aliasSgld P key0 lay (none : Option (AdaptStrategy (Fin n) ℕ Unit)) getData sg (fun _ => none) ()
      chains ps).Pairwise (fun a b => ∀ k ∈ a.drawn, k ∉ b.drawn)

/-- What the code does: all chains draw with the same keys, in every iteration. -/
theorem c75_same_partial (P : Prng κ) (key0 : κ) (lay : Layout ι) (ad : Option (AdaptStrategy ι β A))
    (getData : δ → δ × β) (sg : StochGradLik ι β μ) (adaptInit : (ι → ℝ) → Option A) (ms : μ)
    (chains : List ((ι → ℝ) × δ)) (ps : List Params) :
    ∀ a ∈ aliasSgld P key0 lay ad getData sg adaptInit ms chains ps,
      ∀ b ∈ aliasSgld P key0 lay ad getData sg adaptInit ms chains ps,
        a.drawn = b.drawn ∧ a.drawn.length = lay.leaves * ps.length := by
  intro a ha b hb
  obtain ⟨c, -, rfl⟩ := List.mem_map.mp ha
  obtain ⟨c', -, rfl⟩ := List.mem_map.mp hb
  have h1 := langevinRun_drawn P lay ad getData sg (langevinInit c.2 c.1 key0 (adaptInit c.1) ms) ps
  have h2 := langevinRun_drawn P lay ad getData sg (langevinInit c'.2 c'.1 key0 (adaptInit c'.1) ms) ps
  refine ⟨h1.trans h2.symm, ?_⟩
  have h3 : (langevinRun P lay ad getData sg (langevinInit c.2 c.1 key0 (adaptInit c.1) ms)
      ps).drawn.length = lay.leaves * ps.length := by
    rw [h1]
    simp only [langevinInit, List.nil_append]
    generalize List.length ps = m
    induction m with
    | zero => rfl
    | succ m ih =>
      rw [List.range_succ, List.map_append, List.flatten_append, List.length_append, ih, Nat.mul_succ]
      simp
  exact h3

/-- As a consequence, the chains differ only by their gradients: two chains at the same position with the
same mini-batches stay equal (plain SGLD). -/
theorem c75_noise_partial (P : Prng κ) (key0 : κ) (lay : Layout ι) (getData : δ → δ × β)
    (sg : StochGradLik ι β μ) {G : (ι → ℝ) → β → (ι → ℝ)} (hG : ∀ x b ms, (sg x b ms).2 = G x b) (ms : μ)
    (x : ι → ℝ) (d d' : δ) (ps : List Params)
    (hd : ∀ i < ps.length, Spec.nthBatch getData d i = Spec.nthBatch getData d' i) :
    (langevinRun P lay (none : Option (AdaptStrategy ι β A)) getData sg
      (langevinInit d x key0 none ms) ps).latent =
    (langevinRun P lay (none : Option (AdaptStrategy ι β A)) getData sg
      (langevinInit d' x key0 none ms) ps).latent := by
  induction ps using List.reverseRecOn with
  | nil => rfl
  | append_singleton ps p ih =>
    rw [List.length_append, List.length_singleton] at hd
    funext i
    rw [c68_sgld P lay getData sg hG, c68_sgld P lay getData sg hG, ih (fun i hi => hd i (by omega))]
    have := hd ps.length (by omega)
    show Spec.sgldStep _ _ _ _ (G _ (Spec.nthBatch getData d _) i) _ =
      Spec.sgldStep _ _ _ _ (G _ (Spec.nthBatch getData d' _) i) _
    rw [this]
    rfl

/-- With independent keys passed by the caller (e.g. obtained by `random.split`), the chains draw with
different keys. -/
theorem c75_independent_partial {P : Prng κ} (hP : Spec.IdealSplit P) (lay : Layout ι)
    (ad : Option (AdaptStrategy ι β A)) (getData : δ → δ × β) (sg : StochGradLik ι β μ) (d d' : δ)
    (x y : ι → ℝ) (key key' : κ) (a a' : Option A) (ms ms' : μ) (ps qs : List Params)
    (hk : Spec.Independent P key key') :
    ∀ k ∈ (langevinRun P lay ad getData sg (langevinInit d x key a ms) ps).drawn,
      k ∉ (langevinRun P lay ad getData sg (langevinInit d' y key' a' ms') qs).drawn := by
  intro k h1 h2
  exact hk k ⟨(c74_langevin hP lay ad getData sg d x key a ms ps).2.2 k h1,
    (c74_langevin hP lay ad getData sg d' y key' a' ms' qs).2.2 k h2⟩

/-- C75 is false: two chains, one iteration. -/
theorem c75_false : ¬ C75Statement := by
  intro h
  have h1 := h 1 (Spec.pathPrng (fun _ _ _ => 0) (fun _ => 0)) [] (Spec.vectorLayout 1)
    (Spec.batchSource fun i => i) (fun _ _ _ => ((0, ([], ())), fun _ => 0)) [(0, 0), (0, 5)] [⟨1, 1⟩]
    (Spec.pathPrng_ideal _ _)
  have h2 := (List.pairwise_cons.mp h1).1 _ (List.mem_singleton_self _) [0, 1]
    (by simp [langevinUpdate, langevinInit, randomTree, Spec.pathPrng, Spec.vectorLayout])
  exact h2 (by simp [langevinUpdate, langevinInit, randomTree, Spec.pathPrng, Spec.vectorLayout])

end JaxSgmc
