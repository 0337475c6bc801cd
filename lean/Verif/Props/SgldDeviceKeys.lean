import Verif.Model.DeviceRun
import Verif.Spec.Sgld
import Verif.Lemmas.Oracle
import Verif.Props.DeviceLoader
import Mathlib.Data.List.Induction

/-!
# C138: the keys of the mini-batches and of the noise
-/

namespace JaxSgmc

variable {ι κ ρ μ δ β : Type} [Fintype ι]

theorem sgldState_keys (P : Prng κ) (lay : Layout ι) (data : δ → δ × β) (d₀ : δ) (sg : StochGradLik ι β μ) (ms : μ) (x₀ : ι → ℝ)
    (key : κ) (prms : List Params) :
    (Spec.sgldState P lay data d₀ sg ms x₀ key prms).key = (fun k => P.split k 2 0)^[prms.length] key ∧
    (Spec.sgldState P lay data d₀ sg ms x₀ key prms).drawn = (List.range prms.length).flatMap fun t =>
      (List.range lay.leaves).map (P.split (P.split ((fun k => P.split k 2 0)^[t] key) 2 1) lay.leaves) := by
  induction prms using List.reverseRecOn with
  | nil => exact ⟨rfl, rfl⟩
  | append_singleton prms p ih =>
    have es : Spec.sgldState P lay data d₀ sg ms x₀ key (prms ++ [p]) =
        langevinUpdate P lay none data sg (Spec.sgldState P lay data d₀ sg ms x₀ key prms) p := by
      simp only [Spec.sgldState, List.foldl_append, List.foldl_cons, List.foldl_nil]
    rw [es]
    generalize Spec.sgldState P lay data d₀ sg ms x₀ key prms = t at ih
    constructor
    · show P.split t.key 2 0 = _
      rw [ih.1, List.length_append, List.length_singleton, Function.iterate_succ_apply']
    · show t.drawn ++ (List.range lay.leaves).map (P.split (P.split t.key 2 1) lay.leaves) = _
      rw [ih.1, ih.2, List.length_append, List.length_singleton, List.range_succ, List.flatMap_append, List.flatMap_singleton]

/-- **C138** (full statement) In a run of SGLD with a `DeviceNumpyDataLoader` and the default keys (`PRNGKey(0)` for the chain and
for its random data, as in `alias.sgld`), the mini-batches and the noise are drawn with independent keys. -/
def C138Statement : Prop :=
  ∀ (κ ρ μ : Type) (n : ℕ) (P : Prng κ) (I : Randint κ) (key0 : κ) (data : List (String × List ρ)) (N mb : ℕ) (lay : Layout (Fin n))
    (sg : StochGradLik (Fin n) (List (List (String × ρ)) × BatchInfo) μ) (ms : μ) (x₀ : Fin n → ℝ) (prms : List Params),
    Spec.IdealSplit P → I.Lawful →
    ∀ r ∈ deviceChain P I key0 data N mb prms.length none,
    ∀ b ∈ (Spec.sgldState P lay (deviceGetData P I data N mb) (deviceRandomInit key0 none) sg ms x₀ key0 prms).drawn,
      Spec.Independent P r.1 b

/-- **C138** is false, in every run: the keys of the noise of every update are obtained by splitting the very key with which the
mini-batch of this update is drawn. -/
theorem c138_false_shared (P : Prng κ) (I : Randint κ) (key0 : κ) (data : List (String × List ρ)) (N mb : ℕ) (lay : Layout ι)
    (sg : StochGradLik ι (List (List (String × ρ)) × BatchInfo) μ) (ms : μ) (x₀ : ι → ℝ) (prms : List Params) :
    (Spec.sgldState P lay (deviceGetData P I data N mb) (deviceRandomInit key0 none) sg ms x₀ key0 prms).drawn =
      (deviceChain P I key0 data N mb prms.length none).flatMap fun r => (List.range lay.leaves).map (P.split r.1 lay.leaves) := by
  rw [(sgldState_keys P lay _ _ sg ms x₀ key0 prms).2]
  have h := deviceDraws_keys P I data N mb prms.length key0
  have e : (deviceChain P I key0 data N mb prms.length none).flatMap (fun r => (List.range lay.leaves).map (P.split r.1 lay.leaves)) =
      ((deviceDraws P I data N mb prms.length key0).map Prod.fst).flatMap fun k => (List.range lay.leaves).map (P.split k lay.leaves) := by
    rw [List.flatMap_map]
    rfl
  rw [e, h, List.flatMap_map]

theorem c138_false : ¬ C138Statement := by
  intro h
  have h1 := h (List ℕ) ℕ Unit 1 (Spec.pathPrng (fun _ _ _ => 0) (fun _ => 0)) Spec.toyRandint [] Spec.toyData 5 2
    ⟨1, fun _ => 0, fun _ => 1, fun _ => 0⟩ (fun _ _ _ => ((0, ([], ())), 0)) () 0 [⟨1, 1⟩] (Spec.pathPrng_ideal _ _)
    Spec.toyRandint_lawful
  have h2 := h1 (deviceRandomGet (Spec.pathPrng (fun _ _ _ => 0) (fun _ => 0)) Spec.toyRandint Spec.toyData 5 2 []).2
    List.mem_cons_self [0, 1] (by
      rw [c138_false_shared]
      simp [deviceChain, deviceDraws, deviceRandomGet, deviceRandomInit, Spec.pathPrng])
  exact h2 [0, 1] ⟨.tail .refl ⟨1, 0, by norm_num, rfl⟩, .refl⟩

/-- **C138** (partial) If the random data is initialised with a key (`batch_kwargs={"key": dk}`) which is independent of the key
of the chain, the mini-batches and the noise are drawn with independent keys.  Missing: the default keys. -/
theorem c138_partial (P : Prng κ) (I : Randint κ) (key0 : κ) {key dk : κ} (hind : Spec.Independent P dk key)
    (data : List (String × List ρ)) (N mb : ℕ) (lay : Layout ι) (sg : StochGradLik ι (List (List (String × ρ)) × BatchInfo) μ) (ms : μ)
    (x₀ : ι → ℝ) (prms : List Params) :
    ∀ r ∈ deviceChain P I key0 data N mb prms.length (some dk),
    ∀ b ∈ (Spec.sgldState P lay (deviceGetData P I data N mb) (deviceRandomInit key0 (some dk)) sg ms x₀ key prms).drawn,
      Spec.Independent P r.1 b := by
  intro r hr b hb x ⟨h1, h2⟩
  refine hind x ⟨?_, ?_⟩
  · have h3 : r.1 ∈ (deviceDraws P I data N mb prms.length dk).map Prod.fst := List.mem_map_of_mem hr
    rw [deviceDraws_keys] at h3
    obtain ⟨i, -, hi⟩ := List.mem_map.1 h3
    rw [← hi] at h1
    exact (derived_draw P dk i).trans h1
  · rw [(sgldState_keys P lay _ _ sg ms x₀ key prms).2] at hb
    obtain ⟨t, -, ht⟩ := List.mem_flatMap.1 hb
    obtain ⟨l, hl, rfl⟩ := List.mem_map.1 ht
    exact ((derived_draw P key t).tail ⟨_, _, List.mem_range.1 hl, rfl⟩).trans h2

/-- Independent keys exist: two keys split from one key. -/
example : Spec.Independent (Spec.pathPrng (fun _ _ _ => 0) (fun _ => 0)) [0] [1] :=
  Spec.pathPrng_ideal (fun _ _ _ => 0) (fun _ => 0) [] 2 0 1 (by norm_num) (by norm_num) (by norm_num)

end JaxSgmc
