import Verif.Props.Potential
import Mathlib.Algebra.Field.Rat

/-!
# Batched likelihoods and the batch size: C150
-/

namespace JaxSgmc

variable {K ρ S θ : Type} [Field K]

/-- **C150.** A batched likelihood which returns the log-likelihoods of its observations can be used with every
batch size: the stochastic potential of a batch is `-(N · mean log-likelihood + log-prior) / temperature`, and the
likelihoods of the observations are returned. -/
def C150Statement : Prop :=
  ∀ (prior : ℚ → ℚ) (f : ℚ → ℚ → ℚ) (fb : ℚ → List ℚ → List ℚ), (∀ x rows, fb x rows = rows.map (f x)) →
    ∀ (s : Strategy) (T x : ℚ) (rows : List ℚ), rows ≠ [] → ∀ info : BatchInfo,
      minibatchPotential (S := Unit) prior (.batched fb) s T x rows info none none =
        .ok ((-((info.N : ℚ) * ((rows.map (f x)).sum / (rows.length : ℚ))) - prior x) / T, rows.map (f x), none)

/-- **C150 is false**: batches of one observation always raise, with and without model state. -/
theorem c150_false_one (prior : θ → K) (f : θ → ρ → K) (fb : θ → List ρ → List K)
    (hfb : ∀ x rows, fb x rows = rows.map (f x)) (s : Strategy) (T : K) (x : θ) (r : ρ) (info : BatchInfo) :
    minibatchPotential (S := S) prior (.batched fb) s T x [r] info none none = .error .valueError := by
  simp [minibatchPotential, batchPotential, batchedLikelihood, newState, hfb]

theorem c150_false_one_stateful (prior : θ → K) (f : θ → ρ → K) (fb : Option S → θ → List ρ → List K × Option S)
    (hfb : ∀ st x rows, (fb st x rows).1 = rows.map (f x)) (s : Strategy) (T : K) (x : θ) (r : ρ) (info : BatchInfo)
    (st : Option S) :
    minibatchPotential prior (.batchedStateful fb) s T x [r] info st none = .error .valueError := by
  have h : (fb st x [r]).1 = [f x r] := by rw [hfb]; rfl
  simp [minibatchPotential, batchPotential, batchedLikelihood, newState, h]

theorem c150_false : ¬ C150Statement := by
  intro h
  have h1 := h (fun _ => 0) (fun _ r => r) (fun _ rows => rows.map fun r => r) (fun _ _ => rfl) .map 1 0 [3] (by simp)
    ⟨5, 1, [true]⟩
  rw [c150_false_one (fun _ => 0) (fun _ r => r) (fun _ rows => rows.map fun r => r) (fun _ _ => rfl)] at h1
  exact absurd h1 (by simp)

/-- What holds of C150 (1): with two or more observations the potential is as stated. -/
theorem c150_many_partial (prior : θ → K) (f : θ → ρ → K) (fb : θ → List ρ → List K)
    (hfb : ∀ x rows, fb x rows = rows.map (f x)) (s : Strategy) (T : K) (x : θ) (rows : List ρ)
    (hrows : 2 ≤ rows.length) (info : BatchInfo) :
    minibatchPotential (S := S) prior (.batched fb) s T x rows info none none =
      .ok ((-((info.N : K) * ((rows.map (f x)).sum / (rows.length : K))) - prior x) / T, rows.map (f x), none) := by
  match rows, hrows with
  | a :: b :: rs, _ =>
    simp only [minibatchPotential, batchPotential, batchedLikelihood, newState, hfb, meanOf, List.map_cons,
      List.length_cons, List.length_map, neg_mul]

/-- What holds of C150 (2): the evaluation with a mask, which `full_potential` uses, works with every batch size: it
is the scaled sum over the observations which are not masked out, whether the likelihood is batched or not. -/
theorem c150_masked_partial (prior : θ → K) (f : θ → ρ → K) (fb : θ → List ρ → List K)
    (hfb : ∀ x rows, fb x rows = rows.map (f x)) (s s' : Strategy) (T : K) (x : θ) (rows : List ρ) (info : BatchInfo)
    (mask : List Bool) :
    minibatchPotential (S := S) prior (.batched fb) s T x rows info none (some mask) =
        minibatchPotential prior (.plain f) s' T x rows info none (some mask) ∧
    minibatchPotential (S := S) prior (.batched fb) s T x rows info none (some mask) =
      .ok ((-(info.N : K) / (info.n : K) * (List.zipWith (fun r (m : Bool) => if m then f x r else 0) rows mask).sum -
        prior x) / T, rows.map (f x), none) := by
  have hd : ∀ (rows : List ρ) (mask : List Bool), dotMask (rows.map (f x)) mask =
      (List.zipWith (fun r (m : Bool) => if m then f x r else 0) rows mask).sum := by
    intro rows
    induction rows with
    | nil => intro mask; cases mask <;> rfl
    | cons r rs ih =>
      intro mask
      cases mask with
      | nil => rfl
      | cons m ms => simp [dotMask, ih]
  constructor
  · rw [c27_strategy _ (.plain f) s' .vmap]
    simp only [minibatchPotential, batchPotential, batchedLikelihood, newState, hfb, vmapRows_eq,
      List.map_map, Function.comp_def]
  · simp only [minibatchPotential, batchPotential, batchedLikelihood, newState, hfb, hd]

/-- The hypotheses can be met. -/
example : minibatchPotential (S := Unit) (fun _ => (2 : ℚ)) (.batched fun x rows => rows.map fun r => x * r) .map 2 3 [1, 5]
      ⟨10, 2, [true, true]⟩ none none = .ok (-46, [3, 15], none) ∧
    minibatchPotential (S := Unit) (fun _ => (2 : ℚ)) (.batched fun x rows => rows.map fun r => x * r) .map 2 3 [5]
      ⟨10, 1, [true]⟩ none (some [true]) = .ok (-76, [15], none) := by
  refine ⟨?_, ?_⟩
  · rw [c150_many_partial (fun _ => (2 : ℚ)) (fun x r => x * r) _ (fun _ _ => rfl) _ _ _ _ (by simp)]
    norm_num
  · rw [(c150_masked_partial (fun _ => (2 : ℚ)) (fun x r => x * r) _ (fun _ _ => rfl) .map .map 2 3 [5] _ [true]).2]
    norm_num

end JaxSgmc
