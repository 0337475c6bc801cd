import Verif.Spec.Integrator

/-!
# A generator of prescribed noise

For every sequence of noise vectors there is a pseudo random number generator which lets the integrators
draw exactly these vectors.  It is used to show that hypotheses about noises can be met and to integrate
over all noises.
-/

namespace JaxSgmc.Spec

variable {ι : Type}

/-- Keys: the main key after `i` steps, the key of the `n`-th noise vector, the key of a leaf of it. -/
inductive SKey
  | main (i : ℕ)
  | noise (n : ℕ)
  | leaf (n l : ℕ)
  deriving DecidableEq

/-- Entries of a tree are determined by leaf and position. -/
def Layout.Injective (lay : Layout ι) : Prop :=
  ∀ x y, lay.leaf x = lay.leaf y → lay.pos x = lay.pos y → x = y

open Classical in
/-- The generator which draws the noise vectors `ξ 0, ξ 1, …` and the uniform number `u`. -/
noncomputable def scripted (lay : Layout ι) (ξ : ℕ → ι → ℝ) (u : ℝ) : Prng SKey where
  split k num j := match k with
    | .main i => if j = 0 then .main (i + 1) else .noise ((num - 1) * i + (j - 1))
    | .noise n => .leaf n j
    | .leaf n l => .leaf n l
  normal k _ p := match k with
    | .leaf n l => if h : ∃ x, lay.leaf x = l ∧ lay.pos x = p then ξ n h.choose else 0
    | _ => 0
  uniform _ := u

theorem scripted_tree {lay : Layout ι} (hl : Layout.Injective lay) (ξ : ℕ → ι → ℝ) (u : ℝ) (n : ℕ) :
    (randomTree (scripted lay ξ u) lay (.noise n)).1 = ξ n := by
  funext x
  have h : ∃ y, lay.leaf y = lay.leaf x ∧ lay.pos y = lay.pos x := ⟨x, rfl, rfl⟩
  have e : h.choose = x := hl _ _ h.choose_spec.1 h.choose_spec.2
  simp only [randomTree, scripted]
  rw [dif_pos h, e]

theorem scripted_iterate {lay : Layout ι} (ξ : ℕ → ι → ℝ) (u : ℝ) (num i j : ℕ) :
    (fun k => (scripted lay ξ u).split k num 0)^[i] (.main j) = .main (j + i) := by
  induction i with
  | zero => rfl
  | succ i ih => rw [Function.iterate_succ_apply', ih]; rfl

/-- The noises of a leapfrog run with the scripted generator. -/
theorem scripted_leapNoise {lay : Layout ι} (hl : Layout.Injective lay) (ξ : ℕ → ι → ℝ) (u : ℝ) :
    leapNoise (scripted lay ξ u) lay (.main 0) = ξ := by
  funext i
  unfold leapNoise
  rw [scripted_iterate]
  have : (scripted lay ξ u).split (.main (0 + i)) 2 1 = .noise i := by
    simp [scripted]
  rw [this, scripted_tree hl]

/-- The noises of an OBABO run with the scripted generator. -/
theorem scripted_obaboNoise {lay : Layout ι} (hl : Layout.Injective lay) (ξ : ℕ → ι → ℝ) (u : ℝ) :
    obaboNoise (scripted lay ξ u) lay (.main 0) = ξ := by
  funext i
  unfold obaboNoise
  rw [scripted_iterate]
  have : (scripted lay ξ u).split (.main (0 + i / 2)) 3 (1 + i % 2) = .noise i := by
    have h : 2 * (i / 2) + i % 2 = i := Nat.div_add_mod i 2
    simp [scripted, h]
  rw [this, scripted_tree hl]

/-- A data source which delivers the batches `b 0, b 1, …`. -/
def batchSource {β : Type} (b : ℕ → β) (d : ℕ) : ℕ × β := (d + 1, b d)

theorem batchSource_nth {β : Type} (b : ℕ → β) (i : ℕ) : nthBatch (batchSource b) 0 i = b i := by
  have : ∀ i d, (fun d => (batchSource b d).1)^[i] d = d + i := by
    intro i
    induction i with
    | zero => intro d; rfl
    | succ i ih => intro d; rw [Function.iterate_succ_apply', ih]; rfl
  unfold nthBatch
  rw [this, Nat.zero_add]
  rfl

/-- A tree with a single vector leaf. -/
def vectorLayout (n : ℕ) : Layout (Fin n) := ⟨1, fun _ => 0, fun i => i, fun _ => n⟩

theorem vectorLayout_injective (n : ℕ) : Layout.Injective (vectorLayout n) :=
  fun _ _ _ h => Fin.ext h

end JaxSgmc.Spec
