import Verif.Model.Integrator
import Mathlib.Logic.Relation

/-!
# Specification: keys of the pseudo random number generator

Two keys are independent if no key can be derived from both by splitting.  The generator is assumed to be
ideal: different keys returned by one call of `random.split` are independent.  (For the finite set of
64 bit keys this cannot hold for arbitrarily long chains of splits; it is the idealisation under which the
keys of a program are distinct unless the program re-uses a key.)
-/

namespace JaxSgmc.Spec

variable {κ : Type}

/-- `b` is derived from `a` by splitting. -/
def Derived (P : Prng κ) : κ → κ → Prop :=
  Relation.ReflTransGen fun a b => ∃ n i, i < n ∧ b = P.split a n i

/-- No key is derived from both keys. -/
def Independent (P : Prng κ) (a b : κ) : Prop := ∀ x, ¬ (Derived P a x ∧ Derived P b x)

/-- The keys returned by one call of `random.split` are independent. -/
def IdealSplit (P : Prng κ) : Prop :=
  ∀ k n i j, i < n → j < n → i ≠ j → Independent P (P.split k n i) (P.split k n j)

/-- The generator whose keys are the sequences of splits by which they have been derived. -/
def pathPrng (normal : List ℕ → ℕ → ℕ → ℝ) (uniform : List ℕ → ℝ) : Prng (List ℕ) where
  split k _ i := i :: k
  normal := normal
  uniform := uniform

theorem pathPrng_derived {normal : List ℕ → ℕ → ℕ → ℝ} {uniform : List ℕ → ℝ} {a b : List ℕ}
    (h : Derived (pathPrng normal uniform) a b) : a <:+ b := by
  induction h with
  | refl => exact List.suffix_refl _
  | tail _ h2 ih =>
    obtain ⟨n, i, -, rfl⟩ := h2
    exact ih.trans (List.suffix_cons _ _)

/-- There is an ideal generator, with arbitrary random numbers. -/
theorem pathPrng_ideal (normal : List ℕ → ℕ → ℕ → ℝ) (uniform : List ℕ → ℝ) :
    IdealSplit (pathPrng normal uniform) := by
  intro k n i j _ _ hij x ⟨h1, h2⟩
  have s1 : (i :: k) <:+ x := pathPrng_derived h1
  have s2 : (j :: k) <:+ x := pathPrng_derived h2
  have h3 : (i :: k) = (j :: k) := by
    have l1 : (i :: k).length = (j :: k).length := rfl
    have := List.suffix_of_suffix_length_le s1 s2 l1.le
    exact this.eq_of_length l1
  exact hij (List.cons.inj h3).1

end JaxSgmc.Spec
