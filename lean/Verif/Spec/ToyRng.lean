import Verif.Model.NumpyLoader
import Mathlib.Data.List.Rotate

/-! A concrete generator satisfying the assumed laws (used to show that hypotheses can be met). -/

namespace JaxSgmc.Spec

open JaxSgmc

/-- "Permutations" are rotations, drawn numbers are constant. -/
def toyRng : Rng Nat where
  seed s := s
  choiceRepl g n m := (List.replicate m (g % n), g + 1)
  choicePerm g n := ((List.range n).rotate g, g + 1)

theorem toyRng_lawful : toyRng.Lawful where
  replLength g n m _ := by simp [toyRng]
  replLt g n m i h hi := by
    simp only [toyRng, List.mem_replicate] at hi
    rw [hi.2]; exact Nat.mod_lt _ h
  perm g n := List.rotate_perm _ _

/-- A small dataset with two arrays. -/
def toyData : List (String × List Nat) := [("x", [10, 11, 12, 13, 14]), ("y", [20, 21, 22, 23, 24])]

/-- A loader for it. -/
def toySys : LSys Nat Nat :=
  { loader := { data := toyData, obsCount := 5, chains := [] }, ckpts := fun _ => none }

end JaxSgmc.Spec
