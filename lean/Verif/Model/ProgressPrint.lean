import Verif.Model.Scheduler
import Mathlib.Algebra.Order.Floor.Ring
import Mathlib.Algebra.Group.Int.Even

/-!
# The lines printed by the progress bar

`_print_fn` (`jax_sgmc/scheduler.py:310-321`).  The rounding of double precision operations is a parameter `fl`.
-/

namespace JaxSgmc

/-- Python's `round` of a float to an integer (used in scheduler.py:311): the nearest integer, ties to the even one. -/
noncomputable def pyRound (x : ℝ) : ℤ :=
  if x - ⌊x⌋ < 1 / 2 then ⌊x⌋
  else if 1 / 2 < x - ⌊x⌋ then ⌊x⌋ + 1
  else if Even ⌊x⌋ then ⌊x⌋ else ⌊x⌋ + 1

/-- `percentage = round(int(current) / int(total) * 100)` (scheduler.py:311-312): a quotient and a product of doubles. -/
noncomputable def percentage (fl : ℝ → ℝ) (r : Report) : ℤ :=
  pyRound (fl (fl ((r.currentIteration : ℝ) / r.totalIterations) * 100))

/-- The decimal representation of an integer in an f-string (scheduler.py:318-320). -/
def decimal (x : ℤ) : List Char := if x < 0 then '-' :: Nat.toDigits 10 x.natAbs else Nat.toDigits 10 x.natAbs

/-- The printed line (scheduler.py:318-320). -/
noncomputable def printLine (fl : ℝ → ℝ) (r : Report) : List Char :=
  "[Step ".toList ++ (Nat.toDigits 10 r.currentIteration ++ '/' :: (Nat.toDigits 10 r.totalIterations ++ ']' :: '(' ::
    (decimal (percentage fl r) ++ ("%) Collected ".toList ++ (Nat.toDigits 10 r.collectedSamples ++ ' ' :: ("of ".toList ++
      (decimal r.totalSamples ++ " samples...".toList)))))))

end JaxSgmc
