import Mathlib.Data.Real.Basic
import Mathlib.Algebra.Order.Floor.Ring
import Mathlib.Data.Real.Archimedean

/-!
# Integers computed with floating point division

Some integers of the program are computed by rounding a quotient of floating point numbers up or down.  The rounding of
floating point operations is a parameter `fl`.
-/

namespace JaxSgmc

/-- `math.ceil(N / mb_size)` (data/numpy_loader.py:276, 433) and `int(onp.ceil(N / mb_size))` (data/core.py:558-559): the true
division of Python integers returns the exact quotient, rounded to a double. -/
noncomputable def ceilQuotient (fl : ℝ → ℝ) (N mb : ℕ) : ℤ := ⌈fl ((N : ℝ) / mb)⌉

/-- `math.floor(N / mb_size)` (data/numpy_loader.py:392). -/
noncomputable def floorQuotient (fl : ℝ → ℝ) (N mb : ℕ) : ℤ := ⌊fl ((N : ℝ) / mb)⌋

/-- `jnp.int_(jnp.floor(iterations / steps))` (scheduler.py:355): the division of integer arrays converts both to floats first. -/
noncomputable def barQuotient (fl : ℝ → ℝ) (iterations steps : ℕ) : ℤ := ⌊fl (fl iterations / fl steps)⌋

end JaxSgmc
