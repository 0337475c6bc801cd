import Verif.Model.Prelude
import Mathlib.Analysis.SpecialFunctions.Pow.Real
import Mathlib.Data.EReal.Basic

/-!
# Floating point numbers with exact arithmetic and IEEE special values

Rounding, overflow and signed zeros are not modelled.  Division by zero, infinities and NaN are: they
decide what degenerate step size schedules do.
-/

namespace JaxSgmc

/-- A real number, an infinity or not a number.
(the float arrays of scheduler.py, solver.py (idealised, see above)) -/
inductive XF
  | fin (r : ℝ)
  | pinf
  | ninf
  | nan

namespace XF

open Classical in
/-- An infinity with the sign of a real number (`inf * r`).
(IEEE semantics used at scheduler.py:479, 513-518) -/
noncomputable def infMul (r : ℝ) : XF := if 0 < r then pinf else if r < 0 then ninf else nan

/-- Addition, IEEE semantics; scheduler.py:479, 515-519. -/
noncomputable def add : XF → XF → XF
  | fin a, fin b => fin (a + b)
  | nan, _ | _, nan => nan
  | pinf, ninf | ninf, pinf => nan
  | pinf, _ | _, pinf => pinf
  | ninf, _ | _, ninf => ninf

/-- Negation, IEEE semantics; scheduler.py:479, 513-518. -/
noncomputable def neg : XF → XF
  | fin a => fin (-a)
  | pinf => ninf
  | ninf => pinf
  | nan => nan

/-- Multiplication, IEEE semantics; scheduler.py:480, 519. -/
noncomputable def mul : XF → XF → XF
  | fin a, fin b => fin (a * b)
  | nan, _ | _, nan => nan
  | pinf, pinf | ninf, ninf => pinf
  | pinf, ninf | ninf, pinf => ninf
  | pinf, fin b => infMul b
  | fin a, pinf => infMul a
  | ninf, fin b => neg (infMul b)
  | fin a, ninf => neg (infMul a)

open Classical in
/-- Division; `r / 0` is an infinity with the sign of `r` (zeros are positive), `0 / 0` is NaN.
(scheduler.py:516, 518) -/
noncomputable def div : XF → XF → XF
  | fin a, fin b => if b = 0 then infMul a else fin (a / b)
  | nan, _ | _, nan => nan
  | fin _, pinf | fin _, ninf => fin 0
  | pinf, fin b => if b = 0 then pinf else infMul b
  | ninf, fin b => if b = 0 then ninf else neg (infMul b)
  | _, _ => nan

open Classical in
/-- `jnp.power(x, y)` for a finite exponent.  (Negative bases are NaN unless the exponent is an integer;
integer exponents of negative bases do not occur and are also set to NaN.)
(scheduler.py:479, 513-518) -/
noncomputable def pow : XF → ℝ → XF
  | fin a, y =>
    if 0 < a then fin (a ^ y)
    else if y = 0 then fin 1
    else if a = 0 then (if y < 0 then pinf else fin 0)
    else nan
  | pinf, y => if y < 0 then fin 0 else if y = 0 then fin 1 else pinf
  | ninf, y => if y = 0 then fin 1 else nan
  | nan, y => if y = 0 then fin 1 else nan

/-- `x > 0`; comparisons with NaN are false.
(used at scheduler.py:640-647) -/
def Pos : XF → Prop
  | fin a => 0 < a
  | pinf => True
  | _ => False

end XF

end JaxSgmc
