import Mathlib.Logic.Function.Iterate
import Mathlib.Data.List.Basic

/-! Successive outputs of a generator: the state is always replaced by the one the draw returns. -/

namespace JaxSgmc.Spec

/-- The output of the `k`-th of successive draws `f` starting with generator state `g`. -/
def nthDraw {σ α : Type} (f : σ → α × σ) (g : σ) (k : Nat) : α :=
  (f ((fun x => (f x).2)^[k] g)).1

end JaxSgmc.Spec
