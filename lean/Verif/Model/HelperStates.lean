import Verif.Model.Mcmc
import Verif.Model.ListMapArr

/-!
# The stacked scheduler states of a run with additional schedulers

`util.list_vmap(scheduler_get)(*scheduler_states)` and `util.list_vmap(next_fn)(*scheduler_states)`
(`jax_sgmc/solver.py:100, 122`) stack the scheduler states, which are pytrees.
-/

namespace JaxSgmc

/-- A number as array without dimensions.
(leaves of `scheduler_state`, scheduler.py:63-70) -/
def numberLeaf {V : Type} (x : V) : Tree (Arr V) := .leaf ⟨[], [x]⟩

/-- The state of the progress bar (scheduler.py:322-330); the number of collected samples is an array with one entry. -/
noncomputable def barTree : Option BarState → Tree (Arr XF)
  | none => .none
  | some b => .node .tuple [numberLeaf (.fin b.iterations), numberLeaf (.fin b.totSamples),
      .leaf ⟨[1], [.fin b.collected]⟩, numberLeaf (.fin b.steps), numberLeaf (.fin (if b.enabled then 1 else 0))]

/-- The states of the four specific schedulers as pytrees of arrays (scheduler.py:63-70). -/
structure SchedTrees (σs σt σb σh : Type) where
  stepSize : σs → Tree (Arr XF)
  temperature : σt → Tree (Arr XF)
  burnIn : σb → Tree (Arr XF)
  thinning : σh → Tree (Arr XF)

/-- The named tuple `scheduler_state` (scheduler.py:63-70, 160-170).  Simplified: integers and booleans are represented by
numbers of one type. -/
noncomputable def schedTree {σs σt σb σh : Type} (T : SchedTrees σs σt σb σh) (st : SchedState σs σt σb σh) :
    Tree (Arr XF) :=
  .node (.ntuple "scheduler_state".toList ["state".toList, "step_size_state".toList, "temperature_state".toList,
      "burn_in_state".toList, "thinning_state".toList, "progress_bar_state".toList])
    [.node .tuple [numberLeaf (.fin st.iteration), numberLeaf (.fin st.total)],
      T.stepSize st.stepSize, T.temperature st.temperature, T.burnIn st.burnIn, T.thinning st.thinning, barTree st.bar]

/-- The state of the polynomial step sizes: an array with one entry per iteration (scheduler.py:469-485). -/
noncomputable def polyTree (l : List XF) : Tree (Arr XF) := .leaf ⟨[l.length], l⟩

/-- The state of `adaptive_step_size`: a tuple of eight numbers (scheduler.py:414-417). -/
noncomputable def adaptiveTree (s : AdaptiveState) : Tree (Arr XF) :=
  .node .tuple [numberLeaf (.fin s.burnIn), numberLeaf (.fin s.xBar), numberLeaf (.fin s.hBar), numberLeaf (.fin s.alpha),
    numberLeaf (.fin s.t0), numberLeaf (.fin s.kappa), numberLeaf (.fin s.gamma), numberLeaf (.fin s.mu)]

/-- The state of `random_thinning`: an array with the selected iterations (scheduler.py:650-656). -/
noncomputable def thinTree (s : List Nat) : Tree (Arr XF) := .leaf ⟨[s.length], s.map fun i : Nat => .fin i⟩

/-- The trees of a scheduler with polynomial step size, constant temperature (a number), initial burn in and random thinning
(scheduler.py:245-276, 446-491, 567-666). -/
noncomputable def polyTrees : SchedTrees (List XF) ℝ Int (List Nat) :=
  ⟨polyTree, fun t => numberLeaf (.fin t), fun n => numberLeaf (.fin n), thinTree⟩

/-- The stacking of the scheduler states at the beginning of an iteration (solver.py:96-100): not done for one scheduler. -/
noncomputable def stackSchedulers {σs σt σb σh : Type} (T : SchedTrees σs σt σb σh)
    (scheds : List (SchedState σs σt σb σh)) : Except PyErr Unit :=
  if scheds.length = 1 then .ok ()
  else
    match stackTrees (scheds.map (schedTree T)) with
    | .error e => .error e
    | .ok _ => .ok ()

end JaxSgmc
