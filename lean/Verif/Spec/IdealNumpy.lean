import Verif.Spec.Oracle
import Verif.Spec.HostRun
import Verif.Spec.Stream

/-!
# Specification: ideal draws of the `NumpyDataLoader`

A probability space on which the numbers drawn with `jax.random` are ideal and the successive results of `Generator.choice`
of a numpy generator with one seed are independent, uniformly distributed and independent of the numbers of JAX.
-/

namespace JaxSgmc.Spec

open MeasureTheory ProbabilityTheory

variable {κ σ ρ Ω : Type}

/-- `d` is the data state of a chain which has just been initialised in some program and which draws mini-batches of `mb`
observations with replacement (the default) from the `NumpyDataLoader` number `loader`; `seed` is the given seed or, if no
seed was given, the number of chains registered before. -/
def RandomStreamOf (R : Rng σ) (devices : ℕ) (objs : ℕ → Loader σ ρ) (loader mb seed : ℕ)
    (d : HostData (Loader σ ρ) NumpyKw (List (String × List ρ) × List Bool)) : Prop :=
  ∃ (s : PSys (Loader σ ρ) (List (String × List ρ) × List Bool)) (cb : ℕ) (cfg : Cfg) (given : Option ℕ),
    PReachable (numpyHost R) devices objs s ∧ s.cfgs cb = some cfg ∧ cfg.loader = loader ∧ cfg.mbSize = mb ∧
    seed = given.getD (s.host.objs loader).chains.length ∧
    (pstep (numpyHost R) devices s (.init cb (.random false false given) d.var)).2 = .done ∧
    d.sys = (pstep (numpyHost R) devices s (.init cb (.random false false given) d.var)).1 ∧ d.calls = 0 ∧
    ∀ n, ∀ op ∈ d.env n, Elsewhere d.var cb op

/-- What can be known from the numbers drawn with one key of JAX (left), or from the `n`-th draw of the numpy generator
(right). -/
@[instance_reducible]
def numpyDrawn (P : Ω → Prng κ) (R : Ω → Rng σ) (N mb seed : ℕ) : κ ⊕ ℕ → MeasurableSpace Ω
  | .inl k => MeasurableSpace.comap (fun ω => ((P ω).normal k, (P ω).uniform k)) inferInstance
  | .inr n => MeasurableSpace.comap (fun ω => nthDraw (fun g => (R ω).choiceRepl g N mb) ((R ω).seed seed) n) ⊤

/-- Ideal generators of JAX and numpy. -/
structure IdealNumpy [MeasurableSpace Ω] (prob : Measure Ω) (P : Ω → Prng κ) (R : Ω → Rng σ) (N mb seed : ℕ)
    (split : κ → ℕ → ℕ → κ) : Prop where
  split_eq : ∀ ω, (P ω).split = split
  ideal : ∀ ω, IdealSplit (P ω)
  lawful : ∀ ω, (R ω).Lawful
  measurable : ∀ j, numpyDrawn P R N mb seed j ≤ (inferInstance : MeasurableSpace Ω)
  normal_law : ∀ k n, prob.map (fun ω (i : Fin n) => (P ω).normal k n i) = normals (Fin n)
  uniform_law : ∀ k, prob.map (fun ω => (P ω).uniform k) = unif
  choice_law : ∀ n (d : Fin mb → Fin N), prob {ω | nthDraw (fun g => (R ω).choiceRepl g N mb) ((R ω).seed seed) n =
    List.ofFn fun i => (d i : ℕ)} = ((N : ENNReal) ^ mb)⁻¹
  independent : iIndep (numpyDrawn P R N mb seed) prob

end JaxSgmc.Spec
