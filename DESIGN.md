# Formal model of tummfm/jax-sgmc in Lean 4 — design

## 1. Approach

The model is a set of small, total Lean functions that mirror the Python functions of
`/repo/jax_sgmc` branch by branch; Python exceptions are values (`Except PyErr α`).
Stateful components (data loader, the token protocol of `random_reference_data`, the
scheduler, collectors, solvers) are `init`/`step` functions on explicit state records, and the
properties are theorems about *every* operation sequence (proved by induction over the sequence
or by refinement to a small abstract specification).

Every module of the model lives in `lean/Verif/Model/*`, the specifications (written without
using helpers of the model) in `lean/Verif/Spec/*`, the helper lemmas in `lean/Verif/Lemmas/*`
and the property theorems in `lean/Verif/Props/*` (theorem names start with the property id,
`c01_…`).  Beside each theorem an `example` shows that its hypotheses are met by a concrete
non-trivial case.

Properties the code violates (marked **F** below) are treated as follows: the model follows the
code, the negation of the property is proved on the model with a concrete witness
(`cNN_false…`), and the part that does hold is proved as `cNN_…_partial`.

## 2. Plan per property

### Data loading (`data/core.py`, `data/numpy_loader.py`)

| id | modelled | proof |
|----|----------|-------|
| C01 | `NumpyDataLoader` ordered chains, `_get_indices` | refinement of the chain state to the absolute position in the infinite periodic sequence of batches; induction on the calls |
| C02 | random chains with `in_epochs` | induction over the draws with an invariant on the cached permutation and the position in the epoch |
| C03 | random chains with `shuffle` | invariant: drawn stream ++ cached remainder = concatenation of permutations |
| C04 | all chain kinds, `get_batches` | induction over the cache loop, laws of the index generator, row selection by `take` |
| C05 | as above | batches of a call with cache size c = batches of c calls with cache size 1 |
| C06 | `save_state` / `load_state` | state equality after restore, any intermediate operations |
| C07 **F** | `load_state` empties the checkpoint (`popitem`) | witness; partial: first load |
| C08 | map of chains | operations on other chains leave the entry unchanged (induction over op lists) |
| C09 | `register_random_pipeline` seeds | equal chain state ⇒ equal streams |
| C10 | both `register_*`, `random_reference_data` argument checks | case analysis |
| C11 | `random_reference_data.batch_fn` | induction on draws; refinement to the loader stream |
| C12 | `_Requests` protocol (tokens) | invariant over protocol histories; tokens fresh |
| C13 **F** | `verify_calls=False` branch | witness + general theorem that the branch raises |
| C14, C15 | protocol with `device_count = d` | refinement: for every interleaving, device positions p_i; cached entries = open positions |
| C16 | `release` | state invariants |
| C17–C19, C23 | `full_reference_data` host and device | induction over the scan |
| C20 **F** | device order | witness + rotation theorem |
| C21 **F** | batch size argument | witness + partial |
| C22 | `full_data_mapper` pool of data states under interleavings | invariant over event traces |
| C24 | unbatched mapping | equality with `List.map` |

### Potential (`potential.py`)
| C25–C27, C29 | `full_potential`, `minibatch_potential` over ℝ | sums over lists / finite averages |
|---|---|---|
| C28 **F** | mask is not read | witness + partial |

### Scheduler (`scheduler.py`)
| C30–C33, C38, C39 | `init_scheduler`, burn-in, thinning, progress bar | counting lemmas, induction over iterations |
|---|---|---|
| C34, C36 | step size schedules over ℝ | real analysis |
| C35 **F** | `polynomial_step_size_first_last` with IEEE special values | witness, partial |
| C37 **F** | overrides | witness, partial for the other arguments |

### Saving and solver (`io.py`, `solver.py`, `alias.py`)
| C40–C44, C46, C48–C50 | `no_save`, collectors, `mcmc` | induction over the run; interleaving model of main thread and callbacks |
|---|---|---|
| C45, C47, C51, C52 **F** | vmap and host callbacks, npz, naming of leaves | witness, partial |
| C53–C58 | pytrees, `tree_util`, `list_map`, `uuid` | structural induction |

### Integrators, solvers, adaption (`integrator.py`, `solver.py`, `adaption.py`)
| id | modelled | proof |
|----|----------|-------|
| C59–C61, C63, C78 (**F** for NaN in SGGMC) | `amagold`, `sggmc`, `parallel_tempering` with energies in the extended numbers `XF` (reals, ±inf, NaN with the IEEE rules for comparison, sum, product, min) | case analysis on the acceptance test, induction over updates |
| C62 **F** | branches of `lax.cond` in `parallel_tempering` | witness; exact description of the implemented test |
| C64, C65, C79 | `reversible_leapfrog` | reversed path constructed explicitly; induction over the steps |
| C66, C80, C86 | `obabo` and momentum refreshment | algebra; Gaussian integrals and push-forwards of Mathlib |
| C67 **F**, C68, C69 | `friction_leapfrog`, `langevin_diffusion`, `rms_prop` | algebra, induction over updates |
| C70, C71 **F**, C72 **F**, C73 **F**, C91 | `mass_matrix`, `fisher_information` | Welford recursion = sample variance; matrices over ℝ |
| C74, C75 **F**, C97 **F** | key handling of all integrators and solvers | keys as nodes of an ideal splitting tree; freshness invariant |
| C82 | AMAGOLD leaves the target invariant | measure preservation of the deterministic flow (volume lemmas) + involution + Metropolis step; induction over whole runs; `c82_code_step` links the abstract step to the code step |
| C83 **F** | SGGMC | counterexample; invariance of the version with momentum flip, and of expectations of functions even in the momentum |
| C87 **F**, C88–C90 | reported statistics | exact value of every reported number along runs |
| C103, C104, C36, C95 | step size adaption and schedules over infinitely many iterations | closed form of dual averaging, monotonicity; p-series |
| C105 | gradient of `minibatch_potential` as Fréchet derivative | averages over all batches |
| C107 **F** | `full_potential` with log-likelihood −inf | exact characterisation of NaN |
| C108, C109, C110 **F** | integrators and the `adaption` decorator on pytrees, with all exceptions of the tree functions | refinement (forward simulation) of the tree programs by the vector programs |
| C111, C112 | `amagold`, `sggmc`, `mass_matrix` and `parallel_tempering` on pytrees | the same refinement, extended by the states of the solvers |
| C113 | complete runs of `alias.py` on pytrees (`mcmc` with solvers which can fail, the saving functions, the schedulers) | the pair of both runs is a solver which cannot fail; the theorems on runs (C92, C95) are applied to it |
| C114 | the registry of rules (`register_dictionize_rule`, `_dictionize`) over any class hierarchy; rules are arbitrary functions which may fail; Python's recursion limit is explicit | histories of registrations by snoc induction; counterexample: rule for a named tuple |
| C115 | `pytree_to_dict`, `pytree_dict_keys` for nodes of any class | the dictionary equals the one of a tree of named tuples, to which C51–C53 apply |
| C116 | `dict_to_pytree` for nodes of any class | as C115; counterexample: unregistered node with eleven leaves |

### Data sources, formats and whole programs
| id | modelled | proof |
|----|----------|-------|
| C76 **F**, C77 | `HDF5Collector` with asynchronous callbacks, `HDF5Loader` | interleaving model; bisimulation with the numpy loader |
| C81 | random numbers consumed by random chains | induction over the calls |
| C84, C85 **F** | `dict_to_pytree`, `tree_dot` on unexpected input | witness; exact description |
| C92–C95 (C93, C94 **F**) | the six functions of `alias.py` as compositions of scheduler, solver, saving and `mcmc` | composition of the theorems of the parts |
| C96–C97, C98 | device loader, `tensor/batch format` | case analysis, induction over the draws |
| C99–C101 (C100 **F**) | `TensorflowDataLoader` on a model of `tf.data` (repeat, shuffle buffer, batch) | invariant on buffer contents |
| C102, C106 | whole runs of the solvers on the host data protocol, with arbitrary operations of other chains between any two calls | forward simulation of the run on the protocol by the run on the abstract stream |
| C117 **F**, C118 | the writes of `JSONCollector._write_file` to the disk one by one (touch, truncate, every character); a crash is a prefix of the writes of a history; the text of `ujson.dump` for nested lists of numbers | simulation: disk = files of C48; texts of lists are a prefix code; counterexample: `finalize` truncates the complete file |
| C119, C120 **F** | `HDF5Collector.save` stopped after any number of leaves | exact description of the torn row from the invariant of C49; counterexamples |
| C121 **F** | one update of `parallel_tempering` with an integrator at rest and exact potentials; finite sets of positions | pushforward of the joint weights under the Lebesgue measure of the uniform number; the swap of the method is invariant (checks the statement), the swap of the code exchanges the two distributions |
| C122 **F** | `Model/Npz`: `onp.savez(file, **dict(zip(names, arrays)))`; an npz file is the list of its arrays by name | false for a top-level key `file` (TypeError, exact condition proved), for joined names which collide (an array is lost) and for samples not in the order of their names (C51); proved for all other samples and every schedule of the callbacks, on top of C47 |
| C123 | `Model/Pmap`: devices execute their iterations in any order (list of device numbers), each with its own `lax.cond`; callbacks of one device in order | invariant over prefixes of the order: the collector holds for chain i the kept samples of its first `count i` iterations (host), each device computes the scan of its chain (device saving, iff) |
| C124 **F** | `Model/LoaderHeap`: the index arrays live in a heap, chains and checkpoints hold addresses; `save_state` copies, `load_state` does not; user copies shallowly or deeply | false for shallow copies (witness); otherwise refinement: with the invariant that every array is held at one place only, every history has the outcomes of the value model `Model/NumpyLoader`, which also justifies that C01–C10 treat arrays as values |
| C125 **F** | `Model/FisherFull`: `fisher_information(diagonal=False)` as noise model of `friction_leapfrog`; the SVD is a parameter with its law as hypothesis | false for every decomposition as soon as two variables are correlated; trace of the covariance by uniqueness of the positive semidefinite square root; single variable |
| C126 | `HDF5Loader` as a host loader in the request protocol (`Model/Hdf5Host`); a homomorphism of host loaders (`Lemmas/HostHom`) translates every program with HDF5 loaders, step by step, into one with numpy loaders, where C18 and C22 apply; the rows are those of C49/C50 | `c126_rowwise`, `c126_entry`, `c126_sum`, `c126_runs` |
| C127 | `amagoldRun` with `diagMassAdaption`: C70 (frozen mass) + C89 (samples seen by the adaption) + C82 for adapted masses (`amagold_invariant_on`) | `c127_after_burn_in`; example: the exponential distribution with two burn-in updates |
| C128 | potentials with values in `XF`, undefined outside of `D` (`Spec.PotentialOn`); the Metropolis step rejects `+inf` and `nan`; detailed balance with the indicator of `D` (`stationary_of_paths_on`) | `c128_stays`, `c128_code_step` by induction over runs; `c128_posterior` by integrating out the momentum |
| C129 | the same integral operator (`Spec.amagoldExpect`) applied to indicators and to an arbitrary stationary distribution | `c129_reaches`: the noise of the last two leapfrog steps maps affinely and bijectively onto position and momentum (`lastTwo_reaches`), and the acceptance probability is positive; `c129_unique`: an irreducible kernel with an invariant probability measure has no other (`invariant_unique`) |
| C130 | expectations of functions of the whole path (`Spec.amagoldPath`), `Spec.average`, `Spec.posteriorMean` | `c130_mean_square`: von Neumann's mean ergodic theorem for the operator of one update on L² of the target (`Lemmas/Ergodic`), fixed functions are constant by irreducibility (C129), transferred to every start because a proposal has a density and a rejected proposal only negates the momentum; `c130_probability` by Chebyshev |
| C131 | the model of C82/C111 run on a probability space whose generator is ideal (`Spec.IdealRandom`, shown to exist in `Lemmas/OracleExists`) | `c131_run_law`: the keys used for momentum, noise and acceptance are pairwise different (`Lemmas/Oracle`), hence every update is driven by numbers independent of the past (`Lemmas/Driven`) and the law of the path is `Spec.amagoldPath` by induction over the schedule; `c131_mean_square`, `c131_probability` transfer C130 to the samples returned by `get` |
| C132 **F** | `adaptive_step_size` with floating point special values (`Model/AdaptiveX`) | `c132_false`: `amagold` reports NaN as acceptance ratio of an undefined proposal (`jnp.where(log_alpha > 0, 0, log_alpha)` keeps NaN), the dual average and with it all later step sizes become NaN; `c132_finite_partial`: for finite ratios the model agrees with the real-valued one of C36, C95, C103 |
| C133 | `runAmagoldAdaptive` (complete run: solver, scheduler, saving, `Model/AliasRun`) with the ideal random numbers of C131 | `c133_mean_square`, `c133_probability`: the chain of positions, momenta and acceptance ratios is driven by independent numbers; conditionally on the end of the burn in it is AMAGOLD with a constant step size, to which C130 applies; dominated convergence over the burn in |
| C134 | the four integrators of `Model/Integrator`; `Spec.scaledNoise` multiplies normal numbers | holds for `langevin_diffusion` and `obabo` (`c134_langevin_partial`, `c134_obabo_partial`, unfolding and induction over steps), false for `reversible_leapfrog` and `friction_leapfrog`, which ignore the temperature (`c134_false…`); AMAGOLD therefore has the stationary distribution of temperature one at every temperature (`c134_false_amagold`, from C129) |
| C135 | `langevinUpdate` of `Model/Integrator` iterated (`Spec.sgldSample`) with the ideal random numbers of `Spec.IdealRandom` (one mini-batch per update); `Spec.Convex`, `Spec.Unbiased`, `Spec.Lipschitz` | the law of the sample is the iterated push-forward of independent normals and mini-batches (`Lemmas/SgldLaw`); synchronous coupling with a Metropolis-adjusted chain which leaves the posterior invariant (`Lemmas/Mala`), whose rejection probability is of order h^(3/2): one update contracts the mean squared distance by 1 - mh/2 up to C h² (`Lemmas/LangevinStep`, `LangevinCoupling`); exponential moments of the posterior make C finite (`LangevinMoments`); Portmanteau theorem for events |
| C136 | `runSgld` of `Model/AliasRun` (mcmc, schedule, thinning and saving included) with the ideal random numbers of C135; the Gumbel numbers which select the thinned iterations are an arbitrary fixed function, so the selection is not correlated with the chain | the joint law of two samples of one run is a push-forward of the law of the first one (`Lemmas/SgldPairs`); the coupling of C135 is carried along with the first sample, so the second sample is close to a posterior sample independent of the first: covariances decay like (1-ml/2)^(k/2) up to √u (`Lemmas/SgldAverage`), summed by a geometric series; the selected iterations by `c92_sgld_schedule` |
| C137 | `deviceGetData` (`Model/DeviceRun`: the loader of C96 and the rows seen by the likelihood), `potentialGradLik` of C105, `langevinUpdate`; `Spec.IdealKeys`: one ideal generator for split, normal, uniform and randint (shown to exist in `Lemmas/IdealKeysExists`); `Spec.IsDataset`, `Spec.dataPotential` | the generator restricted to the keys derived from the key of the chain, together with the indices drawn from the independent key, satisfies `Spec.IdealRandom` (`Lemmas/IdealKeys`); the run on the arrays equals the run on indices (`device_run`, by induction); the gradient is unbiased (sum over all N^n draws) with quadratic variance; then C135, C136 |
| C138 | the ghost keys recorded by `langevinUpdate` and `deviceRandomGet`, with the default key of both | false: `c138_false_shared` (in every run the noise keys are split from the key of the mini-batch); `c138_partial` for independent keys |
| C139 | the numpy loader, the request protocol and a running program (`hostDataSource` of C102), `hostGradLik` (`Model/HostGrad`); `Spec.RandomStreamOf`, `Spec.IdealNumpy`: successive results of `Generator.choice` are independent, uniform and independent of the numbers of JAX (shown to exist in `Lemmas/IdealNumpyExists`) | the k-th mini-batch of the run consists of the rows of the k-th draw of the generator (`Lemmas/NumpyDraws`, induction over requests); independence of grouped draws (`Lemmas/IdealNumpy`); the run on the arrays equals the run on indices (`numpy_run`); then C135, C136 |
| C140 | the programs of C106 and C139 together: `hostDataSource`, `hostGrad`, `hostFullPot`, `amagoldUpdate`, `revIntegrate`; `Spec.RandomStreamOf`, `Spec.FullStreamOf`, `Spec.IdealNumpy` | the run on the arrays equals a run on drawn indices with the exact potential (`numpy_amagold`, simulations of C102 and C106); the indices of the updates are ideal (`numpy_ideal`, any number of batches per update) and their law is symmetric; then C131 |
| C141 | `ceilQuotient`, `floorQuotient`, `barQuotient` with the rounding of floating point numbers as a parameter; `Spec.Representable`, `Spec.RoundsToNearest` | a quotient which is not an integer is at least 1/mb away from the next integer, and there is a number with p bits which is nearer than this integer; existence of a rounding to nearest is proved (`nearest_rounds`) |
| C142 | `deviceGetData`, `deviceSource`, `deviceFullPot`, `potentialGrad`, `amagoldUpdate`, `revIntegrate`; `Spec.IdealKeys`, `Spec.KeysApart` | the run equals a run on the keys derived from the key of the chain, drawn indices and the exact potential (`device_amagold`, with C25 for the full potential from every position); the indices of the updates are ideal (`chain_ideal_updates`); then C131 |
| C143 | `amagoldUpdate`, `revIntegrate`; `Spec.StepsBetween`, `Spec.meanOn`, `Spec.LocallyBounded` | time-inhomogeneous chains of kernels with a common invariant law (`Lemmas/Inhomogeneous`): every kernel has, on large level sets, densities with respect to the target between positive constants which are uniform in the step size (`UniformPaths`, `UniformMoves`, `UniformKernel`); correlations of the centred function decay uniformly, so the mean square of weighted sums grows linearly; then the run law of C131 |
| C144 | `runAmagold`, `aliasThinned`, `aliasAll`, `hostDataSource`, `hostFullPot`, `deviceGetData`, `deviceFullPot`; `Spec.chainVariables`, `Spec.ContinuousGradients` | the returned samples are the selected samples of the chain (`c92_amagold_schedule`: step sizes and selection chosen before the random numbers of the solver; `returnedAmagold_eq`), continuous gradients are bounded on balls uniformly over the finitely many mini-batches, the loaders as in C140 and C142; then C145 with l = last and u = first step size |
| C145 | `amagoldUpdate`, `revIntegrate`; `Spec.StepsBetween`, `Spec.meanOn`, `Spec.posteriorMean` | truncation: the truncated function is bounded (C143); the part beyond the truncation level vanishes at the initial sample and has a small posterior expectation; until the first acceptance the position does not change, the first accepted proposal has up to a small probability a bounded density (`moveLaw_density`), so by invariance and Markov's inequality the capped sum over any chosen samples is small (`Lemmas/Truncation`: `cappedSum_small`, geometric series over rejections) |
| C146 | `mapMasked`, `mapUnmasked`, `scanBatches`, `hostSource`, `batchFn`, `request`, `fetch`; `Spec.Supplies`, `Spec.Succeeds` | induction over the batches supplied before the error; for released loaders the cached batches are supplied without requests (`cached_supplies`), then the request finds no loader |
| C147 | `langevinUpdate` iterated (`Spec.sgldSample`), `polynomialStepSize`; `Spec.meanOver`, `Spec.posteriorMean`, `Spec.IdealRandom` | second moments stay bounded once the step sizes are small (`decreasing_moment`); covariances of two samples after iteration N by `sgld_covariance` (C136) with u = h(N) and l = h(n): the sum of the geometric terms is of order 1/(|I| h(n)), the bias of order the square root of h(N); the first N samples vanish in the average |
| C148 | the run of AMAGOLD (`Spec.amagoldState`) and `runAmagold` of C144; `Spec.posterior`, `Spec.IdealRandom` | the updates are Markov kernels with a common invariant law (C143); functions of mean zero decay in L1 of the invariant law uniformly in the kernels and in the function (`chainMean_mixing_uniform`), and after some steps the law of the state has a bounded density up to a small probability (`chain_density`): hence convergence in total variation (`chainMean_converges`); the initial momentum is bounded up to a small probability |
| C149 | `diagMassAdaption`, `amagoldRun` (`Spec.massAdaptedState`); `Spec.popCov`, `Spec.posteriorMean`, `Spec.IdealRandom` | the run is a chain driven by ideal random numbers whose state contains the samples of the burn in (`massDrive`, measurable also in the mass by `Lemmas/MassParam`); conditional on the burn in the mass is fixed, so the mean-square convergence of C130 applies and dominated convergence integrates it over the burn in; the second update reaches every set of positive volume (C129), so all variables move with positive probability |
| C150 **F** | `minibatchPotential` with batched likelihoods | false: the likelihoods of a batch of one observation are squeezed to a scalar and `mean(axis=0)` raises (`c150_false_one`, for every likelihood); proved instead: batches of two and more, and the masked evaluation of `full_potential` for every size |
| C151 | `mcmcMap` with `sgmcSolver langevinUpdate` and a scheduler of `polynomialStepSize`, `constantTemperature`, `initialBurnIn`, `randomThinning` or `noThinning` (`runSgldPolynomial`); `Spec.Thinned`, `Spec.chainVariables`, `Spec.posteriorMean` | the schedules do not depend on the chain, so the run returns the states after the kept iterations (`static_run`); C147 for the set of kept iterations, whose number times the last step size grows without bound; the data loaders by the simulations of C137 and C139 |
| C152 | `rstep`/`rrun` (`Model/MapperRelease`): the mapper of C22 with `release`, outcomes and failing calls; `Spec.ReleasedOutcome` | invariant over histories (`HeldInv`): hidden data states carry the callback of the mapper, which is registered until released; C22 for the time before |
| C153 **F** | `deviceMapperFormat`, `stateFormat`, `mkMapper` | false for every device data loader: the default offset is a Python integer without `dtype` (AttributeError); proved instead: numpy data loaders on the host |
| C154 **F** | `fullSetupFn` | false: `mb_size=None` raises TypeError, `mb_size=0` raises ZeroDivisionError after registering the data loader for ever, `cached_batches_count=0` is accepted; proved instead: too large batches, and valid sizes behave like `setup` of C10 |
| C155 | `mapperBody`, `mapperPotential` (`batchEvaluation` as the function mapped by the calls of C22, the sample and the iteration in the carry); `Spec.exactPotential` | C22 gives the batches of every call which has ended; threading the body through them is the scan of `full_potential` (C25) |
| C156 | `runAmagoldAdaptive` as in C133, `Spec.IdealRandom`, `Spec.chainVariables` | with high probability the step size and the state at the end of the burn in lie in a bounded region (the step size also away from 0); there AMAGOLD converges uniformly (`moves_converge` of C148); mixture over the burn in |
| C157 | `Spec.massAdaptedState`, `Spec.massAdaptedSamples` of C149 | given the burn in, the chain is AMAGOLD with constant masses and converges (`constant_converges`, from C148); dominated convergence over the burn in with the event of positive variances carried along as a flag |
| C158 | Model/NumpyLoader loadState | Props/LoaderMismatch: invariant over histories (own checkpoints have the registered shape); idx_offset does not influence random chains; two counterexamples |
| C159 | Model/Scheduler randomThinning, Spec/Thinning (drawProb, IdealGumbel) | Lemmas/Race (exponential races by induction, Fubini), Props/Thinning; counterexample with 3 iterations and 2 selections |
| C160 | Model/CollectorCalls memCalls, Spec/CollectorCalls (expected state: list of chains with the samples saved to them) | Props/CollectorCalls: refinement of the collector by the expected state, induction over the calls |
| C161 | Model/TreeUtil Arr.zipWith (broadcasting), Model/TreeIntegrator flatZip, Spec/Broadcast (numpy's rules by index) | Props/Broadcast: induction over the dimensions; counterexample with shapes (1,) and (2,) |
| C162 | Model/AliasRun aliasThinned, Spec/Keys (Independent, IdealSplit), the recorded keys of C74 | Props/ThinningKey: refinement of key lists (C74), a key is not derived from its own splits; counterexample with one iteration |
| C163 | Model/ListMapArr (arrays with shapes and row-major entries) | Props/ListMapArr: columns of the zipped leaves, slices of the concatenated entries; counterexample with different keys |
| C164 | Model/ThinningOverride (init of random_thinning with other schedules) | Props/ThinningOverride: C33 for the effective burn in, counting the selected iterations between both burn ins; counterexample with two iterations |
| C165 | Model/Mcmc | Props/HelperSchedulers: schedules which ignore statistics are the same in both trajectories (C42) |
| C166 | Model/HelperStates (states as pytrees of arrays, stacking of list_vmap) | Props/HelperStates: shapes of the leaves of the states after any number of updates (C31, C42, C163) |
| C167 | Model/ProgressPrint (percentage with rounded operations, text of the line), Spec/ProgressPrint | Props/ProgressPrint: reports of the run from C38, counting of multiples, monotone roundings (C141) |
| C168 | Model/SchedulerDict (keyword calls with names) | Props/SchedulerDict: the names are checked by the calls of the four init functions only |
| C169 | Model/ProgressVmap (callback with stacked values) | Props/ProgressVmap: invariant of the states, every lane has a bar |
| C170 | Model/ProgressVmap (barCallsVmap) | Props/ProgressVmap2: invariant of the state of the bar, C38 |

## 3. Trusted base

* **Kernel and axioms.** Lean 4.33.0 kernel; every theorem depends on at most `propext`, `Classical.choice` and
  `Quot.sound`.  No axiom is added, no compiled evaluation is used (`decide +kernel` runs in the kernel).
* **Reading of the code.** The Python code is not executed; each definition of `lean/Verif/Model` cites the lines it
  models and says what it simplifies.  The specifications in `lean/Verif/Spec` are part of what has to be read to
  trust a theorem.
* **Libraries.** The behaviour of the libraries is modelled by their documentation:
  * numpy `Generator`: an arbitrary deterministic generator (`Rng`) with a law saying that `choice(replace=False)`
    returns a permutation; the theorems hold for every lawful generator.
  * `jax.random`: arbitrary functions (`Prng`); only C74, C75, C97 use an ideal splitting tree (results of one split have
    no common descendants), and C82, C83, C86 idealise normal and uniform numbers as independent random variables.  C131, C134–C140 use whole
    streams of ideal numbers: `Spec.IdealRandom`, `Spec.IdealKeys` (derived from keys) and `Spec.IdealNumpy` (indices
    drawn by numpy); that such ideal generators exist is proved (`OracleExists`, `IdealKeysExists`, `IdealNumpyExists`).
  * `lax.scan`, `lax.cond`, `lax.map`: loops, branches; under `vmap` a `cond` becomes a `select` and both branches are
    executed (C44, C45); `jax.vmap` is its specification (map over slices of trees of one structure).
  * `jax.grad` / `value_and_grad`: an arbitrary function in the integrators, the Fréchet derivative in C105.
  * `host_callback.call` / `id_tap`: executed in the order of the program of one chain; other chains and threads may
    interleave arbitrarily (C12–C16, C22, C46, C47, C76, C102, C106).
  * `h5py`, `json`, `numpy.savez`, `tf.data`: data structures with the documented operations.
  * `uuid.uuid4`: an injective supply.
* **Numbers.** Real (or field) arithmetic without rounding.  Where infinities and NaN decide about the behaviour
  (acceptance tests, schedules, potentials) the extended numbers `XF` are used.  `ceil`/`floor` of float quotients are
  the exact quotients; C141 proves this for every rounding to nearest (below 2^53 in double, 2^24 in single precision).

## 4. Modelled and not modelled

Modelled: all functions of `data/core.py`, `data/numpy_loader.py`, `data/hdf5_loader.py`, `data/tensorflow_loader.py`,
`potential.py`, `scheduler.py`, `io.py`, `integrator.py`, `solver.py`, `adaption.py`, `alias.py`, `util/tree_util.py`,
`util/list_map.py`, `util/jax_uuid.py`, `util/host_callback`-use, up to the simplifications stated at the definitions.

Not modelled: compilation and tracing by JAX (including errors for wrong dtypes in `lax.scan`), the devices of `pmap` (only the interleaving of their iterations, C123), broadcasting
outside of the tree arithmetic and the adaption (C161), dtypes other than as tags (C98), rounding,
real time and memory, loss of power with reordered writes, corrupted HDF5 files, tests, documentation and examples.

## 5. Findings

Properties marked **F** are violated by the code.  Further observations made while modelling, not stated as properties:

* `full_data_mapper` with `batched=False`, `mb_size > 1` and a carry raises ValueError (`take_along_axis` with a scalar).
* A batched likelihood with batch size 1 fails (`squeeze` removes the batch axis); the documented mask argument of
  batched likelihoods is never passed.
* `fisher_information`: the non-diagonal variant returns vectors instead of matrices; no scaling `N²/n`; `n = 1` divides by
  zero; all corrections `≤ 0` give infinite noise; a potential passed positionally is not seen by the decorator
  (`kwargs.get`), so that `flat_potential` is `None`.
* `langevin_diffusion` passes the mini-batch to the adaption as positional argument, which is flattened.
* AMAGOLD and `friction_leapfrog` ignore the temperature; `initial_mass` is used as inverse mass.
* `register_random_pipeline` with `mb_size = 0` raises ZeroDivisionError; loading a checkpoint of a random chain into an
  ordered chain raises AttributeError.
* `MemoryCollector.finalize` twice raises RuntimeError; `JSONCollector` leaves an empty file if stacking fails.
* `list_vmap` of a function returning a tree without leaves raises IndexError.
* `mcmc` with `strategy="vmap"` and host data raises NotImplementedError (`stop_vmap` has no batching rule for the
  callback; the test of it is skipped).
* The swap test of parallel tempering uses the potentials before the step.
* `TensorflowDataLoader`: ordered pipelines and checkpoints are not implemented, an unknown excluded key raises KeyError,
  dimensions `None` are dropped from the format.
* `adaptive_step_size` uses the averaged iterate already during the burn in.
* `cyclic_temperature`, `cyclic_burn_in`, `io.load` and `checkpoint_every` only raise NotImplementedError.

## 6. Seeded bugs

`seeded/LOG.jsonl` lists every seeded bug (definition, edit, broken claim, theorems which failed, theorems tightened).
`seeded/run.py` applies a list of edits to a scratch copy and rebuilds.  Edits which survived led to new or tightened
theorems, or are equivalent programs (noted in the log).
