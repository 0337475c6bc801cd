{
"C01": {
"status": "proved",
"note": "All reachable loaders, all histories (also on other chains) without restoring the chain itself."
},
"C02": {
"status": "proved",
"note": "Assumes Generator.choice(replace=False) returns a permutation (Rng.Lawful)."
},
"C03": {
"status": "proved",
"note": "Assumes Generator.choice(replace=False) returns a permutation (Rng.Lawful)."
},
"C04": {
"status": "proved",
"note": "c04_answer covers every reachable state including restored chains; c04_registered_shape ties the shape to the registration."
},
"C05": {
"status": "proved",
"note": "Random and ordered chains; shorter sequence is a prefix of the longer."
},
"C06": {
"status": "proved",
"note": "Same chain after arbitrary operations, and a chain of another loader registered by the same call."
},
"C07": {
"status": "partial",
"note": "False of the code: load_state empties the checkpoint with popitem; c07_false / c07_second_load_raises prove that every second load raises KeyError. Partial: the first load is exact."
},
"C08": {
"status": "proved",
"note": "Whole histories (operations and outcomes) of a chain, including checkpoints."
},
"C09": {
"status": "proved",
"note": "Includes the default seed (chain id)."
},
"C10": {
"status": "proved",
"note": "Registration on the loader; argument checks of random_reference_data."
},
"C11": {
"status": "proved",
"note": "c11_linear for every host loader satisfying the interface contract (Spec.Contract), c11_numpy with the contract and all answers discharged for the numpy loader; other chains, loaders and releases may be interleaved."
},
"C12": {
"status": "proved",
"note": "Arbitrary history before and after; only the consuming refresh itself must be unannounced (device_count=1)."
},
"C13": {
"status": "partial",
"note": "False of the code: UnboundLocalError instead of a warning (c13_false, witness program). c13_unexpected_partial states exactly what happens for every outdated refresh."
},
"C14": {
"status": "proved",
"note": "Any interleaving of the replicas and of arbitrary other operations."
},
"C15": {
"status": "proved",
"note": "Exact content of the response cache for every interleaving of the announced devices, starting from any reachable state."
},
"C16": {
"status": "proved",
"note": "c16_no_refresh assumes no announced replicas (a replica may still take a response cached for it)."
},
"C17": {
"status": "proved",
"note": "Numpy loader, arbitrary interleaved operations; the only condition on the history is that the data state is used by complete maps."
},
"C18": {
"status": "proved",
"note": "Numpy loader; the mask given to the function equals the mask of the batch information."
},
"C19": {
"status": "proved",
"note": "From every position, hence by induction on every pass; with and without masking."
},
"C20": {
"status": "partial",
"note": "False of the code when the batch size does not divide N: from the second map on the results are rotated (c20_false). Partial: exact rotation for every map; correct order on the first map and when the batch size divides N."
},
"C21": {
"status": "partial",
"note": "False of the code for device loaders (cached_batches_count is used as batch size, c21_false). Partial: host loaders use mb_size; device loaders use cached_batches_count."
},
"C22": {
"status": "proved",
"note": "Every interleaving of the calls' iterations and of other program operations; includes progress (no call can get stuck or fail)."
},
"C23": {
"status": "proved",
"note": "Every data source (host or device)."
},
"C24": {
"status": "proved",
"note": "c24_stateless for all batch sizes; also stateful functions with mb_size=1; c24_stateful_raises records that mb_size>1 with a state raises."
},
"C25": {
"status": "proved",
"note": "c25_host (numpy loaders, after any history of complete passes), c25_device (device loaders, from any line). Exact arithmetic in any field of characteristic 0; the likelihood value must not depend on the model state."
},
"C26": {
"status": "proved",
"note": "c26_formula, c26_unbiased (all N^n draws with replacement), c26_unbiased_permuted (without replacement). Batched likelihoods need batch size >= 2 (batch size 1 raises in the code)."
},
"C27": {
"status": "proved",
"note": "map = vmap for every likelihood, state and mask; pointwise batched likelihoods agree with them (pmap not modelled)."
},
"C28": {
"status": "partial",
"note": "False of the code: the mask in the batch information is never read (c28_false). Partial: explicit mask arguments are respected; the information mask has no influence."
},
"C29": {
"status": "proved",
"note": "c29_first_state, c29_evaluated, c29_stateless."
},
"C30": {
"status": "proved",
"note": "c30_no_thinning, c30_random_thinning: for initial_burn_in with any override, no thinning or random thinning with arbitrary schedules. A burn in longer than the run announces a negative number (then nothing is kept)."
},
"C31": {
"status": "proved",
"note": "c31_no_thinning, c31_random_thinning (thinning set up with the burn in of the run, positive step sizes)."
},
"C32": {
"status": "proved",
"note": "c32_burn_in (any thinning), c32_after_burn_in."
},
"C33": {
"status": "proved",
"note": "random.choice is modelled as argsort of -gumbel-log p with arbitrary noise."
},
"C34": {
"status": "proved",
"note": "Exact real arithmetic with IEEE special values."
},
"C35": {
"status": "partial",
"note": "False of the code: equal step sizes give NaN in every iteration (c35_false_equal), a single iteration fails an assertion (c35_false_single). Partial: first > last > 0 and at least two iterations."
},
"C36": {
"status": "proved",
"note": "Real arithmetic; the initial step size must be positive."
},
"C37": {
"status": "partial",
"note": "False of the code: overrides of target_acceptance_rate are ignored (c37_false). Partial: all other parameters and schedulers."
},
"C38": {
"status": "proved",
"note": "c38_no_interference, c38_same_errors, c38_counts."
},
"C39": {
"status": "proved",
"note": "c39_schedule, c39_defaults."
},
"C51": {
"status": "partial",
"note": "False of the code: leaves of a named tuple with unsorted fields (or of a list with more than ten elements) are stored under exchanged names (c51_false_swapped); an empty list or tuple raises AttributeError. Partial: ordered trees without empty sequences; the exact error condition and that the names are a permutation for every tree."
},
"C52": {
"status": "partial",
"note": "False of the code (c52_false_swapped, c52_false_list). Partial: identity on ordered trees; for every tree without empty sequences the structure is restored and the leaves are a permutation."
},
"C53": {
"status": "partial",
"note": "Key tuples are unique and prefix-free for every tree; joined names collide if keys contain '/' (c53_false_joined), unique otherwise."
},
"C54": {
"status": "proved",
"note": "Shape checks of jnp.stack are not modelled."
},
"C55": {
"status": "proved",
"note": "jax.vmap is modelled by its specification: map over slices."
},
"C56": {
"status": "proved",
"note": "Over any semiring; broadcasting between leaves of different shape is not modelled."
},
"C57": {
"status": "proved",
"note": "c57_matrix, c57_agree, c57_rejected."
},
"C58": {
"status": "proved",
"note": "c58_new, c58_injective, c58_roundtrip."
},
"C40": {
"status": "proved",
"note": "c40_no_save, c40_nothing_lost."
},
"C41": {
"status": "proved",
"note": "Callbacks executed immediately; the asynchronous execution is C46/C47. c41_overflow: too many samples raise IndexError."
},
"C42": {
"status": "proved",
"note": "Solvers are pure functions of their state (data drawn through callbacks not covered)."
},
"C43": {
"status": "proved",
"note": "Device saving unconditionally; host saving under the conditions of C41."
},
"C44": {
"status": "proved",
"note": "c44_vmap_eq_map: an equivalence without hypotheses on the solver; states of one structure are assumed by the model of vmap."
},
"C45": {
"status": "partial",
"note": "False of the code: under vmap the callback is executed also for samples which are not kept (c45_false). Partial: runs in which every sample is kept."
},
"C46": {
"status": "proved",
"note": "Every schedule; c46_finished_waits, c46_same_as_device, c46_progress. Callbacks of one chain are executed in order (host_callback)."
},
"C47": {
"status": "partial",
"note": "False of the code: the lock is released before the file is written (c47_false). Partial: the file is complete once the callbacks of the chain are executed."
},
"C48": {
"status": "proved",
"note": "All histories of register/save/finalize of any number of chains; files named by chain and iteration are written exactly when due and hold exactly the first i samples."
},
"C49": {
"status": "proved",
"note": "All successful call histories; rows, untouched datasets, IndexError on overflow, registration succeeds for clean keys. HDF5 file modelled as list of datasets; dtype/shape checks of rows not modelled."
},
"C50": {
"status": "proved",
"note": "Round trip for the whole sample (c50_round_trip) and for an entry of a dict sample (c50_subdir, default subdir /chain~0/variables/)."
},
"C76": {
"status": "partial",
"note": "False of the code (c76_false): the barriers in finalize/finished are commented out. Proved: no callback fails and the file is complete once the pending callbacks of the chain were executed."
},
"C77": {
"status": "proved",
"note": "Bisimulation over all histories; c77_open shows that opening a file gives related loaders."
},
"C59": {
"status": "proved",
"note": "Proved for all integrators / generators / data sources of the model (real arithmetic; energies may be NaN or infinite)."
},
"C60": {
"status": "proved",
"note": "Proved for all integrators / generators / data sources of the model (real arithmetic; energies may be NaN or infinite)."
},
"C61": {
"status": "proved",
"note": "Proved for all integrators / generators / data sources of the model (real arithmetic; energies may be NaN or infinite)."
},
"C63": {
"status": "proved",
"note": "Proved for all integrators / generators / data sources of the model (real arithmetic; energies may be NaN or infinite)."
},
"C64": {
"status": "proved",
"note": "Proved for all integrators / generators / data sources of the model (real arithmetic; energies may be NaN or infinite)."
},
"C65": {
"status": "proved",
"note": "Proved for all integrators / generators / data sources of the model (real arithmetic; energies may be NaN or infinite)."
},
"C79": {
"status": "proved",
"note": "Proved for all integrators / generators / data sources of the model (real arithmetic; energies may be NaN or infinite)."
},
"C62": {
"status": "partial",
"note": "False in the code: the branches of lax.cond are exchanged (solver.py), the chains are swapped exactly if log u >= log_s; c62_false is the counterexample, c62_inverted_partial states what the code does."
},
"C78": {
"status": "partial",
"note": "Holds for AMAGOLD (c78_amagold) and for +inf in SGGMC; false for NaN in SGGMC (c78_nan_accepted, c78_false): a NaN energy error is accepted with ratio 1."
},
"C66": {
"status": "proved",
"note": "c66_bab: L steps without friction; c66_refresh: mean and covariance of the refreshed momentum (Mathlib integrals)."
},
"C80": {
"status": "proved",
"note": "Pathwise detailed balance for real energies; sggmc_reversed_exists shows that the reversed run exists."
},
"C67": {
"status": "partial",
"note": "False in the code: without noise model the noise is friction*sqrt(2h)*xi instead of sqrt(2*friction*h)*xi (integrator.py, last branch of _body_fun); right exactly for friction 0 and 1 (c67_iff_partial), and right with a noise model returning sqrt(friction)."
},
"C68": {
"status": "proved",
"note": "Holds along every run, with and without RMSprop."
},
"C69": {
"status": "proved",
"note": "For all gradient sequences."
},
"C70": {
"status": "proved",
"note": "Welford's algorithm over the reals; zero variances are excluded from the sqrt statement (division by zero in the code)."
},
"C71": {
"status": "partial",
"note": "False in the code: sqrt is built from the eigenvalues of the covariance instead of their reciprocals (and with transposed eigenvectors); c71_false is the counterexample, the inverse mass itself is right."
},
"C72": {
"status": "partial",
"note": "False in the code: the mean gradient is subtracted with the wrong sign (the potential is the negative log likelihood); c72_value_partial gives the value computed, c72_iff_partial when it is right."
},
"C73": {
"status": "partial",
"note": "False in the code: None is flattened to an empty vector by the adaption decorator, so that the check for None never succeeds and unravelling raises ValueError."
},
"C74": {
"status": "proved",
"note": "For every ideal generator (keys returned by one split have no common descendants); all keys drawn by langevin, friction_leapfrog, parallel tempering, AMAGOLD and SGGMC runs are pairwise different."
},
"C75": {
"status": "partial",
"note": "False in the code: every chain is initialised with the default key PRNGKey(0) and all chains draw with the same keys (c75_same_partial, c75_false); with independent keys passed by the caller the claim holds (c75_independent_partial)."
},
"C81": {
"status": "proved",
"note": "Successive draws of a lawful generator; start state R.seed(seed or chain id)."
},
"C82": {
"status": "proved",
"note": "Any constant or adapted mass; constrained supports are C128."
},
"C83": {
"status": "partial",
"note": "False for the code: on rejection the momentum is kept, not negated (solver.py:530-541). c83_false gives a counterexample with exact gradients in one dimension. Proved: with negation on rejection the target is invariant (c83_negated_partial); one step preserves all expectations of functions even in the momentum, e.g. the distribution of positions (c83_even_partial); link of the specification step to the code with any generator and data source (c83_code_step). Missing: invariance itself, which does not hold."
},
"C84": {
"status": "partial",
"note": "False of the code: a missing entry is silently replaced by None (c84_false_none, c84_false). Partial: complete dictionaries restore the tree (c84_complete_partial), a missing container raises an exception (c84_missing_partial)."
},
"C85": {
"status": "partial",
"note": "False of the code for tree_dot, which zips the leaves (c85_false_dot, c85_false; c85_dot_partial describes its result exactly). Partial: the other operations raise ValueError (c85_structure_partial)."
},
"C86": {
"status": "proved",
"note": "Distribution of the momenta as measures (idealised normal numbers): initial momentum of reversible_leapfrog and friction_leapfrog, momentum after the O-steps of OBABO."
},
"C87": {
"status": "partial",
"note": "False: langevin_diffusion reports the likelihood of the previous sample, OBABO the mean of two energies, AMAGOLD the energy difference accumulated along the trajectory. Exact values reported proved; SGHMC and the potential entry of SGGMC do hold."
},
"C88": {
"status": "proved",
"note": "For arbitrary update functions of the chains; variance formula for langevin_diffusion."
},
"C89": {
"status": "proved",
"note": "Reduces the update with adaption to one without adaption by the integrator with the mass obtained from the fold of the adaption over the reported samples."
},
"C90": {
"status": "proved",
"note": "For finite energies; NaN is treated in C78."
},
"C91": {
"status": "proved",
"note": "Diagonal variant; real arithmetic."
},
"C92": {
"status": "proved",
"note": "All six solvers. Data source as a pure function; real arithmetic; host saving without save_dir."
},
"C93": {
"status": "partial",
"note": "False: every alias with thinning raises AssertionError (proved for sgld and sghmc for all arguments). Proved instead: with accepted_samples = iterations - burn_in all samples are returned, with less see C92."
},
"C94": {
"status": "partial",
"note": "False: the schedule is accepted and yields NaN in every iteration. Proved instead for first > last."
},
"C95": {
"status": "proved",
"note": "amagold and sggmc, real arithmetic."
},
"C96": {
"status": "proved",
"note": "jax.random.randint is a parameter with the assumption that it returns mb numbers below N."
},
"C97": {
"status": "partial",
"note": "False: chains without an explicit key all use PRNGKey(0) and draw identical mini-batches (c97_false). Proved for explicit independent keys and an ideal generator."
},
"C98": {
"status": "proved",
"note": "Arrays are nested lists with a data type tag; the conversion of data types by jax is a parameter. The format returned by batch_format itself carries the unconverted data type; the callback converts it."
},
"C99": {
"status": "proved",
"note": "tf.data is modelled by its documented semantics; the choices in the shuffle buffer are a parameter."
},
"C100": {
"status": "partial",
"note": "False: repeat() precedes shuffle() (c100_false). Proved: shuffle_cache=1 is sequential; in general the bounds of c99_counts."
},
"C101": {
"status": "proved",
"note": "get_batches with an unknown chain id raises IndexError (not part of the statement)."
},
"C102": {
"status": "proved",
"note": "End-to-end composition of NumpyDataLoader, the request cache, batch_fn, the integrators and the solvers. One system per chain; arbitrary host operations of others (env) before every call; draws of one chain are sequential."
},
"C103": {
"status": "proved",
"note": "Real arithmetic. A NaN acceptance ratio is outside (toReal gives 0 in the model). The code uses the averaged step size already during burn in (unlike Hoffman and Gelman); the specification follows this."
},
"C104": {
"status": "proved",
"note": "p-series; sharp in gamma"
},
"C105": {
"status": "proved",
"note": "gradient as Frechet derivative over the reals; unbiasedness over all draws with replacement, over epochs, and of one SGLD update"
},
"C106": {
"status": "proved",
"note": "likelihoods without model state; host loader NumpyDataLoader; potential exact at every evaluation, whole runs of amagold and sggmc"
},
"C107": {
"status": "partial",
"note": "false: a masked filler of the last batch contributes 0 * (-inf) = NaN (potential.py:185); exact characterisation proved (NaN iff a filler has zero density, otherwise correct; correct if the batch size divides N); consequence: SGGMC accepts samples of zero density"
},
"C108": {
"status": "proved",
"note": "refinement of the tree-level langevin_diffusion (with errors of the tree functions) by the vector-level model for every valid tree; decorated strategies in general and rms_prop"
},
"C109": {
"status": "proved",
"note": "refinement of the tree-level integrators (with the errors of the tree functions) by the vector-level models of C64-C66, C79, C80, C86; the friction of friction_leapfrog is a number, an array (broadcast to every leaf, c109_friction_rejected if it does not fit) or a container"
},
"C110": {
"status": "partial",
"note": "false: if const_mass: raises ValueError for a sample which is a single array with several entries (c110_false, c110_rejected characterises exactly the rejected masses); proved for containers and arrays with at most one entry"
},
"C111": {
"status": "proved",
"note": "c111_amagold, c111_sggmc: the runs on trees succeed and are related entry by entry to the runs on vectors for any mass adaption satisfying SameMassAdaption; c111_mass_matrix_diagonal/full: mass_matrix satisfies it (eigh is a parameter). A mass adaption started with initial_mass=None fails (C72). Constant masses only for samples which are containers (C110)."
},
"C112": {
"status": "proved",
"note": "c112_re_sgld (as used by the alias re_sgld), c112_adapted (any adaption strategy), c112_different (rejected)."
},
"C113": {
"status": "proved",
"note": "All six samplers of alias.py on pytrees, end to end: exceptions of the tree functions and of the saving are part of the model; proved not to occur."
},
"C114": {
"status": "partial",
"note": "False of the code: the first registered type of which a node is an instance wins, so a rule for a named tuple (or any subclass of dict, list, tuple) is accepted but never used. Proved: the rule is used if no earlier registered type is a superclass; second registrations are rejected; locality."
},
"C115": {
"status": "proved",
"note": "Nodes of any class, arbitrary histories of registrations."
},
"C116": {
"status": "partial",
"note": "False of the code: an object of an unregistered class with eleven leaves is restored with permuted leaves (names are sorted alphabetically). Proved: same structure and same multiset of leaves; identity if names are in the order of the leaves."
},
"C117": {
"status": "partial",
"note": "False as stated: finalize truncates and rewrites the file of the last multiple of write_frequency (c117_false, c117_empty_file). Proved: a file survives unless finalize is called later with exactly its number of samples; less than write_frequency samples are lost before finalize (c117_lost) and less than twice as many at any crash point (c117_lost_twice)."
},
"C118": {
"status": "proved",
"note": "Texts as written by ujson for nested lists of numbers without white space; writes reach the disk in program order."
},
"C119": {
"status": "partial",
"note": "False as stated: the leaves of a sample are written one after the other (c119_false). Proved: exact content after the interruption, and that a repeated save repairs the row (c119_retry). The HDF5 file itself is assumed to stay readable."
},
"C120": {
"status": "partial",
"note": "False as stated: datasets are filled with zeros and the number of samples is not stored (c120_false). Proved: with a leaf which is never zero the number of nonzero rows is the number of samples, also after an interruption before this leaf."
},
"C121": {
"status": "partial",
"note": "False in the code because the branches of the swap are exchanged (C62): c121_false. Proved: the swap rule of the method leaves the distribution invariant (c121_exact); the code maps the joint distribution to the one with normal and hot chain exchanged (c121_exchanged_partial), and with exact potentials an update never gives the sampled chain the lower potential (c121_never_improves)."
},
"C122": {
"status": "partial",
"note": "False of the code for a sample with the top-level key 'file' (savez raises TypeError; exact condition c122_type_error), with colliding joined names (c122_false_lost) and for trees not in the order of their names (C51). Proved for every schedule of the callbacks for all other samples (c122_file_partial)."
},
"C123": {
"status": "proved",
"note": "c123_device (iff, saving on the device), c123_host (memory collector, every interleaving), c123_devices (too few devices)."
},
"C124": {
"status": "partial",
"note": "False (c124_false): load_state takes over the array of the checkpoint without copying it, so that a shallow copy (dict(checkpoint)) of a restored checkpoint is overwritten by later draws. Proved: without shallow copies every history has exactly the outcomes it would have if checkpoints were values (c124_snapshot_partial; refinement of the heap model to the value model), and a deep copy can be restored at any time (c124_restore_partial). Missing: shallow copies, for which the claim fails."
},
"C125": {
"status": "partial",
"note": "False (c125_false): the product of the left singular vectors and the vector of the roots of the singular values is a vector, hence the noise of different variables is independent; c125_never: whenever two variables are correlated the covariance is wrong, whatever decomposition is found. Proved: what is injected (c125_injected_partial), that the trace of the covariance is the claimed one (c125_trace_partial), and the claim for a single variable (c125_single_partial). The singular value decomposition is a parameter satisfying its law."
},
"C126": {
"status": "proved",
"note": "End-to-end composition of C49/C50 (collector and file), C77 (loader) and C17/C18/C22 (protocol, maps, mapper). All loader objects of the program are HDF5 loaders opened on datasets of equal length; the mapped function is row-wise (c126_rowwise, c126_entry) or a masked sum (c126_sum)."
},
"C127": {
"status": "proved",
"note": "Diagonal adaption (the full one is C71, false). Random numbers idealised as in C82."
},
"C128": {
"status": "proved",
"note": "Gradients are finite-valued functions; random numbers idealised as in C82."
},
"C129": {
"status": "proved",
"note": "Irreducibility of one update (lower bound on sets of positive volume) and uniqueness of the invariant probability measure; convergence rates are not claimed."
},
"C130": {
"status": "proved",
"note": "Constant parameters, bounded functions, independent mini-batches with a law symmetric under reversal, idealised random numbers; convergence in mean square and in probability."
},
"C131": {
"status": "proved",
"note": "Constant mass matrix, idealised generator (JAX's Threefry is assumed to behave like independent numbers for different keys), real arithmetic, bounded functions; the law of the run holds for every schedule, convergence for constant step sizes."
},
"C132": {
"status": "partial",
"note": "False in the code: a NaN acceptance ratio during the burn in makes all later step sizes NaN. Proved: for finite ratios the step sizes are positive and those of the real-valued model."
},
"C133": {
"status": "proved",
"note": "Complete runs of alias.amagold with adaptive_step_size=True, with ideal random numbers (Spec.IdealRandom, existence shown in Lemmas/OracleExists). Potentials +inf outside the support; undefined potentials destroy the step size (C132)."
},
"C134": {
"status": "partial",
"note": "False for reversible_leapfrog (amagold) and friction_leapfrog (sghmc), which ignore schedule.temperature (c134_false, c134_false_reversible, c134_false_friction); proved for langevin_diffusion and obabo."
},
"C135": {
"status": "proved",
"note": "Expectations of the sample after n updates; the law of large numbers for averages along one run is not part of this property. Mini-batches of different updates are independent (drawing with replacement)."
},
"C136": {
"status": "proved",
"note": "strongly convex potentials and unbiased mini-batch gradients with ideal random numbers; c136_bound gives the explicit rate, c136_alias composes it with the modelled alias.sgld (schedule, thinning, mcmc loop and returned result)"
},
"C137": {
"status": "proved",
"note": "SGLD with DeviceNumpyDataLoader, minibatch_potential and langevin_diffusion end to end, for one ideal jax.random generator and independent keys; device_run, dataset_exists and IdealGenerator.ideal (an ideal generator exists) support it."
},
"C138": {
"status": "partial",
"note": "False: with the default keys (always in alias.sgld) the noise keys of every update are split from the key which drew its mini-batch (c138_false_shared, c138_false). c138_partial: independent keys for chain and data."
},
"C139": {
"status": "proved",
"note": "Complete for mini-batches drawn with replacement (the default). Assumes an ideal jax.random and an ideal numpy generator (existence shown); arithmetic over the reals."
},
"C140": {
"status": "proved",
"note": "Complete for constant step sizes, likelihoods without model state and mini-batches drawn with replacement (the default). Assumes an ideal jax.random and an ideal numpy generator (existence shown); arithmetic over the reals. The random and the full data access are both chains of the same kind of program; each sees the other as part of the rest of the program."
},
"C141": {
"status": "proved",
"note": "rounding to nearest is a parameter (any rule for ties); exponents are unbounded in the specification, only used for values between 2^-100 and 2^100"
},
"C142": {
"status": "proved",
"note": "keys of chain and data must be independent: alias.amagold uses the same default key for both (C138)"
},
"C143": {
"status": "proved",
"note": "For runs under ideal random numbers and mini-batches (Spec.IdealRandom), with the full potential exact on its domain; the sample size N depends on the model, l, u, accuracy and confidence, not on the schedule, the selection or the key."
},
"C144": {
"status": "proved",
"note": "c144_alias for any ideal source of mini-batches and exact full potential; c144_numpy and c144_device from the data loaders to the returned samples. first_step_size = last_step_size fails in the code (C94) and is excluded."
},
"C145": {
"status": "proved",
"note": "Ideal random numbers (Spec.IdealRandom); convergence in probability, uniform over schedules and choices of samples. The hypotheses are shown to be met by an unbounded function (the parameter itself, normal posterior)."
},
"C146": {
"status": "proved",
"note": "Errors of the source (any), of the mapped function (unmasked maps; a masked function is total in the model) and, for host data, of the request are passed on; released loaders: c146_cache_suffices and c146_released."
},
"C147": {
"status": "proved",
"note": "c147_average for every decreasing schedule and set of samples, c147_mean_square for all samples, c147_polynomial for the values of polynomial_step_size (mean square and probability). Ideal random numbers as in C135."
},
"C148": {
"status": "proved",
"note": "Total variation; also for alias.amagold with NumpyDataLoader and DeviceNumpyDataLoader. Random numbers as in Spec.IdealRandom/IdealNumpy/IdealKeys."
},
"C149": {
"status": "proved",
"note": "Mean-square convergence and convergence in probability on the event that the variances of the burn-in samples are positive, and positive probability of this event. Ideal random numbers; bounded test functions; constant step size after the burn in."
},
"C150": {
"status": "partial",
"note": "False for batches of one observation (squeeze, then mean over axis 0 raises): c150_false. Proved for batches of two or more observations and for the masked evaluation used by full_potential."
},
"C151": {
"status": "proved",
"note": "Whole run of mcmc with the polynomial schedule, burn in and optional random thinning; convergence in mean square (c151_converges) and probability with both loaders. Ideal random numbers, strongly convex potential, Lipschitz functions."
},
"C152": {
"status": "proved",
"note": "All interleavings of any number of calls, iterations, releases and other operations of the program; the data states of the mapper are hidden from the rest of the program (EnvOkR). The results before the release are those of C22 for numpy data loaders; the part after the release holds for every host data loader."
},
"C153": {
"status": "partial",
"note": "False for every device data loader: AttributeError (c153_false_device). Proved for numpy data loaders on the host."
},
"C154": {
"status": "partial",
"note": "False: c154_false_default (TypeError), c154_false_zero (ZeroDivisionError after the registration, never released), c154_false_cache (accepted). Proved: batches larger than the dataset are rejected, valid sizes behave like random_reference_data."
},
"C155": {
"status": "proved",
"note": "All interleavings; exact arithmetic over a field of characteristic zero. Likelihoods satisfy LogLik and StateFits as in C25."
},
"C156": {
"status": "proved",
"note": "c156_adaptive: total variation, uniform over events and numbers of iterations; N depends on the key and on the burn in."
},
"C157": {
"status": "proved",
"note": "c157_joint, c157_conditional: convergence on every event, under the condition of positive variances."
},
"C158": {
"status": "partial",
"note": "c158_false: false in the code (load_state compares neither kind nor options), c158_false_shape: the batch size of a chain changes. Proved: c158_detected_partial (random checkpoint into ordered chain raises, nothing changes), c158_ignored_partial (ordered checkpoint into random chain is without effect), c158_takes_over_partial (random into random: the whole stream is taken over), c158_shape_partial (a chain restored only from its own checkpoints keeps the registered shape in every history)."
},
"C159": {
"status": "partial",
"note": "c159_false: for two or more selections the inclusion probabilities are not proportional to the step sizes (draws without replacement). Proved: c159_draws_partial (exact distribution of the selected list for ideal Gumbel noise), c159_inclusion_partial (inclusion probabilities as sums over the draws), c159_single_partial (the claim for one selection)."
},
"C160": {
"status": "proved",
"note": "memCalls models caught exceptions between calls; finished is asked after the calls (waiting is C46)"
},
"C161": {
"status": "partial",
"note": "false in the code (broadcasting): c161_false; the exact behaviour is c161_broadcast_partial"
},
"C162": {
"status": "partial",
"note": "false in the code: c162_false; c162_distinct_partial, c162_own_key_partial, c162_key_partial"
},
"C163": {
"status": "partial",
"note": "False in the code for trees with other keys or additional leaves (c163_false). c163_stacked_partial characterises the accepted lists; c163_inverse_partial and c163_vmap_partial give the values for trees of the same shape."
},
"C164": {
"status": "partial",
"note": "False in the code (c164_false). c164_bound_partial: at most the samples between both burn ins are missing; c164_kept_partial: the announced number is kept if the thinning uses a burn in which is at least that of the chain."
},
"C165": {
"status": "proved",
"note": "c165_kept, c165_schedule, c165_counts for two arbitrary runs with the same scheduler; c165_package: the schedules of the package to which it applies (all but the adaptive step size)"
},
"C166": {
"status": "partial",
"note": "The full statement is false (c166_false: other number of selections for the helper). Proved: with random thinning the stacking succeeds iff no override changes the number of selections, in every iteration; without thinning it always succeeds; for any thinning iff the shapes of its states agree. Holds for all step size, temperature and burn in schedules whose state shapes depend only on the number of iterations; c166_package_partial: all of the package (with numbers as parameters)."
},
"C167": {
"status": "proved",
"note": "The number of iterations between two reports is the exact quotient (C141). With burn in overrides etc. the theorem needs only that init succeeds."
},
"C168": {
"status": "partial",
"note": "False in the code (c168_false: the name temprature is accepted without effect). Proved: names of parameters are checked (c168_parameters_partial), unknown names of schedulers are ignored (c168_ignored_partial), well-spelled dictionaries have the effect of the resolved overrides (c168_resolved_partial), overridden parameters act like those of the constructors (c168_package_partial), a single dictionary is rejected (c168_single_partial)."
},
"C169": {
"status": "partial",
"note": "False in the code (c169_false). Proved: with at least one additional scheduler the callback raises TypeError in every iteration (c169_silent_partial), without one the lines of C167 are printed (c169_alone_partial), the states are those of separate updates (c169_states_partial), without bar there is no callback (c169_disabled_partial). What jax does with an exception of the callback is not modelled."
},
"C170": {
"status": "partial",
"note": "False in the code (c170_false, two chains). Proved: what the callback does in every iteration for one chain and for several chains (c170_lanes_partial). The chains are given identical scheduler states, as run initialises them. What jax does with an exception of the callback is not modelled."
}
}