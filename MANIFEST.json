{
 "claims": [
  {
   "property": "C01",
   "status": "proved",
   "theorems": [
    "JaxSgmc.c01_ordered_passes"
   ],
   "note": "All reachable loaders, all histories (also on other chains) without restoring the chain itself."
  },
  {
   "property": "C02",
   "status": "proved",
   "theorems": [
    "JaxSgmc.c02_in_epochs"
   ],
   "note": "Assumes Generator.choice(replace=False) returns a permutation (Rng.Lawful)."
  },
  {
   "property": "C03",
   "status": "proved",
   "theorems": [
    "JaxSgmc.c03_shuffle"
   ],
   "note": "Assumes Generator.choice(replace=False) returns a permutation (Rng.Lawful)."
  },
  {
   "property": "C04",
   "status": "proved",
   "theorems": [
    "JaxSgmc.c04_answer",
    "JaxSgmc.c04_registered_shape"
   ],
   "note": "c04_answer covers every reachable state including restored chains; c04_registered_shape ties the shape to the registration."
  },
  {
   "property": "C05",
   "status": "proved",
   "theorems": [
    "JaxSgmc.c05_cache_random",
    "JaxSgmc.c05_cache_ordered"
   ],
   "note": "Random and ordered chains; shorter sequence is a prefix of the longer."
  },
  {
   "property": "C06",
   "status": "proved",
   "theorems": [
    "JaxSgmc.c06_resume",
    "JaxSgmc.c06_resume_elsewhere"
   ],
   "note": "Same chain after arbitrary operations, and a chain of another loader registered by the same call."
  },
  {
   "property": "C07",
   "status": "partial",
   "theorems": [
    "JaxSgmc.c07_second_load_raises",
    "JaxSgmc.c07_false",
    "JaxSgmc.c07_first_load_partial"
   ],
   "note": "False of the code: load_state empties the checkpoint with popitem; c07_false / c07_second_load_raises prove that every second load raises KeyError. Partial: the first load is exact."
  },
  {
   "property": "C08",
   "status": "proved",
   "theorems": [
    "JaxSgmc.c08_isolation"
   ],
   "note": "Whole histories (operations and outcomes) of a chain, including checkpoints."
  },
  {
   "property": "C09",
   "status": "proved",
   "theorems": [
    "JaxSgmc.c09_seed"
   ],
   "note": "Includes the default seed (chain id)."
  },
  {
   "property": "C10",
   "status": "proved",
   "theorems": [
    "JaxSgmc.c10_construct",
    "JaxSgmc.c10_register",
    "JaxSgmc.c10_fresh_ids",
    "JaxSgmc.c10_reference_data"
   ],
   "note": "Registration on the loader; argument checks of random_reference_data."
  },
  {
   "property": "C11",
   "status": "proved",
   "theorems": [
    "JaxSgmc.c11_linear",
    "JaxSgmc.c11_numpy"
   ],
   "note": "c11_linear for every host loader satisfying the interface contract (Spec.Contract), c11_numpy with the contract and all answers discharged for the numpy loader; other chains, loaders and releases may be interleaved."
  },
  {
   "property": "C12",
   "status": "proved",
   "theorems": [
    "JaxSgmc.c12_stale"
   ],
   "note": "Arbitrary history before and after; only the consuming refresh itself must be unannounced (device_count=1)."
  },
  {
   "property": "C13",
   "status": "partial",
   "theorems": [
    "JaxSgmc.c13_false",
    "JaxSgmc.c13_unexpected_partial"
   ],
   "note": "False of the code: UnboundLocalError instead of a warning (c13_false, witness program). c13_unexpected_partial states exactly what happens for every outdated refresh."
  },
  {
   "property": "C14",
   "status": "proved",
   "theorems": [
    "JaxSgmc.c14_replicas"
   ],
   "note": "Any interleaving of the replicas and of arbitrary other operations."
  },
  {
   "property": "C15",
   "status": "proved",
   "theorems": [
    "JaxSgmc.c15_pending",
    "JaxSgmc.c15_nothing_left"
   ],
   "note": "Exact content of the response cache for every interleaving of the announced devices, starting from any reachable state."
  },
  {
   "property": "C16",
   "status": "proved",
   "theorems": [
    "JaxSgmc.c16_cached_batches",
    "JaxSgmc.c16_no_refresh",
    "JaxSgmc.c16_others"
   ],
   "note": "c16_no_refresh assumes no announced replicas (a replica may still take a response cached for it)."
  },
  {
   "property": "C17",
   "status": "proved",
   "theorems": [
    "JaxSgmc.c17_host_map",
    "JaxSgmc.c17_rowwise"
   ],
   "note": "Numpy loader, arbitrary interleaved operations; the only condition on the history is that the data state is used by complete maps."
  },
  {
   "property": "C18",
   "status": "proved",
   "theorems": [
    "JaxSgmc.c18_host_masked"
   ],
   "note": "Numpy loader; the mask given to the function equals the mask of the batch information."
  },
  {
   "property": "C19",
   "status": "proved",
   "theorems": [
    "JaxSgmc.c19_offset",
    "JaxSgmc.c19_device_masked",
    "JaxSgmc.c19_device_unmasked"
   ],
   "note": "From every position, hence by induction on every pass; with and without masking."
  },
  {
   "property": "C20",
   "status": "partial",
   "theorems": [
    "JaxSgmc.c20_false",
    "JaxSgmc.c20_rotation_partial",
    "JaxSgmc.c20_order_partial"
   ],
   "note": "False of the code when the batch size does not divide N: from the second map on the results are rotated (c20_false). Partial: exact rotation for every map; correct order on the first map and when the batch size divides N."
  },
  {
   "property": "C21",
   "status": "partial",
   "theorems": [
    "JaxSgmc.c21_false",
    "JaxSgmc.c21_device_partial",
    "JaxSgmc.c21_host_partial"
   ],
   "note": "False of the code for device loaders (cached_batches_count is used as batch size, c21_false). Partial: host loaders use mb_size; device loaders use cached_batches_count."
  },
  {
   "property": "C22",
   "status": "proved",
   "theorems": [
    "JaxSgmc.c22_concurrent",
    "JaxSgmc.c22_rowwise"
   ],
   "note": "Every interleaving of the calls' iterations and of other program operations; includes progress (no call can get stuck or fail)."
  },
  {
   "property": "C23",
   "status": "proved",
   "theorems": [
    "JaxSgmc.c23_masked",
    "JaxSgmc.c23_unmasked"
   ],
   "note": "Every data source (host or device)."
  },
  {
   "property": "C24",
   "status": "proved",
   "theorems": [
    "JaxSgmc.c24_stateless",
    "JaxSgmc.c24_stateful_one",
    "JaxSgmc.c24_stateful_raises"
   ],
   "note": "c24_stateless for all batch sizes; also stateful functions with mb_size=1; c24_stateful_raises records that mb_size>1 with a state raises."
  },
  {
   "property": "C25",
   "status": "proved",
   "theorems": [
    "JaxSgmc.c25_host",
    "JaxSgmc.c25_device"
   ],
   "note": "c25_host (numpy loaders, after any history of complete passes), c25_device (device loaders, from any line). Exact arithmetic in any field of characteristic 0; the likelihood value must not depend on the model state."
  },
  {
   "property": "C26",
   "status": "proved",
   "theorems": [
    "JaxSgmc.c26_formula",
    "JaxSgmc.c26_formula_single",
    "JaxSgmc.c26_unbiased",
    "JaxSgmc.c26_unbiased_permuted"
   ],
   "note": "c26_formula, c26_unbiased (all N^n draws with replacement), c26_unbiased_permuted (without replacement). Batched likelihoods need batch size >= 2 (batch size 1 raises in the code)."
  },
  {
   "property": "C27",
   "status": "proved",
   "theorems": [
    "JaxSgmc.c27_strategy",
    "JaxSgmc.c27_batched",
    "JaxSgmc.c27_batched_stateful"
   ],
   "note": "map = vmap for every likelihood, state and mask; pointwise batched likelihoods agree with them (pmap not modelled)."
  },
  {
   "property": "C28",
   "status": "partial",
   "theorems": [
    "JaxSgmc.c28_false",
    "JaxSgmc.c28_explicit_mask_partial",
    "JaxSgmc.c28_info_mask_unused_partial"
   ],
   "note": "False of the code: the mask in the batch information is never read (c28_false). Partial: explicit mask arguments are respected; the information mask has no influence."
  },
  {
   "property": "C29",
   "status": "proved",
   "theorems": [
    "JaxSgmc.c29_full",
    "JaxSgmc.c29_first_state",
    "JaxSgmc.c29_evaluated",
    "JaxSgmc.c29_stateless"
   ],
   "note": "c29_first_state, c29_evaluated, c29_stateless."
  },
  {
   "property": "C30",
   "status": "proved",
   "theorems": [
    "JaxSgmc.c30_no_thinning",
    "JaxSgmc.c30_random_thinning"
   ],
   "note": "c30_no_thinning, c30_random_thinning: for initial_burn_in with any override, no thinning or random thinning with arbitrary schedules. A burn in longer than the run announces a negative number (then nothing is kept)."
  },
  {
   "property": "C31",
   "status": "proved",
   "theorems": [
    "JaxSgmc.c31_no_thinning",
    "JaxSgmc.c31_random_thinning"
   ],
   "note": "c31_no_thinning, c31_random_thinning (thinning set up with the burn in of the run, positive step sizes)."
  },
  {
   "property": "C32",
   "status": "proved",
   "theorems": [
    "JaxSgmc.c32_burn_in",
    "JaxSgmc.c32_after_burn_in"
   ],
   "note": "c32_burn_in (any thinning), c32_after_burn_in."
  },
  {
   "property": "C33",
   "status": "proved",
   "theorems": [
    "JaxSgmc.c33_random_thinning"
   ],
   "note": "random.choice is modelled as argsort of -gumbel-log p with arbitrary noise."
  },
  {
   "property": "C34",
   "status": "proved",
   "theorems": [
    "JaxSgmc.c34_polynomial",
    "JaxSgmc.c34_rejected"
   ],
   "note": "Exact real arithmetic with IEEE special values."
  },
  {
   "property": "C35",
   "status": "partial",
   "theorems": [
    "JaxSgmc.c35_false_equal",
    "JaxSgmc.c35_false_single",
    "JaxSgmc.c35_false",
    "JaxSgmc.c35_first_last_partial"
   ],
   "note": "False of the code: equal step sizes give NaN in every iteration (c35_false_equal), a single iteration fails an assertion (c35_false_single). Partial: first > last > 0 and at least two iterations."
  },
  {
   "property": "C36",
   "status": "proved",
   "theorems": [
    "JaxSgmc.c36_adaptive"
   ],
   "note": "Real arithmetic; the initial step size must be positive."
  },
  {
   "property": "C37",
   "status": "partial",
   "theorems": [
    "JaxSgmc.c37_false",
    "JaxSgmc.c37_adaptive_partial",
    "JaxSgmc.c37_others_partial"
   ],
   "note": "False of the code: overrides of target_acceptance_rate are ignored (c37_false). Partial: all other parameters and schedulers."
  },
  {
   "property": "C38",
   "status": "proved",
   "theorems": [
    "JaxSgmc.c38_no_interference",
    "JaxSgmc.c38_same_errors",
    "JaxSgmc.c38_counts"
   ],
   "note": "c38_no_interference, c38_same_errors, c38_counts."
  },
  {
   "property": "C39",
   "status": "proved",
   "theorems": [
    "JaxSgmc.c39_schedule",
    "JaxSgmc.c39_defaults"
   ],
   "note": "c39_schedule, c39_defaults."
  },
  {
   "property": "C40",
   "status": "proved",
   "theorems": [
    "JaxSgmc.c40_no_save",
    "JaxSgmc.c40_negative",
    "JaxSgmc.c40_nothing_lost"
   ],
   "note": "c40_no_save, c40_nothing_lost."
  },
  {
   "property": "C41",
   "status": "proved",
   "theorems": [
    "JaxSgmc.c41_same_result",
    "JaxSgmc.c41_file",
    "JaxSgmc.c41_overflow",
    "JaxSgmc.c41_runs"
   ],
   "note": "Callbacks executed immediately; the asynchronous execution is C46/C47. c41_overflow: too many samples raise IndexError."
  },
  {
   "property": "C42",
   "status": "proved",
   "theorems": [
    "JaxSgmc.c42_run",
    "JaxSgmc.c42_kept_iterations",
    "JaxSgmc.c42_schedulers",
    "JaxSgmc.c42_schedules",
    "JaxSgmc.c42_burn_in"
   ],
   "note": "Solvers are pure functions of their state (data drawn through callbacks not covered)."
  },
  {
   "property": "C43",
   "status": "proved",
   "theorems": [
    "JaxSgmc.c43_independent",
    "JaxSgmc.c43_independent_host"
   ],
   "note": "Device saving unconditionally; host saving under the conditions of C41."
  },
  {
   "property": "C44",
   "status": "proved",
   "theorems": [
    "JaxSgmc.c44_vmap_eq_map"
   ],
   "note": "c44_vmap_eq_map: an equivalence without hypotheses on the solver; states of one structure are assumed by the model of vmap."
  },
  {
   "property": "C45",
   "status": "partial",
   "theorems": [
    "JaxSgmc.c45_false",
    "JaxSgmc.c45_all_kept_partial"
   ],
   "note": "False of the code: under vmap the callback is executed also for samples which are not kept (c45_false). Partial: runs in which every sample is kept."
  },
  {
   "property": "C46",
   "status": "proved",
   "theorems": [
    "JaxSgmc.c46_finished_waits",
    "JaxSgmc.c46_same_as_device",
    "JaxSgmc.c46_progress"
   ],
   "note": "Every schedule; c46_finished_waits, c46_same_as_device, c46_progress. Callbacks of one chain are executed in order (host_callback)."
  },
  {
   "property": "C47",
   "status": "partial",
   "theorems": [
    "JaxSgmc.c47_after_callbacks_partial",
    "JaxSgmc.c47_false"
   ],
   "note": "False of the code: the lock is released before the file is written (c47_false). Partial: the file is complete once the callbacks of the chain are executed."
  },
  {
   "property": "C48",
   "status": "proved",
   "theorems": [
    "JaxSgmc.c48_names",
    "JaxSgmc.c48_files",
    "JaxSgmc.c48_finalized",
    "JaxSgmc.c48_ids",
    "JaxSgmc.c48_save_ok"
   ],
   "note": "All histories of register/save/finalize of any number of chains; files named by chain and iteration are written exactly when due and hold exactly the first i samples."
  },
  {
   "property": "C49",
   "status": "proved",
   "theorems": [
    "JaxSgmc.c49_rows",
    "JaxSgmc.c49_untouched",
    "JaxSgmc.c49_overflow",
    "JaxSgmc.c49_register"
   ],
   "note": "All successful call histories; rows, untouched datasets, IndexError on overflow, registration succeeds for clean keys. HDF5 file modelled as list of datasets; dtype/shape checks of rows not modelled."
  },
  {
   "property": "C50",
   "status": "proved",
   "theorems": [
    "JaxSgmc.c50_round_trip",
    "JaxSgmc.c50_subdir"
   ],
   "note": "Round trip for the whole sample (c50_round_trip) and for an entry of a dict sample (c50_subdir, default subdir /chain~0/variables/)."
  },
  {
   "property": "C51",
   "status": "partial",
   "theorems": [
    "JaxSgmc.c51_false_swapped",
    "JaxSgmc.c51_false_empty",
    "JaxSgmc.c51_false",
    "JaxSgmc.c51_names_partial",
    "JaxSgmc.c51_permuted_partial"
   ],
   "note": "False of the code: leaves of a named tuple with unsorted fields (or of a list with more than ten elements) are stored under exchanged names (c51_false_swapped); an empty list or tuple raises AttributeError. Partial: ordered trees without empty sequences; the exact error condition and that the names are a permutation for every tree."
  },
  {
   "property": "C52",
   "status": "partial",
   "theorems": [
    "JaxSgmc.c52_false_swapped",
    "JaxSgmc.c52_false_list",
    "JaxSgmc.c52_false",
    "JaxSgmc.c52_roundtrip_partial",
    "JaxSgmc.c52_permuted_partial"
   ],
   "note": "False of the code (c52_false_swapped, c52_false_list). Partial: identity on ordered trees; for every tree without empty sequences the structure is restored and the leaves are a permutation."
  },
  {
   "property": "C53",
   "status": "partial",
   "theorems": [
    "JaxSgmc.c53_unique",
    "JaxSgmc.c53_false_joined",
    "JaxSgmc.c53_joined_partial"
   ],
   "note": "Key tuples are unique and prefix-free for every tree; joined names collide if keys contain '/' (c53_false_joined), unique otherwise."
  },
  {
   "property": "C54",
   "status": "proved",
   "theorems": [
    "JaxSgmc.c54_unstack_stack",
    "JaxSgmc.c54_stack_unstack",
    "JaxSgmc.c54_rejected"
   ],
   "note": "Shape checks of jnp.stack are not modelled."
  },
  {
   "property": "C55",
   "status": "proved",
   "theorems": [
    "JaxSgmc.c55_list_vmap"
   ],
   "note": "jax.vmap is modelled by its specification: map over slices."
  },
  {
   "property": "C56",
   "status": "proved",
   "theorems": [
    "JaxSgmc.c56_add",
    "JaxSgmc.c56_multiply",
    "JaxSgmc.c56_scale",
    "JaxSgmc.c56_dot",
    "JaxSgmc.c56_unravel",
    "JaxSgmc.c56_matmul",
    "JaxSgmc.c56_matmul_rejected"
   ],
   "note": "Over any semiring; broadcasting between leaves of different shape is not modelled."
  },
  {
   "property": "C57",
   "status": "proved",
   "theorems": [
    "JaxSgmc.c57_matrix",
    "JaxSgmc.c57_agree",
    "JaxSgmc.c57_rejected"
   ],
   "note": "c57_matrix, c57_agree, c57_rejected."
  },
  {
   "property": "C58",
   "status": "proved",
   "theorems": [
    "JaxSgmc.c58_new",
    "JaxSgmc.c58_injective",
    "JaxSgmc.c58_roundtrip"
   ],
   "note": "c58_new, c58_injective, c58_roundtrip."
  },
  {
   "property": "C59",
   "status": "proved",
   "theorems": [
    "JaxSgmc.c59_update",
    "JaxSgmc.c59_potential",
    "JaxSgmc.c59_data"
   ],
   "note": "Proved for all integrators / generators / data sources of the model (real arithmetic; energies may be NaN or infinite)."
  },
  {
   "property": "C60",
   "status": "proved",
   "theorems": [
    "JaxSgmc.c60_update",
    "JaxSgmc.c60_potential",
    "JaxSgmc.c60_data"
   ],
   "note": "Proved for all integrators / generators / data sources of the model (real arithmetic; energies may be NaN or infinite)."
  },
  {
   "property": "C61",
   "status": "proved",
   "theorems": [
    "JaxSgmc.c61_amagold",
    "JaxSgmc.c61_sggmc"
   ],
   "note": "Proved for all integrators / generators / data sources of the model (real arithmetic; energies may be NaN or infinite)."
  },
  {
   "property": "C62",
   "status": "partial",
   "theorems": [
    "JaxSgmc.c62_inverted_partial",
    "JaxSgmc.c62_false"
   ],
   "note": "False in the code: the branches of lax.cond are exchanged (solver.py), the chains are swapped exactly if log u >= log_s; c62_false is the counterexample, c62_inverted_partial states what the code does."
  },
  {
   "property": "C63",
   "status": "proved",
   "theorems": [
    "JaxSgmc.c63_chains",
    "JaxSgmc.c63_reported"
   ],
   "note": "Proved for all integrators / generators / data sources of the model (real arithmetic; energies may be NaN or infinite)."
  },
  {
   "property": "C64",
   "status": "proved",
   "theorems": [
    "JaxSgmc.c64_reversible",
    "JaxSgmc.c64_frictionless"
   ],
   "note": "Proved for all integrators / generators / data sources of the model (real arithmetic; energies may be NaN or infinite)."
  },
  {
   "property": "C65",
   "status": "proved",
   "theorems": [
    "JaxSgmc.c65_reciprocal"
   ],
   "note": "Proved for all integrators / generators / data sources of the model (real arithmetic; energies may be NaN or infinite)."
  },
  {
   "property": "C66",
   "status": "proved",
   "theorems": [
    "JaxSgmc.c66_bab",
    "JaxSgmc.c66_refresh"
   ],
   "note": "c66_bab: L steps without friction; c66_refresh: mean and covariance of the refreshed momentum (Mathlib integrals)."
  },
  {
   "property": "C67",
   "status": "partial",
   "theorems": [
    "JaxSgmc.c67_scaled_partial",
    "JaxSgmc.c67_iff_partial",
    "JaxSgmc.c67_model_partial",
    "JaxSgmc.c67_fisher_partial",
    "JaxSgmc.c67_false"
   ],
   "note": "False in the code: without noise model the noise is friction*sqrt(2h)*xi instead of sqrt(2*friction*h)*xi (integrator.py, last branch of _body_fun); right exactly for friction 0 and 1 (c67_iff_partial), and right with a noise model returning sqrt(friction)."
  },
  {
   "property": "C68",
   "status": "proved",
   "theorems": [
    "JaxSgmc.c68_sgld",
    "JaxSgmc.c68_rmsprop"
   ],
   "note": "Holds along every run, with and without RMSprop."
  },
  {
   "property": "C69",
   "status": "proved",
   "theorems": [
    "JaxSgmc.c69_rmsprop"
   ],
   "note": "For all gradient sequences."
  },
  {
   "property": "C70",
   "status": "proved",
   "theorems": [
    "JaxSgmc.c70_before",
    "JaxSgmc.c70_adapted",
    "JaxSgmc.c70_massOk"
   ],
   "note": "Welford's algorithm over the reals; zero variances are excluded from the sqrt statement (division by zero in the code)."
  },
  {
   "property": "C71",
   "status": "partial",
   "theorems": [
    "JaxSgmc.c71_before_partial",
    "JaxSgmc.c71_inv_partial",
    "JaxSgmc.c71_one_partial",
    "JaxSgmc.c71_false"
   ],
   "note": "False in the code: sqrt is built from the eigenvalues of the covariance instead of their reciprocals (and with transposed eigenvectors); c71_false is the counterexample, the inverse mass itself is right."
  },
  {
   "property": "C72",
   "status": "partial",
   "theorems": [
    "JaxSgmc.c72_value_partial",
    "JaxSgmc.c72_iff_partial",
    "JaxSgmc.c72_false"
   ],
   "note": "False in the code: the mean gradient is subtracted with the wrong sign (the potential is the negative log likelihood); c72_value_partial gives the value computed, c72_iff_partial when it is right."
  },
  {
   "property": "C73",
   "status": "partial",
   "theorems": [
    "JaxSgmc.c73_error_partial",
    "JaxSgmc.c73_given_partial",
    "JaxSgmc.c73_false"
   ],
   "note": "False in the code: None is flattened to an empty vector by the adaption decorator, so that the check for None never succeeds and unravelling raises ValueError."
  },
  {
   "property": "C74",
   "status": "proved",
   "theorems": [
    "JaxSgmc.c74_langevin",
    "JaxSgmc.c74_friction",
    "JaxSgmc.c74_tempering",
    "JaxSgmc.c74_amagold",
    "JaxSgmc.c74_sggmc"
   ],
   "note": "For every ideal generator (keys returned by one split have no common descendants); all keys drawn by langevin, friction_leapfrog, parallel tempering, AMAGOLD and SGGMC runs are pairwise different."
  },
  {
   "property": "C75",
   "status": "partial",
   "theorems": [
    "JaxSgmc.c75_same_partial",
    "JaxSgmc.c75_noise_partial",
    "JaxSgmc.c75_independent_partial",
    "JaxSgmc.c75_false"
   ],
   "note": "False in the code: every chain is initialised with the default key PRNGKey(0) and all chains draw with the same keys (c75_same_partial, c75_false); with independent keys passed by the caller the claim holds (c75_independent_partial)."
  },
  {
   "property": "C76",
   "status": "partial",
   "theorems": [
    "JaxSgmc.c76_after_callbacks_partial",
    "JaxSgmc.c76_false"
   ],
   "note": "False of the code (c76_false): the barriers in finalize/finished are commented out. Proved: no callback fails and the file is complete once the pending callbacks of the chain were executed."
  },
  {
   "property": "C77",
   "status": "proved",
   "theorems": [
    "JaxSgmc.c77_same_batches",
    "JaxSgmc.c77_open"
   ],
   "note": "Bisimulation over all histories; c77_open shows that opening a file gives related loaders."
  },
  {
   "property": "C78",
   "status": "partial",
   "theorems": [
    "JaxSgmc.c78_amagold",
    "JaxSgmc.c78_nan_accepted",
    "JaxSgmc.c78_false",
    "JaxSgmc.c78_sggmc_inf_partial"
   ],
   "note": "Holds for AMAGOLD (c78_amagold) and for +inf in SGGMC; false for NaN in SGGMC (c78_nan_accepted, c78_false): a NaN energy error is accepted with ratio 1."
  },
  {
   "property": "C79",
   "status": "proved",
   "theorems": [
    "JaxSgmc.c79_amagold"
   ],
   "note": "Proved for all integrators / generators / data sources of the model (real arithmetic; energies may be NaN or infinite)."
  },
  {
   "property": "C80",
   "status": "proved",
   "theorems": [
    "JaxSgmc.c80_sggmc"
   ],
   "note": "Pathwise detailed balance for real energies; sggmc_reversed_exists shows that the reversed run exists."
  },
  {
   "property": "C81",
   "status": "proved",
   "theorems": [
    "JaxSgmc.c81_draws",
    "JaxSgmc.c81_epochs",
    "JaxSgmc.c81_shuffle"
   ],
   "note": "Successive draws of a lawful generator; start state R.seed(seed or chain id)."
  },
  {
   "property": "C82",
   "status": "proved",
   "theorems": [
    "JaxSgmc.c82_amagold_invariant",
    "JaxSgmc.c82_code_step",
    "JaxSgmc.c82_run_invariant"
   ],
   "note": "Any constant or adapted mass; constrained supports are C128."
  },
  {
   "property": "C83",
   "status": "partial",
   "theorems": [
    "JaxSgmc.c83_negated_partial",
    "JaxSgmc.c83_even_partial",
    "JaxSgmc.c83_code_step",
    "JaxSgmc.c83_step",
    "JaxSgmc.c83_false"
   ],
   "note": "False for the code: on rejection the momentum is kept, not negated (solver.py:530-541). c83_false gives a counterexample with exact gradients in one dimension. Proved: with negation on rejection the target is invariant (c83_negated_partial); one step preserves all expectations of functions even in the momentum, e.g. the distribution of positions (c83_even_partial); link of the specification step to the code with any generator and data source (c83_code_step). Missing: invariance itself, which does not hold."
  },
  {
   "property": "C84",
   "status": "partial",
   "theorems": [
    "JaxSgmc.c84_false_none",
    "JaxSgmc.c84_false",
    "JaxSgmc.c84_complete_partial",
    "JaxSgmc.c84_missing_partial"
   ],
   "note": "False of the code: a missing entry is silently replaced by None (c84_false_none, c84_false). Partial: complete dictionaries restore the tree (c84_complete_partial), a missing container raises an exception (c84_missing_partial)."
  },
  {
   "property": "C85",
   "status": "partial",
   "theorems": [
    "JaxSgmc.c85_structure_partial",
    "JaxSgmc.c85_false_dot",
    "JaxSgmc.c85_false",
    "JaxSgmc.c85_dot_partial"
   ],
   "note": "False of the code for tree_dot, which zips the leaves (c85_false_dot, c85_false; c85_dot_partial describes its result exactly). Partial: the other operations raise ValueError (c85_structure_partial)."
  },
  {
   "property": "C86",
   "status": "proved",
   "theorems": [
    "JaxSgmc.c86_initial",
    "JaxSgmc.c86_amagold_initial",
    "JaxSgmc.c86_friction_independent",
    "JaxSgmc.c86_friction",
    "JaxSgmc.c86_obabo"
   ],
   "note": "Distribution of the momenta as measures (idealised normal numbers): initial momentum of reversible_leapfrog and friction_leapfrog, momentum after the O-steps of OBABO."
  },
  {
   "property": "C87",
   "status": "partial",
   "theorems": [
    "JaxSgmc.c87_sgld_partial",
    "JaxSgmc.c87_sghmc_partial",
    "JaxSgmc.c87_obabo_partial",
    "JaxSgmc.c87_sggmc_partial",
    "JaxSgmc.c87_false_sgld",
    "JaxSgmc.c87_false_obabo",
    "JaxSgmc.c87_false_amagold",
    "JaxSgmc.c87_false"
   ],
   "note": "False: langevin_diffusion reports the likelihood of the previous sample, OBABO the mean of two energies, AMAGOLD the energy difference accumulated along the trajectory. Exact values reported proved; SGHMC and the potential entry of SGGMC do hold."
  },
  {
   "property": "C88",
   "status": "proved",
   "theorems": [
    "JaxSgmc.c88_variance",
    "JaxSgmc.c88_mean"
   ],
   "note": "For arbitrary update functions of the chains; variance formula for langevin_diffusion."
  },
  {
   "property": "C89",
   "status": "proved",
   "theorems": [
    "JaxSgmc.c89_amagold",
    "JaxSgmc.c89_sggmc",
    "JaxSgmc.c89_init",
    "JaxSgmc.c89_constant"
   ],
   "note": "Reduces the update with adaption to one without adaption by the integrator with the mass obtained from the fold of the adaption over the reported samples."
  },
  {
   "property": "C90",
   "status": "proved",
   "theorems": [
    "JaxSgmc.c90_amagold",
    "JaxSgmc.c90_sggmc"
   ],
   "note": "For finite energies; NaN is treated in C78."
  },
  {
   "property": "C91",
   "status": "proved",
   "theorems": [
    "JaxSgmc.c91_total",
    "JaxSgmc.c91_clipped"
   ],
   "note": "Diagonal variant; real arithmetic."
  },
  {
   "property": "C92",
   "status": "proved",
   "theorems": [
    "JaxSgmc.c92_sgld_schedule",
    "JaxSgmc.c92_sgld",
    "JaxSgmc.c92_re_sgld",
    "JaxSgmc.c92_sghmc",
    "JaxSgmc.c92_obabo",
    "JaxSgmc.c92_amagold_schedule",
    "JaxSgmc.c92_amagold",
    "JaxSgmc.c92_sggmc"
   ],
   "note": "All six solvers. Data source as a pure function; real arithmetic; host saving without save_dir."
  },
  {
   "property": "C93",
   "status": "partial",
   "theorems": [
    "JaxSgmc.c93_false_sgld",
    "JaxSgmc.c93_false_sghmc",
    "JaxSgmc.c93_false_re_sgld",
    "JaxSgmc.c93_false_obabo",
    "JaxSgmc.c93_false_metropolis",
    "JaxSgmc.c93_false",
    "JaxSgmc.c93_all_partial"
   ],
   "note": "False: every alias with thinning raises AssertionError (proved for sgld and sghmc for all arguments). Proved instead: with accepted_samples = iterations - burn_in all samples are returned, with less see C92."
  },
  {
   "property": "C94",
   "status": "partial",
   "theorems": [
    "JaxSgmc.c94_false_nan",
    "JaxSgmc.c94_false",
    "JaxSgmc.c94_different_partial"
   ],
   "note": "False: the schedule is accepted and yields NaN in every iteration. Proved instead for first > last."
  },
  {
   "property": "C95",
   "status": "proved",
   "theorems": [
    "JaxSgmc.c95_amagold",
    "JaxSgmc.c95_sggmc",
    "JaxSgmc.c95_rejected"
   ],
   "note": "amagold and sggmc, real arithmetic."
  },
  {
   "property": "C96",
   "status": "proved",
   "theorems": [
    "JaxSgmc.c96_batches",
    "JaxSgmc.c96_own_key",
    "JaxSgmc.c96_resume"
   ],
   "note": "jax.random.randint is a parameter with the assumption that it returns mb numbers below N."
  },
  {
   "property": "C97",
   "status": "partial",
   "theorems": [
    "JaxSgmc.c97_false_default_key",
    "JaxSgmc.c97_false",
    "JaxSgmc.c97_partial"
   ],
   "note": "False: chains without an explicit key all use PRNGKey(0) and draw identical mini-batches (c97_false). Proved for explicit independent keys and an ideal generator."
  },
  {
   "property": "C98",
   "status": "proved",
   "theorems": [
    "JaxSgmc.c98_initializer",
    "JaxSgmc.c98_delivered",
    "JaxSgmc.c98_device"
   ],
   "note": "Arrays are nested lists with a data type tag; the conversion of data types by jax is a parameter. The format returned by batch_format itself carries the unconverted data type; the callback converts it."
  },
  {
   "property": "C99",
   "status": "proved",
   "theorems": [
    "JaxSgmc.c99_stream",
    "JaxSgmc.c99_counts"
   ],
   "note": "tf.data is modelled by its documented semantics; the choices in the shuffle buffer are a parameter."
  },
  {
   "property": "C100",
   "status": "partial",
   "theorems": [
    "JaxSgmc.c100_false",
    "JaxSgmc.c100_sequential_partial"
   ],
   "note": "False: repeat() precedes shuffle() (c100_false). Proved: shuffle_cache=1 is sequential; in general the bounds of c99_counts."
  },
  {
   "property": "C101",
   "status": "proved",
   "theorems": [
    "JaxSgmc.c101_keys",
    "JaxSgmc.c101_missing_key",
    "JaxSgmc.c101_ordered"
   ],
   "note": "get_batches with an unknown chain id raises IndexError (not part of the statement)."
  },
  {
   "property": "C102",
   "status": "proved",
   "theorems": [
    "JaxSgmc.c102_stream",
    "JaxSgmc.c102_sgld",
    "JaxSgmc.c102_re_sgld",
    "JaxSgmc.c102_sghmc",
    "JaxSgmc.c102_obabo",
    "JaxSgmc.c102_amagold",
    "JaxSgmc.c102_sggmc",
    "JaxSgmc.c102_consumed_langevin",
    "JaxSgmc.c102_consumed_friction",
    "JaxSgmc.c102_consumed_obabo",
    "JaxSgmc.c102_consumed_amagold",
    "JaxSgmc.c102_consumed_sggmc",
    "JaxSgmc.c102_consumed_tempering"
   ],
   "note": "End-to-end composition of NumpyDataLoader, the request cache, batch_fn, the integrators and the solvers. One system per chain; arbitrary host operations of others (env) before every call; draws of one chain are sequential."
  },
  {
   "property": "C103",
   "status": "proved",
   "theorems": [
    "JaxSgmc.c103_dual_averaging",
    "JaxSgmc.c103_monotone",
    "JaxSgmc.c103_bounds"
   ],
   "note": "Real arithmetic. A NaN acceptance ratio is outside (toReal gives 0 in the model). The code uses the averaged step size already during burn in (unlike Hoffman and Gelman); the specification follows this."
  },
  {
   "property": "C104",
   "status": "proved",
   "theorems": [
    "JaxSgmc.c104_conditions",
    "JaxSgmc.c104_sharp"
   ],
   "note": "p-series; sharp in gamma"
  },
  {
   "property": "C105",
   "status": "proved",
   "theorems": [
    "JaxSgmc.c105_gradient",
    "JaxSgmc.c105_unbiased",
    "JaxSgmc.c105_epoch",
    "JaxSgmc.c105_sgld"
   ],
   "note": "gradient as Frechet derivative over the reals; unbiasedness over all draws with replacement, over epochs, and of one SGLD update"
  },
  {
   "property": "C106",
   "status": "proved",
   "theorems": [
    "JaxSgmc.c106_potential",
    "JaxSgmc.c106_amagold",
    "JaxSgmc.c106_sggmc"
   ],
   "note": "likelihoods without model state; host loader NumpyDataLoader; potential exact at every evaluation, whole runs of amagold and sggmc"
  },
  {
   "property": "C107",
   "status": "partial",
   "theorems": [
    "JaxSgmc.c107_device_partial",
    "JaxSgmc.c107_divides_partial",
    "JaxSgmc.c107_false",
    "JaxSgmc.c107_host_partial",
    "JaxSgmc.c107_zero_density_accepted"
   ],
   "note": "false: a masked filler of the last batch contributes 0 * (-inf) = NaN (potential.py:185); exact characterisation proved (NaN iff a filler has zero density, otherwise correct; correct if the batch size divides N); consequence: SGGMC accepts samples of zero density"
  },
  {
   "property": "C108",
   "status": "proved",
   "theorems": [
    "JaxSgmc.c108_sgld",
    "JaxSgmc.c108_adapted",
    "JaxSgmc.c108_psgld"
   ],
   "note": "refinement of the tree-level langevin_diffusion (with errors of the tree functions) by the vector-level model for every valid tree; decorated strategies in general and rms_prop"
  },
  {
   "property": "C109",
   "status": "proved",
   "theorems": [
    "JaxSgmc.c109_obabo",
    "JaxSgmc.c109_reversible",
    "JaxSgmc.c109_friction",
    "JaxSgmc.c109_friction_rejected"
   ],
   "note": "refinement of the tree-level integrators (with the errors of the tree functions) by the vector-level models of C64-C66, C79, C80, C86; the friction of friction_leapfrog is a number, an array (broadcast to every leaf, c109_friction_rejected if it does not fit) or a container"
  },
  {
   "property": "C110",
   "status": "partial",
   "theorems": [
    "JaxSgmc.c110_false",
    "JaxSgmc.c110_rejected",
    "JaxSgmc.c110_partial"
   ],
   "note": "false: if const_mass: raises ValueError for a sample which is a single array with several entries (c110_false, c110_rejected characterises exactly the rejected masses); proved for containers and arrays with at most one entry"
  },
  {
   "property": "C111",
   "status": "proved",
   "theorems": [
    "JaxSgmc.c111_mass_matrix_diagonal",
    "JaxSgmc.c111_mass_matrix_full",
    "JaxSgmc.c111_amagold",
    "JaxSgmc.c111_sggmc"
   ],
   "note": "c111_amagold, c111_sggmc: the runs on trees succeed and are related entry by entry to the runs on vectors for any mass adaption satisfying SameMassAdaption; c111_mass_matrix_diagonal/full: mass_matrix satisfies it (eigh is a parameter). A mass adaption started with initial_mass=None fails (C72). Constant masses only for samples which are containers (C110)."
  },
  {
   "property": "C112",
   "status": "proved",
   "theorems": [
    "JaxSgmc.c112_re_sgld",
    "JaxSgmc.c112_adapted",
    "JaxSgmc.c112_different"
   ],
   "note": "c112_re_sgld (as used by the alias re_sgld), c112_adapted (any adaption strategy), c112_different (rejected)."
  },
  {
   "property": "C113",
   "status": "proved",
   "theorems": [
    "JaxSgmc.c113_sgld",
    "JaxSgmc.c113_adapted",
    "JaxSgmc.c113_psgld",
    "JaxSgmc.c113_re_sgld",
    "JaxSgmc.c113_sghmc",
    "JaxSgmc.c113_obabo",
    "JaxSgmc.c113_amagold",
    "JaxSgmc.c113_amagold_adaptive",
    "JaxSgmc.c113_sggmc",
    "JaxSgmc.c113_sggmc_adaptive",
    "JaxSgmc.c113_rejected"
   ],
   "note": "All six samplers of alias.py on pytrees, end to end: exceptions of the tree functions and of the saving are part of the model; proved not to occur."
  },
  {
   "property": "C114",
   "status": "partial",
   "theorems": [
    "JaxSgmc.c114_false",
    "JaxSgmc.c114_used_partial",
    "JaxSgmc.c114_register",
    "JaxSgmc.c114_local",
    "JaxSgmc.c114_standard",
    "JaxSgmc.c114_last_wins"
   ],
   "note": "False of the code: the first registered type of which a node is an instance wins, so a rule for a named tuple (or any subclass of dict, list, tuple) is accepted but never used. Proved: the rule is used if no earlier registered type is a superclass; second registrations are rejected; locality."
  },
  {
   "property": "C115",
   "status": "proved",
   "theorems": [
    "JaxSgmc.c115_leaves",
    "JaxSgmc.c115_unique",
    "JaxSgmc.c115_unknown"
   ],
   "note": "Nodes of any class, arbitrary histories of registrations."
  },
  {
   "property": "C116",
   "status": "partial",
   "theorems": [
    "JaxSgmc.c116_false_eleven",
    "JaxSgmc.c116_false",
    "JaxSgmc.c116_permuted_partial",
    "JaxSgmc.c116_roundtrip_partial"
   ],
   "note": "False of the code: an object of an unregistered class with eleven leaves is restored with permuted leaves (names are sorted alphabetically). Proved: same structure and same multiset of leaves; identity if names are in the order of the leaves."
  },
  {
   "property": "C117",
   "status": "partial",
   "theorems": [
    "JaxSgmc.c117_survives_partial",
    "JaxSgmc.c117_empty_file",
    "JaxSgmc.c117_false",
    "JaxSgmc.c117_lost",
    "JaxSgmc.c117_lost_twice"
   ],
   "note": "False as stated: finalize truncates and rewrites the file of the last multiple of write_frequency (c117_false, c117_empty_file). Proved: a file survives unless finalize is called later with exactly its number of samples; less than write_frequency samples are lost before finalize (c117_lost) and less than twice as many at any crash point (c117_lost_twice)."
  },
  {
   "property": "C118",
   "status": "proved",
   "theorems": [
    "JaxSgmc.c118_decode",
    "JaxSgmc.c118_recognized"
   ],
   "note": "Texts as written by ujson for nested lists of numbers without white space; writes reach the disk in program order."
  },
  {
   "property": "C119",
   "status": "partial",
   "theorems": [
    "JaxSgmc.c119_torn_partial",
    "JaxSgmc.c119_retry",
    "JaxSgmc.c119_example",
    "JaxSgmc.c119_false"
   ],
   "note": "False as stated: the leaves of a sample are written one after the other (c119_false). Proved: exact content after the interruption, and that a repeated save repairs the row (c119_retry). The HDF5 file itself is assumed to stay readable."
  },
  {
   "property": "C120",
   "status": "partial",
   "theorems": [
    "JaxSgmc.c120_false",
    "JaxSgmc.c120_count_partial"
   ],
   "note": "False as stated: datasets are filled with zeros and the number of samples is not stored (c120_false). Proved: with a leaf which is never zero the number of nonzero rows is the number of samples, also after an interruption before this leaf."
  },
  {
   "property": "C121",
   "status": "partial",
   "theorems": [
    "JaxSgmc.c121_exact",
    "JaxSgmc.c121_exchanged_partial",
    "JaxSgmc.c121_false",
    "JaxSgmc.c121_never_improves"
   ],
   "note": "False in the code because the branches of the swap are exchanged (C62): c121_false. Proved: the swap rule of the method leaves the distribution invariant (c121_exact); the code maps the joint distribution to the one with normal and hot chain exchanged (c121_exchanged_partial), and with exact potentials an update never gives the sampled chain the lower potential (c121_never_improves)."
  },
  {
   "property": "C122",
   "status": "partial",
   "theorems": [
    "JaxSgmc.c122_false_file",
    "JaxSgmc.c122_false_lost",
    "JaxSgmc.c122_false",
    "JaxSgmc.c122_type_error",
    "JaxSgmc.c122_file_partial"
   ],
   "note": "False of the code for a sample with the top-level key 'file' (savez raises TypeError; exact condition c122_type_error), with colliding joined names (c122_false_lost) and for trees not in the order of their names (C51). Proved for every schedule of the callbacks for all other samples (c122_file_partial)."
  },
  {
   "property": "C123",
   "status": "proved",
   "theorems": [
    "JaxSgmc.c123_device",
    "JaxSgmc.c123_host",
    "JaxSgmc.c123_devices"
   ],
   "note": "c123_device (iff, saving on the device), c123_host (memory collector, every interleaving), c123_devices (too few devices)."
  },
  {
   "property": "C124",
   "status": "partial",
   "theorems": [
    "JaxSgmc.c124_false",
    "JaxSgmc.c124_snapshot_partial",
    "JaxSgmc.c124_restore_partial"
   ],
   "note": "False (c124_false): load_state takes over the array of the checkpoint without copying it, so that a shallow copy (dict(checkpoint)) of a restored checkpoint is overwritten by later draws. Proved: without shallow copies every history has exactly the outcomes it would have if checkpoints were values (c124_snapshot_partial; refinement of the heap model to the value model), and a deep copy can be restored at any time (c124_restore_partial). Missing: shallow copies, for which the claim fails."
  },
  {
   "property": "C125",
   "status": "partial",
   "theorems": [
    "JaxSgmc.c125_injected_partial",
    "JaxSgmc.c125_never",
    "JaxSgmc.c125_trace_partial",
    "JaxSgmc.c125_single_partial",
    "JaxSgmc.c125_false"
   ],
   "note": "False (c125_false): the product of the left singular vectors and the vector of the roots of the singular values is a vector, hence the noise of different variables is independent; c125_never: whenever two variables are correlated the covariance is wrong, whatever decomposition is found. Proved: what is injected (c125_injected_partial), that the trace of the covariance is the claimed one (c125_trace_partial), and the claim for a single variable (c125_single_partial). The singular value decomposition is a parameter satisfying its law."
  },
  {
   "property": "C126",
   "status": "proved",
   "theorems": [
    "JaxSgmc.c126_rowwise",
    "JaxSgmc.c126_entry",
    "JaxSgmc.c126_sum",
    "JaxSgmc.c126_runs"
   ],
   "note": "End-to-end composition of C49/C50 (collector and file), C77 (loader) and C17/C18/C22 (protocol, maps, mapper). All loader objects of the program are HDF5 loaders opened on datasets of equal length; the mapped function is row-wise (c126_rowwise, c126_entry) or a masked sum (c126_sum)."
  },
  {
   "property": "C127",
   "status": "proved",
   "theorems": [
    "JaxSgmc.c127_after_burn_in"
   ],
   "note": "Diagonal adaption (the full one is C71, false). Random numbers idealised as in C82."
  },
  {
   "property": "C128",
   "status": "proved",
   "theorems": [
    "JaxSgmc.c128_stays",
    "JaxSgmc.c128_code_step",
    "JaxSgmc.c128_posterior"
   ],
   "note": "Gradients are finite-valued functions; random numbers idealised as in C82."
  },
  {
   "property": "C129",
   "status": "proved",
   "theorems": [
    "JaxSgmc.c129_reaches",
    "JaxSgmc.c129_unique",
    "JaxSgmc.c129_positions"
   ],
   "note": "Irreducibility of one update (lower bound on sets of positive volume) and uniqueness of the invariant probability measure; convergence rates are not claimed."
  },
  {
   "property": "C130",
   "status": "proved",
   "theorems": [
    "JaxSgmc.c130_mean_square",
    "JaxSgmc.c130_probability"
   ],
   "note": "Constant parameters, bounded functions, independent mini-batches with a law symmetric under reversal, idealised random numbers; convergence in mean square and in probability."
  },
  {
   "property": "C131",
   "status": "proved",
   "theorems": [
    "JaxSgmc.c131_run_law",
    "JaxSgmc.c131_mean_square",
    "JaxSgmc.c131_probability"
   ],
   "note": "Constant mass matrix, idealised generator (JAX's Threefry is assumed to behave like independent numbers for different keys), real arithmetic, bounded functions; the law of the run holds for every schedule, convergence for constant step sizes."
  },
  {
   "property": "C132",
   "status": "partial",
   "theorems": [
    "JaxSgmc.c132_false_nan",
    "JaxSgmc.c132_false_reported",
    "JaxSgmc.c132_false",
    "JaxSgmc.c132_finite_partial"
   ],
   "note": "False in the code: a NaN acceptance ratio during the burn in makes all later step sizes NaN. Proved: for finite ratios the step sizes are positive and those of the real-valued model."
  },
  {
   "property": "C133",
   "status": "proved",
   "theorems": [
    "JaxSgmc.c133_mean_square",
    "JaxSgmc.c133_probability"
   ],
   "note": "Complete runs of alias.amagold with adaptive_step_size=True, with ideal random numbers (Spec.IdealRandom, existence shown in Lemmas/OracleExists). Potentials +inf outside the support; undefined potentials destroy the step size (C132)."
  },
  {
   "property": "C134",
   "status": "partial",
   "theorems": [
    "JaxSgmc.c134_langevin_partial",
    "JaxSgmc.c134_descent_partial",
    "JaxSgmc.c134_gradient_partial",
    "JaxSgmc.c134_obabo_partial",
    "JaxSgmc.c134_false_reversible",
    "JaxSgmc.c134_false_friction",
    "JaxSgmc.c134_false",
    "JaxSgmc.c134_false_amagold"
   ],
   "note": "False for reversible_leapfrog (amagold) and friction_leapfrog (sghmc), which ignore schedule.temperature (c134_false, c134_false_reversible, c134_false_friction); proved for langevin_diffusion and obabo."
  },
  {
   "property": "C135",
   "status": "proved",
   "theorems": [
    "JaxSgmc.c135_bound",
    "JaxSgmc.c135_constant",
    "JaxSgmc.c135_accuracy",
    "JaxSgmc.c135_decreasing",
    "JaxSgmc.c135_bounded",
    "JaxSgmc.c135_event",
    "JaxSgmc.c135_polynomial"
   ],
   "note": "Expectations of the sample after n updates; the law of large numbers for averages along one run is not part of this property. Mini-batches of different updates are independent (drawing with replacement)."
  },
  {
   "property": "C136",
   "status": "proved",
   "theorems": [
    "JaxSgmc.c136_bound",
    "JaxSgmc.c136_accuracy",
    "JaxSgmc.c136_alias",
    "JaxSgmc.c136_alias_probability"
   ],
   "note": "strongly convex potentials and unbiased mini-batch gradients with ideal random numbers; c136_bound gives the explicit rate, c136_alias composes it with the modelled alias.sgld (schedule, thinning, mcmc loop and returned result)"
  },
  {
   "property": "C137",
   "status": "proved",
   "theorems": [
    "JaxSgmc.c137_bound",
    "JaxSgmc.c137_accuracy",
    "JaxSgmc.c137_decreasing",
    "JaxSgmc.c137_event",
    "JaxSgmc.c137_average"
   ],
   "note": "SGLD with DeviceNumpyDataLoader, minibatch_potential and langevin_diffusion end to end, for one ideal jax.random generator and independent keys; device_run, dataset_exists and IdealGenerator.ideal (an ideal generator exists) support it."
  },
  {
   "property": "C138",
   "status": "partial",
   "theorems": [
    "JaxSgmc.c138_false_shared",
    "JaxSgmc.c138_false",
    "JaxSgmc.c138_partial"
   ],
   "note": "False: with the default keys (always in alias.sgld) the noise keys of every update are split from the key which drew its mini-batch (c138_false_shared, c138_false). c138_partial: independent keys for chain and data."
  },
  {
   "property": "C139",
   "status": "proved",
   "theorems": [
    "JaxSgmc.c139_bound",
    "JaxSgmc.c139_accuracy",
    "JaxSgmc.c139_decreasing",
    "JaxSgmc.c139_alias"
   ],
   "note": "Complete for mini-batches drawn with replacement (the default). Assumes an ideal jax.random and an ideal numpy generator (existence shown); arithmetic over the reals."
  },
  {
   "property": "C140",
   "status": "proved",
   "theorems": [
    "JaxSgmc.c140_mean_square",
    "JaxSgmc.c140_probability"
   ],
   "note": "Complete for constant step sizes, likelihoods without model state and mini-batches drawn with replacement (the default). Assumes an ideal jax.random and an ideal numpy generator (existence shown); arithmetic over the reals. The random and the full data access are both chains of the same kind of program; each sees the other as part of the rest of the program."
  },
  {
   "property": "C141",
   "status": "proved",
   "theorems": [
    "JaxSgmc.c141_batches",
    "JaxSgmc.c141_bar",
    "JaxSgmc.c141_sharp"
   ],
   "note": "rounding to nearest is a parameter (any rule for ties); exponents are unbounded in the specification, only used for values between 2^-100 and 2^100"
  },
  {
   "property": "C142",
   "status": "proved",
   "theorems": [
    "JaxSgmc.c142_mean_square",
    "JaxSgmc.c142_probability"
   ],
   "note": "keys of chain and data must be independent: alias.amagold uses the same default key for both (C138)"
  },
  {
   "property": "C143",
   "status": "proved",
   "theorems": [
    "JaxSgmc.c143_path",
    "JaxSgmc.c143_mean_square",
    "JaxSgmc.c143_probability"
   ],
   "note": "For runs under ideal random numbers and mini-batches (Spec.IdealRandom), with the full potential exact on its domain; the sample size N depends on the model, l, u, accuracy and confidence, not on the schedule, the selection or the key."
  },
  {
   "property": "C144",
   "status": "proved",
   "theorems": [
    "JaxSgmc.c144_alias",
    "JaxSgmc.c144_numpy",
    "JaxSgmc.c144_device"
   ],
   "note": "c144_alias for any ideal source of mini-batches and exact full potential; c144_numpy and c144_device from the data loaders to the returned samples. first_step_size = last_step_size fails in the code (C94) and is excluded."
  },
  {
   "property": "C145",
   "status": "proved",
   "theorems": [
    "JaxSgmc.c145_probability"
   ],
   "note": "Ideal random numbers (Spec.IdealRandom); convergence in probability, uniform over schedules and choices of samples. The hypotheses are shown to be met by an unbounded function (the parameter itself, normal posterior)."
  },
  {
   "property": "C146",
   "status": "proved",
   "theorems": [
    "JaxSgmc.c146_source_masked",
    "JaxSgmc.c146_source_unmasked",
    "JaxSgmc.c146_function",
    "JaxSgmc.c146_host",
    "JaxSgmc.c146_cache_suffices",
    "JaxSgmc.c146_released"
   ],
   "note": "Errors of the source (any), of the mapped function (unmasked maps; a masked function is total in the model) and, for host data, of the request are passed on; released loaders: c146_cache_suffices and c146_released."
  },
  {
   "property": "C147",
   "status": "proved",
   "theorems": [
    "JaxSgmc.c147_average",
    "JaxSgmc.c147_mean_square",
    "JaxSgmc.c147_polynomial"
   ],
   "note": "c147_average for every decreasing schedule and set of samples, c147_mean_square for all samples, c147_polynomial for the values of polynomial_step_size (mean square and probability). Ideal random numbers as in C135."
  },
  {
   "property": "C148",
   "status": "proved",
   "theorems": [
    "JaxSgmc.c148_distribution",
    "JaxSgmc.c148_alias",
    "JaxSgmc.c148_numpy",
    "JaxSgmc.c148_device"
   ],
   "note": "Total variation; also for alias.amagold with NumpyDataLoader and DeviceNumpyDataLoader. Random numbers as in Spec.IdealRandom/IdealNumpy/IdealKeys."
  },
  {
   "property": "C149",
   "status": "proved",
   "theorems": [
    "JaxSgmc.c149_mean_square",
    "JaxSgmc.c149_probability",
    "JaxSgmc.c149_positive"
   ],
   "note": "Mean-square convergence and convergence in probability on the event that the variances of the burn-in samples are positive, and positive probability of this event. Ideal random numbers; bounded test functions; constant step size after the burn in."
  },
  {
   "property": "C150",
   "status": "partial",
   "theorems": [
    "JaxSgmc.c150_false_one",
    "JaxSgmc.c150_false_one_stateful",
    "JaxSgmc.c150_false",
    "JaxSgmc.c150_many_partial",
    "JaxSgmc.c150_masked_partial"
   ],
   "note": "False for batches of one observation (squeeze, then mean over axis 0 raises): c150_false. Proved for batches of two or more observations and for the masked evaluation used by full_potential."
  },
  {
   "property": "C151",
   "status": "proved",
   "theorems": [
    "JaxSgmc.c151_run",
    "JaxSgmc.c151_converges",
    "JaxSgmc.c151_numpy",
    "JaxSgmc.c151_device"
   ],
   "note": "Whole run of mcmc with the polynomial schedule, burn in and optional random thinning; convergence in mean square (c151_converges) and probability with both loaders. Ideal random numbers, strongly convex potential, Lipschitz functions."
  },
  {
   "property": "C152",
   "status": "proved",
   "theorems": [
    "JaxSgmc.c152_release",
    "JaxSgmc.c152_released",
    "JaxSgmc.c152_unreleased"
   ],
   "note": "All interleavings of any number of calls, iterations, releases and other operations of the program; the data states of the mapper are hidden from the rest of the program (EnvOkR). The results before the release are those of C22 for numpy data loaders; the part after the release holds for every host data loader."
  },
  {
   "property": "C153",
   "status": "partial",
   "theorems": [
    "JaxSgmc.c153_false_device",
    "JaxSgmc.c153_false",
    "JaxSgmc.c153_partial"
   ],
   "note": "False for every device data loader: AttributeError (c153_false_device). Proved for numpy data loaders on the host."
  },
  {
   "property": "C154",
   "status": "partial",
   "theorems": [
    "JaxSgmc.c154_false_default",
    "JaxSgmc.c154_false_zero",
    "JaxSgmc.c154_false_cache",
    "JaxSgmc.c154_false",
    "JaxSgmc.c154_partial"
   ],
   "note": "False: c154_false_default (TypeError), c154_false_zero (ZeroDivisionError after the registration, never released), c154_false_cache (accepted). Proved: batches larger than the dataset are rejected, valid sizes behave like random_reference_data."
  },
  {
   "property": "C155",
   "status": "proved",
   "theorems": [
    "JaxSgmc.c155_concurrent",
    "JaxSgmc.c155_value"
   ],
   "note": "All interleavings; exact arithmetic over a field of characteristic zero. Likelihoods satisfy LogLik and StateFits as in C25."
  },
  {
   "property": "C156",
   "status": "proved",
   "theorems": [
    "JaxSgmc.c156_adaptive"
   ],
   "note": "c156_adaptive: total variation, uniform over events and numbers of iterations; N depends on the key and on the burn in."
  },
  {
   "property": "C157",
   "status": "proved",
   "theorems": [
    "JaxSgmc.c157_joint",
    "JaxSgmc.c157_conditional"
   ],
   "note": "c157_joint, c157_conditional: convergence on every event, under the condition of positive variances."
  },
  {
   "property": "C158",
   "status": "partial",
   "theorems": [
    "JaxSgmc.c158_false",
    "JaxSgmc.c158_false_shape",
    "JaxSgmc.c158_detected_partial",
    "JaxSgmc.c158_ignored_partial",
    "JaxSgmc.c158_takes_over_partial",
    "JaxSgmc.c158_shape_partial"
   ],
   "note": "c158_false: false in the code (load_state compares neither kind nor options), c158_false_shape: the batch size of a chain changes. Proved: c158_detected_partial (random checkpoint into ordered chain raises, nothing changes), c158_ignored_partial (ordered checkpoint into random chain is without effect), c158_takes_over_partial (random into random: the whole stream is taken over), c158_shape_partial (a chain restored only from its own checkpoints keeps the registered shape in every history)."
  },
  {
   "property": "C159",
   "status": "partial",
   "theorems": [
    "JaxSgmc.c159_draws_partial",
    "JaxSgmc.c159_single_partial",
    "JaxSgmc.c159_inclusion_partial",
    "JaxSgmc.c159_false"
   ],
   "note": "c159_false: for two or more selections the inclusion probabilities are not proportional to the step sizes (draws without replacement). Proved: c159_draws_partial (exact distribution of the selected list for ideal Gumbel noise), c159_inclusion_partial (inclusion probabilities as sums over the draws), c159_single_partial (the claim for one selection)."
  },
  {
   "property": "C160",
   "status": "proved",
   "theorems": [
    "JaxSgmc.c160_any_order"
   ],
   "note": "memCalls models caught exceptions between calls; finished is asked after the calls (waiting is C46)"
  },
  {
   "property": "C161",
   "status": "partial",
   "theorems": [
    "JaxSgmc.c161_false",
    "JaxSgmc.c161_broadcast_partial",
    "JaxSgmc.c161_rms_partial"
   ],
   "note": "false in the code (broadcasting): c161_false; the exact behaviour is c161_broadcast_partial"
  },
  {
   "property": "C162",
   "status": "partial",
   "theorems": [
    "JaxSgmc.c162_key_partial",
    "JaxSgmc.c162_false",
    "JaxSgmc.c162_distinct_partial",
    "JaxSgmc.c162_own_key_partial"
   ],
   "note": "false in the code: c162_false; c162_distinct_partial, c162_own_key_partial, c162_key_partial"
  },
  {
   "property": "C163",
   "status": "partial",
   "theorems": [
    "JaxSgmc.c163_false",
    "JaxSgmc.c163_stacked_partial",
    "JaxSgmc.c163_inverse_partial",
    "JaxSgmc.c163_vmap_partial",
    "JaxSgmc.c163_errors_partial"
   ],
   "note": "False in the code for trees with other keys or additional leaves (c163_false). c163_stacked_partial characterises the accepted lists; c163_inverse_partial and c163_vmap_partial give the values for trees of the same shape."
  },
  {
   "property": "C164",
   "status": "partial",
   "theorems": [
    "JaxSgmc.c164_bound_partial",
    "JaxSgmc.c164_kept_partial",
    "JaxSgmc.c164_false"
   ],
   "note": "False in the code (c164_false). c164_bound_partial: at most the samples between both burn ins are missing; c164_kept_partial: the announced number is kept if the thinning uses a burn in which is at least that of the chain."
  },
  {
   "property": "C165",
   "status": "proved",
   "theorems": [
    "JaxSgmc.c165_package",
    "JaxSgmc.c165_kept",
    "JaxSgmc.c165_schedule",
    "JaxSgmc.c165_counts"
   ],
   "note": "c165_kept, c165_schedule, c165_counts for two arbitrary runs with the same scheduler; c165_package: the schedules of the package to which it applies (all but the adaptive step size)"
  },
  {
   "property": "C166",
   "status": "partial",
   "theorems": [
    "JaxSgmc.c166_package_partial",
    "JaxSgmc.c166_stacked_partial",
    "JaxSgmc.c166_random_thinning_partial",
    "JaxSgmc.c166_no_thinning_partial",
    "JaxSgmc.c166_false"
   ],
   "note": "The full statement is false (c166_false: other number of selections for the helper). Proved: with random thinning the stacking succeeds iff no override changes the number of selections, in every iteration; without thinning it always succeeds; for any thinning iff the shapes of its states agree. Holds for all step size, temperature and burn in schedules whose state shapes depend only on the number of iterations; c166_package_partial: all of the package (with numbers as parameters)."
  },
  {
   "property": "C167",
   "status": "proved",
   "theorems": [
    "JaxSgmc.c167_percentage",
    "JaxSgmc.c167_ties",
    "JaxSgmc.c167_monotone",
    "JaxSgmc.c167_line",
    "JaxSgmc.c167_reports",
    "JaxSgmc.c167_lines",
    "JaxSgmc.c167_order"
   ],
   "note": "The number of iterations between two reports is the exact quotient (C141). With burn in overrides etc. the theorem needs only that init succeeds."
  },
  {
   "property": "C168",
   "status": "partial",
   "theorems": [
    "JaxSgmc.c168_parameters_partial",
    "JaxSgmc.c168_resolved_partial",
    "JaxSgmc.c168_ignored_partial",
    "JaxSgmc.c168_single_partial",
    "JaxSgmc.c168_package_partial",
    "JaxSgmc.c168_false"
   ],
   "note": "False in the code (c168_false: the name temprature is accepted without effect). Proved: names of parameters are checked (c168_parameters_partial), unknown names of schedulers are ignored (c168_ignored_partial), well-spelled dictionaries have the effect of the resolved overrides (c168_resolved_partial), overridden parameters act like those of the constructors (c168_package_partial), a single dictionary is rejected (c168_single_partial)."
  },
  {
   "property": "C169",
   "status": "partial",
   "theorems": [
    "JaxSgmc.c169_states_partial",
    "JaxSgmc.c169_alone_partial",
    "JaxSgmc.c169_silent_partial",
    "JaxSgmc.c169_disabled_partial",
    "JaxSgmc.c169_false"
   ],
   "note": "False in the code (c169_false). Proved: with at least one additional scheduler the callback raises TypeError in every iteration (c169_silent_partial), without one the lines of C167 are printed (c169_alone_partial), the states are those of separate updates (c169_states_partial), without bar there is no callback (c169_disabled_partial). What jax does with an exception of the callback is not modelled."
  },
  {
   "property": "C170",
   "status": "partial",
   "theorems": [
    "JaxSgmc.c170_lanes_partial",
    "JaxSgmc.c170_false"
   ],
   "note": "False in the code (c170_false, two chains). Proved: what the callback does in every iteration for one chain and for several chains (c170_lanes_partial). The chains are given identical scheduler states, as run initialises them. What jax does with an exception of the callback is not modelled."
  }
 ]
}