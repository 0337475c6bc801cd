{"id": "C01", "title": "Ordered pipeline visits every observation once per pass, in order", "statement": "For a chain registered with register_ordered_pipeline, the batches returned by get_batches form consecutive passes of ceil(N/mb_size) batches; in every pass the entries whose mask is True are exactly observation 0,1,...,N-1 in that order, and only filler entries of the last batch are masked out.", "quantifier": "every dataset size N, every batch size 1<=mb_size<=N, every cache size, every number of passes", "why_tests_cant": "The wrap-around depends on N mod mb_size, the cache size and how many batches were drawn before; tests only sample a few (N, mb_size, passes).", "anchors": ["jax_sgmc/data/numpy_loader.py:NumpyDataLoader.register_ordered_pipeline", "jax_sgmc/data/numpy_loader.py:NumpyDataLoader._ordered_indices", "jax_sgmc/data/numpy_loader.py:NumpyDataLoader.get_batches"]}
{"id": "C02", "title": "Shuffling in epochs returns every observation exactly once per epoch", "statement": "For a chain registered with shuffle=True, in_epochs=True, each block of ceil(N/mb_size) consecutive batches contains every observation exactly once among the entries with mask True, and every batch other than the last of an epoch is fully valid.", "quantifier": "every N, mb_size, cache size, number of epochs, random generator stream", "why_tests_cant": "Requires every generator outcome and unboundedly many epochs (state carried between refills).", "anchors": ["jax_sgmc/data/numpy_loader.py:NumpyDataLoader._shuffle_in_epochs"]}
{"id": "C03", "title": "Shuffling draws without replacement and never loses or repeats an observation", "statement": "For a chain registered with shuffle=True, in_epochs=False, the concatenation of all batches ever returned is a prefix of a concatenation of permutations of the dataset: reading it in blocks of N observations, each complete block contains every observation exactly once and an incomplete last block contains none twice. All masks are True.", "quantifier": "every N, mb_size, cache size, number of draws, generator stream", "why_tests_cant": "The implementation is a ring buffer which is refilled while still holding valid samples; overwriting errors only show for particular N mod mb_size and phase after many refills.", "anchors": ["jax_sgmc/data/numpy_loader.py:NumpyDataLoader._shuffle_indices"]}
{"id": "C04", "title": "Every batch has the registered shape and only contains rows of the dataset", "statement": "get_batches on any chain returns cache_size batches of mb_size observations together with a mask of the same shape; every returned observation is a row of the reference data, never out of range, and for loaders with several arrays the rows of all arrays in one position come from the same observation.", "quantifier": "every dataset, chain type, batch size, cache size, any history of earlier calls", "why_tests_cant": "Index arithmetic (modulo, ring buffer, offsets) must stay in range for every reachable chain state.", "anchors": ["jax_sgmc/data/numpy_loader.py:NumpyDataLoader.get_batches", "jax_sgmc/data/numpy_loader.py:NumpyDataLoader._get_indices", "jax_sgmc/data/numpy_loader.py:NumpyDataLoader._draw_indices"]}
{"id": "C05", "title": "The cache size does not influence which batches are delivered", "statement": "Two chains registered with the same options and seed but different cache sizes deliver the same sequence of (batch, mask): the k-th mini-batch obtained through the batch function of random_reference_data does not depend on cached_batches_count.", "quantifier": "every pair of cache sizes, every k, every chain type, every seed", "why_tests_cant": "Needs all pairs of cache sizes and arbitrarily long sequences across cache refills.", "anchors": ["jax_sgmc/data/numpy_loader.py:NumpyDataLoader._get_indices", "jax_sgmc/data/core.py:_hcb_wrapper", "jax_sgmc/data/core.py:random_reference_data"]}
{"id": "C06", "title": "A restored checkpoint resumes the chain exactly", "statement": "If save_state(chain) is taken after any history, and the result is later passed to load_state for a chain (registered with the same options), then all subsequent get_batches calls on that chain return exactly what the original chain would have returned from the checkpoint on, no matter what was drawn in between.", "quantifier": "every chain type, history before the checkpoint, activity in between, number of draws after", "why_tests_cant": "Must hold at every checkpoint position (mid-epoch, partially filled ring buffer, ...) and for every later sequence.", "anchors": ["jax_sgmc/data/numpy_loader.py:NumpyDataLoader.save_state", "jax_sgmc/data/numpy_loader.py:NumpyDataLoader.load_state"]}
{"id": "C07", "title": "A checkpoint can be restored more than once", "statement": "Loading a checkpoint does not invalidate it: passing the same save_state result to load_state a second time restores the same state again.", "quantifier": "every checkpoint, every chain", "why_tests_cant": "A repeated load after arbitrary activity in between is never exercised by tests.", "anchors": ["jax_sgmc/data/numpy_loader.py:NumpyDataLoader.load_state"]}
{"id": "C08", "title": "Chains of one data loader are isolated", "statement": "The batches delivered on one chain depend only on the operations on this chain: registering, drawing from, checkpointing and restoring other chains in any interleaving does not change them.", "quantifier": "every interleaving of operations over any number of chains", "why_tests_cant": "Number of interleavings is unbounded.", "anchors": ["jax_sgmc/data/numpy_loader.py:NumpyDataLoader"]}
{"id": "C09", "title": "The same seed gives the same stream", "statement": "Two random chains registered with equal options and equal seed deliver identical batches for ever, independent of their chain ids; without a seed the chain id is used, so chain k equals a chain seeded with k.", "quantifier": "every seed, option combination, registration order and number of draws", "why_tests_cant": "Ranges over all seeds and unbounded streams.", "anchors": ["jax_sgmc/data/numpy_loader.py:NumpyDataLoader.register_random_pipeline"]}
{"id": "C10", "title": "Invalid pipeline registrations are rejected without side effect", "statement": "Registering a pipeline with mb_size larger than the observation count, or a random pipeline with in_epochs=True but shuffle=False, raises and leaves the loader unchanged; a loader is constructed exactly if all arrays have the same length; random_reference_data additionally rejects non-positive batch and cache sizes and a cache on a device loader; every accepted registration returns a fresh chain id.", "quantifier": "every argument combination and loader state", "why_tests_cant": "All argument combinations on all loader states.", "anchors": ["jax_sgmc/data/numpy_loader.py:NumpyDataLoader.register_random_pipeline", "jax_sgmc/data/numpy_loader.py:NumpyDataLoader.register_ordered_pipeline", "jax_sgmc/data/core.py:random_reference_data"]}
{"id": "C11", "title": "Drawing batches inside a program yields the loader's stream without gaps or repetitions", "statement": "If the data state returned by one call of the batch function is passed to the next, then the k-th call returns exactly the k-th batch (and mask) of the registered chain of the data loader, the host loader is asked for new batches once per cached_batches_count draws, and the position in the cache never leaves the cache.", "quantifier": "every cache size, every number of draws, every host loader", "why_tests_cant": "Cache boundary conditions interact with the host loader over unbounded runs.", "anchors": ["jax_sgmc/data/core.py:_hcb_wrapper", "jax_sgmc/data/core.py:_Requests.__call__", "jax_sgmc/data/core.py:random_reference_data"]}
{"id": "C12", "title": "Re-using an outdated data state never silently delivers wrong data", "statement": "If a data state whose cache refresh has already been consumed is used for another refresh (and no duplicate was announced by device_count), the request fails, nothing is drawn from the data loader and the protocol state is unchanged, so the legitimate chain continues unharmed.", "quantifier": "every history of requests, every outdated token, strict or not", "why_tests_cant": "Outdated states can arise at any point of any interleaving.", "anchors": ["jax_sgmc/data/core.py:_Requests.__call__"]}
{"id": "C13", "title": "With verify_calls=False an unexpected request only warns", "statement": "random_reference_data(verify_calls=False) documents that calls are then not verified: a request with an unexpected token emits a warning and still delivers data.", "quantifier": "every history and every unexpected token", "why_tests_cant": "The branch is only reached with outdated states.", "anchors": ["jax_sgmc/data/core.py:_Requests.__call__", "jax_sgmc/data/core.py:random_reference_data"]}
{"id": "C14", "title": "Replicated requests of several devices all receive the same data, fetched once", "statement": "When device_count=d devices replicate the same chain, then for every interleaving of their requests (devices may run arbitrarily far ahead) the k-th request of every device is answered with the k-th set of batches of the data loader, and the data loader is asked exactly once per k.", "quantifier": "every d>=1, every interleaving of any length, every data loader", "why_tests_cant": "Exponentially many interleavings with unbounded drift between devices.", "anchors": ["jax_sgmc/data/core.py:_Requests.__call__"]}
{"id": "C15", "title": "The host keeps no response longer than announced", "statement": "When all d announced devices have made the same number of requests, no cached responses remain on the host; a response requested by only j<d devices stays cached until the remaining d-j requests arrive.", "quantifier": "every d, every interleaving", "why_tests_cant": "Leak freedom is a property of complete histories.", "anchors": ["jax_sgmc/data/core.py:_Requests.__call__"]}
{"id": "C16", "title": "Releasing a data loader stops its callbacks and only its own", "statement": "After release(), a batch function can still deliver the batches left in its cache, but a refresh fails without data; chains of other data loaders continue as if nothing had happened.", "quantifier": "every history of two or more registered data loaders", "why_tests_cant": "Needs arbitrary interleavings with the other loaders.", "anchors": ["jax_sgmc/data/core.py:_random_reference_data_host", "jax_sgmc/data/core.py:_Requests"]}
{"id": "C17", "title": "Full data map (host): result i belongs to observation i", "statement": "For a host data loader, full_reference_data without masking returns, on every pass, an array of exactly N results whose i-th entry is the result computed for observation i; fillers are discarded and the returned state starts the next pass again at observation 0.", "quantifier": "every N, mb_size<=N, cache size, mapped function, number of consecutive maps", "why_tests_cant": "Cache, pass and batch boundaries are not aligned; only a proof covers all alignments and histories.", "anchors": ["jax_sgmc/data/core.py:full_reference_data", "jax_sgmc/data/core.py:_full_reference_data_host", "jax_sgmc/data/numpy_loader.py:NumpyDataLoader._ordered_indices"]}
{"id": "C18", "title": "Full data map (host) with masking: every observation is counted exactly once", "statement": "With masking=True the mapped function sees, over one map call, every observation exactly once with mask True (in order), and the mask passed by full_reference_data agrees with the mask in the batch information.", "quantifier": "every N, mb_size, cache size, number of consecutive maps", "why_tests_cant": "Same as above; two independently computed masks have to agree for all sizes.", "anchors": ["jax_sgmc/data/core.py:full_reference_data", "jax_sgmc/data/numpy_loader.py:NumpyDataLoader._ordered_indices"]}
{"id": "C19", "title": "Full data map (device) covers the dataset exactly once from any offset", "statement": "For a device data loader and every initial offset < N, each map call evaluates every observation exactly once among the unmasked entries; offsets >= N are rejected by the init function.", "quantifier": "every N, batch size >= 1 (also larger than N), offset, number of maps", "why_tests_cant": "Modular index arithmetic over all sizes and offsets.", "anchors": ["jax_sgmc/data/core.py:_full_reference_data_device", "jax_sgmc/data/core.py:full_reference_data"]}
{"id": "C20", "title": "Full data map (device): result i belongs to observation i", "statement": "As for host loaders, with a device data loader and masking=False the i-th result of every map call is the result for observation i.", "quantifier": "every N, batch size, number of consecutive maps", "why_tests_cant": "Only visible from the second map on and if the batch size does not divide N.", "anchors": ["jax_sgmc/data/core.py:_full_reference_data_device"]}
{"id": "C21", "title": "Full data map evaluates batches of the requested size", "statement": "full_reference_data(data_loader, cached_batches_count, mb_size) calls the mapped function with batches of mb_size observations.", "quantifier": "every loader kind and size", "why_tests_cant": "Depends on the loader kind and on cached_batches_count differing from mb_size.", "anchors": ["jax_sgmc/data/core.py:full_reference_data", "jax_sgmc/data/core.py:_full_reference_data_device"]}
{"id": "C22", "title": "full_data_mapper can be used concurrently", "statement": "For every interleaving of mapping calls, no two running calls hold the same data state, every call maps the complete dataset (result i for observation i), and the number of chains created on the data loader never exceeds the maximal number of simultaneously running calls.", "quantifier": "every interleaving of starts and ends of mapping calls", "why_tests_cant": "Unbounded interleavings; the pool re-uses states left behind by earlier calls.", "anchors": ["jax_sgmc/data/core.py:_FullDataHelper", "jax_sgmc/data/core.py:full_data_mapper"]}
{"id": "C23", "title": "The carry is threaded through the batches in order", "statement": "During a full data map the mapped function is called ceil(N/batch_size) times; the carry of the first call is the user's, the carry of each further call is the one returned by the previous call, and the final carry is returned.", "quantifier": "every function, carry, dataset and batch size", "why_tests_cant": "Quantifies over all mapped functions.", "anchors": ["jax_sgmc/data/core.py:full_reference_data"]}
{"id": "C24", "title": "Unbatched functions are mapped over single observations", "statement": "full_data_mapper with batched=False applies the function to every single observation and returns the N results in order, for mb_size=1 as well as mb_size>1.", "quantifier": "every N, mb_size, cache size and stateless function", "why_tests_cant": "Two different code paths that have to agree for all sizes.", "anchors": ["jax_sgmc/data/core.py:full_data_mapper"]}
{"id": "C25", "title": "The full potential is the exact negative log-posterior, however it is batched", "statement": "full_potential evaluated via full_reference_data equals -(sum of the log-likelihoods of all observations + log-prior)/temperature, independent of batch size, cache size, loader kind and of how many evaluations preceded it.", "quantifier": "every dataset, likelihood, prior, temperature, batch size, cache size, number of previous evaluations (exact arithmetic)", "why_tests_cant": "Fillers must not contribute for any combination of sizes and states.", "anchors": ["jax_sgmc/potential.py:full_potential", "jax_sgmc/potential.py:minibatch_potential", "jax_sgmc/data/core.py:full_reference_data"]}
{"id": "C26", "title": "The stochastic potential is an unbiased estimate of the full potential", "statement": "minibatch_potential returns -(N * mean log-likelihood of the batch + log-prior)/temperature, and its average over all equally likely index draws with replacement is the full potential of the dataset.", "quantifier": "every dataset, likelihood, prior, temperature, batch size (exact arithmetic)", "why_tests_cant": "Unbiasedness is a statement about the average over N^n batches.", "anchors": ["jax_sgmc/potential.py:minibatch_potential"]}
{"id": "C27", "title": "The evaluation strategy does not change the potential", "statement": "map, vmap and (for batched likelihoods that are pointwise) is_batched evaluation of the same likelihood give the same potential, per-observation likelihoods and model state (batch size > 1 for batched likelihoods).", "quantifier": "every likelihood, sample, batch and state", "why_tests_cant": "Quantifies over all likelihood functions.", "anchors": ["jax_sgmc/potential.py:minibatch_potential"]}
{"id": "C28", "title": "Observations marked invalid do not influence the stochastic potential", "statement": "A mini-batch whose information carries mask=False for some observations (in_epochs shuffling) yields a stochastic potential that does not depend on those observations.", "quantifier": "every batch, mask and likelihood", "why_tests_cant": "Only the last batch of an epoch contains masked observations.", "anchors": ["jax_sgmc/potential.py:minibatch_potential", "jax_sgmc/integrator.py:langevin_diffusion"]}
{"id": "C29", "title": "Only the model state of the first observation of a batch is kept", "statement": "For unbatched stateful likelihoods the model state after an evaluation is the state returned for the first observation of the batch; every observation is evaluated with the same incoming state; without state None is returned.", "quantifier": "every stateful likelihood, batch, state", "why_tests_cant": "Quantifies over all stateful likelihoods.", "anchors": ["jax_sgmc/potential.py:minibatch_potential"]}
{"id": "C30", "title": "The announced sample count is never exceeded", "statement": "The number of iterations in which a sample is kept (burn_in and accept) is at most static_information.samples_collected (zero, if a burn in longer than the run makes it negative) returned by the scheduler's init, also if burn in is overridden for a chain.", "quantifier": "every iteration count, burn in length, thinning, overrides", "why_tests_cant": "samples_collected sizes the sample buffers; an overflow would lose samples for particular combinations only.", "anchors": ["jax_sgmc/scheduler.py:init_scheduler", "jax_sgmc/scheduler.py:initial_burn_in", "jax_sgmc/scheduler.py:random_thinning"]}
{"id": "C31", "title": "The announced sample count is reached", "statement": "Without overrides, exactly samples_collected samples are kept: iterations - n without thinning (0<=n<=iterations), and the requested number of selections with random thinning.", "quantifier": "every iteration count, burn in length, number of selections, PRNG outcome", "why_tests_cant": "Depends on the random choice and all sizes.", "anchors": ["jax_sgmc/scheduler.py:init_scheduler", "jax_sgmc/scheduler.py:initial_burn_in", "jax_sgmc/scheduler.py:random_thinning"]}
{"id": "C32", "title": "No sample of the burn-in phase is kept", "statement": "With initial_burn_in(n) no sample of the first n iterations is kept and, without thinning, every later one is.", "quantifier": "every n (also 0 and larger than the run), every iteration", "why_tests_cant": "Off-by-one errors at arbitrary n.", "anchors": ["jax_sgmc/scheduler.py:initial_burn_in", "jax_sgmc/solver.py:mcmc"]}
{"id": "C33", "title": "Random thinning selects distinct, non-burn-in iterations or fails", "statement": "random_thinning marks exactly the requested number of iterations, all of them in range and none subject to burn in; if fewer are available initialization fails instead of collecting less.", "quantifier": "every step size schedule with positive step sizes, burn in, number of selections, key", "why_tests_cant": "Ranges over random outcomes and sizes.", "anchors": ["jax_sgmc/scheduler.py:random_thinning"]}
{"id": "C34", "title": "Polynomial step sizes are positive and never increase", "statement": "polynomial_step_size(a,b,gamma) yields in iteration n the step size a*(b+n)^(-gamma), which is positive and non-increasing; invalid a, b, gamma are rejected.", "quantifier": "all real a>0, b>0, gamma>=0, all n < iterations", "why_tests_cant": "Continuous parameter space, unbounded iterations.", "anchors": ["jax_sgmc/scheduler.py:polynomial_step_size"]}
{"id": "C35", "title": "First and last step size are met", "statement": "polynomial_step_size_first_last accepts every first >= last > 0, gamma > 0 and yields `first` in the first and `last` in the last iteration, decreasing in between.", "quantifier": "all reals first >= last > 0, gamma > 0, all iteration counts >= 1", "why_tests_cant": "Continuous parameter space; degenerate cases (first = last, a single iteration) divide by zero.", "anchors": ["jax_sgmc/scheduler.py:polynomial_step_size_first_last", "jax_sgmc/alias.py:amagold", "jax_sgmc/alias.py:sggmc"]}
{"id": "C36", "title": "The adaptive step size is positive and frozen after burn in", "statement": "adaptive_step_size starts at the initial step size, is always positive, and does not change any more once the iteration count reaches burn_in, whatever acceptance ratios are reported.", "quantifier": "all parameters, all sequences of acceptance ratios, all iterations", "why_tests_cant": "Unbounded sequences of real-valued feedback.", "anchors": ["jax_sgmc/scheduler.py:adaptive_step_size"]}
{"id": "C37", "title": "Scheduler parameters can be overridden per chain", "statement": "A keyword passed to the init function of a specific scheduler replaces the globally given value for this chain (documented as 'global and local' arguments), in particular target_acceptance_rate of adaptive_step_size, tau, n and gamma.", "quantifier": "all parameter values", "why_tests_cant": "Equality of whole schedules over all values.", "anchors": ["jax_sgmc/scheduler.py:adaptive_step_size", "jax_sgmc/scheduler.py:constant_temperature", "jax_sgmc/scheduler.py:initial_burn_in", "jax_sgmc/scheduler.py:polynomial_step_size"]}
{"id": "C38", "title": "The progress bar does not influence the schedule and counts correctly", "statement": "Enabling the progress bar changes neither the schedule nor the kept samples, it prints in exactly the iterations which are multiples of iterations // steps, and the number of collected samples it reports after iteration i is the number of samples kept up to and including i.", "quantifier": "every specific schedulers, every iteration, every feedback", "why_tests_cant": "Non-interference over all runs.", "anchors": ["jax_sgmc/scheduler.py:_progress_bar", "jax_sgmc/scheduler.py:init_scheduler"]}
{"id": "C39", "title": "The i-th schedule is the schedule of iteration i", "statement": "After i updates the scheduler returns the values of its specific schedulers for iteration i, and missing schedulers default to step size 1, temperature 1, no burn in, no thinning.", "quantifier": "every scheduler combination and i", "why_tests_cant": "All i and all combinations.", "anchors": ["jax_sgmc/scheduler.py:init_scheduler"]}
{"id": "C40", "title": "no_save returns exactly the kept samples in order", "statement": "With no_save, for every sequence of samples and keep-flags, the first sample_count rows of the result are the kept samples in order and the remaining rows up to samples_collected are zero; nothing is lost as long as at most samples_collected samples are kept.", "quantifier": "every sequence of samples and flags", "why_tests_cant": "Unbounded sequences.", "anchors": ["jax_sgmc/io.py:no_save"]}
{"id": "C41", "title": "Saving to the host and saving on the device give the same result", "statement": "io.save(MemoryCollector()) and io.no_save() return the same sample_count and samples for every run in which at most samples_collected samples are kept.", "quantifier": "every sequence of samples and flags, every number of chains", "why_tests_cant": "Unbounded sequences.", "anchors": ["jax_sgmc/io.py:save", "jax_sgmc/io.py:MemoryCollector", "jax_sgmc/io.py:no_save"]}
{"id": "C42", "title": "A run returns the states after the kept iterations", "statement": "mcmc(...)(state, iterations=n) returns, for every chain, exactly the samples of the solver states reached after the kept iterations, in order, and sample_count is their number.", "quantifier": "every solver, scheduler, number of iterations, initial state", "why_tests_cant": "Quantifies over all solvers and schedules.", "anchors": ["jax_sgmc/solver.py:mcmc"]}
{"id": "C43", "title": "Chains do not influence each other", "statement": "The results of a chain in a run over several initial states are the same as in a run with this chain alone, and results are returned in the order of the initial states (solvers without shared host state).", "quantifier": "every number of chains and every other initial state", "why_tests_cant": "All combinations of chains.", "anchors": ["jax_sgmc/solver.py:mcmc", "jax_sgmc/io.py:MemoryCollector"]}
{"id": "C44", "title": "Vectorized and sequential strategies return the same result (device saving)", "statement": "With no_save, strategy='vmap' returns for every chain the same as strategy='map'.", "quantifier": "every solver, scheduler, number of chains", "why_tests_cant": "Quantifies over all solvers.", "anchors": ["jax_sgmc/solver.py:mcmc", "jax_sgmc/util/list_map.py:list_vmap"]}
{"id": "C45", "title": "Vectorized and sequential strategies return the same result (host saving)", "statement": "With io.save(MemoryCollector()), strategy='vmap' saves for every chain the same samples as strategy='map'.", "quantifier": "every solver, scheduler, number of chains", "why_tests_cant": "lax.cond becomes a select under vmap while its branches have side effects.", "anchors": ["jax_sgmc/io.py:save", "jax_sgmc/util/stop_vmap.py:stop_vmap"]}
{"id": "C46", "title": "MemoryCollector.finished waits for all samples", "statement": "finished(chain) returns only after finalize(chain) was processed, hence after all samples of this chain were stored, for every order in which host callbacks are processed (in program order per chain) and the main thread runs.", "quantifier": "every interleaving of callbacks and the main thread, every number of chains", "why_tests_cant": "Thread interleavings.", "anchors": ["jax_sgmc/io.py:MemoryCollector", "jax_sgmc/io.py:save"]}
{"id": "C47", "title": "With save_dir the results are on disk once finished returns", "statement": "With MemoryCollector(save_dir), the npz file of a chain is written when finished(chain) returns.", "quantifier": "every interleaving", "why_tests_cant": "The lock is released before the file is written; only visible under a particular interleaving.", "anchors": ["jax_sgmc/io.py:MemoryCollector.finalize"]}
{"id": "C48", "title": "JSON files contain all samples collected so far", "statement": "After finalize the file chain_{id}_iteration_{count}.json contains all samples of the chain in order, every intermediate file contains the first multiple of write_frequency samples, and chains never overwrite each other's files.", "quantifier": "every number of chains, samples, write frequency, interleaving of chains", "why_tests_cant": "Unbounded histories over several chains.", "anchors": ["jax_sgmc/io.py:JSONCollector"]}
{"id": "C49", "title": "HDF5 datasets hold the i-th sample in row i", "statement": "HDF5Collector writes the i-th saved sample of a chain to row i of every dataset of this chain and touches nothing else; saving more samples than announced fails.", "quantifier": "every sample structure, number of chains, interleaving", "why_tests_cant": "Unbounded histories.", "anchors": ["jax_sgmc/io.py:HDF5Collector"]}
{"id": "C50", "title": "Samples written by HDF5Collector are read back by HDF5Loader", "statement": "An HDF5Loader opened on a chain written by HDF5Collector with the same sample structure delivers the i-th saved sample (with its original tree structure) as observation i, for any selection of indices with repetitions.", "quantifier": "every sample structure with at least one leaf and unique leaf paths, every index selection", "why_tests_cant": "Names are generated independently when writing and reading; duplicates in index selections go through unique/inverse.", "anchors": ["jax_sgmc/io.py:HDF5Collector", "jax_sgmc/data/hdf5_loader.py:HDF5Loader"]}
{"id": "C51", "title": "Saved leaves are stored under their own name", "statement": "HDF5Collector (and the npz files of MemoryCollector) store every leaf of the sample under the path of this leaf in pytree_to_dict(sample).", "quantifier": "every sample structure", "why_tests_cant": "Depends on container types, field order and list lengths.", "anchors": ["jax_sgmc/io.py:HDF5Collector.register_chain", "jax_sgmc/io.py:MemoryCollector.register_chain", "jax_sgmc/io.py:pytree_dict_keys"]}
{"id": "C52", "title": "pytree_to_dict followed by dict_to_pytree is the identity", "statement": "dict_to_pytree(pytree_to_dict(tree), tree) == tree for every pytree made of dicts, lists, tuples and namedtuples.", "quantifier": "every pytree", "why_tests_cant": "Trees of any shape, any keys, lists of any length.", "anchors": ["jax_sgmc/io.py:pytree_to_dict", "jax_sgmc/io.py:dict_to_pytree", "jax_sgmc/io.py:pytree_dict_keys"]}
{"id": "C53", "title": "Leaf paths are unique", "statement": "Different leaves of a sample have different key tuples and different '/'-joined names, as required to store them in one file.", "quantifier": "every pytree", "why_tests_cant": "Keys may contain the separator; list names are generated.", "anchors": ["jax_sgmc/io.py:pytree_dict_keys", "jax_sgmc/io.py:HDF5Collector"]}
{"id": "C54", "title": "Stacking and unstacking pytrees are inverse", "statement": "pytree_leaves_to_list(pytree_list_to_leaves(trees)) == trees for every non-empty list of equally structured trees, and vice versa.", "quantifier": "every tree structure with a leaf, every list length", "why_tests_cant": "All structures and lengths.", "anchors": ["jax_sgmc/util/list_map.py:pytree_list_to_leaves", "jax_sgmc/util/list_map.py:pytree_leaves_to_list"]}
{"id": "C55", "title": "list_vmap applies the function to every tree", "statement": "list_vmap(f)(t1,...,tn) == [f(t1),...,f(tn)] for every function that returns trees of one structure.", "quantifier": "every function and list of trees", "why_tests_cant": "All functions.", "anchors": ["jax_sgmc/util/list_map.py:list_vmap"]}
{"id": "C56", "title": "Tree arithmetic is vector arithmetic on the flattened tree", "statement": "tree_add, tree_scale, tree_multiply, tree_dot and tree_matmul act on pytrees exactly as +, scalar *, elementwise *, dot and matrix product act on the raveled vectors.", "quantifier": "every tree structure and values", "why_tests_cant": "All structures and values.", "anchors": ["jax_sgmc/util/tree_util.py:tree_add", "jax_sgmc/util/tree_util.py:tree_scale", "jax_sgmc/util/tree_util.py:tree_multiply", "jax_sgmc/util/tree_util.py:tree_dot", "jax_sgmc/util/tree_util.py:tree_matmul"]}
{"id": "C57", "title": "Scalar, diagonal and full tensors agree", "statement": "tensor_matmul with ndim 0, 1 or 2 gives the same product whenever the tensors represent the same linear map, and other dimensions are rejected.", "quantifier": "every tree structure, vector and tensor", "why_tests_cant": "All structures and values.", "anchors": ["jax_sgmc/util/tree_util.py:tensor_matmul"]}
{"id": "C58", "title": "JaxUUID is a faithful representation of a UUID", "statement": "as_uuid of a new JaxUUID is the generated 128-bit uuid, distinct arrays of four 32-bit words give distinct uuids, and passing through jax transformations (flatten/unflatten) preserves it.", "quantifier": "all 2^128 values", "why_tests_cant": "Cannot be enumerated; leading zeros need padding.", "anchors": ["jax_sgmc/util/uuid.py:JaxUUID"]}
{"id": "C59", "title": "AMAGOLD keeps position and potential consistent and rejects correctly", "statement": "After any number of AMAGOLD updates the stored potential is the full potential of the current positions; a rejected step restores the positions exactly and reverses the momentum; an accepted step takes the proposal; data state and key advance in both cases.", "quantifier": "every integrator, full potential, random outcome, number of updates", "why_tests_cant": "Invariant over unbounded chains with arbitrary outcomes.", "anchors": ["jax_sgmc/solver.py:amagold"]}
{"id": "C60", "title": "SGGMC keeps position and potential consistent and rejects correctly", "statement": "After any number of SGGMC updates the stored potential is the full potential of the current positions, the kinetic energy accumulators are zero, a rejected step restores positions and momentum, and an accepted step takes the proposal.", "quantifier": "every integrator, full potential, random outcome, number of updates", "why_tests_cant": "Invariant over unbounded chains with arbitrary outcomes.", "anchors": ["jax_sgmc/solver.py:sggmc"]}
{"id": "C61", "title": "Acceptance ratios are probabilities", "statement": "The acceptance ratio reported by AMAGOLD and SGGMC (and passed to the adaptive step size) lies in (0,1], equals min(1, exp(-energy error)), and a step is accepted exactly if a uniform number is below it.", "quantifier": "all energies and uniform numbers (finite values)", "why_tests_cant": "Continuous inputs.", "anchors": ["jax_sgmc/solver.py:amagold", "jax_sgmc/solver.py:sggmc"]}
{"id": "C62", "title": "Parallel tempering swaps the chains with the reSGLD swap probability", "statement": "In parallel_tempering the two chains are exchanged exactly if log(u) < log_s for uniform u, i.e. with probability min(1, S) with S the bias-corrected swap rate of reSGLD.", "quantifier": "all energies, temperatures, variance estimates, uniform numbers", "why_tests_cant": "Continuous inputs; both outcomes look plausible.", "anchors": ["jax_sgmc/solver.py:parallel_tempering"]}
{"id": "C63", "title": "Parallel tempering never loses a chain", "statement": "An update advances both chains by one integrator step with their own schedule and returns these two states, in original or exchanged order; only the first is reported as sample.", "quantifier": "every integrator, schedule and random outcome", "why_tests_cant": "All integrators and outcomes.", "anchors": ["jax_sgmc/solver.py:parallel_tempering"]}
{"id": "C64", "title": "The AMAGOLD leapfrog integrator is time reversible", "statement": "Without friction, starting reversible_leapfrog at its final state with negated momentum and the gradients in reversed order leads exactly back to the initial positions with negated initial momentum; with friction the reverse path exists with correspondingly chosen noise.", "quantifier": "every number of steps, step size, mass, gradient sequence (exact arithmetic)", "why_tests_cant": "Exact identity over all gradient sequences.", "anchors": ["jax_sgmc/integrator.py:reversible_leapfrog"]}
{"id": "C65", "title": "The AMAGOLD energy of the reverse path is the negative", "statement": "The energy accumulated by reversible_leapfrog along the reversed path is the negative of that along the forward path, so forward and backward acceptance ratios are reciprocal (before limiting to one).", "quantifier": "every number of steps, step size, friction, mass, gradients", "why_tests_cant": "Exact identity over all paths.", "anchors": ["jax_sgmc/integrator.py:reversible_leapfrog", "jax_sgmc/solver.py:amagold"]}
{"id": "C66", "title": "The OBABO core is time reversible and its refreshment keeps the momentum distribution", "statement": "The BAB part of an OBABO step with the two stochastic gradients exchanged is reversed by negating the momentum, and the momentum refreshment leaves a zero-mean momentum with variance temperature*mass invariant.", "quantifier": "all step sizes, frictions >= 0, masses > 0, temperatures >= 0, gradients", "why_tests_cant": "Continuous inputs.", "anchors": ["jax_sgmc/integrator.py:obabo"]}
{"id": "C67", "title": "SGHMC injects the noise required by its friction", "statement": "friction_leapfrog without noise model injects noise of variance 2*friction*step_size per step (fluctuation-dissipation), the same as with a noise model estimating zero gradient noise.", "quantifier": "all frictions > 0 and step sizes", "why_tests_cant": "Scale errors in noise are invisible to smoke tests.", "anchors": ["jax_sgmc/integrator.py:friction_leapfrog"]}
{"id": "C68", "title": "Langevin diffusion performs the SGLD update", "statement": "One langevin_diffusion step moves the variables by -step_size*gradient + sqrt(2*temperature*step_size)*noise, and with RMSprop by the preconditioned drift with noise of matching variance 2*temperature*step_size*G.", "quantifier": "all variables, gradients, noises, step sizes, temperatures >= 0", "why_tests_cant": "Continuous inputs.", "anchors": ["jax_sgmc/integrator.py:langevin_diffusion", "jax_sgmc/adaption.py:rms_prop"]}
{"id": "C69", "title": "The RMSprop preconditioner stays positive and bounded", "statement": "For 0<=alpha<=1 and lmbd>0, after any sequence of gradients the RMSprop manifold satisfies 0 < G <= 1/lmbd in every component, sqrt_g_inv squared is g_inv, and gamma is zero.", "quantifier": "every sequence of gradients of any length", "why_tests_cant": "Unbounded gradient histories.", "anchors": ["jax_sgmc/adaption.py:rms_prop"]}
{"id": "C70", "title": "The adapted diagonal mass is the inverse sample variance of the burn-in samples", "statement": "mass_matrix(diagonal=True, burn_in=n) keeps the initial mass for fewer than n updates, sets at update n the inverse mass to the population variance of the n samples (so that sqrt^2*inv = 1 where the variance is positive) and never changes it again.", "quantifier": "every n, every sequence of samples", "why_tests_cant": "Unbounded sequences; streaming algorithm.", "anchors": ["jax_sgmc/adaption.py:mass_matrix"]}
{"id": "C71", "title": "The adapted full mass matrix is consistent with its square root", "statement": "For mass_matrix(diagonal=False) the adapted `sqrt` is a square root of the mass matrix, i.e. sqrt*sqrt^T*inv = 1, as in the diagonal case.", "quantifier": "every positive definite sample covariance", "why_tests_cant": "Continuous inputs.", "anchors": ["jax_sgmc/adaption.py:mass_matrix"]}
{"id": "C72", "title": "The Fisher information noise model estimates the gradient variance", "statement": "fisher_information estimates the gradient noise from the spread of the per-observation gradients around their mean; in particular it is zero if all observations have the same gradient.", "quantifier": "every set of per-observation gradients", "why_tests_cant": "Continuous inputs.", "anchors": ["jax_sgmc/adaption.py:fisher_information", "jax_sgmc/integrator.py:friction_leapfrog"]}
{"id": "C73", "title": "Mass adaption works with the default initial mass", "statement": "amagold/sggmc with mass_adaption and the default initial_mass=None start with unit mass.", "quantifier": "every sample structure", "why_tests_cant": "Needs all sample structures.", "anchors": ["jax_sgmc/adaption.py:mass_matrix", "jax_sgmc/adaption.py:_adaption", "jax_sgmc/solver.py:amagold", "jax_sgmc/solver.py:sggmc"]}
{"id": "C74", "title": "No PRNG key is used twice", "statement": "Within a run of a solver (langevin, friction leapfrog, reversible leapfrog, obabo, with amagold/sggmc/parallel tempering on top) all random numbers are drawn with pairwise different keys derived from the initial key by splitting.", "quantifier": "every number of iterations and integration steps", "why_tests_cant": "Statement about all pairs of draws of unbounded runs.", "anchors": ["jax_sgmc/integrator.py:langevin_diffusion", "jax_sgmc/integrator.py:reversible_leapfrog", "jax_sgmc/integrator.py:obabo", "jax_sgmc/integrator.py:friction_leapfrog", "jax_sgmc/solver.py:parallel_tempering", "jax_sgmc/solver.py:amagold", "jax_sgmc/solver.py:sggmc"]}
{"id": "C75", "title": "Chains started together use different noise", "statement": "Several chains started by one call of an alias solver (e.g. alias.sgld run_fn(s1, s2)) use different random numbers for their injected noise.", "quantifier": "every number of chains", "why_tests_cant": "All pairs of chains.", "anchors": ["jax_sgmc/alias.py:sgld", "jax_sgmc/alias.py:sghmc", "jax_sgmc/alias.py:obabo", "jax_sgmc/alias.py:amagold", "jax_sgmc/alias.py:sggmc", "jax_sgmc/integrator.py:langevin_diffusion"]}
{"id": "C76", "title": "HDF5Collector.finished waits for the data", "statement": "When HDF5Collector.finished(chain) returns after finalize was scheduled, everything saved for the chain has been written to the file (as documented).", "quantifier": "every schedule of main thread, device and callback threads", "why_tests_cant": "Statement about all interleavings.", "anchors": ["jax_sgmc/io.py:HDF5Collector", "jax_sgmc/io.py:save"]}
{"id": "C77", "title": "HDF5Loader and NumpyDataLoader deliver the same batches", "statement": "An HDF5Loader and a NumpyDataLoader holding the same arrays return the same chain ids, batches, masks and exceptions for every history of registrations and get_batches calls.", "quantifier": "every random number generator, dataset, history of registrations and requests", "why_tests_cant": "The HDF5 loader reads sorted unique indices and restores order and repetitions; a test covers few index patterns.", "anchors": ["jax_sgmc/data/hdf5_loader.py:HDF5Loader", "jax_sgmc/data/numpy_loader.py:NumpyDataLoader"]}
{"id": "C78", "title": "A proposal with an undefined potential is never accepted", "statement": "AMAGOLD and SGGMC reject a proposal whose full potential is NaN or +inf (the current potential being finite), whatever the uniform number; a chain never moves to a point where the potential is not defined.", "quantifier": "all states, proposals, uniform numbers", "why_tests_cant": "A NaN reaching the acceptance step is a rare event of long runs; floating point comparisons with NaN decide the outcome.", "anchors": ["jax_sgmc/solver.py:amagold", "jax_sgmc/solver.py:sggmc"]}
{"id": "C79", "title": "AMAGOLD satisfies detailed balance pathwise", "statement": "For every path of an AMAGOLD proposal (mini-batches, noises) there is a reversed path (mini-batches in reversed order, corresponding noises) leading from the proposal with negated momentum back to the start with negated momentum, and exp(-U-K) times the density of the noises times the acceptance probability is the same for both paths.", "quantifier": "every potential, stochastic gradient, number of steps, step size >= 0, friction >= 0, consistent mass matrix, batches and noises", "why_tests_cant": "Equality of densities over all paths of arbitrary length; statistical tests only see large violations.", "anchors": ["jax_sgmc/solver.py:amagold", "jax_sgmc/integrator.py:reversible_leapfrog"]}
{"id": "C80", "title": "SGGMC satisfies detailed balance pathwise", "statement": "For every path of an SGGMC proposal there is a reversed path leading from the proposal with negated momentum back to the start with negated momentum, and exp(-(U+K)/T) times the density of the noises times the acceptance probability is the same for both paths.", "quantifier": "every potential, stochastic gradient, number of steps, step size, friction >= 0, temperature > 0, consistent mass matrix, batches and noises", "why_tests_cant": "Equality of densities over all paths of arbitrary length; statistical tests only see large violations.", "anchors": ["jax_sgmc/solver.py:sggmc", "jax_sgmc/integrator.py:obabo"]}
{"id": "C81", "title": "Random chains consume their generator", "statement": "A random chain delivers the successive outputs of one generator seeded with the given seed (or the chain id): the k-th mini-batch is the k-th draw (shuffle=False), epoch e uses the e-th permutation (in_epochs), the delivered observations are a prefix of the concatenated successive permutations (shuffle); no generator state is used twice and other chains do not disturb it.", "quantifier": "every generator, seed, dataset, cache and batch size, history of operations not restoring the chain", "why_tests_cant": "Holds for histories of unbounded length with operations of other chains interleaved.", "anchors": ["jax_sgmc/data/numpy_loader.py:NumpyDataLoader"]}
{"id": "C82", "title": "AMAGOLD leaves the target distribution invariant", "statement": "If positions and momenta are distributed with density proportional to exp(-U(q) - K(p)), they have the same distribution after any number of AMAGOLD steps (alias/solver amagold with reversible_leapfrog, constant mass), for every step size schedule, friction, number of leapfrog steps and every stochastic gradient, however inaccurate: the Metropolis-Hastings step removes the discretisation and mini-batch error. The random numbers are idealised as independent.", "quantifier": "every measurable potential and stochastic gradient, every schedule of step sizes >= 0, friction >= 0, integration length, consistent mass matrix, every distribution of mini-batches symmetric under reversal of their order, every set of states", "why_tests_cant": "Equality of distributions; tests compare a few moments of finite runs only.", "anchors": ["jax_sgmc/solver.py:amagold", "jax_sgmc/integrator.py:reversible_leapfrog"]}
{"id": "C83", "title": "SGGMC leaves the target distribution invariant", "statement": "If positions and momenta are distributed with density proportional to exp(-(U(q) + K(p))/T), they have the same distribution after one step of SGGMC (solver sggmc with obabo, constant mass), for every step size, friction, number of steps and stochastic gradient.", "quantifier": "every measurable potential and stochastic gradient, step size >= 0, temperature > 0, friction >= 0, integration length, consistent mass matrix, every distribution of mini-batches symmetric under reversal of their order, every set of states", "why_tests_cant": "Equality of distributions; tests compare a few moments of finite runs only.", "anchors": ["jax_sgmc/solver.py:sggmc", "jax_sgmc/integrator.py:obabo"]}
{"id": "C84", "title": "Trees are restored only from complete dictionaries", "statement": "dict_to_pytree(d, target) restores a tree of the structure of target holding the values of d under the names of the leaves, ignoring other entries of d; it raises an exception if d lacks an entry for a leaf of the target.", "quantifier": "every nested dictionary and every target tree", "why_tests_cant": "Ranges over all pairs of trees; tests only use the dictionary produced from the target itself.", "anchors": ["jax_sgmc/io.py:dict_to_pytree"]}
{"id": "C85", "title": "Tree arithmetic rejects trees of different structure", "statement": "tree_add, tree_multiply, tree_dot and tensor_matmul with a diagonal matrix raise an exception if the two trees have different structures.", "quantifier": "every pair of trees of arrays with different structure", "why_tests_cant": "Ranges over all pairs of trees.", "anchors": ["jax_sgmc/util/tree_util.py:tree_add", "jax_sgmc/util/tree_util.py:tree_multiply", "jax_sgmc/util/tree_util.py:tree_dot", "jax_sgmc/util/tree_util.py:tensor_matmul"]}
{"id": "C86", "title": "Momenta are drawn from the kinetic energy distribution", "statement": "The initial momentum of reversible_leapfrog and friction_leapfrog and the refreshed momentum of obabo (friction -> infinity) are Gaussian with covariance equal to the mass matrix (times temperature for obabo): density proportional to exp(-p^T M^-1 p / 2), whatever the key, with M the adapted or constant mass which the kinetic energy uses.", "quantifier": "every consistent mass matrix, key and set of momenta", "why_tests_cant": "Equality of distributions over all sets.", "anchors": ["jax_sgmc/integrator.py:reversible_leapfrog", "jax_sgmc/integrator.py:friction_leapfrog", "jax_sgmc/integrator.py:obabo", "jax_sgmc/integrator.py:random_tree"]}
{"id": "C87", "title": "The energy reported with a sample belongs to it", "statement": "The likelihood / energy entries reported together with a sample by the integrators and solvers are the (stochastic) potential of the reported variables.", "quantifier": "every potential, mini-batch source, number of steps, schedule", "why_tests_cant": "Needs all runs: the value can lag behind by an update without any test noticing.", "anchors": ["jax_sgmc/integrator.py:langevin_diffusion", "jax_sgmc/integrator.py:obabo", "jax_sgmc/integrator.py:friction_leapfrog", "jax_sgmc/solver.py:amagold", "jax_sgmc/solver.py:sggmc"]}
{"id": "C88", "title": "The variance estimate of parallel tempering is the mean of the observed variances", "statement": "The variance which langevin_diffusion reports is the population variance of the likelihoods in the mini-batch; the estimate used in the swap rate of parallel_tempering is the mean of the variances observed so far in the cold chain, independent of the initial estimate (default schedule 1/n).", "quantifier": "every sequence of updates", "why_tests_cant": "Running means over unbounded runs.", "anchors": ["jax_sgmc/solver.py:parallel_tempering", "jax_sgmc/integrator.py:langevin_diffusion"]}
{"id": "C89", "title": "Mass adaption is fed with the chain and used by the next update", "statement": "In amagold and sggmc with a mass adaption, the adaption is updated exactly once per iteration with the sample which is reported (after acceptance or rejection), and the next proposal uses the mass it then returns; without adaption the constant mass of the integrator is always used.", "quantifier": "every adaption, integrator, number of updates", "why_tests_cant": "The adaption state depends on the whole history.", "anchors": ["jax_sgmc/solver.py:amagold", "jax_sgmc/solver.py:sggmc", "jax_sgmc/adaption.py:mass_matrix"]}
{"id": "C90", "title": "Reported acceptance statistics belong to the last update", "statement": "The acceptance ratio reported with a sample is the Metropolis probability of the last proposal, the step size is the one of the schedule in this iteration, and the kinetic energy reported by sggmc is the change of kinetic energy along the last proposal.", "quantifier": "every run and schedule", "why_tests_cant": "Quantifies over all runs.", "anchors": ["jax_sgmc/solver.py:amagold", "jax_sgmc/solver.py:sggmc"]}
{"id": "C91", "title": "Fisher correction preserves the total noise", "statement": "With fisher_information as noise model of friction_leapfrog the injected noise and the estimated gradient noise together have the variance 2*h*C required by the friction C in every component in which this is possible; in the other components positive noise, not larger than in any corrected component, is injected.", "quantifier": "every set of gradients, friction, step size", "why_tests_cant": "Continuous inputs.", "anchors": ["jax_sgmc/adaption.py:fisher_information", "jax_sgmc/integrator.py:friction_leapfrog"]}
{"id": "C92", "title": "Ready to use solvers return the announced samples of the announced dynamics", "statement": "For first_step_size > last_step_size > 0, at least two iterations and accepted_samples <= iterations - burn_in, a run of alias.sgld, re_sgld, sghmc, obabo, amagold or sggmc returns for every chain, in the order of the chains, exactly accepted_samples samples (amagold and sggmc without accepted_samples: all iterations - burn_in), namely the states reached by the integrator after iterations chosen after the burn in; the step sizes decrease strictly from first_step_size to last_step_size, the temperature is 1 (that of the second chain of re_sgld: temperature), and saving on the host or the device gives the same result.", "quantifier": "all chains, data, likelihoods, step sizes, numbers of iterations, burn ins and numbers of samples", "why_tests_cant": "Combines all components over runs of any length.", "anchors": ["jax_sgmc/alias.py:sgld", "jax_sgmc/alias.py:re_sgld", "jax_sgmc/alias.py:sghmc", "jax_sgmc/alias.py:obabo", "jax_sgmc/alias.py:amagold", "jax_sgmc/alias.py:sggmc"]}
{"id": "C93", "title": "accepted_samples may exceed the number of available samples", "statement": "As documented (random thinning only if accepted_samples < iterations - burn_in), an alias solver called with accepted_samples > iterations - burn_in returns all iterations - burn_in samples.", "quantifier": "all arguments", "why_tests_cant": "Quantifies over all numbers of iterations and samples.", "anchors": ["jax_sgmc/alias.py:sgld", "jax_sgmc/alias.py:sghmc", "jax_sgmc/scheduler.py:random_thinning"]}
{"id": "C94", "title": "Default step size of amagold and sggmc", "statement": "With the default first_step_size = last_step_size = 0.001 (or any other equal positive values) alias.amagold and alias.sggmc use this step size in every iteration.", "quantifier": "every positive step size, number of iterations >= 2 and burn in", "why_tests_cant": "Quantifies over all numbers of iterations.", "anchors": ["jax_sgmc/alias.py:amagold", "jax_sgmc/alias.py:sggmc", "jax_sgmc/scheduler.py:polynomial_step_size_first_last"]}
{"id": "C95", "title": "Adaptive step sizes are frozen after the burn in", "statement": "alias.amagold and alias.sggmc with adaptive_step_size=True return all iterations - burn_in samples after the burn in; the step sizes start with first_step_size, stay positive and, for each chain, do not change any more after the burn in, whatever was accepted; thinning is rejected. (For amagold: if no potential is undefined, see C132.)", "quantifier": "all chains, data, likelihoods and parameters with first_step_size > 0, burn_in <= iterations", "why_tests_cant": "The step sizes depend on the whole history of acceptance ratios.", "anchors": ["jax_sgmc/alias.py:amagold", "jax_sgmc/alias.py:sggmc", "jax_sgmc/scheduler.py:adaptive_step_size"]}
{"id": "C96", "title": "Random data on the device: every batch is a valid mini-batch", "statement": "random_reference_data with a DeviceNumpyDataLoader: every call of the batch function returns mb_size observations of the dataset, the same observations in every array, all marked as valid, with the right observation count and batch size; a chain continued with its data state later delivers the batches it would have delivered without interruption.", "quantifier": "every dataset with at least one observation, batch size, key and number of draws", "why_tests_cant": "Quantifies over all keys and any number of draws.", "anchors": ["jax_sgmc/data/numpy_loader.py:DeviceNumpyDataLoader.get_random_data", "jax_sgmc/data/core.py:_random_reference_data_device"]}
{"id": "C97", "title": "Random data on the device: different chains draw different mini-batches", "statement": "No two draws, of one or of different chains, use the same PRNG key, whether or not the user passes keys to the chains.", "quantifier": "every number of chains and draws, ideal key splitting", "why_tests_cant": "Quantifies over all chains and any number of draws.", "anchors": ["jax_sgmc/data/numpy_loader.py:DeviceNumpyDataLoader.init_random_data", "jax_sgmc/data/numpy_loader.py:DeviceNumpyDataLoader.get_random_data"]}
{"id": "C98", "title": "Batches have the announced format", "statement": "initializer_batch returns zero arrays with the names, data types and shape (of one observation, or of mb_size observations) of the mini-batches of the chains; everything a registered chain delivers has the names, shapes and data types which batch_format announces to the host callback.", "quantifier": "every dataset with arrays of any number of dimensions, every registered chain and history of operations without restoring a checkpoint of a different chain", "why_tests_cant": "Quantifies over all shapes and histories.", "anchors": ["jax_sgmc/data/core.py:DataLoader.initializer_batch", "jax_sgmc/data/core.py:HostDataLoader.batch_format", "jax_sgmc/data/numpy_loader.py:NumpyBase._format", "jax_sgmc/data/numpy_loader.py:NumpyDataLoader.get_batches"]}
{"id": "C99", "title": "TensorflowDataLoader delivers a buffered shuffle of the repeated dataset", "statement": "A random chain delivers cache_size x mb_size observations per request under all keys which are not excluded, the same observations under every key; the observations are those of the repeated dataset, none is repeated within a repetition, and none is delivered more than shuffle_cache - 1 positions too early, so that all observations are delivered equally often up to a bound which only depends on shuffle_cache.", "quantifier": "every dataset, shuffle_cache, history of operations on several chains and every behaviour of the random generator", "why_tests_cant": "Quantifies over histories and over the choices of the generator.", "anchors": ["jax_sgmc/data/tensorflow_loader.py:TensorflowDataLoader.register_random_pipeline", "jax_sgmc/data/tensorflow_loader.py:TensorflowDataLoader.get_batches"]}
{"id": "C100", "title": "TensorflowDataLoader: every pass delivers every observation once", "statement": "The first N observations delivered by a shuffled chain of a dataset with N observations are a permutation of the dataset.", "quantifier": "every dataset, shuffle_cache and behaviour of the random generator", "why_tests_cant": "Quantifies over the choices of the generator.", "anchors": ["jax_sgmc/data/tensorflow_loader.py:TensorflowDataLoader.register_random_pipeline"]}
{"id": "C101", "title": "TensorflowDataLoader: excluded keys and announced format agree", "statement": "Whenever a batch is delivered its keys are those announced by the format. A request fails with a KeyError, for every chain, exactly because a key is excluded which does not exist or is excluded twice. Ordered pipelines are rejected without a side effect.", "quantifier": "every dataset, list of excluded keys and history", "why_tests_cant": "Quantifies over all histories.", "anchors": ["jax_sgmc/data/tensorflow_loader.py:TensorflowDataLoader.get_batches", "jax_sgmc/data/tensorflow_loader.py:TensorflowDataLoader._format", "jax_sgmc/data/tensorflow_loader.py:TensorflowDataLoader.register_ordered_pipeline"]}
{"id": "C102", "title": "Runs with a host data source use the loader's stream", "statement": "A chain run by the ready to use solvers with random_reference_data on the host sees, from its first call of the batch function to its last, the mini-batches which the loader's pipeline would deliver on its own, one after the other, none lost and none repeated, whatever other chains, loaders and releases happen on the host in between; the result is that of the same solver run on that fixed sequence of mini-batches, and each iteration consumes exactly the number of mini-batches of its integrator.", "quantifier": "all chains, datasets, cache sizes, numbers of iterations and interference by other chains between any two calls", "why_tests_cant": "Quantifies over all schedules of host operations and over runs of any length.", "anchors": ["jax_sgmc/data/core.py:random_reference_data", "jax_sgmc/integrator.py:langevin_diffusion", "jax_sgmc/alias.py:sgld", "jax_sgmc/alias.py:sggmc"]}
{"id": "C103", "title": "The adaptive step size performs dual averaging", "statement": "During the burn in the step size of iteration i is exp of the dual average (Hoffman and Gelman) of the errors of the acceptance ratios reported before; afterwards it is frozen. Larger acceptance ratios never lead to smaller step sizes; with ratios at most the target the step size never exceeds 10 times the initial one, with ratios at least the target it never falls below the initial one.", "quantifier": "every history of acceptance ratios, every parameter set with positive initial step size and nonnegative constants", "why_tests_cant": "The step size depends on the whole history.", "anchors": ["jax_sgmc/scheduler.py:adaptive_step_size"]}
{"id": "C104", "title": "Polynomial step sizes satisfy the conditions of SGLD", "statement": "The step sizes of polynomial_step_size with a, b > 0 and 1/2 < gamma <= 1 sum to infinity, their squares are summable, and outside of this range of gamma one of both conditions fails (in particular for the default gamma of 0.33).", "quantifier": "all a, b > 0 and gamma, infinitely many iterations", "why_tests_cant": "A statement on infinite sums.", "anchors": ["jax_sgmc/scheduler.py:polynomial_step_size"]}
{"id": "C105", "title": "The stochastic gradient is unbiased", "statement": "The gradient of minibatch_potential is -(N/n * sum of the gradients of the log-likelihoods of the batch + gradient of the log-prior)/temperature; its average over all equally likely mini-batches, and over the batches of an epoch containing each observation once, is the gradient of the exact potential; the average of one SGLD update is the update of Langevin dynamics with the exact gradient.", "quantifier": "all differentiable priors and likelihoods, samples, datasets, batch sizes and evaluation strategies", "why_tests_cant": "An average over exponentially many batches and over all functions.", "anchors": ["jax_sgmc/potential.py:minibatch_potential", "jax_sgmc/integrator.py:langevin_diffusion"]}
{"id": "C106", "title": "The acceptance tests of runs with host data use the exact potential", "statement": "With full_reference_data on the host, every evaluation of the full potential during a run of amagold or sggmc is the exact negative log-posterior of the whole dataset, whatever was evaluated before and whatever other chains do on the host in the meantime; the runs return the samples of the algorithms with the exact potential in the acceptance test.", "quantifier": "all datasets, batch sizes, likelihoods without state, numbers of iterations and interference by other chains between any two calls", "why_tests_cant": "Quantifies over all schedules of host operations and over runs of any length.", "anchors": ["jax_sgmc/solver.py:amagold", "jax_sgmc/solver.py:sggmc", "jax_sgmc/potential.py:full_potential", "jax_sgmc/data/core.py:full_reference_data"]}
{"id": "C107", "title": "The full potential is +inf where the posterior density is zero", "statement": "The full potential of a sample is the negative log-posterior; if an observation or the prior has zero density (log-likelihood -inf) at the sample it is +inf, never NaN, so that such proposals are rejected.", "quantifier": "all datasets, batch sizes, priors and likelihoods with values in the reals or -inf, every evaluation of a run", "why_tests_cant": "Depends on which observations fill up the last batch, for every dataset and batch size.", "anchors": ["jax_sgmc/potential.py:full_potential", "jax_sgmc/potential.py:minibatch_potential", "jax_sgmc/solver.py:sggmc"]}
{"id": "C108", "title": "Samples which are pytrees are treated as the vector of their entries", "statement": "A run of langevin_diffusion (with or without an adaption such as rms_prop) on a sample which is any valid pytree of arrays never fails and gives, entry by entry, the result of the same update on the flat vector of the entries; the structure and the shapes of the sample never change; noise of different leaves is drawn from different keys.", "quantifier": "all pytrees of arrays, stochastic gradients, adaption strategies, step sizes, temperatures and numbers of steps", "why_tests_cant": "Quantifies over all nestings and shapes and over runs of any length.", "anchors": ["jax_sgmc/integrator.py:langevin_diffusion", "jax_sgmc/integrator.py:random_tree", "jax_sgmc/adaption.py:adaption", "jax_sgmc/adaption.py:rms_prop", "jax_sgmc/util/tree_util.py"]}
{"id": "C109", "title": "The integrators with momenta treat pytrees as the vector of their entries", "statement": "Consecutive calls of obabo, reversible_leapfrog and friction_leapfrog on a sample which is any valid pytree of arrays, with constant, adapted diagonal or adapted full masses, scalar or per-entry friction and noise models, never fail and give, entry by entry, the result on the flat vector of the entries; positions and momenta keep structure and shapes; energies agree.", "quantifier": "all pytrees of arrays, stochastic gradients, masses, frictions, noise models, step sizes, temperatures and numbers of steps and calls", "why_tests_cant": "Quantifies over all nestings and shapes and over runs of any length.", "anchors": ["jax_sgmc/integrator.py:obabo", "jax_sgmc/integrator.py:reversible_leapfrog", "jax_sgmc/integrator.py:friction_leapfrog", "jax_sgmc/integrator.py:init_mass", "jax_sgmc/integrator.py:random_tree", "jax_sgmc/util/tree_util.py"]}
{"id": "C110", "title": "A constant mass of the structure of the sample is accepted and used", "statement": "An integrator constructed with a constant mass which has the tree structure and the shapes of the sample and positive entries uses its inverse and its square root.", "quantifier": "all pytrees of arrays, including a single array, and all positive masses", "why_tests_cant": "Depends on the structure of the sample, which is chosen by the user.", "anchors": ["jax_sgmc/integrator.py:obabo", "jax_sgmc/integrator.py:reversible_leapfrog", "jax_sgmc/integrator.py:friction_leapfrog", "jax_sgmc/alias.py:amagold", "jax_sgmc/alias.py:sghmc"]}
{"id": "C111", "title": "The Metropolis-corrected solvers treat pytrees as the vector of their entries", "statement": "amagold and sggmc, with or without mass_matrix adaption (diagonal or full, started with a tree of the structure of the sample), on a sample which is any valid pytree of arrays never fail and give, entry by entry, the result on the flat vector of the entries: the same acceptance decisions, energies, masses, statistics and random keys; the structure of positions and momenta never changes.", "quantifier": "all pytrees of arrays, stochastic gradients, full potentials with values in the extended numbers, masses, schedules and numbers of updates", "why_tests_cant": "Quantifies over all nestings and shapes and over runs of any length.", "anchors": ["jax_sgmc/solver.py:amagold", "jax_sgmc/solver.py:sggmc", "jax_sgmc/adaption.py:adaption", "jax_sgmc/adaption.py:mass_matrix"]}
{"id": "C112", "title": "Parallel tempering treats pytrees as the vector of their entries", "statement": "parallel_tempering on two samples which are pytrees of the same structure and shapes never fails and gives, entry by entry, the result on the flat vectors: the same swaps, variance estimate and keys; two samples of different structure or shapes are rejected with TypeError by the first update.", "quantifier": "all pairs of pytrees of arrays, stochastic gradients, adaptions, schedules and numbers of updates", "why_tests_cant": "Quantifies over all nestings and shapes and over runs of any length.", "anchors": ["jax_sgmc/solver.py:parallel_tempering", "jax_sgmc/integrator.py:langevin_diffusion"]}
{"id": "C113", "title": "The ready to use samplers return pytrees of the structure of the initial samples", "statement": "Complete runs of sgld (with and without rms_prop), re_sgld, sghmc, obabo, amagold and sggmc (fixed and adaptive step sizes) on initial samples which are pytrees of arrays of one structure never fail; each chain returns exactly the requested number of samples (all after the burn in for the adaptive step size), in the order of the chains, each a pytree of that structure whose entries, energies and statistics are those of the run on the flat vectors; saving on the host or on the device makes no difference; a number of samples together with the adaptive step size is rejected.", "quantifier": "all pytrees of arrays, numbers of chains and iterations, potentials, masses, frictions, seeds and step size parameters", "why_tests_cant": "Quantifies over all nestings and shapes and over runs of any length.", "anchors": ["jax_sgmc/alias.py:sgld", "jax_sgmc/alias.py:re_sgld", "jax_sgmc/alias.py:sghmc", "jax_sgmc/alias.py:obabo", "jax_sgmc/alias.py:amagold", "jax_sgmc/alias.py:sggmc", "jax_sgmc/solver.py:mcmc", "jax_sgmc/io.py:save", "jax_sgmc/io.py:no_save"]}
{"id": "C114", "title": "A registered dictionize rule is used for the nodes of its type", "statement": "A rule registered with register_dictionize_rule is used by pytree_to_dict for all nodes (with leaves) of its type; a second registration for the same type raises an AssertionError and changes nothing; the registration of a rule changes neither the dictionaries of trees without instances of its type nor those of trees of lists, tuples, dicts and named tuples.", "quantifier": "all class hierarchies, histories of registrations, rules (including rules which raise exceptions) and trees", "why_tests_cant": "Quantifies over all class hierarchies and all histories of registrations.", "anchors": ["jax_sgmc/io.py:register_dictionize_rule", "jax_sgmc/io.py:_dictionize", "jax_sgmc/io.py:pytree_to_dict"]}
{"id": "C115", "title": "No leaf of a custom node is lost in the dictionary", "statement": "For trees with nodes of any class pytree_to_dict returns a dictionary with exactly the leaves of the tree, whatever was registered, as long as the rules of the user give each child one name of its own; the key tuples of the leaves are unique and none is a prefix of another one; the leaves of an object of an unregistered class are stored in order as unknown~pytree~leaf~i.", "quantifier": "all class hierarchies, histories of registrations and trees", "why_tests_cant": "Quantifies over all nestings of registered and unregistered nodes.", "anchors": ["jax_sgmc/io.py:pytree_to_dict", "jax_sgmc/io.py:pytree_dict_keys", "jax_sgmc/io.py:_default_dictionize"]}
{"id": "C116", "title": "Trees with custom nodes are restored from their dictionaries", "statement": "dict_to_pytree(pytree_to_dict(tree), tree) returns the tree, for trees with nodes of any class.", "quantifier": "all class hierarchies, histories of registrations and trees", "why_tests_cant": "Quantifies over all nestings and numbers of leaves.", "anchors": ["jax_sgmc/io.py:dict_to_pytree", "jax_sgmc/io.py:pytree_to_dict", "jax_sgmc/io.py:_default_dictionize"]}
{"id": "C117", "title": "JSON files which have been written survive a crash", "statement": "Whenever the process is killed (between any two writes to the disk), every file chain_{c}_iteration_{i}.json written by a call of JSONCollector which had returned before still holds the first i samples of the chain; hence less than write_frequency samples are lost.", "quantifier": "all histories of calls over any number of chains, all crash points, all contents of the directory before the run", "why_tests_cant": "Quantifies over all crash points of all histories.", "anchors": ["jax_sgmc/io.py:JSONCollector"]}
{"id": "C118", "title": "Incomplete JSON files are recognized", "statement": "Whenever the process is killed, every file of the directory is as it was before the run, or is named chain_{c}_iteration_{i}.json and holds exactly the first i samples of chain c, or cannot be parsed; at most one file cannot be parsed. The text of a file determines the samples.", "quantifier": "all histories of calls over any number of chains, all crash points, all contents of the directory before the run", "why_tests_cant": "Quantifies over all crash points of all histories.", "anchors": ["jax_sgmc/io.py:JSONCollector"]}
{"id": "C119", "title": "An interrupted save leaves no torn sample in the HDF5 file", "statement": "If HDF5Collector.save is interrupted after any number of leaves, every row of the file is as before or holds the new sample; a repeated save gives the same file as without the interruption.", "quantifier": "all histories of calls over any number of chains, all samples, all crash points in save", "why_tests_cant": "Quantifies over all crash points of all histories.", "anchors": ["jax_sgmc/io.py:HDF5Collector"]}
{"id": "C120", "title": "The number of samples can be read from the HDF5 file", "statement": "From the file written by HDF5Collector one can determine how many samples have been saved (e.g. after the run was interrupted before all announced samples were collected).", "quantifier": "all histories of calls and all samples", "why_tests_cant": "Quantifies over all histories; a counterexample needs samples which are equal to the fill value.", "anchors": ["jax_sgmc/io.py:HDF5Collector"]}
{"id": "C121", "title": "The swaps of parallel tempering leave the joint distribution of the chains invariant", "statement": "With exact potentials the swap step of parallel_tempering leaves the joint distribution exp(-U(x)/T1) exp(-U(y)/T2) of the normal and the hot chain invariant.", "quantifier": "all potentials, all pairs of temperatures, all finite sets of positions, averaged over the uniform random number", "why_tests_cant": "A statement about distributions; tests see single draws.", "anchors": ["jax_sgmc/solver.py:parallel_tempering"]}
{"id": "C122", "title": "The npz file holds the samples of every leaf under its path", "statement": "After MemoryCollector(save_dir) finished a chain, numpy.load of chain_{c}.npz gives for every leaf of the samples, under its path joined with '/', the array of the values of this leaf in all samples, and nothing else.", "quantifier": "all pytrees, samples, numbers of chains and schedules of the callbacks", "why_tests_cant": "Quantifies over all nestings and key names; the counterexamples need special keys.", "anchors": ["jax_sgmc/io.py:MemoryCollector", "jax_sgmc/io.py:pytree_dict_keys"]}
{"id": "C123", "title": "pmap returns the same results as map", "statement": "With at least as many devices as chains, mcmc(strategy='pmap') returns for every chain exactly what strategy='map' returns, with burn in and thinning, for saving on the device and with a MemoryCollector, whatever the order in which the devices proceed and their callbacks reach the collector; with fewer devices the run is rejected.", "quantifier": "all solvers, schedulers, initial states, numbers of chains, iterations and devices, and all interleavings of the devices", "why_tests_cant": "Quantifies over all interleavings; a test sees one interleaving of a few devices.", "anchors": ["jax_sgmc/solver.py:mcmc", "jax_sgmc/io.py:save", "jax_sgmc/io.py:no_save", "jax_sgmc/io.py:MemoryCollector", "jax_sgmc/util/list_map.py:list_pmap"]}
{"id": "C124", "title": "A copied checkpoint still describes the state in which it was saved", "statement": "Since load_state empties the checkpoint it is given, a checkpoint must be copied to be restored twice. Restoring a copy of a checkpoint, shallow (dict(checkpoint)) or deep, at any time, e.g. after the original has been restored and more batches were drawn, puts the chain exactly into the state in which it was saved; the loader never changes a checkpoint or another chain through shared arrays.", "quantifier": "all histories of registrations, draws, saves, copies and restores on any number of chains, all generators and datasets", "why_tests_cant": "Quantifies over all histories; the effect of shared arrays appears only after the buffer is refreshed.", "anchors": ["jax_sgmc/data/numpy_loader.py:NumpyDataLoader.save_state", "jax_sgmc/data/numpy_loader.py:NumpyDataLoader.load_state", "jax_sgmc/data/numpy_loader.py:NumpyDataLoader.get_batches"]}
{"id": "C125", "title": "The full Fisher information reduces the injected noise by the gradient noise", "statement": "If the friction minus the estimated gradient noise B is positive semidefinite, every step of friction_leapfrog with fisher_information(diagonal=False) injects noise with the covariance matrix 2*step_size*(friction - B).", "quantifier": "all numbers of variables, gradients, frictions, step sizes, masses, states and all valid singular value decompositions", "why_tests_cant": "A statement about covariance matrices of every step; tests see single draws.", "anchors": ["jax_sgmc/adaption.py:fisher_information", "jax_sgmc/integrator.py:friction_leapfrog"]}
{"id": "C126", "title": "Post-processing sees every saved sample exactly once", "statement": "If a run saved its samples with HDF5Collector, and the file is opened with HDF5Loader (the whole chain or the subdirectory of one entry), then mapping a function over it with full_data_mapper or full_reference_data gives the function of every saved sample, in the order of saving and exactly once; a masked sum divided by the counted rows is the mean over the saved samples. Concurrent calls of the mapper do not disturb each other and no call fails. If fewer samples than announced were saved, the remaining rows are zeros and are mapped too.", "quantifier": "all files, collector histories, trees, numbers of samples, batch and cache sizes, all mapped functions and all interleavings of mapper calls with other operations of the program", "why_tests_cant": "The guarantee combines three components (collector, loader, request protocol) over unbounded histories and interleavings.", "anchors": ["jax_sgmc/io.py:HDF5Collector", "jax_sgmc/data/hdf5_loader.py:HDF5Loader", "jax_sgmc/data/core.py:full_data_mapper", "jax_sgmc/data/core.py:full_reference_data", "jax_sgmc/data/core.py:_FullDataHelper"]}
{"id": "C127", "title": "AMAGOLD with mass_matrix samples the posterior after the burn-in", "statement": "If amagold is used with the diagonal mass_matrix adaption, the mass is frozen after burn_in updates at the inverse of the population variances of the samples reported so far; from then on every update is a step of AMAGOLD with this fixed mass, and these steps leave the posterior exp(-U) invariant: if the position is distributed by the posterior and the momentum by N(0, M), the position is distributed by the posterior after any number of further updates, whatever the stochastic gradients, frictions and step sizes.", "quantifier": "all models, generators, data sources, initial samples, burn-in lengths and schedules with positive sample variances, all later schedules and all functions of the position", "why_tests_cant": "A statement about the distribution of an unbounded chain in which the kernel changes; tests see single trajectories.", "anchors": ["jax_sgmc/adaption.py:mass_matrix", "jax_sgmc/solver.py:amagold", "jax_sgmc/integrator.py:reversible_leapfrog"]}
{"id": "C128", "title": "AMAGOLD samples constrained posteriors", "statement": "If the potential is +inf or nan outside of a set D (e.g. parameters which must be positive) and the initial sample is in D, amagold never reports a sample outside of D and never stores an undefined potential, and its updates leave the posterior restricted to D (density exp(-U) on D, zero elsewhere) invariant.", "quantifier": "all sets D, potentials, generators, data sources, gradients, mass adaptions, initial samples in D and schedules; all functions of the position", "why_tests_cant": "Quantifies over all runs and is a statement about distributions; a test may never propose a position outside of D.", "anchors": ["jax_sgmc/solver.py:amagold", "jax_sgmc/integrator.py:reversible_leapfrog", "jax_sgmc/potential.py:full_potential"]}
{"id": "C129", "title": "The posterior is the only stationary distribution of AMAGOLD", "statement": "For a proper posterior, a positive step size and friction and at least two leapfrog steps, one update of amagold reaches every region of positive volume in the support with positive probability, from every position and momentum; any distribution of positions and momenta which an update does not change has the normalised posterior as the distribution of the positions, and an independent momentum with distribution N(0, M).", "quantifier": "all potentials, supports, stochastic gradients, batch distributions, masses, frictions, step sizes, integration lengths >= 2, all regions, starting points and stationary distributions", "why_tests_cant": "A statement about all distributions; tests see single trajectories.", "anchors": ["jax_sgmc/solver.py:amagold", "jax_sgmc/integrator.py:reversible_leapfrog"]}
{"id": "C130", "title": "Averages over AMAGOLD samples converge to posterior expectations", "statement": "For a proper posterior, constant positive step size and friction and at least two leapfrog steps with independently drawn mini-batches, the average of every bounded function over the positions after n updates of amagold converges to the posterior mean of the function as n grows, in mean square and in probability, from every initial position in the support and every momentum and for every stochastic gradient, however biased.", "quantifier": "all potentials, supports, stochastic gradients, batch distributions symmetric under reversal, masses, frictions, step sizes, integration lengths >= 2, bounded functions and starting points", "why_tests_cant": "A statement about the limit of infinitely long chains; tests see finite chains with few seeds.", "anchors": ["jax_sgmc/solver.py:amagold", "jax_sgmc/integrator.py:reversible_leapfrog"]}
{"id": "C131", "title": "The samples a run of AMAGOLD reports obey the specified chain and average to posterior means", "statement": "If the random numbers are ideal (numbers drawn with different keys are independent and have the requested distribution, keys split from one key never meet again) and the mini-batches of different updates are independent, then the states of a run of amagold -- init, including the momentum it draws, followed by updates with any schedule of parameters -- have exactly the law of the specified Markov chain. With constant step size the mean of every bounded function over the samples reported by get converges to its posterior mean, in mean square and in probability.", "quantifier": "all trees of arrays, initial samples in the support, keys, potentials, supports, stochastic gradients, batch distributions, constant masses, frictions, integration lengths, schedules and bounded functions", "why_tests_cant": "A re-used key or a dropped split only shows up as a correlation between random numbers; a test with few seeds sees plausible samples.", "anchors": ["jax_sgmc/solver.py:amagold", "jax_sgmc/integrator.py:reversible_leapfrog", "jax_sgmc/integrator.py:random_tree"]}
{"id": "C132", "title": "An undefined proposal costs one rejection, not the run", "statement": "If the full potential of a proposal of amagold is not a number, the proposal is rejected and the run continues: with adaptive_step_size every later step size is a positive number.", "quantifier": "all parameters of the adaptive step size, all sequences of reported acceptance ratios", "why_tests_cant": "Undefined potentials are rare events deep inside long runs; the tests use potentials which are defined everywhere.", "anchors": ["jax_sgmc/scheduler.py:adaptive_step_size", "jax_sgmc/solver.py:amagold"]}
{"id": "C133", "title": "AMAGOLD with adaptive step size samples the posterior", "statement": "With ideal random numbers and a potential which is finite on the support and +inf outside, alias.amagold with adaptive_step_size=True samples the posterior: for a fixed burn_in, the mean of every bounded function over the returned samples of each chain converges (in mean square and in probability) to its posterior mean as the number of iterations grows, although the step size in use after the burn in is itself random.", "quantifier": "all target potentials with a proper posterior, all stochastic gradients, symmetric mini-batch laws, positive first step sizes, frictions, masses, burn in lengths, two or more leapfrog steps, initial samples in the support, bounded measurable functions", "why_tests_cant": "Convergence for every target and every adaption history is a limit statement; tests can only look at a few finite runs.", "anchors": ["jax_sgmc/alias.py:amagold", "jax_sgmc/scheduler.py:adaptive_step_size", "jax_sgmc/solver.py:amagold", "jax_sgmc/solver.py:mcmc", "jax_sgmc/integrator.py:reversible_leapfrog"]}
{"id": "C134", "title": "The temperature of the schedule scales the noise", "statement": "scheduler.schedule documents temperature as 'scaling the magnitude of the additional noise': for every integrator an update at temperature T is the update at temperature one with all normal numbers multiplied by sqrt(T); in particular at temperature zero the update does not depend on the random numbers.", "quantifier": "all integrators, states, generators, gradients, step sizes >= 0 and temperatures >= 0", "why_tests_cant": "It concerns every integrator in every state; tests use temperature 1 almost exclusively.", "anchors": ["jax_sgmc/scheduler.py:schedule", "jax_sgmc/integrator.py:langevin_diffusion", "jax_sgmc/integrator.py:obabo", "jax_sgmc/integrator.py:reversible_leapfrog", "jax_sgmc/integrator.py:friction_leapfrog", "jax_sgmc/solver.py:amagold"]}
{"id": "C135", "title": "SGLD samples the posterior of a strongly convex potential", "statement": "With ideal random numbers and independent mini-batches, for a differentiable, strongly convex potential U with a Lipschitz gradient and unbiased mini-batch gradients whose variance grows at most quadratically, SGLD (sgmc with langevin_diffusion, no adaption) at temperature T samples the posterior proportional to exp(-U/T): for step sizes which tend to zero but are not summable, such as polynomial_step_size with 0 < gamma <= 1, the expectation of every Lipschitz or bounded continuous function of the sample and the probability of every set with a negligible boundary converge to the posterior values, from every initial sample; with step sizes between l and u the error after n updates is at most Lip * sqrt((1 - m l/2)^n D + C u), so every accuracy can be reached with a small enough step size.", "quantifier": "all strongly convex potentials with Lipschitz gradients in any dimension, all distributions of mini-batches and unbiased gradients, temperatures > 0, initial samples, keys, trees of arrays, step size sequences and test functions", "why_tests_cant": "A wrong factor in the noise, a reused key or a wrong sign changes the limit distribution but no single sample; convergence is a statement about limits.", "anchors": ["jax_sgmc/solver.py:sgmc", "jax_sgmc/integrator.py:langevin_diffusion", "jax_sgmc/integrator.py:random_tree", "jax_sgmc/scheduler.py:polynomial_step_size"]}
{"id": "C136", "title": "The mean over the samples of alias.sgld estimates the posterior mean", "statement": "With ideal random numbers and independent mini-batches, for a strongly convex potential with a Lipschitz gradient and unbiased mini-batch gradients, the average of a Lipschitz function over the samples of one run of SGLD estimates the posterior mean: with step sizes between l and u its mean squared error over n samples taken after the burn in is at most Lip^2 K (1/(l n) + sqrt(u)). For alias.sgld: for every accuracy there is a step size h1 such that for all h1 >= first_step_size > last_step_size > 0 and all initial samples a long enough burn_in and enough accepted_samples make the mean squared error of the mean over the returned samples of the chain, and the probability of a large error, as small as desired.", "quantifier": "all strongly convex potentials with Lipschitz gradients in any dimension, all distributions of mini-batches and unbiased gradients, initial samples, keys, trees of arrays, step sizes, choices of the thinned iterations, chains and Lipschitz functions", "why_tests_cant": "The error of an average over a run depends on the correlations of all pairs of samples; a test sees a few runs of a few targets and cannot bound it.", "anchors": ["jax_sgmc/alias.py:sgld", "jax_sgmc/solver.py:sgmc", "jax_sgmc/solver.py:mcmc", "jax_sgmc/integrator.py:langevin_diffusion", "jax_sgmc/scheduler.py:random_thinning"]}
{"id": "C137", "title": "SGLD with DeviceNumpyDataLoader samples the posterior of the data set", "statement": "A user loads arrays into a DeviceNumpyDataLoader, builds a minibatch_potential from a log-likelihood and a log-prior, and runs SGLD with a key for the chain and an independent key for the random data. If jax.random is ideal, the negative log-posterior of the data set is strongly convex with a Lipschitz gradient and the gradients of the single log-likelihoods grow at most linearly, then the samples are samples of the posterior exp(-U/T) of this data set (U = -(sum of the log-likelihoods of the rows + log-prior)): the expectation of a Lipschitz function after n updates with step sizes in [l, u] is wrong by at most Lip sqrt((1-ml/2)^n D + C u); with decreasing, not summable step sizes expectations and probabilities converge to those of the posterior; averages over the samples of one run after burn in estimate posterior means in mean square.", "quantifier": "all data sets, batch sizes, log-likelihoods (plain, batched, with model state) and priors with these assumptions, all likelihood strategies, trees of arrays, dimensions, initial samples, pairs of independent keys, temperatures and step sizes", "why_tests_cant": "It is a statement about distributions after many updates for all data sets and models, and depends on every part of the chain (indexing, batch scaling, gradient, noise, keys); statistical tests see one data set with a tolerance which hides small biases.", "anchors": ["jax_sgmc/data/numpy_loader.py:DeviceNumpyDataLoader", "jax_sgmc/data/core.py:random_reference_data", "jax_sgmc/potential.py:minibatch_potential", "jax_sgmc/integrator.py:langevin_diffusion", "jax_sgmc/solver.py:sgmc"]}
{"id": "C138", "title": "Mini-batches and noise of SGLD come from independent keys", "statement": "In a run of SGLD with a DeviceNumpyDataLoader (also through alias.sgld, which offers no way to pass keys) no random number of the noise is drawn with a key derived from a key used to draw a mini-batch, or vice versa.", "quantifier": "all generators, data sets, batch sizes, numbers of updates and trees of arrays", "why_tests_cant": "Re-used keys do not raise errors and single runs look random; the correlation between mini-batch and noise is invisible in tests of samples.", "anchors": ["jax_sgmc/data/numpy_loader.py:DeviceNumpyDataLoader.init_random_data", "jax_sgmc/data/numpy_loader.py:DeviceNumpyDataLoader.get_random_data", "jax_sgmc/integrator.py:langevin_diffusion", "jax_sgmc/alias.py:sgld"]}
{"id": "C139", "title": "SGLD with NumpyDataLoader samples the posterior of the data set", "statement": "A user loads arrays into a NumpyDataLoader, builds the random data access with random_reference_data (any cache size; mini-batches drawn with replacement, the default) and a minibatch_potential from a log-likelihood and a log-prior, and runs SGLD. If jax.random and the numpy generator are ideal, the negative log-posterior U of the data set is strongly convex with a Lipschitz gradient and the gradients of the single log-likelihoods grow at most linearly, then, whatever the rest of the program does with the host in the meantime: the expectation of a Lipschitz function after n updates with step sizes in [l, u] differs from its mean under exp(-U/T) by at most Lip sqrt((1-ml/2)^n D + C u); with decreasing, not summable step sizes the expectations converge to the posterior means; alias.sgld with long enough burn in and enough accepted samples returns samples whose mean is correct in mean square up to any required accuracy.", "quantifier": "all data sets, batch sizes, cache sizes, seeds, programs using the host concurrently, log-likelihoods (plain, batched, with model state) and priors with these assumptions, all likelihood strategies, trees of arrays, dimensions, initial samples, keys, temperatures and step sizes", "why_tests_cant": "It is a statement about distributions after many updates for all data sets, models and concurrent uses of the host, and depends on every part of the chain (seeding, drawing, slicing, caching, requests, batch scaling, gradient, noise); statistical tests see one data set with a tolerance which hides small biases.", "anchors": ["jax_sgmc/data/numpy_loader.py:NumpyDataLoader", "jax_sgmc/data/core.py:random_reference_data", "jax_sgmc/potential.py:minibatch_potential", "jax_sgmc/integrator.py:langevin_diffusion", "jax_sgmc/alias.py:sgld"]}
{"id": "C140", "title": "AMAGOLD with NumpyDataLoader samples the exact posterior of the data set", "statement": "A user loads arrays into a NumpyDataLoader, builds random data access (any cache size; mini-batches drawn with replacement, the default) and a full data map from it, a minibatch_potential and a full_potential from a differentiable log-likelihood and log-prior, and runs amagold with reversible_leapfrog (friction > 0, at least two leapfrog steps) and a constant step size. If jax.random and the numpy generator are ideal and the posterior of the data set can be normalised, the mean of every bounded measurable function over the samples reported by the run converges, in mean square and in probability, to its mean under the exact posterior exp(-U) of this data set (U = -(sum of the log-likelihoods of the rows + log-prior)), for every step size and whatever else the program does with the host in the meantime. No convexity is required and there is no discretisation or mini-batch bias.", "quantifier": "all data sets, batch sizes of both maps, cache sizes, seeds, programs using the host concurrently, log-likelihoods (plain or batched) and priors, all likelihood strategies, trees of arrays, dimensions, masses, friction coefficients, numbers of leapfrog steps, step sizes, initial samples and keys", "why_tests_cant": "It is a statement about the limit of infinitely long runs for all data sets and models, and depends on every part of the program; statistical tests see one data set with a tolerance which hides small biases.", "anchors": ["jax_sgmc/data/numpy_loader.py:NumpyDataLoader", "jax_sgmc/data/core.py:random_reference_data", "jax_sgmc/data/core.py:full_data_mapper", "jax_sgmc/potential.py:minibatch_potential", "jax_sgmc/potential.py:full_potential", "jax_sgmc/integrator.py:reversible_leapfrog", "jax_sgmc/solver.py:amagold"]}
{"id": "C141", "title": "Integers computed by floating point division are exact", "statement": "The loader and the full data map compute the number of batches of a data set by rounding up or down the floating point quotient N / mb_size, and the progress bar computes the iterations between two reports by rounding down a single precision quotient. The results are the exact integer quotients for every N and mb_size below 2^53 (double precision), and for every number of iterations and steps below 2^24 (single precision), whatever rule is used for ties. The bound is sharp: 2^53 + 1 observations in batches of one give a wrong count.", "quantifier": "all numbers of observations and batch sizes below 2^53, all numbers of iterations and steps below 2^24, all roundings to nearest", "why_tests_cant": "The claim ranges over about 2^106 pairs of integers; a wrong count needs a quotient which rounds across an integer, which no sample finds.", "anchors": ["jax_sgmc/data/numpy_loader.py:NumpyDataLoader._register_random_pipeline", "jax_sgmc/data/numpy_loader.py:NumpyDataLoader._shuffle_indices", "jax_sgmc/data/numpy_loader.py:NumpyDataLoader._shuffle_in_epochs", "jax_sgmc/data/core.py:full_data_mapper", "jax_sgmc/scheduler.py:progress_bar"]}
{"id": "C142", "title": "AMAGOLD with DeviceNumpyDataLoader samples the exact posterior of the data set", "statement": "A user loads arrays into a DeviceNumpyDataLoader, builds random data access and the full data map (any batch size and offset) on the device, a minibatch_potential and a full_potential from a differentiable log-likelihood and log-prior, and runs amagold with reversible_leapfrog (friction > 0, at least two leapfrog steps), a constant step size, and independent keys for the chain and the data. If jax.random is ideal and the posterior of the data set can be normalised, the mean of every bounded measurable function over the samples reported by the run converges, in mean square and in probability, to its mean under the exact posterior exp(-U) of the data set, for every step size and batch size.", "quantifier": "all data sets, batch sizes, offsets, log-likelihoods (plain or batched) and priors, likelihood strategies map and vmap, trees of arrays, dimensions, masses, friction coefficients, numbers of leapfrog steps, step sizes, initial samples and pairs of independent keys", "why_tests_cant": "It is a statement about the limit of infinitely long runs for all data sets and models; statistical tests see one data set with a tolerance which hides small biases.", "anchors": ["jax_sgmc/data/numpy_loader.py:DeviceNumpyDataLoader", "jax_sgmc/data/core.py:random_reference_data", "jax_sgmc/data/core.py:full_reference_data", "jax_sgmc/potential.py:minibatch_potential", "jax_sgmc/potential.py:full_potential", "jax_sgmc/integrator.py:reversible_leapfrog", "jax_sgmc/solver.py:amagold"]}
{"id": "C143", "title": "AMAGOLD averages are accurate with changing step sizes, burn in and thinning", "statement": "Run amagold with reversible_leapfrog (friction > 0, at least two leapfrog steps) with any schedule of step sizes between l > 0 and u, and average a bounded function over any selection of the reported samples (burn in dropped, thinned, or any other selection by number). If the random numbers and mini-batches are ideal, the gradients of the mini-batches are bounded on bounded sets and the posterior can be normalised, then for every accuracy and confidence there is a number N such that the mean over N or more selected samples is within the accuracy of the posterior mean with the confidence, N being the same for all schedules within the bounds, all selections and all keys; likewise for the mean square error.", "quantifier": "all potentials, gradient estimators and mini-batch laws (reversible in time), dimensions, masses, friction coefficients, numbers of leapfrog steps, schedules of step sizes within bounds, selections of samples, bounded measurable functions, accuracies, confidences and keys", "why_tests_cant": "It quantifies over all schedules and selections at once, with a sample size which does not depend on them; a test sees one schedule, one target and one tolerance.", "anchors": ["jax_sgmc/solver.py:amagold", "jax_sgmc/integrator.py:reversible_leapfrog", "jax_sgmc/scheduler.py:polynomial_step_size", "jax_sgmc/scheduler.py:initial_burn_in", "jax_sgmc/scheduler.py:random_thinning"]}
{"id": "C144", "title": "alias.amagold samples the posterior, with any burn in, thinning, number of chains and data loader", "statement": "Build alias.amagold from a stochastic potential and a full potential, with friction > 0, at least two leapfrog steps and first_step_size > last_step_size > 0, and run it on one or more initial samples. If the random numbers are ideal, the log-likelihoods and the log-prior have continuous derivatives and the posterior of the data set can be normalised, then for every function with a posterior mean, every accuracy and confidence there is a number n0 such that every run which returns at least n0 samples per chain succeeds and the mean over the returned samples of a chain is within the accuracy of the exact posterior mean with the confidence, whatever the number of iterations, burn in, thinning, number of chains and keys; this holds with NumpyDataLoader and with DeviceNumpyDataLoader, for every batch size, cache size and offset.", "quantifier": "all functions integrable under the posterior, data sets, batch sizes, likelihoods (plain or batched), priors, dimensions, masses, friction coefficients, numbers of leapfrog steps, first and last step sizes, iterations, burn ins, numbers of accepted samples or none, initial samples, numbers of chains, keys, accuracies and confidences", "why_tests_cant": "It is a statement about the whole stack (loader, potential, integrator, solver, scheduler, saving) for all configurations, with a sample size which does not depend on the schedule; tests check one configuration with a tolerance.", "anchors": ["jax_sgmc/alias.py:amagold", "jax_sgmc/solver.py:amagold", "jax_sgmc/integrator.py:reversible_leapfrog", "jax_sgmc/scheduler.py:polynomial_step_size_first_last", "jax_sgmc/scheduler.py:random_thinning", "jax_sgmc/data/numpy_loader.py:NumpyDataLoader", "jax_sgmc/data/numpy_loader.py:DeviceNumpyDataLoader", "jax_sgmc/potential.py:minibatch_potential", "jax_sgmc/potential.py:full_potential"]}
{"id": "C145", "title": "AMAGOLD estimates the posterior mean of every function which has one, not only of bounded functions", "statement": "Run AMAGOLD with friction > 0, at least two leapfrog steps, ideal random numbers, mini-batch gradients which are bounded on bounded sets, and step sizes between two positive bounds. Let f be any function whose posterior mean exists (for example a parameter or its square). For every accuracy and confidence there is a number N such that the mean of f over any N or more of the reported samples is within the accuracy of the posterior mean with the confidence, whatever the schedule, the choice of the samples (burn in, thinning) and the key.", "quantifier": "all functions integrable under the posterior, schedules of step sizes between the bounds, choices of samples, keys, accuracies, confidences, potentials, supports, masses, friction coefficients, numbers of leapfrog steps and dimensions", "why_tests_cant": "Unbounded functions can have rare large values which dominate the mean; a test with finitely many samples does not see them.", "anchors": ["jax_sgmc/solver.py:amagold", "jax_sgmc/integrator.py:reversible_leapfrog", "jax_sgmc/scheduler.py:init_scheduler"]}
{"id": "C146", "title": "A full data map which cannot be completed raises the original error and requests nothing more", "statement": "If, during a map over the full dataset, a batch cannot be delivered (the loader raises, its data has been released, the request is invalid) or the mapped function raises, the map raises exactly this error, returns no partial result and requests no further batch. After the release of a host data loader a map over a data state whose cache still contains all batches returns the same result as before the release; if the cache does not suffice, it raises KeyError and nothing is read from the loader.", "quantifier": "all data sources, mapped functions, carries, dataset and batch sizes, cache sizes, positions in the cache, error kinds and positions of the error", "why_tests_cant": "Errors can occur at any batch of any map and in any state of the cache; tests cover the good case or one error position.", "anchors": ["jax_sgmc/data/core.py:full_reference_data", "jax_sgmc/data/core.py:_hcb_wrapper", "jax_sgmc/data/core.py:_Requests"]}
{"id": "C147", "title": "The plain average over the samples of SGLD with decreasing step sizes converges to the posterior mean", "statement": "Let the potential be strongly convex with a Lipschitz gradient, the mini-batch gradients unbiased and the random numbers ideal. If the step sizes of SGLD decrease to zero, but so slowly that n times the n-th step size grows without bound (polynomial_step_size with gamma < 1), the mean of every Lipschitz function over the samples of all n iterations converges to the posterior mean, in mean square and in probability. The same holds for every choice of samples (burn in, thinning) whose number times the last step size grows without bound.", "quantifier": "all potentials, data distributions, Lipschitz functions, initial samples, keys, temperatures, decreasing schedules, choices of the averaged samples, accuracies", "why_tests_cant": "Convergence of averages is a statement about infinitely many iterations and the joint distribution of all samples.", "anchors": ["jax_sgmc/solver.py:sgmc", "jax_sgmc/integrator.py:langevin_diffusion", "jax_sgmc/scheduler.py:polynomial_step_size"]}
{"id": "C148", "title": "Every sample of AMAGOLD is distributed like the posterior after a sufficient burn in", "statement": "With ideal random numbers and mini-batches whose order is reversible in law, for every accuracy there is a number N such that the law of the sample reported after any N or more updates of AMAGOLD differs from the posterior by at most the accuracy in total variation, i.e. for all events. N works for all schedules with step sizes between two positive bounds. In particular, for alias.amagold with a NumpyDataLoader or a DeviceNumpyDataLoader there is a burn in after which every returned sample (thinned or not, of any chain) has this distribution.", "quantifier": "all potentials with measurable locally bounded gradients, supports, initial samples, keys, schedules with step sizes in [l,u], events, numbers of iterations, thinnings, numbers of chains", "why_tests_cant": "The distribution of a sample is a statement about all outcomes of the random numbers, and the convergence about infinitely many iterations.", "anchors": ["jax_sgmc/solver.py:amagold", "jax_sgmc/alias.py:amagold", "jax_sgmc/integrator.py:reversible_leapfrog", "jax_sgmc/scheduler.py:init_scheduler"]}
{"id": "C149", "title": "AMAGOLD with a mass matrix adapted in the burn in samples the posterior", "statement": "Let AMAGOLD run with mass_matrix(diagonal=True, burn_in=b), so that the b-th update replaces the initial variances by the variances of the first b samples, with ideal random numbers and any proper posterior on any support. If all these variances are positive, the means of a bounded function over the samples after the burn in converge to the posterior mean, in mean square and in probability; and with at least two updates in the burn in and positive step sizes the variances are all positive with positive probability.", "quantifier": "all potentials, supports, data distributions, bounded functions, initial samples and variances, keys, frictions, burn-in lengths and schedules, accuracies", "why_tests_cant": "The mass matrix is random and depends on the samples of the burn in; convergence is a statement about infinitely many updates and the distribution of all of them.", "anchors": ["jax_sgmc/adaption.py:mass_matrix", "jax_sgmc/solver.py:amagold", "jax_sgmc/integrator.py:reversible_leapfrog"]}
{"id": "C150", "title": "Batched likelihoods can be used with every batch size", "statement": "minibatch_potential with is_batched=True and a likelihood which returns the log-likelihoods of the observations of a batch gives -(N * mean log-likelihood + log-prior)/temperature and the likelihoods of the observations for batches of every size.", "quantifier": "all likelihoods, priors, samples, batches, batch sizes, model states, temperatures", "why_tests_cant": "The batch size 1 is a single point of an unbounded range, for which the result of the likelihood has another shape; tests use larger batches.", "anchors": ["jax_sgmc/potential.py:minibatch_potential"]}
{"id": "C151", "title": "SGLD with polynomial_step_size, run by mcmc with burn in and thinning, converges to posterior means without tuning", "statement": "Run mcmc(sgmc(langevin_diffusion(...)), scheduler) where the scheduler has polynomial_step_size(a, b, gamma), 0 < gamma < 1, a constant temperature T, initial_burn_in and either no thinning or random_thinning. The run succeeds if enough iterations remain after the burn in and returns the samples after the kept iterations. If the potential is strongly convex with a Lipschitz gradient, mini-batch gradients are unbiased and random numbers ideal, then for every Lipschitz function and every accuracy and confidence all runs with sufficiently many iterations, of which at least a fixed fraction is kept, return samples whose mean is within the accuracy of the posterior mean with the confidence, whatever a, b, burn in, thinning and number of chains; also with NumpyDataLoader and DeviceNumpyDataLoader, for the posterior of the data set.", "quantifier": "all potentials, data sets, Lipschitz functions, initial samples, keys, temperatures, parameters of the schedule, burn-in lengths, thinnings, numbers of chains, accuracies and confidences", "why_tests_cant": "Convergence of averages is a statement about all sufficiently long runs and the joint distribution of all samples.", "anchors": ["jax_sgmc/solver.py:mcmc", "jax_sgmc/solver.py:sgmc", "jax_sgmc/integrator.py:langevin_diffusion", "jax_sgmc/scheduler.py:polynomial_step_size", "jax_sgmc/scheduler.py:initial_burn_in", "jax_sgmc/scheduler.py:random_thinning", "jax_sgmc/data/numpy_loader.py:NumpyDataLoader"]}
{"id": "C152", "title": "A released full_data_mapper stops, and only it", "statement": "After release() of full_data_mapper has been called, at any time and also while calls are running in other threads: every new mapping call raises TypeError, no running call returns a result, a second release() raises KeyError and no operation of the mapper requests data from the data loader any more. The first release() never fails. Until then no operation of the mapper raises and all calls return the complete results, also if other mappers or other functions using the same data loader are released.", "quantifier": "all host data loaders (results: numpy data loaders), datasets, batch and cache sizes, mapped functions, interleavings of calls, iterations and releases with other operations of the program", "why_tests_cant": "The number of interleavings of calls and the release is unbounded.", "anchors": ["jax_sgmc/data/core.py:full_data_mapper", "jax_sgmc/data/core.py:full_reference_data"]}
{"id": "C153", "title": "full_data_mapper accepts every data loader", "statement": "full_data_mapper(data_loader, cached_batches_count, mb_size) with valid sizes (1 <= cached_batches_count, 1 <= mb_size <= number of observations) returns a mapper, for data loaders on the host and on the device, in every state of the program.", "quantifier": "all data loaders, datasets, batch sizes, cache sizes, histories of the program", "why_tests_cant": "Tests use a few sizes and, for this function, only data loaders on the host.", "anchors": ["jax_sgmc/data/core.py:full_data_mapper", "jax_sgmc/data/core.py:full_reference_data"]}
{"id": "C154", "title": "full_reference_data rejects invalid sizes without side effect", "statement": "full_reference_data with sizes with which the dataset cannot be mapped (no mb_size, empty batches, batches larger than the dataset, an empty cache) raises ValueError and registers nothing; with valid sizes it registers the data loader like random_reference_data.", "quantifier": "all host data loaders, states of the program, batch sizes (or none), cache sizes", "why_tests_cant": "The sizes and states are unbounded, and the absence of a side effect concerns everything which is executed later.", "anchors": ["jax_sgmc/data/core.py:full_reference_data"]}
{"id": "C155", "title": "The full potential evaluated with full_data_mapper is exact, also from several threads", "statement": "full_potential called with data_state=None and the mapper of full_data_mapper(NumpyDataLoader(...)) returns the exact negative log-posterior (over all observations, divided by the temperature) of its own sample, for every batch size, cache size, likelihood with or without model state, batched or not, also if several potentials are evaluated with the same mapper at the same time and other functions use the data loader.", "quantifier": "all datasets, batch and cache sizes, priors, likelihoods, strategies, temperatures, samples, model states and interleavings of calls, iterations and other operations of the program", "why_tests_cant": "The number of interleavings is unbounded and the result depends on the position of all shared data states.", "anchors": ["jax_sgmc/potential.py:full_potential", "jax_sgmc/data/core.py:full_data_mapper"]}
{"id": "C156", "title": "Samples of AMAGOLD with adaptive step size are distributed like the posterior", "statement": "With ideal random numbers and a potential which is finite on the support and +inf outside, alias.amagold with adaptive_step_size=True and a fixed burn_in has a number N such that, in runs with any number of iterations, every sample of a chain after the first N returned ones differs from the posterior by at most the accuracy in total variation, although the step size in use is itself random and depends on the samples of the burn in.", "quantifier": "all proper posteriors and supports, locally bounded stochastic gradients, parameters of the adaption, burn ins, numbers of iterations, chains, keys and accuracies", "why_tests_cant": "A statement about the limit of probability distributions; finitely many runs cannot distinguish a small bias from chance.", "anchors": ["jax_sgmc/alias.py:amagold", "jax_sgmc/scheduler.py:adaptive_step_size", "jax_sgmc/solver.py:amagold", "jax_sgmc/integrator.py:reversible_leapfrog"]}
{"id": "C157", "title": "Samples of AMAGOLD with adapted masses are distributed like the posterior", "statement": "Let AMAGOLD run with mass_matrix(diagonal=True, burn_in=b) as in C149, with at least two updates in the burn in, positive step sizes, ideal random numbers and any proper posterior on any support. Under the condition that all variances of the samples of the burn in are positive (which has positive probability), the distribution of the sample reported after n further updates converges to the posterior on every event as n grows, although the masses in use are random.", "quantifier": "all proper posteriors and supports, locally bounded stochastic gradients, initial variances, burn ins, step sizes, keys and events", "why_tests_cant": "A statement about the limit of probability distributions; finitely many runs cannot distinguish a small bias from chance.", "anchors": ["jax_sgmc/adaption.py:mass_matrix", "jax_sgmc/solver.py:amagold", "jax_sgmc/integrator.py:reversible_leapfrog"]}
{"id": "C158", "title": "A checkpoint is only accepted by a chain registered with the same options", "statement": "load_state accepts a checkpoint only for a chain registered with the options (kind, batch size, cache size, shuffling) of the chain it was saved from and raises an error otherwise, so that a chain always delivers batches of the registered shape, however often it is saved and restored. (False in the code: only random checkpoints for ordered chains are detected; an ordered checkpoint is silently ignored by a random chain; a random chain takes over the batch size and the whole stream of any other random chain. What holds: a chain restored only from its own checkpoints keeps its shape in every history.)", "quantifier": "every dataset, pair of chains, options, histories of saving, restoring and drawing on any number of chains", "why_tests_cant": "The shape must hold after every interleaving of saves and restores, the tests restore one chain once.", "anchors": ["jax_sgmc/data/numpy_loader.py:NumpyDataLoader.load_state", "jax_sgmc/data/numpy_loader.py:NumpyDataLoader.save_state"]}
{"id": "C159", "title": "Random thinning selects iterations with probability proportional to their step size", "statement": "If random_thinning selects some of the iterations which are not subject to burn in, every one of them is selected with a probability proportional to its step size (as documented, to deal with the decaying step size). (False in the code for two or more selections: the draws are without replacement. What holds: the selected iterations, in the order of the draws, are distributed like successive draws without replacement with probabilities proportional to the step sizes; in particular the claim holds for a single selection.)", "quantifier": "every positive step size schedule, burn in schedule, number of iterations and selections, key", "why_tests_cant": "A statement about a probability distribution over all selections.", "anchors": ["jax_sgmc/scheduler.py:random_thinning"]}
{"id": "C160", "title": "A memory collector called in any order keeps the right samples and rejects the rest", "statement": "Whatever sequence of calls (register_chain, save, finalize) a MemoryCollector gets, in any order, for any chains, and although some of the calls raise: every call raises exactly what is expected - IndexError for a chain which was never registered or already has all its announced samples, RuntimeError for finalizing a chain twice - and the result of every chain consists of the samples saved to it in their order, followed by zeros. A rejected call changes no chain.", "quantifier": "every finite sequence of calls, every number of chains, samples and announced sizes, with or without a directory", "why_tests_cant": "The property quantifies over all call histories; a unit test runs a few fixed ones.", "anchors": ["jax_sgmc/io.py:MemoryCollector"]}
{"id": "C161", "title": "Tree arithmetic rejects arrays of different shapes", "statement": "tree_add, tree_multiply and tensor_matmul with a diagonal matrix are documented for trees of the same shape; other trees are rejected with an exception. (False in the code: leaves are broadcast, a leaf with one entry is silently combined with every entry of the other. What holds: an exception is raised exactly if the tree structures differ or the shapes of two leaves cannot be broadcast, and otherwise every entry of the result is the sum or product of the entries selected by the rules of broadcasting; the adaption rejects a gradient of another size unless one size is one.)", "quantifier": "every pair of trees of arrays, every number of dimensions and every shape", "why_tests_cant": "Ranges over all shapes and all entries.", "anchors": ["jax_sgmc/util/tree_util.py:tree_add", "jax_sgmc/util/tree_util.py:tree_multiply", "jax_sgmc/util/tree_util.py:tensor_matmul", "jax_sgmc/adaption.py:rms_prop"]}
{"id": "C162", "title": "The key of random_thinning is independent of the keys of the chains", "statement": "The key with which the alias solvers select the kept iterations is independent of all keys with which the chains draw their noise (no random key is used for two purposes). (False in the code: random_thinning is constructed without key and uses the default PRNGKey(0), which is also the default initial key of the chains; all keys of the chains are derived from it by splitting. What holds: the thinning draws with this key only, it is none of the keys with which a chain of sgld draws noise, and a key of its own makes it independent for all solvers.)", "quantifier": "every ideal generator, every number of iterations, samples, data and parameters", "why_tests_cant": "Ranges over all keys derived in all iterations.", "anchors": ["jax_sgmc/alias.py:sgld", "jax_sgmc/scheduler.py:random_thinning", "jax_sgmc/integrator.py:langevin_diffusion", "jax_sgmc/solver.py:amagold"]}
{"id": "C163", "title": "Stacking pytrees rejects trees of different structure or shapes", "statement": "pytree_list_to_leaves, list_vmap and list_pmap accept exactly lists of pytrees with the same structure and equally shaped leaves: such trees are stacked along a new first dimension and unstacking returns them, any other list raises an exception. (False in the code: only the structure of the first tree is used and the leaves are zipped, so trees with other keys are stacked under the keys of the first tree and additional leaves are dropped silently. What holds: a list is accepted if and only if the shapes of the leaves of the first tree are the first shapes of the leaves of every other tree; for trees of the same structure and shapes the result contains the entries of all trees in their order, unstacking is the inverse and list_vmap returns the values of the function.)", "quantifier": "every non-empty list of pytrees of arrays of any shapes, every function", "why_tests_cant": "Ranges over all tree structures, shapes and numbers of trees.", "anchors": ["jax_sgmc/util/list_map.py:pytree_list_to_leaves", "jax_sgmc/util/list_map.py:pytree_leaves_to_list", "jax_sgmc/util/list_map.py:list_vmap", "jax_sgmc/util/list_map.py:list_pmap"]}
{"id": "C164", "title": "Burn in overridden for a chain with random thinning", "statement": "If burn in is overridden for a chain of a run with random_thinning, the announced number of samples is still kept. (False in the code: random_thinning selects iterations with the globally given burn in schedule, so selected iterations may fall into the burn in of the chain, and fewer samples are kept than announced by the init function of the scheduler. What holds: at most as many samples are missing as the burn in was extended by; the announced samples are kept if the burn in is only shortened or if burn_in_schedule of the thinning is overridden too.)", "quantifier": "every number of iterations and selections, every burn in, step size schedule with positive steps, random numbers, overrides of all parameters and feedback", "why_tests_cant": "Ranges over all schedules, overrides and selections.", "anchors": ["jax_sgmc/scheduler.py:random_thinning", "jax_sgmc/scheduler.py:init_scheduler", "jax_sgmc/scheduler.py:initial_burn_in"]}
{"id": "C165", "title": "Additional schedulers do not influence which samples are kept", "statement": "Overrides given in the argument schedulers of run (for instance burn in, thinning or temperature of the tempered chain) change neither the number of announced and returned samples nor the iterations whose samples are kept nor, with schedules which ignore the statistics of the solver, the schedule of the main chain; the same holds for the solver and the initial states. All burn in and thinning schedules of the package qualify.", "quantifier": "every scheduler whose burn in and thinning ignore the statistics of the solver, all solvers, initial states, helper schedulers and numbers of iterations for which the initialisation succeeds", "why_tests_cant": "Ranges over all pairs of runs with different helper schedulers and dynamics.", "anchors": ["jax_sgmc/solver.py:mcmc", "jax_sgmc/scheduler.py:init_scheduler", "jax_sgmc/solver.py:parallel_tempering"]}
{"id": "C166", "title": "Overrides accepted for additional chains can be used in the run", "statement": "If the init functions of the schedules accept the overrides given in the argument schedulers of run, the scheduler states of all chains can be stacked in every iteration, so that run does not raise. False in the code: the state of random_thinning is an array with one entry per selected sample, so an override of selections for an additional chain passes init but the vectorized get in the first iteration raises ValueError. With random thinning exactly the overrides which do not change the number of selections work (in every iteration), without thinning all accepted overrides work.", "quantifier": "all schedulers with the step size, temperature and burn in schedules of the package and random thinning (or no thinning), with or without progress bar, all numbers of additional chains, overrides, iterations and statistics", "why_tests_cant": "Ranges over all combinations of overrides and numbers of chains, and over every iteration of the run.", "anchors": ["jax_sgmc/solver.py:mcmc", "jax_sgmc/scheduler.py:init_scheduler", "jax_sgmc/scheduler.py:random_thinning", "jax_sgmc/util/list_map.py:list_vmap"]}
{"id": "C167", "title": "The lines printed by the progress bar are ordered, bounded and unambiguous", "statement": "With enabled progress bar a run of at least steps iterations prints at least steps and less than 2*steps lines, a shorter run prints one line. From line to line the iteration increases and neither the number of collected samples nor the percentage decreases; no line reports more iterations or samples than the run has. The percentage lies between 0 and 100 and is the progress rounded to an integer (up to rounding errors of doubles), and different reports give different lines.", "quantifier": "all schedulers whose burn in and thinning decisions for an iteration do not depend on its update (all of the package), all numbers of iterations below 2^53, steps, overrides, statistics and all roundings to nearest", "why_tests_cant": "Ranges over all numbers of iterations and steps; monotonicity of doubly rounded quotients cannot be checked by samples.", "anchors": ["jax_sgmc/scheduler.py:_progress_bar", "jax_sgmc/scheduler.py:init_scheduler"]}
{"id": "C168", "title": "Misspelled overrides of the schedulers are rejected", "statement": "The dictionaries passed as schedulers to run (overrides for additional chains) are only accepted if they contain no unknown names: neither of schedulers nor of parameters. False in the code: names of parameters are checked (TypeError), but an unknown name of a scheduler, for instance temprature, is silently ignored and the chain runs without the override. Accepted dictionaries have exactly the effect of the named parameters. A single dictionary, which the signature of run allows, raises TypeError.", "quantifier": "all dictionaries of overrides, schedulers, signatures of their init functions and numbers of iterations", "why_tests_cant": "Ranges over all dictionaries of names and values; silently ignored entries show no error.", "anchors": ["jax_sgmc/scheduler.py:init_scheduler", "jax_sgmc/solver.py:mcmc"]}
{"id": "C169", "title": "The progress bar reports the progress of runs with additional schedulers", "statement": "In a run with additional schedulers (parallel tempering) and enabled progress bar the bar prints the lines it prints without them. False in the code: the vectorized update turns lax.cond into a select, so that the callback is called in every iteration with stacked values, and int of an array with two entries raises TypeError on the host; no line is ever printed, and overriding enabled does not help. The scheduler states are not affected; with a progress bar disabled at construction the callback is never called.", "quantifier": "all schedulers, numbers of additional schedulers, overrides, iterations and statistics for which the initialisation succeeds", "why_tests_cant": "Side effects of vectorized code in every iteration of every run; the alias for parallel tempering hides the case by disabling the bar.", "anchors": ["jax_sgmc/scheduler.py:_progress_bar", "jax_sgmc/scheduler.py:init_scheduler", "jax_sgmc/solver.py:mcmc", "jax_sgmc/alias.py:re_sgld"]}
{"id": "C170", "title": "The progress bar prints the same lines with strategy map and vmap", "statement": "With enabled progress bar every chain prints its lines (those of C167) with strategy=\"vmap\" as with strategy=\"map\". False in the code: with vmap both branches of lax.cond are executed, so that a single chain prints a line in every iteration, also if the bar was disabled by an override, and with several chains the callback raises TypeError in every iteration and nothing is printed.", "quantifier": "all schedulers whose decisions for an iteration do not depend on its update, numbers of chains and iterations, overrides, iterations and statistics", "why_tests_cant": "Side effects of vectorized code in every iteration; ranges over all numbers of chains.", "anchors": ["jax_sgmc/scheduler.py:_progress_bar", "jax_sgmc/solver.py:mcmc"]}
