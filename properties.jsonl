{"id": "C01", "title": "Indexing a sharded dataset is indexing the concatenated data", "statement": "For a Dataset built from any list of (x, z) shards, ds[i] returns the i-th row of the concatenation of the shards, with the matching x and z rows, for every 0 <= i < len(ds), and raises IndexError for i >= len(ds); len(ds) is the total number of rows.", "quantifier": "every number of shards, every shard size (including empty shards), every index", "why_tests_cant": "The bisect-over-shard-bounds arithmetic has one boundary per shard; tests sample a few layouts.", "anchors": ["gpmp/dataloader.py: Dataset.__init__", "gpmp/dataloader.py: Dataset._compute_shard_bounds", "gpmp/dataloader.py: Dataset.__getitem__", "gpmp/dataloader.py: Dataset.__len__"]}
{"id": "C02", "title": "Negative dataset indices count from the end", "statement": "ds[-k] returns the same row as ds[len(ds)-k] (Python sequence convention) for 1 <= k <= len(ds).", "quantifier": "every shard layout and every negative index", "why_tests_cant": "Only multi-shard layouts with negative indices show a difference, and single-shard tests pass.", "anchors": ["gpmp/dataloader.py: Dataset.__getitem__"]}
{"id": "C03", "title": "subset selects exactly the requested rows", "statement": "ds.subset(idx) holds exactly the rows of ds whose indices occur in idx, x and z still paired, ordered by index; indices >= len(ds) or negative are not reported as errors.", "quantifier": "every shard layout and every index list, including duplicates and out-of-range entries", "why_tests_cant": "Per-shard masks interact with the layout; tests check a couple of splits.", "anchors": ["gpmp/dataloader.py: Dataset.subset"]}
{"id": "C04", "title": "Train/validation/test split is a partition of the rows", "statement": "Dataset.split(ds, ratios) gives train, validation and test sets whose rows together are exactly the rows of ds, each row (x with its own z) in exactly one of them, with floor(r0*n) and floor(r1*n) rows in the first two.", "quantifier": "every shard layout, all nonnegative ratios summing to one, every permutation the generator may return", "why_tests_cant": "Quantifies over all permutations and layouts.", "anchors": ["gpmp/dataloader.py: Dataset.split", "gpmp/dataloader.py: Dataset.subset"]}
{"id": "C05", "title": "k-fold indices form a balanced partition (numpy backend)", "statement": "k_fold_indices returns exactly k (train, val) pairs whose test sets are pairwise disjoint, cover 0..n-1, differ in size by at most one, and each train set is the complement of its test set; repeated_k_fold_indices returns n_repeats*k such pairs, and k = 1 raises.", "quantifier": "every n, every k >= 2, every permutation", "why_tests_cant": "Universal over n, k and permutations.", "anchors": ["gpmp/dataloader.py: Dataset.k_fold_indices", "gpmp/dataloader.py: Dataset.repeated_k_fold_indices", "gpmp/num/numpy_backend.py: split"]}
{"id": "C06", "title": "k-fold indices do not depend on the backend", "statement": "With the torch backend k_fold_indices yields the same kind of balanced k-fold partition as with numpy.", "quantifier": "every n and k on the torch backend", "why_tests_cant": "The torch split helper guesses whether its argument is a list of sizes or of bounds; only certain (n, k) pairs trigger the wrong guess.", "anchors": ["gpmp/dataloader.py: Dataset.k_fold_indices", "gpmp/num/torch_backend.py: split", "gpmp/num/torch_backend.py: _sizes_from_bounds"]}
{"id": "C07", "title": "One epoch of a DataLoader visits every row exactly once", "statement": "Iterating a DataLoader yields batches whose concatenated indices are a permutation of 0..n-1 (identity order when shuffle is off); with drop_last only fewer than batch_size rows are skipped; every batch but possibly the last has batch_size rows; the number of batches equals len(loader).", "quantifier": "every dataset size, batch size, shuffle flag, seed, epoch and generator permutation", "why_tests_cant": "Ranges over all sizes and permutations.", "anchors": ["gpmp/dataloader.py: DataLoader.__iter__", "gpmp/dataloader.py: DataLoader.__len__", "gpmp/dataloader.py: DataLoader.set_epoch"]}
{"id": "C08", "title": "Fetching a batch keeps x/z pairs and loses nothing", "statement": "A batch fetched from a sharded dataset contains exactly the requested rows (as a multiset), with each x row beside its own z row, although rows are regrouped by shard.", "quantifier": "every shard layout and every batch of valid indices", "why_tests_cant": "Reordering by shard only shows on batches that straddle shards.", "anchors": ["gpmp/dataloader.py: DataLoader._fetch_batch"]}
{"id": "C09", "title": "loader[i] is the i-th batch of an unshuffled pass", "statement": "For a loader with shuffle off, loader[i] equals the i-th batch produced by iteration for 0 <= i < len(loader), and other i raise IndexError; with shuffle on the documented error behaviour holds. loader[a:b:step] is the list of the batches that Python's slice of list(loader) would give, for positive and negative steps, and a zero step raises.", "quantifier": "every dataset, batch size, drop_last flag, index and slice", "why_tests_cant": "Boundary of last partial batch for every (n, batch_size).", "anchors": ["gpmp/dataloader.py: DataLoader.__getitem__", "gpmp/dataloader.py: DataLoader.__iter__"]}
{"id": "C10", "title": "Dataset statistics are those of the concatenated data", "statement": "The dataset-level min, max, mean, variance and std of x and z computed shard by shard equal the statistics of the concatenation of all shards.", "quantifier": "every list of nonempty shards and all values (exact arithmetic)", "why_tests_cant": "An algebraic identity over all data.", "anchors": ["gpmp/dataloader.py: Dataset._reduce_*"]}
{"id": "C11", "title": "DataLoader.reduce_mean is the row-weighted mean", "statement": "reduce_mean(f) for f a per-row mean returns the mean over all rows seen, whatever the batch size and the order of the rows.", "quantifier": "every dataset, batch size and permutation (exact arithmetic)", "why_tests_cant": "Unequal last batches weight wrongly only for some sizes.", "anchors": ["gpmp/dataloader.py: DataLoader.reduce_mean"]}
{"id": "C12", "title": "Scalers are invertible and scale to the advertised range", "statement": "inverse_transform(transform(x)) = x and transform(inverse_transform(x)) = x for all four scalers; MinMaxScaler maps fitted data into [0,1], attaining both ends on columns whose range is at least 1e-8; Normalizer gives mean 0 and variance 1 on columns with std >= 1e-8; constant columns never divide by zero.", "quantifier": "all fitted data and all points (exact arithmetic)", "why_tests_cant": "Holds for all data; the epsilon branch depends on values.", "anchors": ["gpmp/dataloader.py: Normalizer", "gpmp/dataloader.py: RobustScaler", "gpmp/dataloader.py: MinMaxScaler", "gpmp/dataloader.py: ObservationScaler"]}
{"id": "C13", "title": "Collating all batches rebuilds the data", "statement": "collate_batches applied to the batches of an unshuffled loader returns the whole data set in order; on a shuffled loader a permutation of it with x/z paired.", "quantifier": "every dataset, batch size and permutation", "why_tests_cant": "Universal over layouts.", "anchors": ["gpmp/dataloader.py: collate_batches"]}
{"id": "C14", "title": "Batches-per-evaluation draws exactly that many batches, cycling", "statement": "A batched selection criterion with batches_per_eval = k evaluates exactly k consecutive batches of the loader, restarting the loader when exhausted, the position being carried from one evaluation to the next; with k = 0 each evaluation is one full pass; a negative k and an empty loader are refused with an exception instead of looping.", "quantifier": "every loader and every k and every sequence of evaluations", "why_tests_cant": "The cycling position is state carried between calls.", "anchors": ["gpmp/num/numpy_backend.py: BatchDifferentiableSelectionCriterion._batches", "gpmp/num/torch_backend.py: BatchDifferentiableSelectionCriterion"]}
{"id": "C15", "title": "Parameter normalisation round-trips", "statement": "For every entry, denormalize(normalize(v)) = v for each supported normalisation and every v in its domain, and set_from_unnormalized followed by reading the denormalized values returns the values that were set.", "quantifier": "all parameter vectors, normalisation mixes and real values in the domain (exact arithmetic)", "why_tests_cant": "Real-valued quantifier and mixed normalisations.", "anchors": ["gpmp/parameter/param.py: Param._normalize", "gpmp/parameter/param.py: Param._denormalize", "gpmp/parameter/param.py: Param.denormalized_values", "gpmp/parameter/param.py: Param.set_from_unnormalized"]}
{"id": "C16", "title": "All fields of a Param keep equal length", "statement": "names, paths, normalizations, bounds and values have the same length after construction and after any sequence of public mutations.", "quantifier": "every sequence of API calls", "why_tests_cant": "Invariant over histories.", "anchors": ["gpmp/parameter/param.py: Param._check_consistency", "gpmp/parameter/param.py: Param.values", "gpmp/parameter/param.py: Param.set_by_path", "gpmp/parameter/param.py: Param.set_by_name", "gpmp/parameter/param.py: Param.set_from_unnormalized", "gpmp/parameter/param.py: Param.concat", "gpmp/parameter/param.py: Param.__getitem__"]}
{"id": "C17", "title": "set_by_path is all-or-nothing and local", "statement": "set_by_path(prefix, v) either raises and leaves the object unchanged, or writes exactly the entries whose path starts with prefix, in order, and get_by_path(prefix) then returns v; all other entries are unchanged.", "quantifier": "every Param, prefix and value vector", "why_tests_cant": "Frame condition over all other entries.", "anchors": ["gpmp/parameter/param.py: Param.set_by_path", "gpmp/parameter/param.py: Param.get_by_path", "gpmp/parameter/param.py: Param.indices_by_path_prefix"]}
{"id": "C18", "title": "Slicing and concatenating Params are inverse", "statement": "concat of p[:k] and p[k:] equals p field by field, and slicing the concatenation at the boundary gives back the two parts; name lookup returns the entry of the first matching name.", "quantifier": "every Param and cut point", "why_tests_cant": "Universal over sizes.", "anchors": ["gpmp/parameter/param.py: Param.__getitem__", "gpmp/parameter/param.py: Param.concat", "gpmp/parameter/param.py: Param.get_by_name"]}
{"id": "C19", "title": "Bounds check is exact", "statement": "check_bounds returns, per entry, True iff the entry has no bounds or its denormalized value lies within them inclusive.", "quantifier": "every Param and every value vector", "why_tests_cant": "Universal over values and normalisations.", "anchors": ["gpmp/parameter/param.py: Param.check_bounds"]}
{"id": "C20", "title": "No sequence of configuration calls leaves an invalid configuration", "statement": "After any sequence of set_backend / set_dtype / update / get_backend calls, failing or not, the stored dtype is float64 and the stored backend is unset, numpy or torch; failing set_dtype and set_backend calls on a string raise ValueError and change nothing; single-precision dtypes are always refused.", "quantifier": "every sequence of updates including failing ones", "why_tests_cant": "Histories of calls with failures in between.", "anchors": ["gpmp/config.py: _GPMPConfig.update", "gpmp/config.py: _normalize_dtype_spec", "gpmp/config.py: _normalize_backend_spec"]}
{"id": "C21", "title": "Backend choice is deterministic and stable", "statement": "init_backend picks the explicit setting if valid, else torch if importable, else numpy, and repeated initialisation does not change the choice; get_backend always returns numpy or torch.", "quantifier": "every environment value and sequence of calls", "why_tests_cant": "Depends on environment and call order.", "anchors": ["gpmp/config.py: _detect_backend", "gpmp/config.py: init_backend", "gpmp/config.py: set_backend", "gpmp/config.py: get_backend"]}
{"id": "C22", "title": "The cached log-gamma table is always right", "statement": "Whatever sequence of Matern orders is requested (growing, shrinking, cache cleared in between), each table lookup returns log Gamma(i) for every index the kernel reads and never reads out of range.", "quantifier": "every sequence of requests", "why_tests_cant": "The cache is history-dependent.", "anchors": ["gpmp/num/shared.py: compute_gammaln", "gpmp/kernel/matern.py: maternp_kernel"]}
{"id": "C23", "title": "Matern half-integer kernel equals its closed formula and is a correlation function shape", "statement": "maternp_kernel(p, h) equals exp(-c h) * p!/(2p)! * sum_i (p+i)!/(i!(p-i)!) (2 c h)^(p-i) with c = 2 sqrt(p+1/2); it is 1 at 0, positive, at most 1 and nonincreasing in h >= 0.", "quantifier": "all p and all h >= 0 (exact arithmetic)", "why_tests_cant": "Real quantifier and every order p.", "anchors": ["gpmp/kernel/matern.py: maternp_kernel"]}
{"id": "C24", "title": "Matern special cases agree", "statement": "maternp_kernel with p=0 is the exponential kernel of scaled argument and with p=1 it is matern32_kernel.", "quantifier": "all h >= 0", "why_tests_cant": "Identity of real functions.", "anchors": ["gpmp/kernel/matern.py: matern32_kernel", "gpmp/kernel/exponential.py: exponential_kernel"]}
{"id": "C25", "title": "Covariance wrapper: symmetry, nugget and pairwise consistency", "statement": "The Matern covariance called on (x, x) is symmetric with diagonal sigma^2 (1 + 10 eps); on different objects no nugget is added; the pairwise form equals the diagonal of the matrix form up to the nugget.", "quantifier": "all point sets, parameters and call forms", "why_tests_cant": "The nugget depends on object identity, not values.", "anchors": ["gpmp/kernel/matern.py: maternp_covariance_ii_or_tt", "gpmp/kernel/matern.py: maternp_covariance_it", "gpmp/kernel/matern.py: maternp_covariance"]}
{"id": "C26", "title": "Zero-mean kriging is the best linear predictor", "statement": "The weights returned by zero-mean prediction minimise the mean-square prediction error over all linear predictors, and the returned variance is that minimum; it lies between 0 and the prior variance and does not grow when observations are added.", "quantifier": "all covariance structures with positive definite data covariance, all target points (exact arithmetic)", "why_tests_cant": "Optimality over an infinite set of competitors.", "anchors": ["gpmp/core/kriging.py: kriging_predictor_with_zero_mean", "gpmp/core/kriging.py: _compute_posterior_variance"]}
{"id": "C27", "title": "Universal kriging is unbiased and optimal", "statement": "The weights of prediction with an unknown linear mean reproduce every mean basis function exactly and minimise the error variance among all weights that do; the returned variance is the error variance.", "quantifier": "all covariance matrices, full-column-rank designs and targets (exact arithmetic)", "why_tests_cant": "Optimality over all unbiased predictors.", "anchors": ["gpmp/core/kriging.py: kriging_predictor"]}
{"id": "C28", "title": "The null-space fallback of universal kriging gives the same predictor", "statement": "When the block solve fails and the null-space method is used, the weights are still unbiased and equal the universal kriging weights.", "quantifier": "all inputs on which the fallback runs", "why_tests_cant": "Fallback runs only on solver failure, which tests do not provoke.", "anchors": ["gpmp/core/kriging.py: _kriging_predictor_nullspace"]}
{"id": "C29", "title": "Prediction interpolates the data", "statement": "Predicting at the observation points (same array) returns the observed values exactly with zero variance, for zero, parameterised and unknown linear means.", "quantifier": "all data sets with positive definite covariance (exact arithmetic)", "why_tests_cant": "Universal over data.", "anchors": ["gpmp/core/kriging.py", "gpmp/core/model.py: Model.predict"]}
{"id": "C30", "title": "Reported predictive variances are never negative", "statement": "predict returns nonnegative variances (negative ones are clipped to zero) and clipping never changes an already nonnegative variance.", "quantifier": "all inputs", "why_tests_cant": "Rounding cases are rare in tests.", "anchors": ["gpmp/core/model.py: Model.predict"]}
{"id": "C31", "title": "Fast leave-one-out equals refitting without the point (zero or known mean)", "statement": "For each i the fast LOO mean and variance equal those of zero-mean kriging of point i from all other points.", "quantifier": "all data sizes, covariances and indices (exact arithmetic)", "why_tests_cant": "Matrix identity for all n.", "anchors": ["gpmp/core/loo.py: _loo_with_zero_mean", "gpmp/core/linalg.py: compute_diag_Kinv_from_chol"]}
{"id": "C32", "title": "Fast leave-one-out equals refitting without the point (unknown linear mean)", "statement": "For each i the fast LOO mean and variance under an unknown linear mean equal those of universal kriging from all other points, and the two algebraic variants agree.", "quantifier": "all n, full-rank designs that stay full rank without point i", "why_tests_cant": "Matrix identity for all n.", "anchors": ["gpmp/core/loo.py"]}
{"id": "C33", "title": "Negative log-likelihood is the Gaussian one", "statement": "The zero-mean and parameterised-mean criteria return minus the log density of the multivariate normal with the model's mean and covariance at the data; a covariance that is not positive definite yields +inf on the torch backend and raises on numpy.", "quantifier": "all data and covariances", "why_tests_cant": "Real-valued identity.", "anchors": ["gpmp/core/likelihood.py"]}
{"id": "C34", "title": "Restricted likelihood does not depend on the mean or the contrast basis", "statement": "The REML criterion is unchanged when any combination of mean basis functions is added to the data and does not depend on which orthonormal basis of the contrast space the QR routine returns.", "quantifier": "all data, designs and valid QR outputs", "why_tests_cant": "Quantifies over all outputs a QR routine may return.", "anchors": ["gpmp/core/likelihood.py: negative_log_restricted_likelihood", "gpmp/core/linalg.py: compute_contrast_matrix"]}
{"id": "C35", "title": "Predictions are equivariant to the mean space", "statement": "With an unknown linear mean, adding P*beta to the observations adds Pt*beta to the predictions and leaves variances and leave-one-out errors unchanged.", "quantifier": "all data, designs and coefficient vectors", "why_tests_cant": "Universal over beta.", "anchors": ["gpmp/core/kriging.py", "gpmp/core/loo.py"]}
{"id": "C36", "title": "Fisher information matrix is symmetric positive semidefinite", "statement": "The matrix assembled from covariance derivatives is symmetric and positive semidefinite whatever the derivative matrices returned, provided they are symmetric.", "quantifier": "all covariances, derivative matrices and dimensions", "why_tests_cant": "Matrix property for all sizes.", "anchors": ["gpmp/core/fisher.py: fisher_information", "gpmp/core/fisher.py: fisher_information_cpd"]}
{"id": "C37", "title": "Finite differences are exact on polynomials up to degree four", "statement": "derivative_finite_diff returns the exact derivative for every polynomial of degree at most 4 and every nonzero step.", "quantifier": "all quartic polynomials, points and steps", "why_tests_cant": "Infinite family.", "anchors": ["gpmp/num/shared.py: derivative_finite_diff"]}
{"id": "C38", "title": "Conditional sample paths pass through the data", "statement": "Conditioned sample paths equal the observations at observation points and the conditioning is affine in the unconditional path; the version with parameterised mean equals the centred version plus the mean.", "quantifier": "all unconditional paths, data and interpolating weights", "why_tests_cant": "Universal over paths.", "anchors": ["gpmp/core/sample_paths.py: conditional_sample_paths", "gpmp/core/sample_paths.py: conditional_sample_paths_parameterized_mean"]}
{"id": "C39", "title": "Power-law prior falls off beyond its cutoff", "statement": "log_prior_power_law decreases strongly in log variance beyond the cutoff, as documented.", "quantifier": "all parameter vectors", "why_tests_cant": "Behaviour in the tail is not visited by typical fits.", "anchors": ["gpmp/kernel/priors.py: log_prior_power_law"]}
{"id": "C40", "title": "Range prior is minimal at its reference point and infinite below its minimum", "statement": "The negative log prior on log range is +inf exactly at or below the minimum, finite above, and minimal at the reference value.", "quantifier": "all real parameters with reference above minimum", "why_tests_cant": "Real-valued optimum.", "anchors": ["gpmp/kernel/priors.py: neglog_f_logrho"]}
{"id": "C41", "title": "Selection returns the best value seen", "statement": "autoselect_parameters returns a point whose criterion value is at most every finite value recorded during the search, and flags whether the optimiser's own answer was replaced.", "quantifier": "every sequence of evaluations an optimiser may make", "why_tests_cant": "Optimiser behaviour is arbitrary.", "anchors": ["gpmp/kernel/parameter_selection.py: autoselect_parameters"]}
{"id": "C42", "title": "Numerical failures become +inf, other errors propagate", "statement": "During selection a linear-algebra failure of the criterion is treated as +inf and never aborts the search; any other exception propagates unchanged.", "quantifier": "every criterion behaviour", "why_tests_cant": "Failure injection at any evaluation.", "anchors": ["gpmp/kernel/parameter_selection.py: autoselect_parameters", "gpmp/num/numpy_backend.py: _is_linalg_exception"]}
{"id": "C43", "title": "Mean and covariance parameters are split back as they were joined", "statement": "The vector optimised is meanparam followed by covparam; the values stored in the model after selection are exactly the two parts.", "quantifier": "all lengths", "why_tests_cant": "Universal over lengths.", "anchors": ["gpmp/kernel/parameter_selection.py: select_parameters_with_criterion", "gpmp/kernel/parameter_selection.py: make_selection_criterion_with_gradient"]}
{"id": "C44", "title": "Automatic bounds contain the starting point", "statement": "With automatic bounds the starting point is feasible and lower <= upper in each coordinate.", "quantifier": "all starting points", "why_tests_cant": "Fails only for extreme values.", "anchors": ["gpmp/kernel/parameter_selection.py: autoselect_parameters"]}
{"id": "C45", "title": "Metropolis-Hastings acceptance satisfies detailed balance", "statement": "A move is accepted iff log u < log target ratio plus proposal correction; the induced transition probability is reversible for the target; proposals with NaN or failing target are rejected.", "quantifier": "all targets, proposals and uniform draws", "why_tests_cant": "Statement about probabilities over all pairs of states.", "anchors": ["gpmp/mcmc/mh.py: MetropolisHastings.mhstep", "gpmp/mcmc/mh.py: MetropolisHastings.run_samples"]}
{"id": "C46", "title": "MH bookkeeping: stored states, cached log-targets and counters agree", "statement": "After any number of sampling blocks the iteration counter equals the number of steps, every stored state after the initial one has its own log-target cached, and consecutive states differ only at accepted steps.", "quantifier": "every sequence of run blocks and accept/reject outcomes", "why_tests_cant": "Invariant over all histories.", "anchors": ["gpmp/mcmc/mh.py: MetropolisHastings.run_samples", "gpmp/mcmc/mh.py: MetropolisHastings.scheduler", "gpmp/mcmc/param_posterior.py: get_log_target_values"]}
{"id": "C47", "title": "Diminishing adaptation decreases to its documented final fraction", "statement": "The adaptation rate decreases from base to base*final_frac at the end of adaptation and stays positive.", "quantifier": "all n, N and base rates", "why_tests_cant": "Only late iterations show it.", "anchors": ["gpmp/mcmc/mh.py: MetropolisHastings._diminishing_adaptation_schedule"]}
{"id": "C48", "title": "Burn-in runs with one chain", "statement": "run_burnin completes for any number of chains >= 1, including the default single chain.", "quantifier": "all option values", "why_tests_cant": "Only long burn-ins reach the diagnostic.", "anchors": ["gpmp/mcmc/mh.py: MetropolisHastings.run_burnin", "gpmp/mcmc/mh.py: MetropolisHastings.check_convergence_gelman_rubin"]}
{"id": "C49", "title": "KS convergence check can succeed", "statement": "check_convergence_ks reports convergence when all chains and blocks agree.", "quantifier": "all numbers of chains and blocks", "why_tests_cant": "Needs reasoning over all inputs.", "anchors": ["gpmp/mcmc/mh.py: MetropolisHastings.check_convergence_ks", "gpmp/mcmc/mh.py: MetropolisHastings.ks_statistics"]}
{"id": "C50", "title": "Gelman-Rubin statistic is affine invariant and bounded below", "statement": "R-hat is unchanged by x -> a x + b (a nonzero), is at least sqrt((n-1)/n), with equality iff all chain means agree.", "quantifier": "all chains", "why_tests_cant": "Algebraic identity.", "anchors": ["gpmp/mcmc/mh.py: MetropolisHastings.compute_gelman_rubin_rhat"]}
{"id": "C51", "title": "Effective sample size is between 1 and n", "statement": "For nonnegative weights not all zero, 1 <= ESS <= n; ESS = n iff all weights are equal; it does not change when weights are rescaled.", "quantifier": "all weight vectors", "why_tests_cant": "Real inequality for all n.", "anchors": ["gpmp/mcmc/smc.py: ParticlesSet.ess"]}
{"id": "C52", "title": "Resampling keeps particles and log-densities paired and the count fixed", "statement": "After multinomial or residual resampling there are exactly n particles, each one a copy of an earlier particle with its own log-density, copied as many times as the drawn counts say, with weights 1/n; residual resampling keeps at least floor(n w_i) copies.", "quantifier": "all particle sets and all draws", "why_tests_cant": "All count vectors.", "anchors": ["gpmp/mcmc/smc.py: ParticlesSet.multinomial_resample", "gpmp/mcmc/smc.py: ParticlesSet.residual_resample"]}
{"id": "C53", "title": "Cached log-density of each particle is that of its position", "statement": "After any sequence of reweight, resample and move steps the cached log-density of each particle equals the current log-density at its position.", "quantifier": "every history", "why_tests_cant": "Invariant over histories.", "anchors": ["gpmp/mcmc/smc.py: ParticlesSet.reweight", "gpmp/mcmc/smc.py: ParticlesSet.move", "gpmp/mcmc/smc.py: ParticlesSet.set_logpdf"]}
{"id": "C54", "title": "Subset simulation starts from the right density", "statement": "The failure probability estimate is right for a limit state that is always exceeded (probability 1).", "quantifier": "all boxes", "why_tests_cant": "Depends on the box volume.", "anchors": ["gpmp/mcmc/smc.py: run_subset_simulation", "gpmp/mcmc/smc.py: ParticlesSet.particles_init"]}
{"id": "C55", "title": "Leapfrog integrator is time reversible", "statement": "A leapfrog step with step size -e undoes a step with step size e exactly, and flipping the momentum conjugates the two.", "quantifier": "all potentials, states and step sizes (exact arithmetic)", "why_tests_cant": "All potentials.", "anchors": ["gpmp/mcmc/nuts.py: leapfrog"]}
{"id": "C56", "title": "NUTS tree building is bounded and its proposal is a valid slice point", "statement": "A subtree of depth d uses at most 2^d leapfrog steps, has at most 2^d valid points, mean acceptance in [0,1]; whenever it has a valid point its proposal is a visited point inside the slice; a transition never exceeds max_depth doublings and 2^max_depth - 1 leapfrog steps.", "quantifier": "all potentials, depths and random draws", "why_tests_cant": "Recursion of unbounded depth.", "anchors": ["gpmp/mcmc/nuts.py: build_tree", "gpmp/mcmc/nuts.py: nuts_transition"]}
{"id": "C57", "title": "Warm-up windows tile the adaptation phase", "statement": "make_warmup_windows returns contiguous, nonempty, nonoverlapping windows covering exactly the middle phase.", "quantifier": "all warm-up lengths and buffer sizes", "why_tests_cant": "All integers.", "anchors": ["gpmp/mcmc/nuts.py: make_warmup_windows"]}
{"id": "C58", "title": "Running variance equals the sample variance", "statement": "RunningDiagVar after any sequence of updates returns the unbiased sample variance of the values seen (1 when fewer than 2).", "quantifier": "all sequences", "why_tests_cant": "Induction over sequences.", "anchors": ["gpmp/mcmc/nuts.py: RunningDiagVar"]}
{"id": "C59", "title": "Step-size search terminates within its bounds", "statement": "find_reasonable_step_size terminates for every target and returns a step within one doubling of the allowed range; the clamped step is within the range.", "quantifier": "all potentials", "why_tests_cant": "Termination.", "anchors": ["gpmp/mcmc/nuts.py: find_reasonable_step_size", "gpmp/mcmc/nuts.py: nuts_sample"]}
{"id": "C60", "title": "SVGD particles stay in the box and the kernel matrix is a valid kernel", "statement": "After each SVGD step every particle is inside the box; projection is idempotent; the kernel matrix is symmetric with unit diagonal and entries in (0,1].", "quantifier": "all particles, scores, boxes with lower <= upper", "why_tests_cant": "All real inputs.", "anchors": ["gpmp/mcmc/svgd.py: _project_to_box", "gpmp/mcmc/svgd.py: rbf_kernel_matrix", "gpmp/mcmc/svgd.py: svgd_step"]}
{"id": "C61", "title": "SVGD repulsion is the kernel gradient and sums to zero", "statement": "The repulsion term is the sum of kernel gradients, total repulsion over particles is zero, a single particle follows the score, and particles with nonfinite log-density neither move nor influence others.", "quantifier": "all particle configurations", "why_tests_cant": "All real inputs.", "anchors": ["gpmp/mcmc/svgd.py: svgd_step"]}
{"id": "C62", "title": "Annealing goes from t0 to t1", "statement": "The annealed temperature starts at t0, ends at t1, always lies between them and is positive.", "quantifier": "all steps and temperatures", "why_tests_cant": "All integers/reals.", "anchors": ["gpmp/mcmc/svgd.py: _annealed_temperature"]}
{"id": "C63", "title": "Posterior samplers accept documented initial state shapes and box truncation", "statement": "Each documented shape of initial states is accepted by the samplers; the log-probability is -inf outside the box or when the criterion fails, else minus the criterion.", "quantifier": "all shapes, chain counts and dimensions", "why_tests_cant": "Shape combinations.", "anchors": ["gpmp/mcmc/param_posterior.py: _infer_dim", "gpmp/mcmc/param_posterior.py: _normalize_initial_states", "gpmp/mcmc/param_posterior.py: _make_log_prob_mh"]}
{"id": "C64", "title": "Selecting part of a DataFrame keeps row and column names", "statement": "df[rows, cols] has the selected rows' names as row names and the selected columns' names as column names.", "quantifier": "all frames and selections", "why_tests_cant": "Square examples hide swapped names.", "anchors": ["gpmp/misc/dataframe.py: DataFrame.__getitem__"]}
{"id": "C65", "title": "Regular grids contain every combination exactly once and stay in the box", "statement": "regulargrid returns prod(n_i) points, all inside the box, being all combinations of per-axis levels.", "quantifier": "all dimensions, levels and boxes", "why_tests_cant": "Any dimension.", "anchors": ["gpmp/misc/designs.py: regulargrid"]}
{"id": "C66", "title": "Approximate fill distance is a max-min distance", "statement": "filldist_approx returns the largest distance from the random points to their nearest design point.", "quantifier": "all designs and draws", "why_tests_cant": "All designs.", "anchors": ["gpmp/misc/designs.py: filldist_approx"]}
{"id": "C67", "title": "Maximin search returns the best design drawn", "statement": "maximinlhs/maximinldlhs return one of the drawn designs, with minimal distance at least that of every design drawn.", "quantifier": "all draw sequences", "why_tests_cant": "All draws.", "anchors": ["gpmp/misc/designs.py: maximinlhs", "gpmp/misc/designs.py: maximinldlhs"]}
{"id": "C68", "title": "CRPS formulas behave as a scoring rule", "statement": "crps_gaussian is translation equivariant, scales with sigma, is symmetric and nonnegative.", "quantifier": "all observations and predictive parameters", "why_tests_cant": "Real-valued.", "anchors": ["gpmp/misc/scoringrules.py: crps_gaussian"]}
{"id": "C69", "title": "Performance metrics are consistent", "statement": "Q2 <= 1, (RMSE/std)^2 = 1 - Q2, and Q2 = 1 iff predictions are exact.", "quantifier": "all data", "why_tests_cant": "Algebraic.", "anchors": ["gpmp/modeldiagnosis/performance.py: compute_performance"]}
{"id": "C70", "title": "Test function detpep8d is the published function", "statement": "detpep8d returns the Dette-Pepelyshev 8-dimensional function including all five logarithmic terms.", "quantifier": "all points of the cube", "why_tests_cant": "A test with one reference value would be needed at a generic point.", "anchors": ["gpmp/misc/testfunctions.py: detpep8d"]}
{"id": "C71", "title": "Dataset quantiles and the robust scaler", "statement": "Dataset quantile reductions refuse levels outside [0,1]; otherwise they equal linear interpolation of the sorted column and do not depend on the sharding; robust-scaled data has median 0 and interquartile range 1 when the interquartile range is not degenerate.", "quantifier": "all datasets and levels (exact arithmetic)", "why_tests_cant": "Real quantifier over data and level.", "anchors": ["gpmp/dataloader.py: Dataset.reduce", "gpmp/dataloader.py: RobustScaler"]}
{"id": "C72", "title": "Bounds given in log scale to make_anisotropic_param are checked in log scale", "statement": "A Param made by make_anisotropic_param with logsigma2_bounds accepts exactly the values whose log variance is within those bounds.", "quantifier": "all bounds and values", "why_tests_cant": "check_bounds denormalises; the discrepancy shows only for particular bound values.", "anchors": ["gpmp/parameter/param.py: Param.check_bounds", "gpmp/parameter/param.py: make_anisotropic_param"]}
{"id": "C73", "title": "to_simple_dict agrees with get_by_name", "statement": "For every name, to_simple_dict()[name] is the value returned by get_by_name(name).", "quantifier": "every Param including those made by concatenation", "why_tests_cant": "Needs duplicate names, which only arise by composition.", "anchors": ["gpmp/parameter/param.py: Param.to_simple_dict", "gpmp/parameter/param.py: Param.concat"]}
{"id": "C74", "title": "A failing set_from_unnormalized leaves the parameter object unchanged", "statement": "If set_from_unnormalized raises, no value of the Param has changed.", "quantifier": "every Param and keyword set", "why_tests_cant": "Failure atomicity over mixed valid/invalid keywords.", "anchors": ["gpmp/parameter/param.py: Param.set_from_unnormalized"]}
{"id": "C75", "title": "Only double-precision floating types are accepted as dtype", "statement": "A dtype string is accepted only if it names double-precision floating point numbers.", "quantifier": "every string", "why_tests_cant": "Quantifies over all strings.", "anchors": ["gpmp/config.py: _normalize_dtype_spec"]}
{"id": "C76", "title": "Configuration and environment variable agree on the backend", "statement": "Whenever a backend is configured, the GPMP_BACKEND environment variable has the same value, after any sequence of configuration calls including failing ones.", "quantifier": "every sequence of calls", "why_tests_cant": "Shows only after particular failing calls.", "anchors": ["gpmp/config.py: _GPMPConfig.update", "gpmp/config.py: set_backend"]}
{"id": "C77", "title": "Both backends compute the same scaled distance", "statement": "In exact arithmetic the numpy and torch implementations of the anisotropic distance return the same number, zero exactly when the points coincide.", "quantifier": "all points and length scales", "why_tests_cant": "Identity of two different formulas over the reals.", "anchors": ["gpmp/num/numpy_backend.py: scaled_distance", "gpmp/num/torch_backend.py: scaled_distance"]}
{"id": "C79", "title": "Predicting at a copy of the observation points does not interpolate", "statement": "When the prediction points are equal to the observation points but are a different object, the prediction misses the data by nugget * K^-1 z, for every nonzero data vector.", "quantifier": "all data, covariances and nonzero nuggets", "why_tests_cant": "Depends on object identity; the size of the miss is of the order of rounding.", "anchors": ["gpmp/kernel/matern.py: maternp_covariance", "gpmp/core/kriging.py: kriging_predictor_with_zero_mean"]}
{"id": "C78", "title": "Restricted likelihood has its explicit textbook form", "statement": "The REML criterion equals 1/2 [ (n-q) log 2 pi + log det K + log det(P' K^-1 P) - log det(P'P) + z' (K^-1 - K^-1 P (P'K^-1P)^-1 P'K^-1) z ].", "quantifier": "all positive definite K, full-rank P, data z and valid QR outputs (exact arithmetic)", "why_tests_cant": "Determinant identity in all dimensions.", "anchors": ["gpmp/core/likelihood.py: negative_log_restricted_likelihood"]}
{"id": "C80", "title": "Squared norms are generalised least-squares residuals", "statement": "norm_k_sqrd_with_zero_mean is z'K^-1 z; norm_k_sqrd is the minimum over beta of (z - P beta)'K^-1(z - P beta); k_inverses returns z'K^-1 z, K^-1 1 and K^-1 z.", "quantifier": "all positive definite K, full-rank P and data", "why_tests_cant": "Minimum over an infinite set.", "anchors": ["gpmp/core/linalg.py: norm_k_sqrd_with_zero_mean", "gpmp/core/linalg.py: norm_k_sqrd", "gpmp/core/linalg.py: k_inverses"]}
{"id": "C81", "title": "Unconditional sample paths have the model covariance", "statement": "Both factorisation methods multiply the normal draws by a matrix A with A A' = K, whatever valid factorisation the library returns, for positive (semi)definite K; for an indefinite K the SVD method silently uses another covariance.", "quantifier": "all covariances and valid Cholesky/SVD outputs (exact arithmetic)", "why_tests_cant": "Quantifies over all valid factorisations; a sample covariance only approximates K.", "anchors": ["gpmp/core/sample_paths.py: sample_paths"]}
{"id": "C82", "title": "A parameterised mean must come with its parameters", "statement": "Model construction refuses an unknown mean type or a non-zero mean for type 'zero' with ValueError, a missing or non-callable mean otherwise with TypeError, and (as documented) a parameterised mean without meanparam with ValueError.", "quantifier": "every combination of mean type, mean and meanparam", "why_tests_cant": "Quantifies over all strings and argument combinations.", "anchors": ["gpmp/core/utils.py: validate_model_mean", "gpmp/core/model.py: Model.__init__", "gpmp/core/kriging.py: select_predictor"]}
{"id": "C83", "title": "Input arrays are accepted exactly when they have the documented shapes", "statement": "ensure_shapes_and_type accepts xi, zi, xt (each optional) exactly when xi and xt are 2-D with the same number of columns and zi is 1-D or a single column with as many rows as xi; it then flattens only a column zi; otherwise it raises AssertionError.", "quantifier": "every combination of shapes and missing arguments", "why_tests_cant": "Quantifies over all shapes of all dimensions.", "anchors": ["gpmp/core/utils.py: ensure_shapes_and_type"]}
{"id": "C84", "title": "The range penalty is non-negative", "statement": "neglog_f_logrho, documented as a non-negative penalty, never returns a negative value.", "quantifier": "all finite logrho, logrho_min < logrho_0 and alpha > 0", "why_tests_cant": "The sign depends on the distance between the two reference points; the documented examples keep it small.", "anchors": ["gpmp/kernel/priors.py: neglog_f_logrho"]}
{"id": "C85", "title": "Prior default hyperparameters always stay in range", "statement": "After any sequence of calls to set_default_prior_hyperparameters the stored defaults satisfy gamma > 1, 0 < coverage < 1, alpha > 0, factor > 0.", "quantifier": "every sequence of calls with arbitrary floats, NaN and infinities included", "why_tests_cant": "Quantifies over call sequences and all floats.", "anchors": ["gpmp/kernel/prior_defaults.py: set_default_prior_hyperparameters"]}
{"id": "C86", "title": "Setting prior defaults is all or nothing", "statement": "A call of set_default_prior_hyperparameters that raises leaves the defaults unchanged; a call that returns has stored exactly the given values.", "quantifier": "every combination of arguments and every state", "why_tests_cant": "Depends on the order of the checks and the stored state.", "anchors": ["gpmp/kernel/prior_defaults.py: set_default_prior_hyperparameters"]}
{"id": "C87", "title": "Minimum gap is the least distance between different values", "statement": "_minimum_nonzero_gap_distance_1d returns the smallest distance between two different values in the column, duplicates ignored, and inf exactly when all values coincide.", "quantifier": "every finite list of reals", "why_tests_cant": "Quantifies over all pairs of all lists.", "anchors": ["gpmp/kernel/prior_helpers.py: _minimum_nonzero_gap_distance_1d", "gpmp/kernel/bounds.py: _minimum_nonzero_gap_distance_1d"]}
{"id": "C88", "title": "The default REMAP prior is well defined", "statement": "With the default hyperparameters and the initial guess as anchor, the range prior accepts every data set with at least two distinct values per coordinate.", "quantifier": "every design, dimension and number of points", "why_tests_cant": "Depends on the ratio between smallest gap and spread, in each dimension.", "anchors": ["gpmp/kernel/prior_helpers.py: compute_logrho_min_from_xi", "gpmp/kernel/priors.py: neglog_f_logrho", "gpmp/kernel/init.py: anisotropic_parameters_initial_guess"]}
{"id": "C89", "title": "Prior anchor and starting point are resolved as documented", "statement": "Explicit value first, then covparam0, then (for updates) the model's parameters, then one initial guess shared by both roles; a warning exactly when the anchor is taken from covparam0 or the model.", "quantifier": "every combination of given and missing arguments and any initial-guess procedure", "why_tests_cant": "Quantifies over all values and all guess procedures, including random ones.", "anchors": ["gpmp/kernel/prior_helpers.py: resolve_covparam0_prior_and_init", "gpmp/kernel/prior_helpers.py: resolve_covparam0_roles_for_update"]}
{"id": "C90", "title": "Empirical bounds contain the initial guess", "statement": "The bounds of empirical_bounds_factory are ordered and contain the default initial guess.", "quantifier": "every design and data set", "why_tests_cant": "Depends on gap to spread ratio and on the default factors.", "anchors": ["gpmp/kernel/bounds.py: empirical_bounds_factory", "gpmp/kernel/init.py: anisotropic_parameters_initial_guess"]}
{"id": "C91", "title": "A seeded epoch is the one obtained by seeding with base seed plus epoch", "statement": "One pass of a DataLoader with base seed b at epoch e yields what the unseeded loader yields after set_seed(b + e), and advances the epoch by one; so loaders with neighbouring seeds replay each other's epochs.", "quantifier": "every loader, generator, seed and epoch", "why_tests_cant": "Quantifies over generators and generator states.", "anchors": ["gpmp/dataloader.py: DataLoader.__iter__"]}
{"id": "C92", "title": "Gaussian variance prior is calibrated", "statement": "The prior standard deviation gives probability exactly 'coverage' to variances within a factor gamma of the anchor; the log prior is the matching normal log density up to a constant; refusal exactly for gamma <= 1 or coverage outside (0,1).", "quantifier": "all gamma, coverage and anchors (exact arithmetic)", "why_tests_cant": "A probability statement about a continuum.", "anchors": ["gpmp/kernel/priors.py: _logsigma2_prior_std", "gpmp/kernel/priors.py: log_prior_gaussian_logsigma2"]}
{"id": "C93", "title": "Data source arguments are decided as documented", "statement": "Selection accepts the arguments exactly when both arrays are given and no loader, or a loader is given and not both arrays; every other combination raises ValueError.", "quantifier": "every combination of given and missing arguments", "why_tests_cant": "Decision table over optional arguments of any type.", "anchors": ["gpmp/kernel/utils.py: check_xi_zi_or_loader"]}
{"id": "C94", "title": "MAP criteria have a minimiser in the variance", "statement": "As a function of the variance parameter alone, the MAP criterion (restricted likelihood minus log prior) is bounded below and has a unique minimiser for data not explained by the mean.", "quantifier": "every kernel, design and data set", "why_tests_cant": "A statement about an unbounded continuum of variances.", "anchors": ["gpmp/kernel/priors.py: neg_log_restricted_posterior_with_jeffreys_prior", "gpmp/kernel/priors.py: neg_log_restricted_posterior_power_laws_prior", "gpmp/kernel/priors.py: log_prior_power_law", "gpmp/kernel/priors.py: log_prior_jeffreys_variance"]}
{"id": "C95", "title": "Constant-mean likelihood selection keeps mean and covariance consistent", "statement": "select_parameters_with_ml_constant_mean refuses models whose mean is not parameterised; otherwise it starts from the profiled constant mean and initial guess and stores the two parts of the selected vector.", "quantifier": "every model, data set and optimiser", "why_tests_cant": "Optimiser behaviour is arbitrary.", "anchors": ["gpmp/kernel/parameter_selection.py: select_parameters_with_ml_constant_mean"]}
{"id": "C96", "title": "The initial variance guess maximises the likelihood for fixed ranges", "statement": "Given the correlation matrix at the guessed ranges, the returned variance minimises the negative log-likelihood (restricted likelihood when there is a mean) over all variances, and does not depend on the mean part of the data.", "quantifier": "every correlation matrix, mean basis and data set", "why_tests_cant": "Optimality over a continuum.", "anchors": ["gpmp/kernel/init.py: anisotropic_parameters_initial_guess", "gpmp/kernel/init.py: anisotropic_parameters_initial_guess_zero_mean", "gpmp/kernel/init.py: anisotropic_parameters_initial_guess_constant_mean"]}
{"id": "C97", "title": "The MH scheduler returns every state of the run", "statement": "scheduler returns, for each chain, all states of the requested part of the run, including the final state; with discard_burnin it returns exactly the states produced after burn-in.", "quantifier": "every target, proposal, number of steps, burn-in and chain count", "why_tests_cant": "Off-by-one in the returned slice is invisible to tests that only look at means or shapes.", "anchors": ["gpmp/mcmc/mh.py: MetropolisHastings.scheduler"]}
{"id": "C98", "title": "Adapted proposal covariances stay positive definite", "statement": "Starting from positive definite proposals and positive scaling factors, every adaptation block (Robbins-Monro or Haario) leaves every chain with a positive definite covariance and a positive factor.", "quantifier": "every target, draws, run length, pool size with at least two samples per pooled block", "why_tests_cant": "Invariant over arbitrary histories of accepted and rejected moves.", "anchors": ["gpmp/mcmc/mh.py: MetropolisHastings.run_adaptive_RM", "gpmp/mcmc/mh.py: MetropolisHastings.run_adaptive_Haario", "gpmp/mcmc/mh.py: MetropolisHastings.update_proposal_covariance_from_samples"]}
{"id": "C99", "title": "Sliding acceptance rates are trailing means", "statement": "Entry t of the sliding rates of a chain is the fraction of accepted moves among the last min(width, t+1) iterations and lies in [0,1].", "quantifier": "every acceptance history, width >= 1 and iteration", "why_tests_cant": "Cumulative-sum indexing over all widths and positions.", "anchors": ["gpmp/mcmc/mh.py: MetropolisHastings.compute_sliding_rates"]}
{"id": "C100", "title": "Jittered sampling tries increasing jitters and fails only when all fail", "statement": "The draw is the first successful one among covariances with added jitter 0, j, 10j, ..., 10^(max-1) j; RuntimeError is raised exactly when every attempt raises.", "quantifier": "every backend sampler behaviour, covariance, jitter and attempt count", "why_tests_cant": "Retry logic over arbitrary failure patterns.", "anchors": ["gpmp/mcmc/mh.py: sample_multivariate_normal_with_jitter"]}
{"id": "C101", "title": "Subset simulation level probability is the surviving fraction", "statement": "At a level reached with all particles inside the previous set, the stage probability is the fraction of particles that pass the new threshold (up to the vanishing weight given to the others).", "quantifier": "every limit state, threshold, particle set and log-density bounded below at the particles", "why_tests_cant": "All particle configurations.", "anchors": ["gpmp/mcmc/smc.py: run_subset_simulation", "gpmp/mcmc/smc.py: log_indicator_density"]}
{"id": "C102", "title": "Tempering parameter search ends with an admissible parameter", "statement": "compute_next_logpdf_param ends; its result is the target, or lies strictly between the current parameter and the target with probability within 0.05 of p0; the parameters of a restart go strictly monotonically from the initial one to the target.", "quantifier": "every parameterised log-density, particle set and p0", "why_tests_cant": "Termination for all densities cannot be tested.", "anchors": ["gpmp/mcmc/smc.py: SMC.compute_next_logpdf_param_p0", "gpmp/mcmc/smc.py: SMC.compute_next_logpdf_param_ess", "gpmp/mcmc/smc.py: SMC.restart"]}
{"id": "C103", "title": "Reweighting in stages equals reweighting at once", "statement": "Reweighting to one log-density and then to a second gives the same weights and cached values as reweighting to the second directly.", "quantifier": "every pair of log-densities and particle set", "why_tests_cant": "Algebraic law over all densities, including zero densities.", "anchors": ["gpmp/mcmc/smc.py: ParticlesSet.reweight"]}
{"id": "C104", "title": "Controlled moves adapt the scale and stop as configured", "statement": "move_with_controlled_acceptation_rate makes at most the configured number of moves, divides the scale by the factor after a rate below the band and multiplies it after a rate above, and stops at the first rate in the band; a scale outside its bounds raises ParticlesSetError, which ends a run of permanent rejections under the default settings.", "quantifier": "every log-density, draws and configuration", "why_tests_cant": "All histories of acceptance rates.", "anchors": ["gpmp/mcmc/smc.py: SMC.move_with_controlled_acceptation_rate", "gpmp/mcmc/smc.py: ParticlesSet.perturb"]}
{"id": "C105", "title": "A covariance refused by the Gaussian sampler is repaired with jitter", "statement": "perturb adds the scaled Gaussian draw to the particles; when the sampler refuses the covariance, increasing jitter is added to its diagonal up to the configured number of times.", "quantifier": "every particle set, covariance estimate and sampler behaviour", "why_tests_cant": "The repair path only runs for degenerate particle clouds.", "anchors": ["gpmp/mcmc/smc.py: ParticlesSet.perturb"]}
{"id": "C106", "title": "Unknown resampling schemes are refused with ValueError", "statement": "resample raises ValueError for a scheme other than 'multinomial' and 'residual'.", "quantifier": "every particle set and configuration", "why_tests_cant": "Error path.", "anchors": ["gpmp/mcmc/smc.py: ParticlesSet.resample"]}
{"id": "C107", "title": "Particle moves follow the Metropolis rule and never leave the support", "statement": "For finite log-densities and a positive uniform draw u the proposal is accepted iff u < exp(log p(y) - log p(x)); proposals of zero density are never accepted, including those outside the level set of subset simulation.", "quantifier": "every log-density, proposal and draw in [0,1)", "why_tests_cant": "Depends on a draw of probability 2^-53.", "anchors": ["gpmp/mcmc/smc.py: ParticlesSet.move", "gpmp/mcmc/smc.py: log_indicator_density"]}
{"id": "C108", "title": "Mass adaptation equalises the coordinates", "statement": "After a warm-up window whose running variances equal the variances of an axis-aligned Gaussian target, the integrator makes steps of the same relative length in every coordinate.", "quantifier": "every Gaussian target with independent coordinates", "why_tests_cant": "A wrong metric still samples the right distribution, only slowly, so no assertion on samples notices it.", "anchors": ["gpmp/mcmc/nuts.py: nuts_sample", "gpmp/mcmc/nuts.py: nuts_transition"]}
{"id": "C109", "title": "The NUTS transition satisfies detailed balance on leapfrog orbits", "statement": "At a given slice level, the probability of moving from one orbit point under the slice to another equals the probability of moving back; the proposal of a complete subtree is uniform over its slice points; the transition probabilities are nonnegative, sum to one and charge only slice points.", "quantifier": "every target, orbit, depth limit and slice level", "why_tests_cant": "Needs exact probabilities over all random draws of a recursive algorithm.", "anchors": ["gpmp/mcmc/nuts.py: build_tree", "gpmp/mcmc/nuts.py: nuts_transition"]}
{"id": "C110", "title": "Adaptation keeps the step and mass admissible and stops after warm-up", "statement": "nuts_sample returns exactly num_samples draws, which are successive transitions with one fixed step and mass, the reported ones; the step is within the repaired bounds and the masses are positive.", "quantifier": "every option set, transition kernel and initial state", "why_tests_cant": "Quantifies over all adaptation histories.", "anchors": ["gpmp/mcmc/nuts.py: nuts_sample"]}
{"id": "C111", "title": "Keyword arguments override the NUTS options object", "statement": "A keyword argument passed explicitly to nuts_sample replaces the value of the options object; others keep it.", "quantifier": "every option set and argument list", "why_tests_cant": "Default-valued arguments are indistinguishable from omitted ones.", "anchors": ["gpmp/mcmc/nuts.py: nuts_sample"]}
{"id": "C112", "title": "Dual averaging follows its closed form", "statement": "After a restart, log eps = mu - sqrt(t)/gamma * sum(target - accept)/(t + t0); a lower acceptance gives a smaller next step; the averaged log step stays within the range of the log steps since the restart.", "quantifier": "every sequence of acceptance statistics", "why_tests_cant": "A recursion checked against a closed form for all histories.", "anchors": ["gpmp/mcmc/nuts.py: DualAveragingState"]}
{"id": "C113", "title": "The moving average stays within the range of its data", "statement": "moving_average returns means of w consecutive values, within the range of the series.", "quantifier": "every series and window", "why_tests_cant": "Only plots use it.", "anchors": ["gpmp/mcmc/nuts.py: moving_average"]}
{"id": "C114", "title": "SVGD scores are the derivative of the log-density up to the sides of the box", "statement": "For a particle in the sampling box, the score used by svgd_step is the derivative of log_prob / temperature; in particular a particle on a side of the box follows a log-density that increases inward.", "quantifier": "every log-density, box and particle in it (numpy backend)", "why_tests_cant": "The defect only shows within 2e-5 of a side, where projected particles end up.", "anchors": ["gpmp/mcmc/svgd.py: svgd_step", "gpmp/mcmc/svgd.py: _safe_value_and_grad", "gpmp/num/numpy_backend.py: value_and_grad"]}
{"id": "C115", "title": "SVGD does not depend on the order of the particles", "statement": "Renumbering the particles renumbers the new particles and the velocities; bandwidth and alive count are unchanged.", "quantifier": "every cloud, target and permutation", "why_tests_cant": "All permutations of all clouds.", "anchors": ["gpmp/mcmc/svgd.py: svgd_step", "gpmp/mcmc/svgd.py: rbf_kernel_matrix"]}
{"id": "C116", "title": "The median kernel does not depend on units", "statement": "With the median bandwidth, translating the cloud or multiplying it by a positive number leaves the kernel matrix unchanged and multiplies the bandwidth by the square.", "quantifier": "every cloud, translation and factor", "why_tests_cant": "All real factors; the safeguards act at extreme scales only.", "anchors": ["gpmp/mcmc/svgd.py: rbf_kernel_matrix"]}
{"id": "C117", "title": "The SVGD driver records every step", "statement": "svgd_sample returns one trace entry for each step with the scheduled temperature; the stored history has n_steps + 1 clouds, from the initial to the returned one, linked by single steps; the final log-densities are those of the returned particles; initial clouds have the announced sizes and lie in init_box.", "quantifier": "every option set, target and initial cloud", "why_tests_cant": "Quantifies over all run lengths and targets.", "anchors": ["gpmp/mcmc/svgd.py: svgd_sample"]}
{"id": "C118", "title": "Matern covariance matrices are positive definite", "statement": "For every order p, parameters and finite set of distinct points, maternp_covariance(x, x) is positive definite; with the nugget it is positive definite for repeated points too; without it repeated points make it singular; the joint covariance of observations and targets is positive semidefinite.", "quantifier": "every order, dimension, parameter vector and point set", "why_tests_cant": "Positive definiteness quantifies over all vectors and all point sets in all dimensions; tests see a few matrices.", "anchors": ["gpmp/kernel/matern.py: maternp_kernel", "gpmp/kernel/matern.py: maternp_covariance"]}
{"id": "C119", "title": "Prediction and likelihood with a Matern covariance never fail", "statement": "With distinct observation points (or a positive nugget) and independent mean functions, predict returns variances between 0 and sigma2 (zero mean) or nonnegative (linear mean) before clipping, at most the nugget at a copy of an observation point; posterior covariances are positive semidefinite; the likelihood and restricted likelihood are finite for all parameters.", "quantifier": "every order, parameters, data and targets", "why_tests_cant": "End-to-end statement over all inputs; combines analysis of the kernel with linear algebra.", "anchors": ["gpmp/kernel/matern.py: maternp_covariance", "gpmp/core/kriging.py: kriging_predictor_with_zero_mean", "gpmp/core/kriging.py: kriging_predictor", "gpmp/core/model.py: predict", "gpmp/core/likelihood.py"]}
{"id": "C120", "title": "The Metropolis-Hastings scheduler finishes exactly when its sizes are consistent", "statement": "scheduler raises no exception exactly when: the initial array gives one state for each chain, the burn-in is not longer than the run, there are enough pooled chains for adaptation once a phase reaches an adaptation interval, and there are two chains when a burn-in long enough for diagnostics is requested.", "quantifier": "every target, proposal, random draws, run length and number of chains", "why_tests_cant": "Failure thresholds depend on combinations of lengths and chain counts that are rarely run together.", "anchors": ["gpmp/mcmc/mh.py: MetropolisHastings.scheduler", "gpmp/mcmc/mh.py: MetropolisHastings.run_burnin", "gpmp/mcmc/mh.py: MetropolisHastings.run_adaptive"]}
{"id": "C121", "title": "Posterior MH sampling returns n_steps - burnin samples for each chain, in the box", "statement": "sample_from_selection_criterion_mh returns n_steps - burnin_period samples of each chain; the chain moves only to points of sampling_box where the criterion has a value; with the default options it works for one chain or more; get_log_target_values returns one value for each returned sample.", "quantifier": "every criterion, box, initial state, random draws, number of chains and steps", "why_tests_cant": "End-to-end over all criteria and chain counts.", "anchors": ["gpmp/mcmc/param_posterior.py: sample_from_selection_criterion_mh", "gpmp/mcmc/param_posterior.py: get_log_target_values"]}
{"id": "C122", "title": "Posterior NUTS sampling returns num_samples points for each chain, in the box", "statement": "sample_from_selection_criterion_nuts raises exactly when the preparation of its inputs or the run raises; otherwise it returns num_samples points for each chain, all of them in sampling_box and of finite criterion, when the initial states are so.", "quantifier": "every criterion, gradient, box, initial state, random draws, number of chains and options", "why_tests_cant": "End-to-end over all gradients and random draws.", "anchors": ["gpmp/mcmc/param_posterior.py: sample_from_selection_criterion_nuts", "gpmp/mcmc/param_posterior.py: _make_log_prob_nuts", "gpmp/mcmc/nuts.py: nuts_sample"]}
{"id": "C123", "title": "A NUTS chain started in the box can move", "statement": "With the numpy backend, a chain of sample_from_selection_criterion_nuts started in sampling_box at a point of finite criterion can move.", "quantifier": "every criterion, box and starting point of the box", "why_tests_cant": "The starting points for which it fails are within two difference steps of a side of the box.", "anchors": ["gpmp/mcmc/nuts.py: nuts_transition", "gpmp/mcmc/param_posterior.py: _make_log_prob_nuts", "gpmp/num/numpy_backend.py: value_and_grad"]}
{"id": "C124", "title": "Posterior SMC sampling has the tempered posterior as target", "statement": "The log-density of sample_from_selection_criterion_smc at temperature T is minus the criterion over T in sampling_box and -inf outside; points where the criterion fails have zero density; the documented forms of init_box are accepted and the particles have the dimension of the parameters.", "quantifier": "every criterion, box, temperature and set of particles", "why_tests_cant": "Quantifies over all criteria and particles, including those for which the criterion raises.", "anchors": ["gpmp/mcmc/param_posterior.py: sample_from_selection_criterion_smc"]}
{"id": "C125", "title": "Posterior SVGD sampling starts from the announced cloud and stays in the box", "statement": "sample_from_selection_criterion_svgd starts from n_particles copies of the given point (or of info.covparam) with Gaussian noise of scale init_jitter, or from the given rows, clipped to sampling_box, or from n_particles points of init_box; returned particles are in sampling_box; whether the call succeeds does not depend on the criterion.", "quantifier": "every criterion, gradient, box, initial array, noise and options", "why_tests_cant": "End-to-end over all criteria, noises and options objects.", "anchors": ["gpmp/mcmc/param_posterior.py: sample_from_selection_criterion_svgd"]}
{"id": "C126", "title": "ftos shows a number to the announced precision", "statement": "ftos(x, fp) shows a finite x within half a unit of its last shown decimal; in exponent form the shown coefficient is between 1 and 10.", "quantifier": "every real x and every fp", "why_tests_cant": "The exceptional values are those which round up to the next power of ten.", "anchors": ["gpmp/misc/dataframe.py: ftos"]}
{"id": "C127", "title": "DataFrame assignment changes the named entries and nothing else", "statement": "After df[r, c] = a, df[r, c] is a; df[r] = v sets the row; all other entries and all names are unchanged; a string that is the name of a column assigns this column.", "quantifier": "every frame with one name for each row and column, every name and value", "why_tests_cant": "All frames, names and values.", "anchors": ["gpmp/misc/dataframe.py: DataFrame.__setitem__"]}
{"id": "C128", "title": "Growing a DataFrame keeps the old entries and does not touch other frames", "statement": "append_row and append_col add one row or column with its name and keep all other entries; concat joins frames with equal names; frames other than the result are not changed, also by later operations on the result.", "quantifier": "every frame with one name for each row and column, every added row or column", "why_tests_cant": "Needs sequences of operations over frames sharing name lists.", "anchors": ["gpmp/misc/dataframe.py: DataFrame.append_row", "gpmp/misc/dataframe.py: DataFrame.append_col", "gpmp/misc/dataframe.py: DataFrame.concat"]}
{"id": "C129", "title": "DataFrames are displayed as aligned tables", "statement": "repr of a frame has a header and one line for each row, all of the same length; every frame, including those obtained by indexing and those with non-finite entries, can be displayed.", "quantifier": "every frame", "why_tests_cant": "All frames and entries, including NaN.", "anchors": ["gpmp/misc/dataframe.py: DataFrame.__repr__", "gpmp/misc/dataframe.py: ftos"]}
{"id": "C130", "title": "maxdist and mindist are the extreme distances of pairs of points", "statement": "mindist and maxdist return the smallest and largest Euclidean distance of two different rows; they raise exactly for fewer than two points.", "quantifier": "every sample", "why_tests_cant": "All samples.", "anchors": ["gpmp/misc/designs.py: maxdist", "gpmp/misc/designs.py: mindist"]}
{"id": "C131", "title": "scale maps the unit cube affinely onto the box", "statement": "scale accepts exactly nonempty samples of the unit cube with bounds of the same dimension, lower below upper; each coordinate is mapped affinely; all points are in the box; in a cube of side c distances are multiplied by c; randunif returns points of the box.", "quantifier": "every sample and box", "why_tests_cant": "All samples and boxes.", "anchors": ["gpmp/misc/designs.py: scale", "gpmp/misc/designs.py: randunif"]}
{"id": "C132", "title": "ldrandunif returns the drawn sample of least discrepancy", "statement": "The sample returned by ldrandunif is that of least discrepancy among the drawn ones, scaled to the box; it fails only when no sample has discrepancy below a million.", "quantifier": "every sequence of samples and every discrepancy function", "why_tests_cant": "All sequences of random samples.", "anchors": ["gpmp/misc/designs.py: ldrandunif"]}
{"id": "C133", "title": "The truncated CRPS is the integral over the interval", "statement": "tcrps_gaussian with bounds a <= b returns the integral over (a, b) of the squared difference between the predictive distribution function and the step at z, with a or b possibly infinite; adjacent intervals add up; scores are nonnegative whatever the bounds.", "quantifier": "every mean, positive sigma, observation and bounds, given an exact bivariate normal distribution function", "why_tests_cant": "Needs the closed form to agree with an integral for all reals.", "anchors": ["gpmp/misc/scoringrules.py: tcrps_gaussian", "gpmp/misc/scoringrules.py: ei1_up", "gpmp/misc/scoringrules.py: ei2_up"]}
{"id": "C134", "title": "The expected improvements are the expectations they are named after", "statement": "ei1_up is the expectation of max(X - z, 0) for X normal; ei2_up is that of max(X1, X2) - z cut at zero for independent copies.", "quantifier": "every mean, positive sigma and threshold", "why_tests_cant": "Integrals over all reals.", "anchors": ["gpmp/misc/scoringrules.py: ei1_up", "gpmp/misc/scoringrules.py: ei2_up"]}
{"id": "C135", "title": "The CRPS is strictly proper", "statement": "If observations follow a normal law, the expected crps_gaussian is smallest when predicting this law, and for no other normal prediction; the excess is the integrated squared difference of the distribution functions.", "quantifier": "every two normal laws of positive variance", "why_tests_cant": "Expectation over all observations; all pairs of laws.", "anchors": ["gpmp/misc/scoringrules.py: crps_gaussian"]}
{"id": "C136", "title": "Constant predictions have score at most zero", "statement": "In compute_performance a constant prediction has test_R2 <= 0, with equality exactly for the mean of the test targets; predicting every target by the mean of the others gives loo_Q2 = 1 - (n/(n-1))^2 < 0.", "quantifier": "all targets which are not all equal, every constant", "why_tests_cant": "All data sets.", "anchors": ["gpmp/modeldiagnosis/performance.py: compute_performance"]}
{"id": "C137", "title": "Performance scores do not depend on the unit", "statement": "Applying the same affine map to targets and predictions leaves test_R2, rss/tss, its logarithm and rmse/std unchanged and scales std, rmse by |a| and tss, rss by a^2.", "quantifier": "all targets, predictions and affine maps", "why_tests_cant": "All data sets and maps.", "anchors": ["gpmp/modeldiagnosis/performance.py: compute_performance"]}
{"id": "C138", "title": "compute_performance uses the results given and refuses those of the wrong size; perf prints its results", "statement": "Precomputed results replace calls of the model; numbers of predictions or errors which do not match the targets are refused; perf prints one table for each block.", "quantifier": "all data", "why_tests_cant": "All shapes and values, including degenerate ones.", "anchors": ["gpmp/modeldiagnosis/performance.py: compute_performance", "gpmp/modeldiagnosis/performance.py: perf"]}
{"id": "C139", "title": "PIT values are predictive distribution functions at the targets", "statement": "loo_pit and test_pit have one value for each target, equal to the normal distribution function with the predicted mean and variance, in [0, 1].", "quantifier": "all data", "why_tests_cant": "All shapes and values.", "anchors": ["gpmp/modeldiagnosis/performance.py: compute_performance"]}
{"id": "C140", "title": "braninhoo has its known minimum", "statement": "The Branin-Hoo function is at least 5/(4 pi); on [-5, 10] x [0, 15] the minimum is attained exactly at (-pi, 12.275), (pi, 2.275), (3 pi, 2.475).", "quantifier": "all points", "why_tests_cant": "Global optimum over the reals.", "anchors": ["gpmp/misc/testfunctions.py: braninhoo"]}
{"id": "C141", "title": "wave and twobumps compute their documented formulas", "statement": "wave(x) = exp(1.8(x1+x2)) + 3 x1 + 6 x2^2 + 3 sin(4 pi x1) and twobumps(x) = -(0.7x + sin(5x+1) + 0.1 sin(10x)).", "quantifier": "all points", "why_tests_cant": "All points.", "anchors": ["gpmp/misc/testfunctions.py: wave", "gpmp/misc/testfunctions.py: twobumps"]}
{"id": "C142", "title": "The Hartmann functions are as documented", "statement": "hartmann6 is the documented sum of four exponentials, negative and at least -8.4; hartmann4 takes the value -3.86278 at its documented minimiser.", "quantifier": "all points", "why_tests_cant": "All points; exponentials of reals.", "anchors": ["gpmp/misc/testfunctions.py: hartmann4", "gpmp/misc/testfunctions.py: hartmann6"]}
{"id": "C143", "title": "borehole is a flow through resistances in series", "statement": "On its domain the borehole function is positive, increases with both transmissivities, the upper head, the conductivity and the hole radius, and decreases with the lower head, the length and the radius of influence.", "quantifier": "all points of the domain", "why_tests_cant": "All pairs of points.", "anchors": ["gpmp/misc/testfunctions.py: borehole"]}
{"id": "C144", "title": "ishigami has known extrema and symmetries", "statement": "On [-pi, pi]^3 ishigami takes values between -(1 + pi^4/10) and 6 + pi^4/10, both attained; it is even in the second and third variables and has period pi in the second.", "quantifier": "all points", "why_tests_cant": "Global extrema over the reals.", "anchors": ["gpmp/misc/testfunctions.py: ishigami"]}
{"id": "C145", "title": "Covariance estimates are covariance matrices", "statement": "estimate_cov_matrix_knn returns a symmetric positive semidefinite matrix, the sample covariance if all rows are neighbours or hnswlib is missing, for any data with at least two rows.", "quantifier": "all data, random choices and neighbour queries", "why_tests_cant": "All data and all random choices.", "anchors": ["gpmp/mcmc/knn_cov.py: estimate_cov_matrix_knn", "gpmp/mcmc/knn_cov.py: estimate_cov_matrix"]}
{"id": "C146", "title": "Grid statistics of a criterion are those of exp(-criterion)", "statement": "fast_univariate_stats returns the trapezoidal mean and variance, interpolated quantiles and the grid mode of exp(-f). The mean, quantiles and mode lie in the interval, the quantiles are ordered, the variance is nonnegative and at most (upper - mean)(mean - lower).", "quantifier": "all criteria, intervals and numbers of points", "why_tests_cant": "All functions; includes infinite values.", "anchors": ["gpmp/modeldiagnosis/param_stats.py: fast_univariate_stats"]}
{"id": "C147", "title": "Grid statistics are refused exactly when they have no meaning", "statement": "fast_univariate_stats raises ValueError for fewer than two points, an empty or reversed interval, a NaN or -inf value, or values that are all +inf, and otherwise returns.", "quantifier": "all criteria, intervals and numbers of points", "why_tests_cant": "All functions, with NaN and infinities.", "anchors": ["gpmp/modeldiagnosis/param_stats.py: fast_univariate_stats"]}
{"id": "C148", "title": "Grid statistics depend on one parameter at a time and not on constants", "statement": "Adding a constant to the criterion does not change fast_univariate_stats. make_single_param_criterion_function(f, c, j)(x) is f at c with entry j replaced by x.", "quantifier": "all criteria, references and values", "why_tests_cant": "All functions and references.", "anchors": ["gpmp/modeldiagnosis/param_stats.py: fast_univariate_stats", "gpmp/modeldiagnosis/param_stats.py: make_single_param_criterion_function"]}
{"id": "C149", "title": "The table of parameter statistics has the documented rows", "statement": "selection_criterion_statistics_fast uses each argument given, else the attribute of info, else raises ValueError; it returns one row param_j for each index in order, for the box or reference plus or minus delta, and the Fisher information at the reference.", "quantifier": "all arguments", "why_tests_cant": "All combinations of arguments.", "anchors": ["gpmp/modeldiagnosis/param_stats.py: selection_criterion_statistics_fast"]}
{"id": "C150", "title": "A distribution is made exactly when it can be normalised", "statement": "Unnormalized1DDistribution raises TypeError for bounds that are not numbers and ValueError for bounds that are not increasing or NaN, or a zero integral; otherwise, for logarithmic densities at most 709 with a finite positive integral, it is made with the bounds and the integral.", "quantifier": "all logarithmic densities and bounds", "why_tests_cant": "All functions.", "anchors": ["gpmp/modeldiagnosis/un1ddist.py: Unnormalized1DDistribution.__init__"]}
{"id": "C151", "title": "Statistics by integration do not depend on a constant added to the criterion", "statement": "Adding a constant to log_pdf does not change pdf, cdf, mean or var, and selection_criterion_statistics accepts every finite continuous criterion that selection_criterion_statistics_fast accepts.", "quantifier": "all criteria and constants", "why_tests_cant": "All functions.", "anchors": ["gpmp/modeldiagnosis/un1ddist.py: Unnormalized1DDistribution", "gpmp/modeldiagnosis/param_stats.py: selection_criterion_statistics"]}
{"id": "C152", "title": "pdf and cdf are a density and its distribution function", "statement": "pdf is nonnegative, proportional to exp(log_pdf) within the bounds, zero outside, with integral one; cdf is its integral, nondecreasing from 0 at the lower bound to 1 at the upper bound.", "quantifier": "all logarithmic densities and points", "why_tests_cant": "All functions.", "anchors": ["gpmp/modeldiagnosis/un1ddist.py: Unnormalized1DDistribution.pdf", "gpmp/modeldiagnosis/un1ddist.py: Unnormalized1DDistribution.cdf"]}
{"id": "C153", "title": "mean and var are the moments of the density", "statement": "mean and var are the mean and the variance of the normalised density; between finite bounds the mean is between them and 0 <= var <= (b - mean)(mean - a).", "quantifier": "all logarithmic densities", "why_tests_cant": "All functions.", "anchors": ["gpmp/modeldiagnosis/un1ddist.py: Unnormalized1DDistribution.mean", "gpmp/modeldiagnosis/un1ddist.py: Unnormalized1DDistribution.var"]}
{"id": "C154", "title": "quantile inverts cdf", "statement": "quantile(p) is within the tolerance of a point where cdf is p, for every p in (0, 1) and finite bounds; it raises ValueError for other levels and infinite bounds.", "quantifier": "all logarithmic densities, levels and tolerances", "why_tests_cant": "All functions and levels.", "anchors": ["gpmp/modeldiagnosis/un1ddist.py: Unnormalized1DDistribution.quantile"]}
{"id": "C155", "title": "Statistics by integration lie between the bounds", "statement": "selection_criterion_statistics gives for each parameter the moments and the quantiles at the documented levels of exp(-criterion) along the parameter, and a mode, all between the bounds.", "quantifier": "all criteria", "why_tests_cant": "All functions.", "anchors": ["gpmp/modeldiagnosis/param_stats.py: selection_criterion_statistics"]}
{"id": "C156", "title": "describe_array gives the exact statistics of each column", "statement": "One row for each column, in order: least and greatest entry, their difference, mean and (population) standard deviation; with a factor, the difference times the factor of the row. The mean is between the extremes and the standard deviation at most half of the difference. An empty column and factors of another number raise ValueError.", "quantifier": "all arrays with one or two axes and factors", "why_tests_cant": "All arrays.", "anchors": ["gpmp/modeldiagnosis/utils.py: describe_array"]}
{"id": "C157", "title": "sigma_rho_from_covparam agrees with the parameter object", "statement": "The dictionary holds sigma, the square root of the variance, and the lengthscales in order under distinct keys, equal to the values of the Param built from the same vector; an empty vector raises IndexError.", "quantifier": "all covariance vectors", "why_tests_cant": "All vectors and dimensions.", "anchors": ["gpmp/modeldiagnosis/utils.py: sigma_rho_from_covparam", "gpmp/parameter/param.py: param_from_covparam_anisotropic"]}
{"id": "C158", "title": "modeldiagnosis_init projects the bounds on the covariance entries", "statement": "The k-th covariance entry of the parameter object gets the row of the bounds that follows those of the mean parameters and the k preceding covariance parameters (None if both sides are infinite); the other entries, names, paths and values stay; missing, malformed or short bounds change nothing; and check_bounds of the result holds for a fitted parameter inside the bounds of the optimiser.", "quantifier": "all models, parameter objects and bounds", "why_tests_cant": "All shapes of parameter objects.", "anchors": ["gpmp/modeldiagnosis/report.py: modeldiagnosis_init"]}
{"id": "C159", "title": "pretty_print_dictionary aligns all entries", "statement": "Every dictionary is printed, one line per entry, keys right-justified in a common width of at least 15 and two more than the longest key.", "quantifier": "all dictionaries", "why_tests_cant": "All dictionaries, including values that are not numbers.", "anchors": ["gpmp/modeldiagnosis/utils.py: pretty_print_dictionary"]}
{"id": "C160", "title": "The data table of the report normalises widths by the scales of the model", "statement": "In the table, delta_over_sigma of an input row is the width of the input over its lengthscale, and that of an observation row the width of the observations over the standard deviation sigma.", "quantifier": "all models and data", "why_tests_cant": "All data and parameters.", "anchors": ["gpmp/modeldiagnosis/report.py: model_diagnosis_disp"]}
{"id": "C161", "title": "The REMAP criterion is the restricted likelihood plus explicit penalties", "statement": "For hyperparameters in their range, neg_log_restricted_posterior_logsigma2_and_logrho_prior is the negative log restricted likelihood, plus half the squared distance of the log variance to its anchor in units of log(gamma) over the quantile, plus for each range above its minimum the barrier-linear penalty; it is +inf as soon as a range is at or below its minimum. The penalties are least exactly at the anchor and the reference ranges.", "quantifier": "all likelihoods, covariance vectors and hyperparameters", "why_tests_cant": "All real vectors; includes the infinite values.", "anchors": ["gpmp/kernel/priors.py: neg_log_restricted_posterior_logsigma2_and_logrho_prior", "gpmp/kernel/priors.py: log_prior_logrho_barrier_linear", "gpmp/kernel/priors.py: log_prior_gaussian_logsigma2"]}
{"id": "C162", "title": "A REMAP selection uses the prior fixed at the call", "statement": "select_parameters_with_remap anchors the prior at covparam0_prior, else covparam0, else the initial guess, starts at covparam0_init, else covparam0, else the guess, and uses the hyperparameters given, else the defaults at the time of the call; changing the defaults during the search changes nothing. It stores the vector selected and leaves the mean.", "quantifier": "all arguments, optimisers and later changes of the defaults", "why_tests_cant": "All optimisers and interleavings with changes of the defaults.", "anchors": ["gpmp/kernel/parameter_selection.py: select_parameters_with_remap", "gpmp/kernel/prior_helpers.py: resolve_logsigma2_logrho_prior_args"]}
{"id": "C163", "title": "Ranges selected by REMAP are above the resolution of the design", "statement": "When the minimal ranges are not given and the value returned is finite, every selected range is larger than the smallest gap between different values of its coordinate and than rho_min_range_factor times the extent of the coordinate.", "quantifier": "all designs, likelihoods and optimisers that report values they evaluated", "why_tests_cant": "All designs and all optimisers.", "anchors": ["gpmp/kernel/parameter_selection.py: select_parameters_with_remap", "gpmp/kernel/prior_helpers.py: compute_logrho_min_from_xi"]}
{"id": "C164", "title": "REMAP works with a constant coordinate", "statement": "With covparam0 given, the REMAP criterion has a finite value for some parameters even when all points share the value of a coordinate.", "quantifier": "all designs with a constant coordinate", "why_tests_cant": "All designs and parameters.", "anchors": ["gpmp/kernel/priors.py: neglog_f_logrho", "gpmp/kernel/prior_helpers.py: compute_logrho_min_from_xi"]}
{"id": "C165", "title": "A REMAP update starts from the model and recentres the prior there", "statement": "update_parameters_with_remap and update_parameters_with_remap_gaussian_logsigma2 anchor the prior at covparam0_prior, else covparam0, else the parameters of the model, else the guess, and start likewise from covparam0_init; without starting values an update is the selection with covparam0 equal to the parameters of the model.", "quantifier": "all models, arguments and optimisers", "why_tests_cant": "All combinations of given and missing arguments.", "anchors": ["gpmp/kernel/parameter_selection.py: update_parameters_with_remap", "gpmp/kernel/parameter_selection.py: update_parameters_with_remap_gaussian_logsigma2", "gpmp/kernel/prior_helpers.py: resolve_covparam0_roles_for_update"]}
{"id": "C166", "title": "Keyword arguments set the prior defaults and leave the dictionary", "statement": "set_default_prior_hyperparameters_from_kwargs stores each recognised value, removes exactly the recognised keys and keeps the other defaults; a refused value raises ValueError and then nothing has changed. get_default_prior_hyperparameters returns the defaults, and raises ValueError exactly for points that are not a two-dimensional array.", "quantifier": "all dictionaries, defaults and points", "why_tests_cant": "All dictionaries.", "anchors": ["gpmp/kernel/prior_defaults.py: set_default_prior_hyperparameters_from_kwargs", "gpmp/kernel/prior_defaults.py: get_default_prior_hyperparameters"]}
{"id": "C167", "title": "With a loader the REMAP criterion is the posterior of the batches", "statement": "For batches taken as independent, the criterion over a loader orders parameters like the sum of the per-batch negative log restricted likelihoods minus the log prior.", "quantifier": "all loaders, likelihoods and priors", "why_tests_cant": "All batch sizes and likelihoods.", "anchors": ["gpmp/kernel/parameter_selection.py: make_selection_criterion_with_gradient", "gpmp/num/numpy_backend.py: BatchDifferentiableSelectionCriterion"]}
{"id": "C168", "title": "A selection criterion never delivers the gradient of another point", "statement": "After any sequence of calls on the torch DifferentiableSelectionCriterion, gradient(p) either raises or returns the gradient of the criterion at p, and it returns only if p is the point of the last evaluate_pre_grad and the criterion succeeded there. evaluate_pre_grad(p) followed by gradient(p), with any value-only calls between, returns value and gradient. Asking without an evaluation or at another point raises ValueError; asking twice works exactly when retain=True was passed.", "quantifier": "all criteria, points and sequences of calls", "why_tests_cant": "All interleavings of calls; tests try one.", "anchors": ["gpmp/num/torch_backend.py: DifferentiableSelectionCriterion"]}
{"id": "C169", "title": "A numerical failure at a trial point does not stop the selection", "statement": "evaluate_pre_grad gives +inf for a linear-algebra failure on both backends and re-raises everything else; a gradient-based optimiser that visits such a point goes on; evaluate_no_grad treats failures alike on both backends.", "quantifier": "all criteria and optimisers", "why_tests_cant": "All optimisers and all patterns of failures.", "anchors": ["gpmp/num/torch_backend.py: DifferentiableSelectionCriterion", "gpmp/num/numpy_backend.py: DifferentiableSelectionCriterion", "gpmp/kernel/parameter_selection.py: autoselect_parameters"]}
{"id": "C170", "title": "The batched gradient is the derivative of the batched value", "statement": "evaluate_pre_grad of the torch BatchDifferentiableSelectionCriterion returns the size-weighted reduction of the criterion over one list of batches (the epoch, or the next batches_per_eval of the stream) and gradient the same reduction of the batch gradients over the same list, which is the derivative of the value; gradient(q) belongs to q; the argument of an evaluation is left as it was; the constructor refuses unknown reductions, negative counts and empty loaders.", "quantifier": "all loaders, batch sizes, criteria and parameters", "why_tests_cant": "All streams of batches and all smooth criteria.", "anchors": ["gpmp/num/torch_backend.py: BatchDifferentiableSelectionCriterion"]}
{"id": "C171", "title": "A Hessian is symmetric and belongs to the last point evaluated", "statement": "After any sequence of calls on SecondOrderDifferentiableFunction, hessian() either raises RuntimeError or returns a symmetric matrix, the Hessian at the point of the last evaluate. The order evaluate, gradient, hessian always works for functions with two derivatives; any other order raises RuntimeError.", "quantifier": "all functions, points and sequences of calls", "why_tests_cant": "All interleavings of calls.", "anchors": ["gpmp/num/torch_backend.py: SecondOrderDifferentiableFunction"]}
{"id": "C172", "title": "The Hessian-based Fisher information is the Fisher information", "statement": "fisher_information_torch returns, for a positive definite covariance, the information that fisher_information approximates: half the trace of K^-1 dK_i K^-1 dK_j.", "quantifier": "all covariance functions and parameters", "why_tests_cant": "All smooth parametric covariances.", "anchors": ["gpmp/core/fisher.py: fisher_information_torch", "gpmp/core/fisher.py: fisher_information"]}
{"id": "C173", "title": "The reference prior is finite exactly for identifiable parameters", "statement": "log_prior_reference is half the log determinant of the Fisher information when no direction of the parameters leaves the covariance unchanged, and raises ValueError otherwise (numpy). logdet is the log determinant for positive determinants; it raises unless the matrix is positive definite. cholesky_inv is the inverse for positive definite matrices on both backends.", "quantifier": "all symmetric covariance functions, parameters and matrices", "why_tests_cant": "All models and matrices.", "anchors": ["gpmp/kernel/priors.py: log_prior_reference", "gpmp/num/numpy_backend.py: logdet", "gpmp/num/numpy_backend.py: cholesky_inv", "gpmp/num/torch_backend.py: cholesky_inv"]}
{"id": "C174", "title": "asarray converts floats to float64, nothing else, and copies only then", "statement": "On both backends asarray gives float64 for every floating type, keeps integers and booleans, keeps the shape, shares memory with an array argument exactly when no conversion was needed, and a second call returns the same array; the two backends agree on types and shapes.", "quantifier": "all arguments", "why_tests_cant": "All types and shapes.", "anchors": ["gpmp/num/numpy_backend.py: asarray", "gpmp/num/torch_backend.py: asarray"]}
{"id": "C175", "title": "min, max, clip and inftobigf do the same on both backends", "statement": "min and max return the extreme entries, clip the nearest point of the interval, inftobigf replaces infinities by a large number of the same sign; with the default arguments numpy and torch agree.", "quantifier": "all arrays and bounds", "why_tests_cant": "All real entries, including infinities.", "anchors": ["gpmp/num/torch_backend.py: min", "gpmp/num/torch_backend.py: max", "gpmp/num/torch_backend.py: clip", "gpmp/num/torch_backend.py: inftobigf"]}
{"id": "C176", "title": "choice without replacement returns that many different positions", "statement": "choice(a, size, replace=False) returns size entries at distinct positions or raises; with replacement it returns size entries of a; weights are normalised to a probability vector.", "quantifier": "all arrays, sizes and random streams", "why_tests_cant": "All permutations and draws.", "anchors": ["gpmp/num/torch_backend.py: choice", "gpmp/num/numpy_backend.py: choice"]}
{"id": "C177", "title": "normal.pdf and normal.logpdf are the normal density", "statement": "On torch normal.pdf(x, loc, scale) is the density of the normal distribution with that location and scale and integrates to one; logpdf is its logarithm.", "quantifier": "all locations and positive scales", "why_tests_cant": "An integral over the line.", "anchors": ["gpmp/num/torch_backend.py: normal"]}
{"id": "C178", "title": "Numerical gradients are exact on polynomials and harmless at infinite values", "statement": "grad of numpy is exact, for any step, for functions that are polynomials of degree at most four in each coordinate, for every vector; value_and_grad of torch returns value and gradient for finite scalars, a zero gradient for values that are not finite or do not depend on x, and ValueError for anything that is not one number.", "quantifier": "all functions, points and steps", "why_tests_cant": "All polynomials and all points.", "anchors": ["gpmp/num/numpy_backend.py: grad", "gpmp/num/torch_backend.py: value_and_grad"]}
{"id": "C179", "title": "multivariate_normal checks and shapes agree between backends", "statement": "For a square covariance and a mean that is a number or a vector of matching length rvs(n) has shape (n, d) on both backends; a covariance that is not square and a mean of another length raise ValueError.", "quantifier": "all shapes and numbers of draws", "why_tests_cant": "All shapes.", "anchors": ["gpmp/num/numpy_backend.py: multivariate_normal", "gpmp/num/torch_backend.py: multivariate_normal"]}
{"id": "C180", "title": "prepare_data accepts exactly one source of data", "statement": "prepare_data takes the arrays exactly when both are given without a loader and the points form a matrix, the loader when it is given and not both arrays are, and raises ValueError otherwise; an array beside a loader is refused.", "quantifier": "all combinations of arguments", "why_tests_cant": "Each combination is a branch; tests take the usual ones.", "anchors": ["gpmp/kernel/utils.py: prepare_data", "gpmp/kernel/utils.py: check_xi_zi_or_loader"]}
{"id": "C181", "title": "Initial guesses with a loader", "statement": "The guessed length scales are those of all points, whatever the shards. The variance guessed for a zero mean minimises the sum of the likelihood criteria of the batches; the constant mean is the average of the means of the batches. All guesses are finite exactly for a positive variance and no constant column. The guess does not depend on the batches and accepts every shape accepted with arrays.", "quantifier": "all data, batches, covariance functions", "why_tests_cant": "Tests use one batch and one shape of observations.", "anchors": ["gpmp/kernel/init.py: anisotropic_parameters_initial_guess_zero_mean", "gpmp/kernel/init.py: anisotropic_parameters_initial_guess_constant_mean", "gpmp/kernel/init.py: anisotropic_parameters_initial_guess", "gpmp/kernel/init.py: _dataloader_x_delta", "gpmp/kernel/init.py: _covparam_from_sigma2_and_rho"]}
{"id": "C182", "title": "Approximate quantiles of a data set", "statement": "The approximate quantile is the exact one when the sample contains every point, whatever is drawn; otherwise every point has the same chance to be in the sample.", "quantifier": "all shards, levels, draws", "why_tests_cant": "Depends on random draws and on the sizes of all shards.", "anchors": ["gpmp/dataloader.py: Dataset._reduce_quantile_approx"]}
{"id": "C183", "title": "Updates never make the criterion worse", "statement": "After any sequence of successful updates of the parameters (power-law prior, or maximum likelihood with a constant mean) the criterion at the stored parameters is at most its initial value, the number of parameters is unchanged, and the power-law update leaves the mean alone. An update of a model without parameters is a selection.", "quantifier": "all criteria, models, sequences of updates, optimisers", "why_tests_cant": "Sequences of calls with arbitrary optimiser behaviour.", "anchors": ["gpmp/kernel/parameter_selection.py: update_parameters_with_remap_with_power_laws_prior", "gpmp/kernel/parameter_selection.py: select_parameters_with_remap_with_power_laws_prior", "gpmp/kernel/parameter_selection.py: update_parameters_with_ml_constant_mean"]}
{"id": "C184", "title": "Parameter objects behave as values", "statement": "In any program that makes, indexes, adds and modifies several Param objects, changing one object never changes another one nor an array of the caller.", "quantifier": "all programs", "why_tests_cant": "Sharing shows only in particular sequences of calls.", "anchors": ["gpmp/parameter/param.py: Param.__init__", "gpmp/parameter/param.py: Param.values", "gpmp/parameter/param.py: Param.__getitem__", "gpmp/parameter/param.py: Param.__add__", "gpmp/parameter/param.py: Param.set_by_path"]}
{"id": "C185", "title": "Views of a Param are attached to it", "statement": "get_by_name(name, return_view=True) and get_by_path(path, return_view=True) give the entries of the copies, writing through a view is set_by_name, and a view stays attached whatever is called afterwards. A view by path is refused exactly when the entries are not consecutive.", "quantifier": "all objects, paths, sequences of calls", "why_tests_cant": "Sequences of calls.", "anchors": ["gpmp/parameter/param.py: Param.get_by_name", "gpmp/parameter/param.py: Param.get_by_path", "gpmp/parameter/param.py: Param.denormalized_values"]}
{"id": "C186", "title": "A value that is set is read back", "statement": "After set_by_name and set_from_unnormalized have returned, reading the entry gives the value set, whatever numbers the object was made from.", "quantifier": "all objects and values", "why_tests_cant": "Depends on the type of the numbers given at construction.", "anchors": ["gpmp/parameter/param.py: Param.set_by_name", "gpmp/parameter/param.py: Param.set_from_unnormalized", "gpmp/num/numpy_backend.py: asarray"]}
{"id": "C187", "title": "Listings of a Param agree with its entries", "statement": "get_paths, names_by_path_prefix and select_by_path_prefix list the same entries in order; get_paths() has each path once; to_dict never raises, its keys are the names and the record of a name has all fields of the last entry with that name.", "quantifier": "all objects and prefixes", "why_tests_cant": "All lists of names and paths, with repetitions.", "anchors": ["gpmp/parameter/param.py: Param.get_paths", "gpmp/parameter/param.py: Param.names_by_path_prefix", "gpmp/parameter/param.py: Param.select_by_path_prefix", "gpmp/parameter/param.py: Param.to_dict"]}
{"id": "C188", "title": "The printed table of a Param is aligned", "statement": "repr of a Param never raises and has a header and one line per entry, all lines of equal length, with the cells of each column at the same places in every line.", "quantifier": "all objects", "why_tests_cant": "All lengths of names, paths and numbers.", "anchors": ["gpmp/parameter/param.py: Param.__repr__"]}
{"id": "C189", "title": "The backends compute the same covariance matrices", "statement": "cov gives the same result with numpy and torch: symmetric, positive semidefinite, with var on the diagonal for the same ddof.", "quantifier": "all arrays with one or two axes, rowvar, bias, ddof", "why_tests_cant": "All data and layouts; numpy and torch lay out vectors differently.", "anchors": ["gpmp/num/torch_backend.py: cov, var", "gpmp/num/numpy_backend.py: cov"]}
{"id": "C190", "title": "The backends solve the same triangular systems", "statement": "solve_triangular(A, b, trans, lower) returns the solution of Ax = b, or of A^T x = b with trans, with both backends.", "quantifier": "all triangular matrices with nonzero diagonal, right hand sides, flags", "why_tests_cant": "The flag for the triangle and the transposition interact.", "anchors": ["gpmp/num/torch_backend.py: solve_triangular", "gpmp/num/numpy_backend.py: solve_triangular"]}
{"id": "C191", "title": "Percentiles, isscalar and nan_to_num agree between backends", "statement": "The three functions give the same on both backends, refuse the same, and leave the argument unchanged.", "quantifier": "all arguments", "why_tests_cant": "All kinds of arguments.", "anchors": ["gpmp/num/torch_backend.py: percentile, isscalar, nan_to_num", "gpmp/num/numpy_backend.py"]}
{"id": "C192", "title": "Log-densities have the same shape with both backends", "statement": "multivariate_normal.logpdf returns one number per point with both backends and refuses the same shapes.", "quantifier": "all shapes of points and covariances", "why_tests_cant": "All shapes; the backends treat axes of length one differently.", "anchors": ["gpmp/num/torch_backend.py: multivariate_normal.logpdf", "gpmp/num/numpy_backend.py: multivariate_normal.logpdf"]}
{"id": "C193", "title": "Asymmetric proposals are corrected", "statement": "With symmetric=False a Metropolis-Hastings step accounts for the proposal densities of both directions, so that any prop_rnd leaves the target invariant.", "quantifier": "all targets, proposals, states and draws", "why_tests_cant": "All proposals; a missing correction biases the chain without any failure.", "anchors": ["gpmp/mcmc/mh.py: MetropolisHastings.mhstep, _log_prop"]}
{"id": "C194", "title": "Default proposals, initial proposal parameters and modes", "statement": "The default proposal adds one Gaussian draw of the chain's covariance to the state; initial parameters of any other shape than one per dimension or one per chain are refused; the adaptation factor is that of the current phase.", "quantifier": "all parameters, shapes, sequences of modes", "why_tests_cant": "All shapes and all histories of modes.", "anchors": ["gpmp/mcmc/mh.py: default_prop_rnd, _initialize_proposal_distribution_params, set_mode, _validate_scheduler_args"]}
{"id": "C195", "title": "Statistics of whole chains use each row once", "statement": "Pooled samples are the rows of all chains after the burn-in in groups of n_pool chains; pooling all chains is one group; covariances are positive semidefinite and recomputed proposals positive definite; the Kolmogorov-Smirnov blocks are the last rows and the matrices symmetric.", "quantifier": "all chains, burn-ins, pool sizes, block sizes", "why_tests_cant": "All sizes and divisibility cases.", "anchors": ["gpmp/mcmc/mh.py: _get_pooled_samples, compute_empirical_covariance_whole_chain, recompute_all_chains_full_covariance, ks_statistics"]}
{"id": "C196", "title": "No uninitialised memory is read by the sampler", "statement": "The arrays are allocated with gnp.empty; neither the run nor statistics computed after it depend on what the memory contained.", "quantifier": "all targets, options, initial contents of memory", "why_tests_cant": "Tests usually see zeroed memory, and early stopping is rare.", "anchors": ["gpmp/mcmc/mh.py: scheduler, run_burnin, _get_pooled_samples, recompute_all_chains_full_covariance, ks_statistics"]}
{"id": "C197", "title": "set_seed makes random results reproducible", "statement": "After set_seed(s), whatever happened before, the same program gives the same random numbers.", "quantifier": "every generator, program (adaptive) and history", "why_tests_cant": "Two runs in one process are needed, with any history before; tests usually run once per seed.", "anchors": ["gpmp/num/numpy_backend.py: set_seed, rand, randn, choice, permutation, multivariate_normal.rvs", "gpmp/num/torch_backend.py: set_seed, rand, randn, choice, permutation, multivariate_normal.rvs", "gpmp/mcmc/mh.py: mhstep", "gpmp/misc/designs.py: randunif"]}
{"id": "C198", "title": "A seed given to a split, a fold or a loader concerns that call only", "statement": "Dataset.split, k_fold_indices and DataLoader with a seed leave the random numbers of the rest of the program alone; repetitions of repeated_k_fold_indices are independent of those of other seeds.", "quantifier": "every generator, seed and program around the call", "why_tests_cant": "The interplay of components through one global generator.", "anchors": ["gpmp/dataloader.py: Dataset.split, Dataset.k_fold_indices, Dataset.repeated_k_fold_indices, DataLoader.__iter__"]}
{"id": "C199", "title": "SMC objects draw independently of each other and of gpmp.num", "statement": "The draws of an SMC object do not depend on what other objects or the functions of gpmp.num have drawn.", "quantifier": "every generator and interleaving", "why_tests_cant": "Depends on what ran before in the process.", "anchors": ["gpmp/mcmc/smc.py: SMC.__init__, ParticlesSet.rand, ParticlesSet.multinomial_rvs, ParticlesSet.multivariate_normal_rvs, ParticlesSet.randunif"]}
{"id": "C200", "title": "The backend in use is the configured one", "statement": "gpmp.num uses numpy or (installed) torch and never changes; set_backend determines it; after a failed import the environment variable can be corrected and the import repeated.", "quantifier": "every environment and sequence of imports and calls", "why_tests_cant": "Needs fresh processes with different environments, and failing imports.", "anchors": ["gpmp/__init__.py", "gpmp/config.py: set_backend, init_backend", "gpmp/num/__init__.py", "gpmp/core/model.py"]}
{"id": "C201", "title": "get_dtype returns the element type in use", "statement": "After import gpmp, gpmp.num.get_dtype() is float64, also after setting the element type to float64.", "quantifier": "every environment and sequence of calls", "why_tests_cant": "Depends on the sequence of calls.", "anchors": ["gpmp/num/shared.py: get_dtype", "gpmp/config.py: set_dtype, _GPMPConfig.update"]}
{"id": "C202", "title": "One version number", "statement": "gpmp.__version__ and gpmp.config.__version__ are equal and not empty.", "quantifier": "every VERSION file and distribution metadata", "why_tests_cant": "Depends on the installation.", "anchors": ["gpmp/__init__.py: _read_version", "gpmp/config.py"]}
{"id": "C203", "title": "Attributes imported on first access", "statement": "An attribute found once is the same object at every later access; unknown names raise AttributeError; failures leave the package as it was; dir lists every attribute that can be reached; mcmc.__all__ is what mcmc serves.", "quantifier": "every sequence of accesses and behaviour of the imports", "why_tests_cant": "All access orders, failing imports.", "anchors": ["gpmp/__init__.py: __getattr__, __dir__", "gpmp/mcmc/__init__.py: __getattr__, __dir__", "gpmp/modeldiagnosis/__init__.py: __getattr__, __dir__"]}
{"id": "C204", "title": "Predicting at the observation points returns the data", "statement": "model.predict(xi, zi, xi) returns zi whatever the backend and the type of the arrays given (numpy or torch, any element type, conversion on or off).", "quantifier": "all backends, array types, points, data, Mat\u00e9rn parameters", "why_tests_cant": "The result depends on whether a conversion keeps the object; tests use one backend and one array type.", "anchors": ["gpmp/core/model.py: Model.predict", "gpmp/core/utils.py", "gpmp/num/torch_backend.py: asarray", "gpmp/kernel/matern.py: maternp_covariance"]}
{"id": "C205", "title": "Model.loo is refitting with Model.predict", "statement": "For every i, the leave-one-out mean of Model.loo is the prediction at x_i of Model.predict without the i-th observation, and the variance is that of the prediction plus the nugget.", "quantifier": "all mean types, points, data, parameters, backends and array types", "why_tests_cant": "Two different code paths that must agree for all data.", "anchors": ["gpmp/core/model.py: Model.loo, Model.predict"]}
{"id": "C206", "title": "Criteria read their arguments; observations may be a column; refusals", "statement": "The likelihood criteria use the parameters given, not those stored in the model; predict and loo accept the observations as a vector or a column; unusable models are refused in a fixed order.", "quantifier": "all models, stored parameters and arguments", "why_tests_cant": "All states of the model object.", "anchors": ["gpmp/core/model.py: Model.negative_log_likelihood, Model.negative_log_restricted_likelihood, Model.norm_k_sqrd, Model.predict, Model.loo"]}
{"id": "C207", "title": "Predictions do not depend on the order of the observations, the batching of targets, units or the backend", "statement": "Reordering the observations, predicting targets in another order or in batches, changing the units of inputs and outputs or the basis of the mean functions, or changing backend leaves the predictions unchanged up to the change of unit.", "quantifier": "all permutations, selections, units, bases, backends", "why_tests_cant": "Metamorphic relation over all data.", "anchors": ["gpmp/core/model.py: Model.predict", "gpmp/core/prediction.py", "gpmp/kernel/matern.py"]}
{"id": "C208", "title": "The likelihood criteria change only by a constant under a change of units", "statement": "Multiplying data by s and covariances by s^2, reordering observations, changing the basis of the mean: the criteria change by a constant that does not depend on parameters or data.", "quantifier": "all permutations, units, bases, data", "why_tests_cant": "Metamorphic relation over all data.", "anchors": ["gpmp/core/likelihood.py: negative_log_likelihood_zero_mean, negative_log_restricted_likelihood, norm_k_sqrd"]}
{"id": "C209", "title": "Observations may be a vector or a column", "statement": "The likelihood criteria, leave-one-out and conditional sample paths give the same result for observations of shape (n,) and (n,1), on both backends, with outputs of the documented shapes.", "quantifier": "all sizes, data, covariances, factorisations and backends", "why_tests_cant": "Broadcasting depends on sizes (columns work when n = 1) and backend.", "anchors": ["gpmp/core/likelihood.py", "gpmp/core/loo.py: loo", "gpmp/core/sample_paths.py: conditional_sample_paths, conditional_sample_paths_parameterized_mean", "gpmp/num/torch_backend.py: cholesky_solve"]}
{"id": "C210", "title": "A wrong number of observations is refused", "statement": "If the number of observations is not the number of points, or several columns are given, the likelihood criteria and conditional_sample_paths raise an exception.", "quantifier": "all sizes, data and backends", "why_tests_cant": "One must try all wrong lengths on both backends.", "anchors": ["gpmp/core/likelihood.py: negative_log_likelihood_zero_mean, negative_log_likelihood, negative_log_restricted_likelihood", "gpmp/core/sample_paths.py: conditional_sample_paths"]}
{"id": "C211", "title": "Shapes of squared norms and of the products with the inverse", "statement": "norm_k_sqrd and norm_k_sqrd_with_zero_mean return a number; k_inverses of a column returns a number and two columns; the values are those of the formulas.", "quantifier": "all sizes, data and backends", "why_tests_cant": "The shape depends on the backend.", "anchors": ["gpmp/core/linalg.py: norm_k_sqrd, norm_k_sqrd_with_zero_mean, k_inverses", "gpmp/core/model.py: Model.norm_k_sqrd, Model.k_inverses"]}
{"id": "C212", "title": "The PIT figure shows the empirical distribution function", "statement": "At every abscissa that is not one of the PIT values, the curve of plot_pit_ecdf has the ordinate of the fraction of the PIT values that are below.", "quantifier": "all lists of PIT values and abscissas", "why_tests_cant": "An error of one step is not visible for the sizes used in examples.", "anchors": ["gpmp/modeldiagnosis/plotting.py: plot_pit_ecdf"]}
{"id": "C213", "title": "Cross sections of criteria vary one parameter over its bounds", "statement": "Each panel of plot_selection_criterion_crosssections shows the criteria as functions of its own parameter, all others at the reference; the range is that of param_box for this parameter, or delta around the reference; the criteria, names and reference follow the documented precedence.", "quantifier": "all criteria, references, indices, names and bounds", "why_tests_cant": "Any selection of indices, including negative ones, and any bounds.", "anchors": ["gpmp/modeldiagnosis/plotting.py: plot_selection_criterion_crosssections"]}
{"id": "C214", "title": "The map of a criterion shows the criterion at the parameters of its axes", "statement": "Each point of the map of plot_selection_criterion_2d has the colour of the criterion at the parameters that its coordinates stand for, and the marked points are at the coordinates of the selected and initial parameters; colours are ordered as the values, the best points have the lowest colour.", "quantifier": "all criteria, parameters, indices, grid sizes and factors", "why_tests_cant": "Figures are not compared with values in tests; NaN appears only in parts of the parameter space.", "anchors": ["gpmp/modeldiagnosis/plotting.py: plot_selection_criterion_2d, plot_selection_criterion_sigma_rho"]}
{"id": "C215", "title": "Prediction cross sections pass through the anchor and vary one coordinate", "statement": "Each cross section is drawn in its own panel, over increasing abscissas that contain the anchor and the bounds, from predictions at points that differ from the anchor in the swept coordinate only, with variances that are not negative; invalid requests are refused.", "quantifier": "all data, bounds, anchors, coordinates and predictors", "why_tests_cant": "All combinations of anchors and coordinates.", "anchors": ["gpmp/plot/plotutils.py: crosssections, Figure.subplot"]}
{"id": "C216", "title": "Coverage bands have the probability of their label", "statement": "Each band drawn by Figure.plotgp has, under the normal law with the mean and variance shown, the probability of its level, symmetric about the mean; higher levels give wider bands; labels match levels; the documented quantiles are correct to 1e-6.", "quantifier": "all means, variances, levels and labels", "why_tests_cant": "Universal over levels and laws.", "anchors": ["gpmp/plot/plotutils.py: Figure.plotgp"]}
{"id": "C217", "title": "Leave-one-out bars have coverage 95%", "statement": "The error bars of plot_loo have, under the normal law of the leave-one-out prediction, a probability between 0.95 and 0.950006.", "quantifier": "all predictions and positive variances", "why_tests_cant": "A bound on the normal distribution function.", "anchors": ["gpmp/plot/plotutils.py: plot_loo"]}
{"id": "C218", "title": "Conversions give what their names say on both backends", "statement": "array, asarray, asdouble, asint, copy, to_np of a number, list, numpy array or tensor return the backend's type with the documented element type and the same values; isarray accepts exactly the backend's arrays.", "quantifier": "all memories, machines and values", "why_tests_cant": "Every kind of input with every element type on both backends.", "anchors": ["gpmp/num/numpy_backend.py: array, asarray, copy, asdouble, asint, to_np, to_scalar, isarray", "gpmp/num/torch_backend.py: the same names"]}
{"id": "C219", "title": "copy and array return arrays of their own", "statement": "Writing into the result of copy or array never changes the argument, nor conversely; asarray shares memory only when nothing has to be converted.", "quantifier": "all memories, arrays and sequences of writes", "why_tests_cant": "Aliasing over arbitrary sequences of writes.", "anchors": ["gpmp/num/torch_backend.py: array, asarray, copy", "gpmp/num/numpy_backend.py: array, asarray, copy"]}
{"id": "C220", "title": "Names of element types mean the same on both backends", "statement": "asarray(x, dtype=name) resolves every numpy name of a type to that type, and refuses others.", "quantifier": "all names", "why_tests_cant": "All strings.", "anchors": ["gpmp/num/torch_backend.py: asarray"]}
{"id": "C221", "title": "asint keeps integers", "statement": "asint of an integer (or of a float with an integer value) returns that integer on both backends.", "quantifier": "all integers", "why_tests_cant": "The whole range of integers.", "anchors": ["gpmp/num/torch_backend.py: asint", "gpmp/num/numpy_backend.py: asint"]}
{"id": "C222", "title": "Only failures of linear algebra turn a criterion into infinity", "statement": "While an optimiser runs, a criterion that fails because of linear algebra has value +inf; any other exception leaves the procedure unchanged.", "quantifier": "all criteria, messages and solvers", "why_tests_cant": "Any exception with any message.", "anchors": ["gpmp/kernel/parameter_selection.py: make_criterion_safe, autoselect_parameters", "gpmp/core/likelihood.py"]}
{"id": "C223", "title": "The normal distribution functions of the backends agree", "statement": "normal.cdf, normal.logcdf give the distribution function of the normal law and its logarithm on both backends.", "quantifier": "all arguments, means, scales", "why_tests_cant": "Tails and degenerate scales.", "anchors": ["gpmp/num/numpy_backend.py: normal", "gpmp/num/torch_backend.py: normal"]}
{"id": "C224", "title": "norm and var mean the same on both backends", "statement": "norm and var return the same values on both backends for the same arguments.", "quantifier": "all arrays, axes, orders and degrees of freedom", "why_tests_cant": "All combinations of optional arguments.", "anchors": ["gpmp/num/numpy_backend.py: norm, var", "gpmp/num/torch_backend.py: norm, var"]}
{"id": "C225", "title": "cho_factor and cho_solve solve the system", "statement": "cho_solve(cho_factor(A), b) is the solution of A x = b for positive definite A, for vectors and matrices b, and cho_factor raises otherwise.", "quantifier": "all positive definite matrices and right-hand sides", "why_tests_cant": "Universal over matrices.", "anchors": ["gpmp/num/numpy_backend.py: cho_factor, cho_solve", "gpmp/num/torch_backend.py: cho_factor, cho_solve"]}
{"id": "C226", "title": "Generated statistics are those of their names", "statement": "x_min, z_max, ... of a data set compute the statistic in their name of the field in their name over all shards, whatever the order and types of shards; loader.dataset_x_min etc. are the values for the loader's data set.", "quantifier": "all data sets, fields and statistics", "why_tests_cant": "Late binding of loop variables would make all methods alike; types and shards vary.", "anchors": ["gpmp/dataloader.py: Dataset (generated methods), DataLoader (generated properties), Dataset._reduce_mean"]}
{"id": "C227", "title": "The likelihood is the product of the one-step predictions", "statement": "For any split of the observations, negative_log_likelihood of all of them is that of the first ones plus minus the log density, at the remaining ones, of the Gaussian law returned by predict from the first ones; observing them one at a time gives the sum over the steps. The restricted likelihood has the same property for a linear predictor, up to a term that depends on the mean functions at the points only.", "quantifier": "all positive definite covariances, splits, orders of observation and data (exact arithmetic)", "why_tests_cant": "Identity between different procedures for all matrices.", "anchors": ["gpmp/core/likelihood.py", "gpmp/core/kriging.py", "gpmp/core/model.py: Model.predict"]}
{"id": "C228", "title": "Predicting in two stages", "statement": "Predicting from all observations equals predicting from the first ones, then updating the posterior with the remaining ones; the additional observations never increase the posterior variance.", "quantifier": "all joint covariances, splits of the observations and data, with known mean or linear predictor (exact arithmetic)", "why_tests_cant": "Identity between two computations for all matrices.", "anchors": ["gpmp/core/kriging.py", "gpmp/core/model.py: Model.predict"]}
{"id": "C229", "title": "The restricted likelihood is the integrated likelihood", "statement": "The restricted likelihood of the data is the integral over all trend coefficients of the Gaussian likelihood, times the root of det(P\u1d40P).", "quantifier": "all positive definite covariances, full-rank designs and data (exact arithmetic)", "why_tests_cant": "An integral identity.", "anchors": ["gpmp/core/likelihood.py: negative_log_restricted_likelihood"]}
{"id": "C230", "title": "The Fisher information is the covariance of the score", "statement": "Over data drawn from the model, the gradient of the negative log-likelihood (restricted for a linear predictor) with respect to covariance parameters has mean zero, and its covariance matrix is what fisher_information (fisher_information_cpd) returns: exactly when the finite differences are, and otherwise in the limit of small steps.", "quantifier": "all differentiable families of (conditionally) positive definite covariances and all parameters (exact arithmetic)", "why_tests_cant": "An expectation over all data, and derivatives of any kernel.", "anchors": ["gpmp/core/fisher.py: fisher_information, fisher_information_cpd", "gpmp/core/likelihood.py"]}
{"id": "C231", "title": "Resampling is unbiased, and residual resampling has the smaller variance", "statement": "Over the random draws, the expected number of copies of a particle is n times its normalised weight, for multinomial_resample and for residual_resample; and the variance of any weighted count under residual_resample is at most that under multinomial_resample, as its documentation says.", "quantifier": "all particle numbers, all nonnegative weights with a positive sum, all particles (exact arithmetic)", "why_tests_cant": "An expectation over all draws and all weights; sampling checks only see one case with noise.", "anchors": ["gpmp/mcmc/smc.py: ParticlesSet.multinomial_resample, ParticlesSet.residual_resample"]}
{"id": "C232", "title": "Reductions and array constructors are the same on both backends", "statement": "sum, prod, all, mean, cumsum, diff, expand_dims, transpose, linspace, full and meshgrid give the same array, element type and refusal on numpy and torch; reducing along an axis and then over everything is reducing over everything; differences undo running totals; transposing twice does nothing.", "quantifier": "all shapes of any rank, all axes including negative and out-of-range ones", "why_tests_cant": "Two libraries and every shape and axis; tests run one backend on fixed shapes.", "anchors": ["gpmp/num/torch_backend.py: axis_to_dim, all, diff, sum, cumsum, prod, mean, expand_dims, transpose", "gpmp/num/numpy_backend.py: full, linspace, transpose"]}
{"id": "C233", "title": "The log of a sequential Monte Carlo run is complete and in order", "statement": "Every call of step_with_possible_restart opens a new stage and only appends snapshots, all with its number; every acceptance rate returned by a move is in the log once and in order, also when the call raises; logging does not change what is computed; a completed step has two snapshots with its parameter, effective sample size, the controlled and the additional rates; the snapshots of a restart number its iterations from 1 and list its parameters; plot_state draws one column per rate and one line per stage.", "quantifier": "all densities, random draws, configurations, arguments and sequences of calls, with exceptions", "why_tests_cant": "All interleavings of stages, restarts and failures.", "anchors": ["gpmp/mcmc/smc.py: SMC.update_log, SMC.log_snapshot, SMC.step, SMC.restart, SMC.step_with_possible_restart, SMC.plot_state"]}
{"id": "C234", "title": "The demonstration densities are normalised as stated", "statement": "gaussian_2d_log_prob is the logarithm of the normal density with mass one; gaussian_mixture_2d_log_prob is that of the weighted sum, with mass the sum of the weights, and its exponentials never exceed one; rosenbrock_U is positive except at (a, a^2) and exp(-U) has mass pi/sqrt(b).", "quantifier": "all positive definite covariances, all positive weights, all a and b > 0 (exact arithmetic)", "why_tests_cant": "Integrals over the plane for all parameters.", "anchors": ["gpmp/mcmc/nuts.py: rosenbrock_U, gaussian_2d_log_prob", "gpmp/mcmc/svgd.py: rosenbrock_U, gaussian_2d_log_prob, gaussian_mixture_2d_log_prob"]}
{"id": "C235", "title": "More observations give more Fisher information", "statement": "fisher_information of a selection of the observations is at most that of all of them (in the order of symmetric matrices), fisher_information_cpd likewise and is itself at most fisher_information; the information of independent groups of observations adds.", "quantifier": "all families of (conditionally) positive definite covariances, parameters, steps, selections and designs (exact arithmetic)", "why_tests_cant": "Matrix inequalities for all kernels and selections.", "anchors": ["gpmp/core/fisher.py: fisher_information, fisher_information_cpd"]}
{"id": "C236", "title": "An unknown linear mean is predicted by generalised least squares", "statement": "With meantype linear_predictor, predict returns the prediction of the parameterized mean whose coefficients make (z-Pb)\u1d40K\u207b\u00b9(z-Pb) least; its variance is that of the known mean plus the variance due to the estimation of the coefficients; no other coefficients give the same predictions.", "quantifier": "all positive definite covariances, full-rank designs, targets and data (exact arithmetic)", "why_tests_cant": "Identity between different procedures for all matrices.", "anchors": ["gpmp/core/kriging.py: kriging_predictor, kriging_predictor_with_zero_mean", "gpmp/core/model.py: Model.predict"]}
{"id": "C237", "title": "Predictions are functions of the target that return to the prior far from the data", "statement": "For a Mat\u00e9rn model, predict evaluates one pair of functions of the point at each target, whatever the number and order of targets. They are continuous; the variance lies in [0, sigma\u00b2) for a known mean and is zero exactly at observation points without nugget, where the prediction is the observation. As the target leaves every bounded region the prediction approaches the mean function (the estimated one for a linear predictor) and the variance approaches sigma\u00b2 (plus the variance of the estimated mean).", "quantifier": "all orders, parameters, observation points, data, targets, known or unknown linear means (exact arithmetic)", "why_tests_cant": "A limit, continuity and an equivalence over all points of the space.", "anchors": ["gpmp/core/model.py: Model.predict", "gpmp/core/kriging.py", "gpmp/kernel/matern.py: maternp_covariance"]}
{"id": "C238", "title": "The prediction is the completion of least norm, and the norm bounds it", "statement": "Whatever values are put at the targets, norm_k_sqrd_with_zero_mean (norm_k_sqrd) of observations and targets together is at least that of the observations, with equality only for the values of predict (with a linear predictor); a zero-mean prediction is at most norm*sqrt(k(t,t)-v(t)) in absolute value, and two predictions differ by at most norm*sqrt(k(t,t)-2k(t,u)+k(u,u)).", "quantifier": "all positive definite covariances, full-rank designs, data and target values (exact arithmetic)", "why_tests_cant": "A minimum over all completions.", "anchors": ["gpmp/core/linalg.py: norm_k_sqrd_with_zero_mean, norm_k_sqrd", "gpmp/core/model.py: Model.predict"]}
{"id": "C239", "title": "Sample paths and likelihoods belong to the same normal law", "statement": "Under independent standard normal draws, the paths of sample_paths are independent and each has the normal law with mean zero and the covariance of the model (Cholesky method; singular value method also for singular covariances); negative_log_likelihood is minus the logarithm of the continuous density of that law shifted by the mean, and negative_log_restricted_likelihood of the law of the contrasts of the data, whatever the mean of the linear space.", "quantifier": "all covariances, means, full-rank designs, contrast bases, numbers of paths and data (exact arithmetic)", "why_tests_cant": "Statements on probability laws; sampling only gives approximations.", "anchors": ["gpmp/core/sample_paths.py: sample_paths", "gpmp/core/likelihood.py"]}
{"id": "C240", "title": "Predictions, conditioned paths and leave-one-out errors are calibrated", "statement": "If the process has the normal law of the model: the errors of predict are normal, centred, with the returned variances (and posterior covariance), independent of the data for a known mean, and for every mean function of the linear space with a linear predictor; bands have exactly their nominal level; conditional_sample_paths gives independent draws from the predictive law; leave-one-out errors are normal, centred, with the returned variances; norm_k_sqrd_with_zero_mean and norm_k_sqrd follow chi-square laws with n and n-q degrees of freedom.", "quantifier": "all covariances, means, designs, targets, coefficients, levels and numbers of paths (exact arithmetic)", "why_tests_cant": "Statements on probability laws over all processes.", "anchors": ["gpmp/core/model.py: Model.predict, Model.loo, Model.conditional_sample_paths", "gpmp/core/sample_paths.py", "gpmp/core/loo.py", "gpmp/core/linalg.py: norm_k_sqrd, norm_k_sqrd_with_zero_mean"]}
{"id": "C241", "title": "The kernel is the Mat\u00e9rn covariance of regularity p + 1/2", "statement": "At every positive distance maternp_kernel(p, h) equals 2^(1-nu)/Gamma(nu) (2 sqrt(nu) h)^nu K_nu(2 sqrt(nu) h) with nu = p + 1/2 and K_nu the modified Bessel function of the second kind (integral representation); matern32_kernel is the case nu = 3/2; at distance zero both are 1, the limit.", "quantifier": "all orders p, all distances h > 0, all cache histories (exact arithmetic)", "why_tests_cant": "Identity with a special function for all orders and distances.", "anchors": ["gpmp/kernel/matern.py: maternp_kernel, matern32_kernel"]}
{"id": "C242", "title": "The order of the kernel is its regularity", "statement": "As a function of the signed difference of two points on a line, maternp_kernel(p, .) is j times continuously differentiable exactly when j <= 2p.", "quantifier": "all orders p and all j (exact arithmetic)", "why_tests_cant": "Differentiability is not a finite observation.", "anchors": ["gpmp/kernel/matern.py: maternp_kernel"]}
{"id": "C243", "title": "A NUTS transition keeps the target law up to the probability of a divergence", "statement": "If the position follows the density exp(log_prob) and the momentum, slice and tree draws are independent and standard, the law after one nuts_transition differs from the target by at most twice the probability that a point in reach is more than delta_max above the start, after n transitions by at most n times this; it vanishes as delta_max grows, and the target is kept exactly if that probability is zero.", "quantifier": "all finite measurable potentials with measurable gradient field, all dimensions, step sizes, positive inverse masses, depths, delta_max > 0, bounded functions and numbers of transitions (exact arithmetic)", "why_tests_cant": "Invariance of a probability law under a randomised recursive algorithm.", "anchors": ["gpmp/mcmc/nuts.py: nuts_transition, build_tree, leapfrog"]}
{"id": "C244", "title": "Metropolis-Hastings on a bounded domain converges, and so do its averages", "statement": "With a fixed positive continuous symmetric proposal density, a criterion that is continuous on a compact domain where it varies by at most 690, and log-target minus infinity outside, there is e > 0 such that, from every starting point of the domain, the probability of every event after n steps is within (1-e)^n of that under the density proportional to exp(-criterion), and the average of any function with values in [0,1] over n states is off by d or more with probability at most (1+2/e)/(n d^2). In general this holds if no acceptance ratio falls below 1e-300 and e times the target density is below the proposal density.", "quantifier": "all compact domains, criteria, proposals, starting points, numbers of steps, events and functions (exact arithmetic)", "why_tests_cant": "Laws of random sequences; tests see single runs.", "anchors": ["gpmp/mcmc/mh.py: MetropolisHastings.mhstep, run_samples", "gpmp/mcmc/param_posterior.py: sample_from_selection_criterion_mh"]}
{"id": "C245", "title": "Prediction errors are small near the data and converge as the design fills the domain", "statement": "With a Mat\u00e9rn covariance of variance s2, the variance returned by predict at a target is, for every observation i, at most 2 (s2 - k(x_i, t)) plus the nugget 10 eps s2 (also with an unknown constant mean), hence at most s2 (2 (2p+1)/(2p-1) h^2 + 10 eps) within scaled distance h of an observation for p >= 1, and s2 (2 sqrt(2) h + 10 eps) for p = 0. If the data are the values of a function sum_j c_j k(., u_j), plus any element of the mean space with a linear predictor, the squared error is at most the squared norm of the function times the returned variance. Without nugget, variances and errors tend to zero uniformly with the distance to the nearest observation, whatever the design.", "quantifier": "all orders, parameters, designs (distinct points or positive nugget), targets, functions and mean coefficients (exact arithmetic)", "why_tests_cant": "Error bounds over all designs, functions and targets, and a limit.", "anchors": ["gpmp/core/model.py: Model.predict", "gpmp/core/kriging.py", "gpmp/kernel/covariance.py: maternp_covariance"]}
{"id": "C246", "title": "Origin, units, orientation and order of the input coordinates do not matter", "statement": "If every coordinate of the points is multiplied by a nonzero factor, shifted, and the coordinates are permuted, and the length scales are expressed in the new units, then covariances, predictions, likelihood criteria, leave-one-out errors, norms and sample paths are the same; the initial guesses computed from the new points are the old ones in the new units; the minimal log length scales shift by the logarithm of the factor and the values and refusals of the length-scale prior are the same. The power-law prior, with its absolute cut-offs, is also unchanged.", "quantifier": "all changes of coordinates with nonzero factors, kernels, parameters, data, mean types and sources of draws (exact arithmetic)", "why_tests_cant": "Equality over all data and changes of coordinates.", "anchors": ["gpmp/kernel/matern.py", "gpmp/kernel/init.py", "gpmp/kernel/priors.py", "gpmp/kernel/prior_helpers.py", "gpmp/core/model.py"]}
{"id": "C247", "title": "Criteria and predictions are smooth functions of the parameters", "statement": "With a Mat\u00e9rn covariance, distinct points or a positive nugget, and a full-rank mean basis, negative_log_likelihood, negative_log_restricted_likelihood, every covariance entry and the predictive means and variances are smooth (indeed analytic) functions of the log variance and the inverse log length scales, defined everywhere; on every bounded closed set of parameters each criterion has a minimum.", "quantifier": "all orders p, dimensions, designs, data, means and targets (exact arithmetic)", "why_tests_cant": "Differentiability and existence of minima are not finite observations.", "anchors": ["gpmp/core/likelihood.py", "gpmp/core/model.py: Model.predict", "gpmp/kernel/matern.py", "gpmp/kernel/parameter_selection.py"]}
{"id": "C248", "title": "maximum, minimum, exp and its like, and sort do the same in both backends", "statement": "maximum(x1, x2) and minimum(x1, x2) accept numbers, lists and arrays, combine shapes by matching axes from the last one, keep NaN, otherwise return one of the two entries that bounds both, and give the same type, shape and entries in both backends or refuse the shapes in both; with single-precision arguments the types follow each library's own rules. exp, log, log10, log1p, sqrt, sin, cos, tan, tanh apply the function to every entry, in double precision. sort puts every line along the axis in order with NaN last, the same in both backends.", "quantifier": "all arguments, shapes, ranks, element types and axes", "why_tests_cant": "All shapes and types cannot be enumerated.", "anchors": ["gpmp/num/torch_backend.py: maximum, minimum, scalar_safe, sort", "gpmp/num/numpy_backend.py"]}
{"id": "C249", "title": "Weights and resampled particles estimate expectations under the next density", "statement": "If the particles are independent with density proportional to exp of their stored log density (as the initial ones, uniform in the box, are), then as their number grows, after reweight to a new log density: the sum of the weights tends almost surely to the ratio of the normalising constants, weighted averages tend to expectations under the new density, the effective sample size divided by the number of particles tends to Z1^2 / (Z0 * integral of g1^2/g0), and after resample, by either scheme, the mean squared distance of plain averages to these expectations tends to zero.", "quantifier": "all dimensions, boxes, densities (the new one vanishing where the old one does) and square-integrable functions", "why_tests_cant": "An almost sure limit is not observable from finitely many runs.", "anchors": ["gpmp/mcmc/smc.py: ParticlesSet.particles_init, reweight, ess, resample"]}
{"id": "C250", "title": "A move of the particles keeps the law they are meant to have", "statement": "If the particles are independent with density proportional to exp of the current log density, then after ParticlesSet.move they are again independent with this density, and the stored log densities are those of the particles.", "quantifier": "all dimensions, numbers of particles, densities, scales and covariances of the noise", "why_tests_cant": "An equality of probability laws.", "anchors": ["gpmp/mcmc/smc.py: ParticlesSet.move, perturb", "gpmp/mcmc/knn_cov.py: estimate_cov_matrix"]}
{"id": "C251", "title": "On average the likelihood criteria are smallest at the model that generated the data", "statement": "For data drawn from a normal law with mean m and covariance K, the mean of negative_log_likelihood evaluated with any other mean and covariance exists and is at least its mean with m and K, strictly larger unless both are the same. For negative_log_restricted_likelihood the same holds whatever the mean in the linear space, strictly unless the two covariances give the same variance to every contrast.", "quantifier": "all positive definite (conditionally, for the restricted criterion) covariances, means, mean bases of full rank and numbers of data (exact arithmetic)", "why_tests_cant": "An expectation over all data, compared over all models.", "anchors": ["gpmp/core/likelihood.py: negative_log_likelihood_zero_mean, negative_log_likelihood, negative_log_restricted_likelihood"]}
{"id": "C252", "title": "The criteria tell covariance parameters apart", "statement": "With a Mat\u00e9rn covariance, two parameter vectors give the same covariance matrix only if the variances and all scaled distances are the same, and the average of the likelihood criterion over data from parameters a is strictly smaller at a than at any other parameters exactly when the vectors of squared coordinate differences of the points span the space (in one dimension: two distinct points). With a constant mean, the restricted criterion separates covariances exactly by the variances of increments. So distinct points on a diagonal do not determine two length scales, and two points do not determine variance and length scale for the restricted criterion: other parameters give the same value for all data.", "quantifier": "all orders, dimensions, parameters, designs with distinct points or a positive nugget (exact arithmetic)", "why_tests_cant": "A statement about all pairs of parameters and the mean over all data.", "anchors": ["gpmp/kernel/matern.py: maternp_covariance", "gpmp/core/likelihood.py"]}
{"id": "C253", "title": "Particles that already follow the target are left in place by a Stein step, on average", "statement": "For a fixed bandwidth and exact gradients: when the particles are independent with density proportional to exp(log_prob / temperature), the direction svgd_step gives to each of them has mean zero, and a particle surrounded by more and more such particles has a direction and a displacement tending almost surely to zero.", "quantifier": "all dimensions, differentiable log-densities with an integrable density and score, temperatures, step sizes, preconditioners, bandwidths and numbers of particles", "why_tests_cant": "A mean over all draws and an almost sure limit.", "anchors": ["gpmp/mcmc/svgd.py: svgd_step, rbf_kernel_matrix"]}
{"id": "C254", "title": "R-hat of long runs tells whether the chains have the same averages", "statement": "If the averages of the states of each chain and of their squares converge, compute_gelman_rubin_rhat tends, for each coordinate, to sqrt(1 + B/W), with B the variance between the limits of the chains and W the mean of their limit variances: 1 when all chains have the same average, more otherwise; check_convergence_gelman_rubin is eventually passed or refused accordingly. For chains of independent draws this holds almost surely. Passing does not mean that the chains follow the same law: chains with the same average and no value in common pass.", "quantifier": "all numbers of chains (two or more), dimensions, burn-in periods, thresholds and sequences of states", "why_tests_cant": "A limit over infinitely long runs.", "anchors": ["gpmp/mcmc/mh.py: compute_gelman_rubin_rhat, check_convergence_gelman_rubin"]}
{"id": "C255", "title": "Mat\u00e9rn models of high order approach the model with a Gaussian kernel", "statement": "For every order p and distance h >= 0, maternp_kernel(p, h) is within 2/sqrt(p + 1/2) of exp(-h^2); every entry of maternp_covariance is within the variance times this of the entry for the Gaussian kernel. With distinct points or a positive nugget, as p grows, predictive means, variances and weights (zero mean, or linear mean of full rank) and both likelihood criteria tend to the values the same code gives for the Gaussian kernel.", "quantifier": "all orders, distances, dimensions, designs, parameters, data and targets (exact arithmetic)", "why_tests_cant": "A uniform bound over all orders and distances, and a limit.", "anchors": ["gpmp/kernel/matern.py: maternp_kernel, maternp_covariance", "gpmp/core/model.py: Model.predict", "gpmp/core/likelihood.py"]}
{"id": "C256", "title": "Over data drawn from the model, the guessed variance is right on average", "statement": "For normal data with covariance sigma^2 K, where K is the covariance at unit variance used by the guess, the mean of the variance returned by the anisotropic_parameters_initial_guess functions is sigma^2. For a zero mean this holds, with arrays and with a loader, and the mean squared error is 2 sigma^4 / n. For a linear mean of dimension q it is sigma^2 (n - q) / n, whatever the mean, with mean squared error sigma^4 (2 (n - q) + q^2) / n^2. For a constant mean mu the guessed mean is right on average but the variance is sigma^2 + mu^2 (1' K^-1 1) / n.", "quantifier": "all positive definite covariances, variances, numbers of data and (full-rank) mean bases (exact arithmetic)", "why_tests_cant": "An expectation over all data.", "anchors": ["gpmp/kernel/init.py: anisotropic_parameters_initial_guess_zero_mean, anisotropic_parameters_initial_guess_constant_mean, anisotropic_parameters_initial_guess"]}
{"id": "C257", "title": "Criteria over batches are smallest, on average, at models that agree with the generating one on every batch", "statement": "For data drawn from a normal law, the mean of the likelihood criterion evaluated by BatchDifferentiableSelectionCriterion over the batches of a loader (mean or sum, one full pass) is at least its mean at the generating mean and covariance, with equality exactly when the two models give the same mean and covariance to the rows of each batch. So covariances between points that are never in one batch are not determined: with batches of one point, independent data and data with correlation one half give the same values.", "quantifier": "all positive definite covariances, means, lists of nonempty batches of distinct rows, reductions and both backends (exact arithmetic)", "why_tests_cant": "An expectation over all data, compared over all models.", "anchors": ["gpmp/num/numpy_backend.py: BatchDifferentiableSelectionCriterion", "gpmp/num/torch_backend.py: BatchDifferentiableSelectionCriterion", "gpmp/core/likelihood.py: negative_log_likelihood"]}
{"id": "C258", "title": "Finite-difference gradients are wrong by at most a fourth power of the step plus the error of the values over the step", "statement": "For a function with a bounded fifth derivative, the five-point formula of derivative_finite_diff is wrong by at most M h^4/30 plus 3e/(2h) when each value is wrong by at most e, and both terms are attained. On a Mat\u00e9rn covariance and on the likelihood criteria this bounds the errors of fisher_information's derivatives and of the numpy backend's grad uniformly over steps of at most one.", "quantifier": "all functions with five derivatives near the point, steps, errors of the values, Mat\u00e9rn orders, designs and data (values of the function perturbed arbitrarily; the formula itself exact)", "why_tests_cant": "A bound over all functions and all perturbations, attained.", "anchors": ["gpmp/num/shared.py: derivative_finite_diff", "gpmp/num/numpy_backend.py: grad", "gpmp/core/fisher.py: fisher_information"]}
{"id": "C259", "title": "The logger has the level that was asked for and writes each message once; caches are cleared by name", "statement": "GPMP_LOG_LEVEL, in any case, sets the level at import; any other text means INFO; set_log_level sets a known level or refuses and changes nothing; a message is written once if its level is at least the logger's, however often the module is imported or reloaded; a lower level shows whatever a higher one shows; clear_caches(name) removes that cache only and clear_caches() all.", "quantifier": "all texts in the environment, level arguments, lists of imports, reloads, level changes and messages, and all caches", "why_tests_cant": "All environment texts and all histories of calls; the wrong cases are words that happen to be attributes of logging, and loggers configured outside gpmp.", "anchors": ["gpmp/config.py: _GPMPConfig.__init__", "gpmp/config.py: set_log_level", "gpmp/config.py: get_logger", "gpmp/config.py: clear_caches"]}
{"id": "C260", "title": "A linear mean is the limit of vaguer and vaguer priors on its coefficients", "statement": "Predictions of a model with meantype linear_predictor are the limits, in mean, variance and weights, of predictions with zero mean and covariance k(x,y) + t p(x).p(y) as t grows; and the restricted likelihood is, up to a constant that does not depend on the covariance, the limit of the likelihood of that model corrected by (q/2) log(2 pi t).", "quantifier": "all conditionally positive definite covariances (positive definite ones for the criterion), full-rank bases, data, targets and both backends (exact arithmetic)", "why_tests_cant": "A limit over models.", "anchors": ["gpmp/core/kriging.py: kriging_predictor", "gpmp/core/likelihood.py: negative_log_restricted_likelihood", "gpmp/core/model.py: Model.predict"]}
{"id": "C261", "title": "Small errors of the linear-algebra routines cause small errors of the results", "statement": "If the Cholesky, QR, solve and inverse routines are replaced by inexact ones whose backward errors and residuals tend to zero, then eventually none of the computations fails and predictions (means, variances, weights), likelihoods, restricted likelihoods, leave-one-out outputs and information matrices tend to those of exact routines. The accuracy needed depends on the covariance: no fixed accuracy is enough for all positive definite covariances.", "quantifier": "all sequences of routines with vanishing errors, all positive definite (or conditionally positive definite) covariances, full-rank bases, data, targets and both backends", "why_tests_cant": "A statement about all inexact routines; tests run one particular library.", "anchors": ["gpmp/core/kriging.py: kriging_predictor_with_zero_mean, kriging_predictor", "gpmp/core/likelihood.py: negative_log_likelihood, negative_log_restricted_likelihood", "gpmp/core/loo.py: loo", "gpmp/core/fisher.py: fisher_information"]}
{"id": "C262", "title": "Dual averaging drives the mean acceptance of the warm-up to target_accept", "statement": "After the last window of the warm-up of nuts_sample: if acceptance is at most target_accept for steps above some size and at least target_accept for steps below some other size (both inside the allowed range of steps), the mean acceptance over n iterations differs from target_accept by O(1/sqrt n), with an explicit constant, and the log steps stay within a fixed distance of their reference. With random acceptance statistics it is enough that this holds for their conditional means given the past, and the mean square distance tends to zero. Without such a response (every proposal accepted whatever the step) the mean acceptance does not tend to target_accept.", "quantifier": "all acceptance statistics in [0,1], numbers of chains, options with gamma > 0 and t0 >= 0, and step bounds", "why_tests_cant": "A limit over all response functions and histories.", "anchors": ["gpmp/mcmc/nuts.py: DualAveragingState.update, nuts_sample"]}
{"id": "C263", "title": "SMC with proposals fixed in advance has mean squared error of order one over the number of particles", "statement": "For particles started uniformly in the box and a list of temperatures whose densities are positive exactly on the box with bounded successive ratios, if the proposal covariance of each stage does not depend on the particles, resampling is multinomial and the acceptance rate is not controlled, then the calls of step never fail and the mean squared difference between the average of a function over the final particles and its expectation under the last density is at most B/N, with one B for all functions with values in [-1,1] and all N; so the probability of a deviation of eps or more is at most B/(N eps^2).", "quantifier": "all boxes, densities, temperatures, proposal covariances, options, functions and numbers of particles", "why_tests_cant": "A bound on an expectation over all random draws, for all numbers of particles.", "anchors": ["gpmp/mcmc/smc.py: ParticlesSet.reweight, resample, move", "gpmp/mcmc/smc.py: SMC.step, move_with_controlled_acceptation_rate"]}
{"id": "C264", "title": "SMC with its usual adaptation is consistent", "statement": "As C263 but with the code's own adaptation: proposals with the covariance of the current particles, scale changed until the acceptance rate lies in its band. As the number of particles grows, the mean squared difference between the average of a bounded function over the final particles and its expectation under the last density tends to zero, over the runs that do not raise an exception; and over all runs, if the range of the scale leaves room for every change the control can make and the normal generator accepts every positive semi-definite covariance.", "quantifier": "all boxes, densities, temperatures, options (any acceptance band, factor and numbers of iterations), factorisations used by the normal generator and bounded measurable functions", "why_tests_cant": "A limit of expectations over all random draws; a finite set of particles moved with their own covariance does not keep the target law (C250).", "anchors": ["gpmp/mcmc/smc.py: ParticlesSet.reweight, resample, perturb, move", "gpmp/mcmc/smc.py: SMC.step, move_with_controlled_acceptation_rate"]}
{"id": "C265", "title": "A whole SMC run is consistent whatever temperatures its rule picks", "statement": "run_smc_sampling with temperatures chosen from the particles, by the rule on the effective sample size or by the rule on the mean acceptance, with or without a restart, multinomial or residual resampling, adapted proposals and scale. If the densities are bounded away from 0 and infinity on the box, uniformly in the temperature, and depend continuously on it, then the mean squared difference between the average of a bounded function over the final particles and its expectation under the target tends to zero as the number of particles grows. In particular for sample_from_selection_criterion_smc with a bounded measurable criterion and the sampling box equal to the initial box, the limit is the expectation under exp(-J/final_temperature).", "quantifier": "all boxes, families of densities, initial and target parameters, thresholds, options, root finders that stay in their bracket, factorisations and bounded measurable functions; runs of at most k stages, any k", "why_tests_cant": "A limit of expectations over all random draws, with temperatures that depend on the draws.", "anchors": ["gpmp/mcmc/smc.py: SMC.step_with_possible_restart, restart, compute_next_logpdf_param_ess, compute_next_logpdf_param_p0", "gpmp/mcmc/smc.py: run_smc_sampling", "gpmp/mcmc/param_posterior.py: sample_from_selection_criterion_smc"]}
{"id": "C266", "title": "An SMC run ends after a number of temperatures that does not depend on the particles", "statement": "With the rule on the effective sample size, if the log-densities change by at most D between the initial and the target parameter and a change by delta keeps the ratio above min_ess_ratio plus the tolerance of the root finder, then a run of any number of particles that does not raise needs at most D/delta + 2 temperatures: the statement of C265 holds with unfinished runs counted as infinite errors. For a criterion bounded by C, D is C (1/final - 1/initial). If moreover the root finder answers for every sign change and the scale and the normal generator cannot fail, no run fails.", "quantifier": "all families of densities, thresholds, tolerances, numbers of particles and draws", "why_tests_cant": "A bound for all draws and all numbers of particles.", "anchors": ["gpmp/mcmc/smc.py: SMC.restart, compute_next_logpdf_param_ess, compute_ess", "gpmp/mcmc/param_posterior.py: sample_from_selection_criterion_smc"]}
{"id": "C267", "title": "Subset simulation estimates the probability of the last level", "statement": "run_subset_simulation with thresholds going inwards, a bounded density p_X positive on init_box and zero outside, and a last level of positive probability: as the number of particles grows, with either resampling scheme and adapted proposals, the estimate converges in probability to P(f(X) beyond the last threshold), each stage probability to the conditional probability of its level.", "quantifier": "all boxes, densities, functions f, both tails, numbers of levels, thresholds and options", "why_tests_cant": "A limit of probabilities over all random draws.", "anchors": ["gpmp/mcmc/smc.py: run_subset_simulation, log_indicator_density", "gpmp/mcmc/smc.py: ParticlesSet.reweight, resample, move"]}
{"id": "C268", "title": "With frozen adaptation, averages over the returned states converge to the target", "statement": "scheduler with freeze_adaptation (the default of MHOptions), a symmetric Gaussian random walk and a target exp(-J), J continuous on a compact domain of positive volume and varying by at most 690 there. Whatever the draws of the burn-in phase and the proposals it ends with, with probability one over the draws after it: every longer run returns, and for every chain the average of a bounded function over the returned states (with or without those of the burn-in phase) converges to its mean under the target as the number of sampling steps grows.", "quantifier": "all domains, criteria, options (both adaptation methods, early stopping or not), burn-in draws, chains, initial states in the domain and bounded measurable functions", "why_tests_cant": "An almost sure limit over infinitely many draws, for all outcomes of the adaptation.", "anchors": ["gpmp/mcmc/mh.py: MetropolisHastings.scheduler, run_burnin, run_samples, mhstep"]}
{"id": "C269", "title": "A Metropolis-Hastings run started in the target law stays in it, even while the proposals are adapted", "statement": "scheduler with n_steps, no burn-in and chains started with the target law: each returned state has the target law. True with freeze_adaptation=True; with freeze_adaptation=False, as in sample_from_selection_criterion_mh, the covariance of the pooled states feeds back into the next proposals and the law changes.", "quantifier": "all box-supported targets, initial covariances, numbers of chains and of steps (frozen); the witness (adaptive) has a uniform target on two intervals, two pooled chains and an adaptation after each step", "why_tests_cant": "A statement on laws; the difference in the witness is of order 1e-9, beyond what simulation can show.", "anchors": ["gpmp/mcmc/mh.py: MetropolisHastings.scheduler, run_adaptive, run_adaptive_Haario, run_samples", "gpmp/mcmc/param_posterior.py: sample_from_selection_criterion_mh"]}
{"id": "C270", "title": "Selecting covariance parameters by likelihood is a well-posed problem", "statement": "The criteria minimised by select_parameters_with_reml and select_parameters_with_criterion (zero-mean likelihood) have a minimum over the covariance parameters of a Matern model, and only one. True with any variance and length scales in a bounded closed set, for data outside the span of the mean functions (existence); false without bounds: two opposite observations have no best parameter for the zero-mean likelihood, infinitely many best parameters for REML with a constant mean, and data in the span of the mean functions have criterion values below any number.", "quantifier": "all regularities p, nuggets, points, data, mean functions and bounded closed sets of length scales", "why_tests_cant": "An optimum over a continuum; an optimiser on the counterexamples stops somewhere and reports success.", "anchors": ["gpmp/kernel/parameter_selection.py: select_parameters_with_criterion, select_parameters_with_reml, negative_log_likelihood_zero_mean, negative_log_restricted_likelihood"]}
{"id": "C271", "title": "With both priors, REMAP selection has a best parameter among all parameters", "statement": "neg_log_restricted_posterior_logsigma2_and_logrho_prior of a Matern model with positive nugget: for hyperparameters in their documented range and reference ranges above their minima, whatever the points, the data (also constant data) and the mean functions, some covariance parameter has a finite criterion that is at most the criterion of every other parameter.", "quantifier": "all regularities p, nuggets > 0, points (repeated or not), data, mean functions of full rank, anchors and hyperparameters", "why_tests_cant": "An optimum over an unbounded continuum.", "anchors": ["gpmp/kernel/priors.py: neg_log_restricted_posterior_logsigma2_and_logrho_prior, log_prior_gaussian_logsigma2, log_prior_logrho_barrier_linear, neglog_f_logrho", "gpmp/kernel/parameter_selection.py: select_parameters_with_remap_gaussian_logsigma2_and_logrho_prior"]}
{"id": "C272", "title": "Leapfrog trajectories on normal targets do not drift below the stability limit and blow up above it", "statement": "On a normal target, if eps^2 times the curvature in units of the mass matrix is below 4(1-c), the energy above the minimum stays within the factor 1/c however many leapfrog steps are made, so that a NUTS transition of any depth reports no divergence if delta_max is at least (1/c-1)(H0-min U) and accepts with mean probability at least exp(-(1/c-1)(H0-min U)). If eps^2 times the curvature of some direction exceeds 4, the energy grows geometrically with the number of steps, forwards or backwards, from every starting point off the mean in that direction.", "quantifier": "all dimensions, precision matrices, means, diagonal mass matrices, steps, starting points, momenta, tree depths and random draws", "why_tests_cant": "A bound uniform in the number of steps, up to 2^max_depth, and sharp at the stability limit.", "anchors": ["gpmp/mcmc/nuts.py: leapfrog, build_tree, nuts_transition, kinetic"]}
{"id": "C273", "title": "Shuffled batches, random splits and folds are simple random samples", "statement": "If the permutations drawn are equally likely: each batch of a shuffled DataLoader (also the last, smaller one), each part of Dataset.split and each validation and training set of k_fold_indices is a simple random sample, so that whatever is computed from it has as its mean the average over all sets of that many rows; in particular the mean over a batch is an unbiased estimate of the mean over the data, with the mean squared error of sampling without replacement, and a criterion averaged over the batches of a pass has as its mean the average over samples of the sizes of the batches.", "quantifier": "all data sets, shardings, batch sizes, drop_last flags, passes, batches, ratios, numbers of folds and functions of the rows", "why_tests_cant": "A statement on all n! orders; an error in the slicing that favours some rows is invisible in single runs.", "anchors": ["gpmp/dataloader.py: DataLoader.__iter__, DataLoader._fetch_batch, Dataset.split, Dataset.k_fold_indices", "gpmp/num/numpy_backend.py: BatchDifferentiableSelectionCriterion.evaluate"]}
{"id": "C274", "title": "Gradients of covariances computed by torch are the derivatives, also at coinciding points", "statement": "The backward pass over the graph recorded for an entry of maternp_covariance on the torch backend returns finite numbers equal to the partial derivatives of the entry with respect to log variance and log inverse ranges, for equal or different points (custom_sqrt masks the square root at zero; it returns NaN for negative numbers), and with respect to a point for p >= 1. False for pairwise=True between different arrays: where two rows are equal, every range component of the gradient is NaN although the value is sigma2; and for p = 0 the gradient with respect to a point is 0 at a coinciding point, where no derivative exists.", "quantifier": "all points, parameters, regularities p, orders of entries (diagonal or not)", "why_tests_cant": "Finite differences cannot be compared with NaN patterns at all coincidences; the claim is on all points and parameters at once.", "anchors": ["gpmp/num/torch_backend.py: custom_sqrt, cdist, scaled_distance, scaled_distance_elementwise, inftobigf, grad", "gpmp/kernel/matern.py: maternp_kernel, maternp_covariance_ii_or_tt, maternp_covariance_it"]}
{"id": "C275", "title": "Scoring rules act entry by entry on arrays", "statement": "crps_gaussian, ei1_up, ei2_up and tcrps_gaussian on vectors of predictions, scales and thresholds of one length (numbers standing for constant vectors) return the vector of the values for the single predictions; vectors of different lengths, none of them one, raise ValueError. False for other shapes: ei2_up (and with it tcrps_gaussian) of a column of n predictions is an n by n matrix whose off-diagonal entries mix two predictions, a matrix with two or more columns raises ValueError, numbers give an array with one entry; and tcrps_gaussian raises ValueError for arrays of bounds, which its documentation allows.", "quantifier": "all lengths, values, thresholds and bounds (numpy backend)", "why_tests_cant": "Tests compare values for one shape; broadcasting silently returns a larger array.", "anchors": ["gpmp/misc/scoringrules.py: crps_gaussian, ei1_up, ei2_up, tcrps_gaussian", "gpmp/num/numpy_backend.py: multivariate_normal.cdf"]}
{"id": "C276", "title": "Regression with noisy observations: the kernels of the examples smooth optimally", "statement": "With the kernels of examples 05, 06, 07 and 11 and positive noise variances, Model.predict succeeds also at repeated points and returns the combination of the noisy observations, with weights of sum one, of least mean square error for the function (for a noisy output if the target asks for noise), with that error as variance; asking for a noisy output leaves the prediction unchanged and adds the noise variance; repeated observations may be replaced by their average with inverse variances as weights; paths drawn at the stacked points and conditioned on the noisy observations follow the normal law with the predicted means and variances. False: in example 07 the diagonal of the posterior covariance is not the posterior variance but larger by the noise variance, and predicting at the array of the observations itself returns the data with variance zero where a copy of the array is smoothed.", "quantifier": "all Matern regularities, parameters, points (repeated or not), data, noise variances and targets", "why_tests_cant": "Optimality among all weights, and laws of paths; the dependence on the identity of arrays looks like a successful fit.", "anchors": ["examples/gpmp_example05_1d_custom_kernel.py: kernel", "examples/gpmp_example06_1d_regression.py: kernel", "examples/gpmp_example07_nd_regression.py: kernel", "examples/gpmp_example11_sample_paths_noisy_obs.py: kernel", "gpmp/core/model.py: Model.predict, Model.kriging_predictor, Model.conditional_sample_paths"]}
{"id": "C277", "title": "Which criteria define a posterior law that can be sampled", "statement": "The density exp(-criterion) given to the MH and NUTS samplers, for a Matern model with positive nugget: with the priors on the variance and on the ranges its total mass is positive and finite, with exponential moments, whatever the points, the data and the mean functions; with the prior on the ranges alone this holds for data that the mean functions do not explain; in a bounded sampling box it holds for the restricted likelihood itself. False otherwise: without a prior on the ranges and without a box the mass is infinite whatever the data, and with the prior on the ranges alone it is infinite for data that the mean functions explain, so that chains have no law to converge to.", "quantifier": "all regularities p, nuggets > 0, points (repeated or not), data, mean functions of full rank, anchors, hyperparameters and boxes", "why_tests_cant": "An integral over an unbounded continuum; chains of any finite length look normal.", "anchors": ["gpmp/mcmc/param_posterior.py: sample_from_selection_criterion_mh, sample_from_selection_criterion_nuts, _make_log_prob_mh, _make_log_prob_nuts", "gpmp/kernel/priors.py: neg_log_restricted_posterior_logsigma2_and_logrho_prior, neg_log_restricted_posterior_with_logrho_prior, neg_log_restricted_posterior_logsigma2_prior"]}
{"id": "C278", "title": "Index arguments of conditional sample paths name the rows of the paths", "statement": "In conditional_sample_paths and conditional_sample_paths_parameterized_mean, xi_ind and xt_ind may be integers, counted from the start or (negative) from the end, or masks of booleans; the result is conditioned at exactly these rows, with entry (j,k) equal to ztsim[xt_j,k] + sum_i lambda_ij (zi_i - ztsim[xi_i,k]). Indices out of range raise IndexError, floating-point indices too.", "quantifier": "all numbers of rows, paths, observations and targets, index lists, weights, observations and both backends", "why_tests_cant": "Depends on the kind of the index argument and on sign and range of each entry.", "anchors": ["gpmp/core/sample_paths.py: conditional_sample_paths, conditional_sample_paths_parameterized_mean", "gpmp/num/numpy_backend.py: asarray", "gpmp/num/torch_backend.py: asarray"]}
{"id": "C279", "title": "Gradients of the likelihood criteria computed by torch are the derivatives", "statement": "On the torch backend with a Matern covariance (positive nugget, or distinct points), the backward pass through the triangular solves and the Cholesky factorisation returns for negative_log_likelihood and negative_log_restricted_likelihood the finite partial derivatives of the criterion with respect to each covariance parameter, and for the former with respect to the mean values; the gradient with respect to the covariance matrix is (K^-1 - K^-1 z z^T K^-1)/2, although the graph reads only the lower triangle of the factor. If the factorisation fails, LinAlgError is raised.", "quantifier": "all regularities p, points, parameters, data, mean values and mean functions of full rank", "why_tests_cant": "Exact identity of two different algorithms at all parameters; finite differences compare a few numbers with errors.", "anchors": ["gpmp/core/likelihood.py: negative_log_likelihood_zero_mean, negative_log_likelihood, negative_log_restricted_likelihood", "gpmp/num/torch_backend.py: grad, cholesky_solve", "gpmp/kernel/matern.py: maternp_covariance"]}
{"id": "C280", "title": "Gradients of the posterior criteria computed by torch: derivatives inside the support of the priors, numbers outside", "statement": "On the torch backend with a Matern covariance, the backward pass through the restricted likelihood minus the log-priors returns the partial derivatives of the criterion: for the Jeffreys prior and the Gaussian prior on log variance everywhere, for the power laws away from the cut-offs (at the cut-off of the variance, where there is no derivative, the mean of both slopes), for the barrier on the ranges wherever all ranges are inside its support. Outside the criterion is infinite, but no NaN arises (the logarithm is protected by a mask): the gradient is that of the restricted likelihood, the other priors and the finite penalties.", "quantifier": "all regularities p, points, parameters, data, mean functions of full rank and hyperparameters accepted by the checks", "why_tests_cant": "NaN patterns at exact coincidences; identity with the derivative at all parameters.", "anchors": ["gpmp/kernel/priors.py: log_prior_jeffreys_variance, log_prior_power_law, log_prior_gaussian_logsigma2, neglog_f_logrho, log_prior_logrho_barrier_linear, neg_log_restricted_posterior_with_jeffreys_prior, neg_log_restricted_posterior_power_laws_prior, neg_log_restricted_posterior_logsigma2_prior, neg_log_restricted_posterior_with_logrho_prior, neg_log_restricted_posterior_logsigma2_and_logrho_prior", "gpmp/num/torch_backend.py: grad, maximum, safe_inf"]}
{"id": "C281", "title": "Predictions from noisy observations are the penalised least-squares fit", "statement": "With the kernels of the regression examples and positive noise variances, Model.predict returns at every target, whatever the array of targets, the value of one function: a constant plus kernels centred at the observations with coefficients of sum zero (the residuals divided by the noise variances). Among all constants plus finite combinations of kernels, centred anywhere, this function alone minimises the sum of squared residuals divided by the noise variances plus the squared norm of the combination. Hence the weighted residuals sum to zero and their weighted sum of squares is at most that of any constant. Larger noise variances give larger predictive variances.", "quantifier": "all observation points (also repeated), positive noise variances, data, targets, parameters and competing functions", "why_tests_cant": "An optimum over an infinite-dimensional family of functions.", "anchors": ["gpmp/core/model.py: Model.predict", "gpmp/core/kriging.py: kriging_predictor", "examples/gpmp_example05_1d_custom_kernel.py: kernel", "examples/gpmp_example06_1d_regression.py: kernel", "examples/gpmp_example07_nd_regression.py: kernel", "examples/gpmp_example11_sample_paths_noisy_obs.py: kernel"]}
{"id": "C282", "title": "The nugget of the Matern covariance changes predictions little, and by a known amount", "statement": "maternp_covariance adds 10*sigma2*eps to the diagonal for the observations only, so a model with a constant mean treats the data as noisy. With distinct observation points, and coefficients a0 of the interpolating prediction, the prediction at a copy of an observation point misses the observation by at most 10*sigma2*eps*|a0|; at any target it differs from the prediction without nugget by at most sigma2*(10*eps + sqrt(10*eps))*|a0|, uniformly over all targets, hence converges to it as eps goes to zero; the reported variance is at least the one without nugget and exceeds it by at most 10*sigma2*eps times the sum of squared weights.", "quantifier": "all regularities, parameters, distinct points, data, targets and positive eps", "why_tests_cant": "A bound for all inputs and arrays of targets, and a limit.", "anchors": ["gpmp/kernel/matern.py: maternp_covariance, maternp_covariance_ii_or_tt", "gpmp/core/model.py: Model.predict"]}
{"id": "C283", "title": "fisher_information depends on the values of the parameters only", "statement": "Model.fisher_information, Model.fisher_information_cpd and log_prior_reference use the parameters passed, and the stored ones when none are passed (a stored None or list raises AttributeError when its dimension is read); a list is read as the array of its elements; fisher_information_cpd uses contrasts exactly for a linear predictor. The result depends on the values of the parameters only, not on whether the array holds integers or floats.", "quantifier": "all models, points, parameters, steps", "why_tests_cant": "The last sentence is false: perturbed values are stored in a copy of the array, which truncates them for integers. At an integer array of zeros every derivative, and so the matrix, is zero, while with floats the entry of the log variance is positive; at an integer log variance of at least one it is about 136000 times too large.", "anchors": ["gpmp/core/fisher.py: fisher_information, fisher_information_cpd", "gpmp/core/model.py: Model.fisher_information, Model.fisher_information_cpd", "gpmp/num: derivative_finite_diff"]}
{"id": "C284", "title": "The energy error of leapfrog trajectories is of second order in the step, so small steps do not diverge", "statement": "For a target whose potential has a Lipschitz gradient and Lipschitz second derivatives: one leapfrog step changes the energy by eps^2/8 times the change of the weighted squared gradient plus the error of the trapezoidal rule (exactly); over any number of steps of total duration at most T, forwards or backwards, the energy changes by at most K*eps^2, with K depending on the start and T only; the statistic seen by find_reasonable_step_size is at least exp(-K*|eps|^3), so for a wanted acceptance below one the step it returns is at least the first trial or a bound c/scale_base that does not depend on trial and limits; and nuts_transition of any given depth reports no divergence when K*eps^2 <= delta_max and has a mean acceptance of at least exp(-K*eps^2), whatever the draws.", "quantifier": "all dimensions, smooth targets, masses, starts, durations, depths, steps at most 1, draws", "why_tests_cant": "An order of convergence in the step, for all targets of a class and all trajectories.", "anchors": ["gpmp/mcmc/nuts.py: leapfrog, build_tree, nuts_transition, find_reasonable_step_size"]}
{"id": "C285", "title": "A Stein step goes uphill, in the steepest direction", "statement": "With exact gradients and no box, svgd_step with any bandwidth rule moves every particle by step_size times the value at the particle of one vector field. To first order this increases the mean over the particles of the tempered log-density plus the logarithm of the factor by which volumes are stretched (up to a constant, minus the Kullback-Leibler divergence from the target of the law of the moved particles); the rate is the square of the norm of the field in the space of the kernel weighted by the preconditioner, no field of that space of the same norm has a larger rate, and the rate is positive unless no particle moves.", "quantifier": "all differentiable log-densities, particles, dimensions, temperatures, bandwidths, preconditioners", "why_tests_cant": "A statement about derivatives and an optimum over a space of vector fields, for all targets and clouds.", "anchors": ["gpmp/mcmc/svgd.py: svgd_step, rbf_kernel_matrix"]}
{"id": "C286", "title": "The guessed variance converges to the true one as observations accumulate", "statement": "Let the data be the first n values of a normal sequence with covariance sigma^2 K, where K is the covariance at unit variance used by the guess, at any sequence of points (also points that fill a bounded domain). With probability one the variance guessed by anisotropic_parameters_initial_guess_zero_mean converges to sigma^2 as n grows, and so does that of anisotropic_parameters_initial_guess, whatever the coefficients of the linear mean, whereas that of anisotropic_parameters_initial_guess_constant_mean, which does not centre the data, converges to sigma^2 + c mu^2, where mu is the mean and c the limit of (1'K^-1 1)/n: right when c is zero, wrong for ever otherwise (independent data of variance 2 and mean 3 give 11), while its guessed mean then converges to mu. For points in a box whose sides have been reached, the whole vector of parameters guessed for a Matern covariance converges.", "quantifier": "all positive definite covariances, sequences of points, variances, full-rank mean functions and coefficients", "why_tests_cant": "An almost sure limit over infinite sequences of data.", "anchors": ["gpmp/kernel/init.py: anisotropic_parameters_initial_guess_zero_mean, anisotropic_parameters_initial_guess_constant_mean, anisotropic_parameters_initial_guess"]}
{"id": "C287", "title": "Predicting one after the other, errors are independent standard normal and bands are right in the long run", "statement": "Let the observations come one after the other from a normal sequence with the mean and covariance of the model, and predict each from the ones before. The errors of predict divided by the square roots of the returned variances are independent and standard normal. The PIT values computed from these predictions are independent and uniform; with probability one their empirical distribution function tends to the diagonal, prediction bands of any level contain the next observation in the long run as often as the level says, and the average of the squared errors over the variances tends to one. With a linear predictor all this holds from the observation on at which the coefficients of the mean can be determined, whatever these are.", "quantifier": "all positive definite covariances of sequences, known means, mean functions with any coefficients, levels and quantile functions", "why_tests_cant": "Joint laws of infinitely many errors and almost sure limits.", "anchors": ["gpmp/core/model.py: Model.predict", "gpmp/modeldiagnosis/performance.py: compute_performance"]}
{"id": "C288", "title": "Predictions are conditional expectations and converge as observations accumulate", "statement": "For a normal process with the mean (zero or known) and covariance of the model, predict returns the conditional expectation of the value at the target given the observations, and its mean squared error. Adding observations one after the other, the predictions at a target form a martingale and converge with probability one; the returned variances decrease; the mean squared error of the limit is at most every one of them. If linear combinations of the observations come arbitrarily close to the target in mean square, the variances tend to zero and the predictions converge to the true value with probability one: so for a Matern covariance without nugget at every point which the observation points approach, and with a nugget (noisy observations) when infinitely many observations lie in every neighbourhood of the point. The linear predictor's predictions converge in the same way whatever the coefficients of the mean, from the number of observations on that determines them; their limit is the true value if almost unbiased linear combinations come close to it, hence for Matern covariances and mean functions continuous at the point.", "quantifier": "all positive definite covariances of observations, known means and mean functions, infinite sequences of observations, targets", "why_tests_cant": "Conditional expectations and almost sure limits over infinite data.", "anchors": ["gpmp/core/model.py: Model.predict", "gpmp/kernel/matern.py: maternp_covariance"]}
{"id": "C289", "title": "Averages over many conditional sample paths converge to predictions, covariances and probabilities", "statement": "Draw independent standard normal vectors, turn them into sample paths with sample_paths (Cholesky method) and condition these on data with the returned weights. As the number of paths grows, with probability one the averages of the paths tend to the predictions of predict, their empirical covariances (about the predictions) to the posterior covariance, whose diagonal consists of the returned variances, and the proportion of paths with any property of their values at the targets to its probability under the predictive normal law.", "quantifier": "all positive definite covariances, data, known means, targets, measurable properties", "why_tests_cant": "Almost sure limits over infinitely many random paths.", "anchors": ["gpmp/core/sample_paths.py: sample_paths, conditional_sample_paths, conditional_sample_paths_parameterized_mean"]}
{"id": "C290", "title": "Parameters selected from repeated data sets converge to the generating ones", "statement": "Independent data sets observed at the same points and drawn from the normal law with parameter t0 of a continuous family of means and positive definite covariances, given as the batches of BatchDifferentiableSelectionCriterion with the likelihood (or restricted likelihood) criterion, mean or sum, on either backend: the criterion is finite; over a compact set of parameters containing t0 the likelihood criterion has a minimiser; and with probability one, from some number of data sets on, every minimiser is in any given open set that contains the parameters giving the generating law (for the restricted likelihood: the generating variances of all contrasts, whatever the mean in the linear space). With a Matern covariance and points whose squared differences determine one weight per coordinate, the selected parameters converge to the generating ones; with known correlations the log variance selected by restricted likelihood converges to the generating one.", "quantifier": "all families, points, compact sets, regularities, reductions, backends, means in the linear space", "why_tests_cant": "An almost sure limit in the number of data sets, for all selections.", "anchors": ["gpmp/num/numpy_backend.py: BatchDifferentiableSelectionCriterion", "gpmp/num/torch_backend.py: BatchDifferentiableSelectionCriterion", "gpmp/core/likelihood.py: negative_log_likelihood, negative_log_restricted_likelihood"]}
{"id": "C291", "title": "No unbiased estimator of the covariance parameters beats the inverse of the Fisher information", "statement": "The matrix returned by fisher_information tends to a limit as the finite-difference step decreases (and equals it when the differences are exact). For data drawn from a model with covariances that are differentiable in the parameters, and any statistic of finite variance whose mean is differentiable, the squared derivative of the mean in any direction is at most the variance of the statistic times the information in that direction; when the information is invertible the covariance matrix of unbiased estimators of the parameters is at least its inverse. The same holds for fisher_information_cpd and statistics that are unchanged when a function of the linear space of means is added, whatever the mean of the data in that space. With known correlations no unbiased estimator of the log variance from n points has variance below 2/n.", "quantifier": "all differentiable families, parameters, means, statistics", "why_tests_cant": "A lower bound over all estimators.", "anchors": ["gpmp/core/fisher.py: fisher_information, fisher_information_cpd"]}
{"id": "C292", "title": "The guessed variance has the smallest variance of all unbiased estimators", "statement": "Let the observations be normal with zero mean and the correlations used by the initial guess, times an unknown variance s2. The variance returned by anisotropic_parameters_initial_guess_zero_mean is right on average, its own variance is 2 s2^2 / n, and no statistic that is right on average for all variances near s2 has a smaller one. With a linear mean with q unknown coefficients, the variance returned by anisotropic_parameters_initial_guess times n / (n - q) is right on average, its variance is 2 s2^2 / (n - q), and no statistic that is right on average and does not change when a function of the mean's linear space is added to the data has a smaller one.", "quantifier": "all positive definite correlation matrices, full-rank mean matrices, coefficients, variances and square-integrable statistics", "why_tests_cant": "Compares with all possible statistics.", "anchors": ["gpmp/kernel/init.py: anisotropic_parameters_initial_guess_zero_mean, anisotropic_parameters_initial_guess", "gpmp/core/linalg.py: norm_k_sqrd, norm_k_sqrd_with_zero_mean"]}
