# Formal model of gpmp in Lean 4: design

## 1. Scope and method

The model is a shallow embedding: each Python function becomes a small Lean
function that follows it branch by branch, exceptions are values
(`Except PyErr α`), mutation becomes "return the new value", loops become
folds, structural recursion or (when termination is itself the property) fuel.
Every definition cites the file and lines it models and says where it
simplifies.  Theorems that state properties live in files called `Props.lean`,
away from the lemmas, and each has a concrete non-trivial instance
(`example`) beside it.

Layout: `lean/Verif/<Area>/{Model,Spec,Lemmas,Props}.lean`, all imported by
`lean/Verif.lean`.

Conventions

* **Numbers.** Discrete bookkeeping uses `Nat`/`Int`/`List`.  Numerical code
  uses exact reals `ℝ` (or `ℚ`, or an abstract field) and Mathlib `Matrix`.
  Floating point rounding is *not* modelled; "in exact arithmetic" marks those
  properties.  Where the code branches on NaN or infinities they are modelled
  explicitly (`Option`/`EReal`-like types local to the module).
* **External routines** (numpy, torch, scipy) enter as parameters together with
  the contract we rely on, as explicit hypotheses of the theorem: a permutation
  routine returns a permutation of `0..n-1`; Cholesky returns a lower
  triangular factor with `C Cᵀ = A`; a linear solve returns a solution; QR
  returns orthonormal columns spanning the right space; a quantile/multinomial
  draw returns counts with the right sum.  Each contract is shown to be
  inhabited.
* **Properties that are false of the code.** We prove the negation with a
  concrete witness (theorem name ends in `_false`), plus the strongest
  positive statement we found (suffix `_partial`).

## 2. Trusted base

1. Lean 4.33.0's kernel.
2. Axioms: at most `propext`, `Classical.choice`, `Quot.sound` (listed per
   theorem in section 5, produced by `#print axioms`).  No axioms of our own, no
   `sorry`, no `native_decide`, no `bv_decide`.
3. The reading of the Python source: nothing here was extracted mechanically.
4. The contracts of external routines stated above.
5. The idealisation of floats as exact numbers, where marked.

Not modelled: plotting, printing and progress display, autodiff internals,
scipy optimisers (arbitrary evaluation sequences instead), random number
generation (arbitrary draws subject to the contract), GPU/dtype details,
timing.

## 3. Plan per property

| id | modelled code | proof idea |
|----|----|----|
| C01 | `Dataset.__init__/_compute_shard_bounds/__getitem__`, real binary search for `bisect_right` | bisect = number of bounds ≤ i; induction over shards |
| C02 | same, with Python negative indexing | exact characterisation; negation by witness; partial for one shard |
| C03 | `subset` | induction over shards on sorted index list |
| C04 | `split` | `Perm` reasoning, slices of a permutation partition it |
| C05 | `k_fold_indices`, `repeated_k_fold_indices`, numpy `split` | cumulative sums, `Perm`, div/mod arithmetic |
| C06 | torch `split` heuristic | negation by witness, positive under the exact condition `sum bounds ≠ n` |
| C07 | `DataLoader.__iter__/__len__/set_epoch` | chunks of a permutation |
| C08 | `_fetch_batch` | permutation by shard buckets |
| C09 | `DataLoader.__getitem__` | arithmetic of `range` and slices |
| C10 | `_reduce_*` | sums over concatenations |
| C11 | `reduce_mean` | telescoping weighted sums |
| C12 | four scalers | field algebra, order |
| C13 | `collate_batches` | corollary of C07/C08 |
| C14 | `_batches` of the batched criteria | state machine on (iterator position), induction |
| C15–C19 | `Param` | record of lists; induction; frame lemmas |
| C20–C21 | `config.py` | state machine, invariant over operation lists |
| C22 | `compute_gammaln` cache + index set read by `maternp_kernel` | invariant over request sequences |
| C23–C24 | `maternp_kernel`, `matern32_kernel`, `exponential_kernel` | loop = sum; factorials; derivative sign / coefficient ratio |
| C25 | Matérn covariance wrappers | object identity as explicit flag; matrix entries |
| C26–C30 | `kriging.py`, `model.predict` | quadratic forms with `Matrix.PosDef`; Lagrangian argument |
| C31–C32 | `loo.py`, `linalg.py` | block inverse / Schur complement |
| C33–C35 | `likelihood.py`, `linalg.py` | determinant and quadratic form from Cholesky; contrast invariance |
| C36–C37 | `fisher.py`, `shared.py` | trace form is a Gram matrix; ring identity |
| C38 | `sample_paths.py` | linear algebra |
| C39–C40 | `priors.py` | real analysis |
| C41–C44 | `parameter_selection.py` | fold over arbitrary evaluation histories |
| C45–C50 | `mcmc/mh.py` | decision logic; invariants over step lists; algebra |
| C51–C54 | `mcmc/smc.py` | Cauchy–Schwarz; list lemmas; invariants |
| C55–C59 | `mcmc/nuts.py` | algebra; structural induction on depth; fuel for termination |
| C60–C62 | `mcmc/svgd.py` | order, sums, calculus |
| C63 | `mcmc/param_posterior.py` | decision logic over shapes |
| C64–C67 | `misc/dataframe.py`, `misc/designs.py` | lists |
| C68–C69 | `misc/scoringrules.py`, `modeldiagnosis/performance.py` | real algebra / analysis |
| C70 | `misc/testfunctions.py` | witness |

Properties appended later follow the same scheme; the table in section 4
records the final state of each.

## 4. Final state

### 4.1 Status of each property

`proved`: the statement holds of the model as stated (in exact arithmetic where the
note says so).  `partial`: the statement is false of the code or only part of it is
proved; the note says which.  Theorem names are in `MANIFEST.json` and, with their
axioms, in section 5.

| id | status | title | note |
|---|---|---|---|
| C01 | proved | Indexing a sharded dataset is indexing the concatenated data |  |
| C02 | partial | Negative dataset indices count from the end | False of the code with several shards: negation proved with a witness; exact behaviour of negative indices and the single-shard case proved. |
| C03 | proved | subset selects exactly the requested rows |  |
| C04 | proved | Train/validation/test split is a partition of the rows |  |
| C05 | proved | k-fold indices form a balanced partition (numpy backend) |  |
| C06 | partial | k-fold indices do not depend on the backend | False of the code for n=0, (k=2,n=1), (k=3, 3/n), where torch raises IndexError; equal to numpy otherwise. |
| C07 | proved | One epoch of a DataLoader visits every row exactly once |  |
| C08 | proved | Fetching a batch keeps x/z pairs and loses nothing |  |
| C09 | proved | loader[i] is the i-th batch of an unshuffled pass |  |
| C10 | proved | Dataset statistics are those of the concatenated data | Exact arithmetic. |
| C11 | proved | DataLoader.reduce_mean is the row-weighted mean | Exact arithmetic. |
| C12 | partial | Scalers are invertible and scale to the advertised range | False of the code for a Normalizer or ObservationScaler fitted to one row with torch (or to no rows): the scale is NaN (normalizer_one_row_false). Proved otherwise (fitF_eq relates the NaN model to the exact one). Exact arithmetic; unit variance in the backend's own convention (numpy divides by n, torch by n-1). |
| C13 | proved | Collating all batches rebuilds the data |  |
| C14 | proved | Batches-per-evaluation draws exactly that many batches, cycling |  |
| C15 | proved | Parameter normalisation round-trips | Exact arithmetic. |
| C16 | partial | All fields of a Param keep equal length | False of the code: the values setter can change the length; negation proved with a witness; true for the other operations. |
| C17 | proved | set_by_path is all-or-nothing and local |  |
| C18 | proved | Slicing and concatenating Params are inverse |  |
| C19 | proved | Bounds check is exact |  |
| C20 | proved | No sequence of configuration calls leaves an invalid configuration |  |
| C21 | proved | Backend choice is deterministic and stable |  |
| C22 | proved | The cached log-gamma table is always right | The caller's size choice is covered by maternp_formula. |
| C23 | proved | Matern half-integer kernel equals its closed formula and is a correlation function shape | Exact arithmetic. |
| C24 | proved | Matern special cases agree | Exact arithmetic. |
| C25 | proved | Covariance wrapper: symmetry, nugget and pairwise consistency | Exact arithmetic. |
| C26 | proved | Zero-mean kriging is the best linear predictor | Exact arithmetic; linear-algebra routines are parameters with a stated contract (shown satisfiable). |
| C27 | proved | Universal kriging is unbiased and optimal | Exact arithmetic; linear-algebra routines are parameters with a stated contract (shown satisfiable). |
| C28 | partial | The null-space fallback of universal kriging gives the same predictor | False of the code: the fallback omits a term (not optimal on either backend) and on numpy solves a triangular system as symmetric (not unbiased). Negations proved with witnesses; on torch the weights are unbiased and optimal exactly when W'KQ1 beta = 0. |
| C29 | proved | Prediction interpolates the data | Exact arithmetic; linear-algebra routines are parameters with a stated contract (shown satisfiable). |
| C30 | proved | Reported predictive variances are never negative |  |
| C31 | proved | Fast leave-one-out equals refitting without the point (zero or known mean) | Exact arithmetic; linear-algebra routines are parameters with a stated contract (shown satisfiable). predict uses the target variance without nugget; the difference K_ii - v is explicit in the statement. |
| C32 | proved | Fast leave-one-out equals refitting without the point (unknown linear mean) | Exact arithmetic; linear-algebra routines are parameters with a stated contract (shown satisfiable). |
| C33 | proved | Negative log-likelihood is the Gaussian one | Exact arithmetic; linear-algebra routines are parameters with a stated contract (shown satisfiable). |
| C34 | proved | Restricted likelihood does not depend on the mean or the contrast basis | Exact arithmetic; linear-algebra routines are parameters with a stated contract (shown satisfiable). |
| C35 | proved | Predictions are equivariant to the mean space | Exact arithmetic; linear-algebra routines are parameters with a stated contract (shown satisfiable). |
| C36 | proved | Fisher information matrix is symmetric positive semidefinite | Exact arithmetic; linear-algebra routines are parameters with a stated contract (shown satisfiable). |
| C37 | proved | Finite differences are exact on polynomials up to degree four | Exact arithmetic. |
| C38 | proved | Conditional sample paths pass through the data | Exact arithmetic; linear-algebra routines are parameters with a stated contract (shown satisfiable). |
| C39 | partial | Power-law prior falls off beyond its cutoff | False of the code: the variance cutoff term has the wrong sign and rewards large variances. |
| C40 | proved | Range prior is minimal at its reference point and infinite below its minimum | Exact arithmetic. |
| C41 | partial | Selection returns the best value seen | False of the code when the optimiser's final value is NaN; holds otherwise. Optimisers are arbitrary terminating strategies. |
| C42 | partial | Numerical failures become +inf, other errors propagate | False of the code on the torch backend for batched criteria. |
| C43 | partial | Mean and covariance parameters are split back as they were joined | False of the code when meanparam_len differs from the length of meanparam0 (not checked); holds otherwise. |
| C44 | partial | Automatic bounds contain the starting point | False of the code for starting points of absolute value above 500. |
| C45 | partial | Metropolis-Hastings acceptance satisfies detailed balance | Exact detailed balance is false because the uniform draw is floored at 1e-300; it holds within 1e-300 in general and exactly when acceptance ratios exceed 1e-300. |
| C46 | proved | MH bookkeeping: stored states, cached log-targets and counters agree | External target, proposal and draws are arbitrary. |
| C47 | partial | Diminishing adaptation decreases to its documented final fraction | False of the code: the schedule ends at base*(2*final_frac-1), negative for the default, so late adaptation is reversed; it does start at base and decrease. |
| C48 | partial | Burn-in runs with one chain | False of the code: with one chain ValueError is raised exactly when the burn-in has at least 20 blocks; never with two or more chains. |
| C49 | partial | KS convergence check can succeed | False of the code with one or two chains and on torch; holds on numpy with three or more chains. |
| C50 | proved | Gelman-Rubin statistic is affine invariant and bounded below | Exact arithmetic. |
| C51 | proved | Effective sample size is between 1 and n | Exact arithmetic. |
| C52 | proved | Resampling keeps particles and log-densities paired and the count fixed | The multinomial sampler is external: its counts sum to the number of draws. |
| C53 | partial | Cached log-density of each particle is that of its position | Holds after every step that reweights; false of the code after set_logpdf followed by move, and for step_with_possible_restart when the restart begins at the target. |
| C54 | partial | Subset simulation starts from the right density | False of the code for boxes of volume other than one: the estimate of a certain event is the constant density value. |
| C55 | proved | Leapfrog integrator is time reversible | Exact arithmetic; also volume preservation, Hamilton's equations and the law of the momenta. |
| C56 | proved | NUTS tree building is bounded and its proposal is a valid slice point | Exact arithmetic; random draws arbitrary in [0,1). |
| C57 | partial | Warm-up windows tile the adaptation phase | Proved for base windows of at least one iteration; false of the code for a large-regime base window of 0, which yields an empty window. |
| C58 | proved | Running variance equals the sample variance | Exact arithmetic. |
| C59 | partial | Step-size search terminates within its bounds | Proved for scale bases above one; false of the code for base 1, which never ends. |
| C60 | partial | SVGD particles stay in the box and the kernel matrix is a valid kernel | Exact arithmetic. Proved for ordered bounds, nonnegative jitter and at least one step, with positive definiteness of the kernel matrix; false for reversed bounds (not checked), negative jitter, and n_steps = 0. |
| C61 | partial | SVGD repulsion is the kernel gradient and sums to zero | Exact arithmetic. Dead particles have no influence for a given bandwidth; false of the code with the median bandwidth, which is computed from dead particles too. |
| C62 | partial | Annealing goes from t0 to t1 | Proved for at least two steps; a single step starts at the final temperature. |
| C63 | partial | Posterior samplers accept documented initial state shapes and box truncation | The log-density part and the accepted shapes are proved; false of the code for the documented (dim, n_chains) shape, and for a vector of one value for each chain, which is read as one point. |
| C64 | partial | Selecting part of a DataFrame keeps row and column names | The selected data and the entries by name are proved; false of the code for the names of the result, which are exchanged (row names become column names). |
| C65 | proved | Regular grids contain every combination exactly once and stay in the box | Exact arithmetic; dimension zero and too short arguments raise. |
| C66 | partial | Approximate fill distance is a max-min distance | False of the code: it returns the smallest distance of all pairs. Proved: a lower bound of the fill distance, equal for one point. |
| C67 | partial | Maximin search returns the best design drawn | Exact arithmetic. Proved for the distances in the unit cube and for cubic boxes; false of the code for other boxes, because distances are compared before scaling. |
| C68 | partial | CRPS formulas behave as a scoring rule | Exact arithmetic, scalars. Proved for positive sigma, with the integral form; at sigma = 0 the result is NaN and for negative sigma it is negative. |
| C69 | partial | Performance metrics are consistent | Exact arithmetic. Proved for targets which are not all equal; for constant targets the scores are NaN or minus infinity. |
| C70 | partial | Test function detpep8d is the published function | False of the code: only the last of the five logarithmic terms is added. Proved: the exact difference and where both agree. |
| C71 | proved | Dataset quantiles and the robust scaler | Exact arithmetic. |
| C72 | partial | Bounds given in log scale to make_anisotropic_param are checked in log scale | False of the code: check_bounds compares the variance, not its log. |
| C73 | partial | to_simple_dict agrees with get_by_name | False of the code with duplicate names; true with distinct names. |
| C74 | partial | A failing set_from_unnormalized leaves the parameter object unchanged | False of the code: earlier keywords are written before a later one fails. |
| C75 | partial | Only double-precision floating types are accepted as dtype | False of the code: 'int64' is accepted. |
| C76 | partial | Configuration and environment variable agree on the backend | False of the code: a failing update has already changed the environment. |
| C77 | proved | Both backends compute the same scaled distance | Exact arithmetic. |
| C78 | proved | Restricted likelihood has its explicit textbook form | Exact arithmetic; linear-algebra routines are parameters with a stated contract (shown satisfiable). |
| C79 | proved | Predicting at a copy of the observation points does not interpolate | Exact arithmetic; linear-algebra routines are parameters with a stated contract (shown satisfiable). |
| C80 | proved | Squared norms are generalised least-squares residuals | Exact arithmetic; linear-algebra routines are parameters with a stated contract (shown satisfiable). |
| C81 | proved | Unconditional sample paths have the model covariance | Exact arithmetic; linear-algebra routines are parameters with a stated contract (shown satisfiable). |
| C82 | partial | A parameterised mean must come with its parameters | False of the code in the documented strength: a parameterised mean without parameters is accepted at construction and refused by predict. |
| C83 | proved | Input arrays are accepted exactly when they have the documented shapes |  |
| C84 | partial | The range penalty is non-negative | False of the code; holds exactly when log(rho0/rho_min) <= e. |
| C85 | partial | Prior default hyperparameters always stay in range | False of the code: NaN is accepted for gamma, alpha and factor; holds when no NaN is passed. |
| C86 | partial | Setting prior defaults is all or nothing | False of the code: arguments before the refused one are already stored. |
| C87 | proved | Minimum gap is the least distance between different values | Exact arithmetic. |
| C88 | partial | The default REMAP prior is well defined | False of the code: two points on a line are refused. |
| C89 | proved | Prior anchor and starting point are resolved as documented |  |
| C90 | partial | Empirical bounds contain the initial guess | False of the code with the default factors. |
| C91 | proved | A seeded epoch is the one obtained by seeding with base seed plus epoch |  |
| C92 | proved | Gaussian variance prior is calibrated | Exact arithmetic; inv_cdf is a parameter with a stated contract, shown satisfiable. |
| C93 | proved | Data source arguments are decided as documented |  |
| C94 | partial | MAP criteria have a minimiser in the variance | False of the code for the power-law prior (unbounded below); proved for the Jeffreys prior. Exact arithmetic; linear-algebra routines are parameters with a stated contract (shown satisfiable). |
| C95 | proved | Constant-mean likelihood selection keeps mean and covariance consistent |  |
| C96 | partial | The initial variance guess maximises the likelihood for fixed ranges | Proved for zero mean. False with an unknown mean: the guess divides by n instead of n - q, and the constant-mean guess depends on the constant. Exact arithmetic; linear-algebra routines are parameters with a stated contract (shown satisfiable). |
| C97 | partial | The MH scheduler returns every state of the run | False of the code: the final state is not returned; the slice starting at the last burn-in state is returned instead. |
| C98 | proved | Adapted proposal covariances stay positive definite | Exact arithmetic. |
| C99 | proved | Sliding acceptance rates are trailing means | Exact arithmetic. |
| C100 | proved | Jittered sampling tries increasing jitters and fails only when all fail | Exact arithmetic. |
| C101 | proved | Subset simulation level probability is the surviving fraction | Exact arithmetic. |
| C102 | partial | Tempering parameter search ends with an admissible parameter | False of the code: the bisection never ends for indicator densities; it ends for probabilities continuous in the parameter. |
| C103 | partial | Reweighting in stages equals reweighting at once | Proved for finite log-densities; false when the first density vanishes at a particle (NaN weight). |
| C104 | proved | Controlled moves adapt the scale and stop as configured | Exact arithmetic. |
| C105 | partial | A covariance refused by the Gaussian sampler is repaired with jitter | False of the code: the repair loop uses a name that is not imported and raises NameError. |
| C106 | partial | Unknown resampling schemes are refused with ValueError | False of the code: building the message raises AttributeError. |
| C107 | partial | Particle moves follow the Metropolis rule and never leave the support | False of the code for the level sets of subset simulation, where zero density is coded as exp(-1e100) and accepted on a draw of 0. |
| C108 | partial | Mass adaptation equalises the coordinates | False of the code: the mass is set to the variance, which gives steps eps/sigma^2; only equal variances are equalised. The inverse variance would equalise. |
| C109 | partial | The NUTS transition satisfies detailed balance on leapfrog orbits | Proved when both points judge divergence alike; false of the code in general, because the divergence test uses the energy of the start. |
| C110 | proved | Adaptation keeps the step and mass admissible and stops after warm-up | The transition kernel is an arbitrary function of iteration, chain, position, step and mass; positive jitter for positive masses. |
| C111 | partial | Keyword arguments override the NUTS options object | Proved for arguments that differ from their defaults; false of the code for an explicit argument equal to the default, which is ignored. |
| C112 | proved | Dual averaging follows its closed form | Exact arithmetic. |
| C113 | partial | The moving average stays within the range of its data | Proved for windows not longer than the series; false of the code otherwise. |
| C114 | partial | SVGD scores are the derivative of the log-density up to the sides of the box | Exact arithmetic. Holds further than two difference steps from the sides (five-point difference, exact to degree four); false nearer: the score across the side is zero and a lone particle on a side never moves. |
| C115 | proved | SVGD does not depend on the order of the particles | Exact arithmetic. |
| C116 | partial | The median kernel does not depend on units | Proved when the bandwidth safeguards are inactive; false for clouds shrunk below the jitter. |
| C117 | proved | The SVGD driver records every step | Exact arithmetic. |
| C118 | proved | Matern covariance matrices are positive definite | Exact arithmetic; the kernel is shown to be a mixture of Gaussian kernels. |
| C119 | proved | Prediction and likelihood with a Matern covariance never fail | Exact arithmetic; linear-algebra routines are parameters with a stated contract (shown satisfiable). |
| C120 | proved | The Metropolis-Hastings scheduler finishes exactly when its sizes are consistent | Options as used by the posterior samplers (Haario adaptation, no freezing); proposals always return. |
| C121 | partial | Posterior MH sampling returns n_steps - burnin samples for each chain, in the box | Counts and containment proved for chains starting inside; false of the code: a single chain fails with the defaults, a chain started outside returns outside points, and get_log_target_values has one column too many. |
| C122 | partial | Posterior NUTS sampling returns num_samples points for each chain, in the box | Exact arithmetic. Proved for chains starting inside; false of the code for a chain started outside, which stays there. |
| C123 | partial | A NUTS chain started in the box can move | False of the code with the numpy backend: within two difference steps of a side the gradient is not finite and the chain never moves. What is proved is exactly this behaviour. |
| C124 | partial | Posterior SMC sampling has the tempered posterior as target | The target is proved for criteria that do not raise; false of the code: a criterion raising at one particle ends the run, a scalar init_box raises TypeError, and the dimension is that of init_box[0]. |
| C125 | partial | Posterior SVGD sampling starts from the announced cloud and stays in the box | Exact arithmetic. Containment proved without an options object; false of the code when options is given without the box, and for a random cloud with n_steps = 0. |
| C126 | partial | ftos shows a number to the announced precision | Exact arithmetic. The precision is proved; the coefficient can be shown as 10. |
| C127 | partial | DataFrame assignment changes the named entries and nothing else | Proved for entries and rows by name; false of the code for a column sharing its name with a row. |
| C128 | partial | Growing a DataFrame keeps the old entries and does not touch other frames | Old entries and names proved for vectors; false of the code for a column given as a one-column matrix, for several rows with one name, and because results share name lists with the frames they come from. |
| C129 | partial | DataFrames are displayed as aligned tables | Alignment and totality proved for matrices of finite entries; NaN entries and rows or columns taken by name cannot be displayed. |
| C130 | proved | maxdist and mindist are the extreme distances of pairs of points | Exact arithmetic. |
| C131 | proved | scale maps the unit cube affinely onto the box | Exact arithmetic; scipy's qmc.scale modelled from its documentation; bounds given as lists. |
| C132 | proved | ldrandunif returns the drawn sample of least discrepancy | The discrepancy is an arbitrary real function. |
| C133 | partial | The truncated CRPS is the integral over the interval | Exact arithmetic, scalars, exact bivariate distribution function. Proved for ordered bounds; exchanged bounds are accepted and give negative scores. |
| C134 | proved | The expected improvements are the expectations they are named after | Exact arithmetic, scalars, positive sigma. |
| C135 | proved | The CRPS is strictly proper | Exact arithmetic, scalars, positive sigma. |
| C136 | proved | Constant predictions have score at most zero | Exact arithmetic. |
| C137 | proved | Performance scores do not depend on the unit | Exact arithmetic; one prediction for each target. |
| C138 | partial | compute_performance uses the results given and refuses those of the wrong size; perf prints its results | Proved which results are used and when the table is printed; false of the code: sizes of leave-one-out results are not compared, a single prediction is broadcast, and perf raises for constant targets predicted exactly. |
| C139 | partial | PIT values are predictive distribution functions at the targets | Exact arithmetic. Proved for targets of one axis and positive variances; targets given as a column give an n-by-n array, zero variances give NaN. |
| C140 | proved | braninhoo has its known minimum | Exact arithmetic. |
| C141 | partial | wave and twobumps compute their documented formulas | twobumps proved; false for wave, which uses 3 x2 in place of 3 x1. |
| C142 | partial | The Hartmann functions are as documented | hartmann6 proved; false for hartmann4, whose value at the documented minimiser is above -3.4. |
| C143 | proved | borehole is a flow through resistances in series | Exact arithmetic. |
| C144 | proved | ishigami has known extrema and symmetries | Exact arithmetic. |
| C145 | partial | Covariance estimates are covariance matrices | Exact arithmetic; hnswlib by its contract. Proved when the rows are at least as many as the neighbours asked for; fewer rows raise, because only the number of random points is cut. |
| C146 | proved | Grid statistics of a criterion are those of exp(-criterion) | Exact arithmetic with explicit infinities; finite bounds. |
| C147 | proved | Grid statistics are refused exactly when they have no meaning | Exact arithmetic with explicit infinities and NaN; criterion that does not raise. |
| C148 | partial | Grid statistics depend on one parameter at a time and not on constants | Proved for floating point references; false for integer references, where the value is truncated. |
| C149 | proved | The table of parameter statistics has the documented rows | References of floating point numbers. |
| C150 | proved | A distribution is made exactly when it can be normalised | scipy quad by its contract, as an exact integral; integrands that reach infinity are outside the contract. |
| C151 | partial | Statistics by integration do not depend on a constant added to the criterion | Proved when the values stay between -745 and 709; false otherwise: a criterion above 745 everywhere raises, while the grid statistics are returned. |
| C152 | partial | pdf and cdf are a density and its distribution function | quad by its contract. False: pdf is not zero outside the bounds. Values of log_pdf below -745 have density zero. |
| C153 | proved | mean and var are the moments of the density | quad by its contract. |
| C154 | proved | quantile inverts cdf | quad and brentq by their contracts; sums and differences of the bounds are exact. |
| C155 | proved | Statistics by integration lie between the bounds | quad, brentq and minimize_scalar by their contracts; the mode is only shown to be between the bounds. Criteria at least -709 whose density does not vanish. |
| C156 | proved | describe_array gives the exact statistics of each column |  |
| C157 | proved | sigma_rho_from_covparam agrees with the parameter object |  |
| C158 | partial | modeldiagnosis_init projects the bounds on the covariance entries | The projection is proved; check_bounds of the result is false of the code: the stored bounds are logarithmic, the compared values are not. |
| C159 | partial | pretty_print_dictionary aligns all entries | Proved for dictionaries without NaN; any NaN raises ValueError. |
| C160 | partial | The data table of the report normalises widths by the scales of the model | Proved for the inputs; false for the observations, whose width is divided by the variance. |
| C161 | proved | The REMAP criterion is the restricted likelihood plus explicit penalties | Exact arithmetic; the quantile function is any function positive at the level. |
| C162 | proved | A REMAP selection uses the prior fixed at the call | Optimiser is any strategy of evaluations; the likelihood any function. |
| C163 | proved | Ranges selected by REMAP are above the resolution of the design | Optimisers that report a value they evaluated; arrays, not loaders. |
| C164 | partial | REMAP works with a constant coordinate | False of the code: with a constant coordinate every value is NaN and the optimiser's own answer is stored. Without a constant coordinate the criterion is finite as in C161. |
| C165 | proved | A REMAP update starts from the model and recentres the prior there | Optimiser is any strategy of evaluations. |
| C166 | partial | Keyword arguments set the prior defaults and leave the dictionary | False of one claim: a call that raises keeps the values stored before and has removed keys. The rest is proved. |
| C167 | partial | With a loader the REMAP criterion is the posterior of the batches | False of the code: the size-weighted mean of the batches counts the prior in full against a mean of likelihoods. Proved: the exact value of the criterion. |
| C168 | proved | A selection criterion never delivers the gradient of another point | Autograd by its contract: it finds the gradient of a value computed from the tensor asked about, and none otherwise. Points without NaN. |
| C169 | partial | A numerical failure at a trial point does not stop the selection | False on torch: the gradient at a failing point raises RuntimeError, which the optimiser does not catch; and evaluate_no_grad raises on numpy where torch gives +inf. Proved for optimisers that ask for gradients only where the value was computed. |
| C170 | partial | The batched gradient is the derivative of the batched value | False: gradient(q) ignores q, also after a failed evaluation; and requires_grad of a tensor argument is changed. The rest is proved. |
| C171 | partial | A Hessian is symmetric and belongs to the last point evaluated | False for affine functions, where RuntimeError is raised. Autograd by its contract. |
| C172 | partial | The Hessian-based Fisher information is the Fisher information | False of the code: half the Hessian of the log determinant is returned, which is minus the information for a variance and zero for a log variance. Proved: the value returned and the errors. |
| C173 | partial | The reference prior is finite exactly for identifiable parameters | False of one claim: numpy's logdet accepts matrices with positive determinant that are not positive definite. |
| C174 | partial | asarray converts floats to float64, nothing else, and copies only then | False for Python numbers, whose shapes differ between backends. Without the dtype argument. |
| C175 | partial | min, max, clip and inftobigf do the same on both backends | False: the default axis differs on matrices, torch truncates bounds for integer tensors, -inf becomes a positive number. |
| C176 | partial | choice without replacement returns that many different positions | False on torch when more entries are asked for than there are. Without weights, except the normalisation. |
| C177 | partial | normal.pdf and normal.logpdf are the normal density | False of pdf for scales other than one: the factor 1/scale is missing. |
| C178 | partial | Numerical gradients are exact on polynomials and harmless at infinite values | False for integer vectors, where perturbations are truncated. |
| C179 | partial | multivariate_normal checks and shapes agree between backends | False for a single draw (shape) and for means with one entry. Shapes only. |
| C180 | partial | prepare_data accepts exactly one source of data | Proved which source is chosen; false: one array beside a loader is accepted and ignored. |
| C181 | partial | Initial guesses with a loader | Exact arithmetic. Proved what is guessed from the batches; false: the guess depends on the batches, and the constant-mean guess raises for observations given as a column. Batches of fewer points than mean functions are not represented. |
| C182 | partial | Approximate quantiles of a data set | Proved for samples which contain every shard; false otherwise: all shards have the same share, and more shards than sampled points raise. |
| C183 | partial | Updates never make the criterion worse | False when the criterion takes the value NaN. Proved for criteria without NaN and optimisers that evaluate their start and report a value they evaluated. |
| C184 | partial | Parameter objects behave as values | False when an array is handed over: objects made from one array share it. Proved for programs that give lists of floats; indexing and concatenation always copy. |
| C185 | partial | Views of a Param are attached to it | False across an assignment to denormalized_values (or values), which detaches earlier views. The rest is proved. |
| C186 | partial | A value that is set is read back | False for lists of integers: the array keeps integers and truncates what is assigned. Proved for floats. |
| C187 | proved | Listings of a Param agree with its entries |  |
| C188 | partial | The printed table of a Param is aligned | False with NaN, where repr raises ValueError; without entries the table is empty. How numbers are written is a parameter. |
| C189 | partial | The backends compute the same covariance matrices | False for vectors with rowvar=False (torch takes each entry for a variable) and, before numpy 2.2, for single rows. Proved otherwise; symmetry, diagonal and positive semidefiniteness always. Exact arithmetic, without weights. |
| C190 | partial | The backends solve the same triangular systems | False with trans=1: torch applies lower to the transposed matrix. Proved without transposition, and for scipy with it. |
| C191 | partial | Percentiles, isscalar and nan_to_num agree between backends | False for lists of levels, arrays with one entry, and copy=False. Proved otherwise. |
| C192 | partial | Log-densities have the same shape with both backends | False for axes of length one; refusals agree. Shapes only. |
| C193 | partial | Asymmetric proposals are corrected | False of the code: the correction always uses the symmetric Gaussian density, so it is zero for every prop_rnd. Proved: steps with symmetric=False and True coincide. Exact arithmetic. |
| C194 | partial | Default proposals, initial proposal parameters and modes | False for the shapes: three axes are not checked against the dimension, and one diagonal per chain is read as a covariance when chains and coordinates are as many. The rest is proved. |
| C195 | proved | Statistics of whole chains use each row once | Exact arithmetic. Rows are all allocated rows, see C196. |
| C196 | partial | No uninitialised memory is read by the sampler | Proved for the run and its result; false for statistics of whole chains after a burn-in that stopped early, proved when all steps were made. |
| C197 | partial | set_seed makes random results reproducible | False of the code: multivariate_normal.rvs (hence Metropolis-Hastings), designs and SMC draw from generators that set_seed does not reach. Proved for programs that use rand, randn, choice and permutation, among them splits, folds, loaders, sample paths and NUTS. |
| C198 | partial | A seed given to a split, a fold or a loader concerns that call only | False of the code: the seed is given to the generator of the whole process. Proved what happens instead, and the property without a seed. |
| C199 | partial | SMC objects draw independently of each other and of gpmp.num | False for objects made without rng, which share the default argument. Proved for objects with a generator of their own. |
| C200 | partial | The backend in use is the configured one | False: the package imports gpmp.num before set_backend can be called, and a failed choice is remembered. Proved that the choice never changes, and that the environment variable works. |
| C201 | partial | get_dtype returns the element type in use | False after set_dtype or update(dtype=...), which forget the type for good. Proved without such calls. |
| C202 | partial | One version number | False for an empty VERSION file. |
| C203 | partial | Attributes imported on first access | False for dir(gpmp.modeldiagnosis), which leaves out bound attributes; the rest is proved. |
| C204 | partial | Predicting at the observation points returns the data | False of the code: when asarray has to convert, the two arguments become different objects and the nugget is left out, so that data are not returned (torch with numpy arrays). Proved exactly when it holds, zero mean. |
| C205 | proved | Model.loo is refitting with Model.predict | Exact arithmetic; linear-algebra routines are parameters with a stated contract (shown satisfiable). |
| C206 | proved | Criteria read their arguments; observations may be a column; refusals |  |
| C207 | proved | Predictions do not depend on the order of the observations, the batching of targets, units or the backend | Exact arithmetic; linear-algebra routines are parameters with a stated contract (shown satisfiable). |
| C208 | proved | The likelihood criteria change only by a constant under a change of units | Exact arithmetic; linear-algebra routines are parameters with a stated contract (shown satisfiable). |
| C209 | partial | Observations may be a vector or a column | False of the code: with a given mean, columns of two or more raise in the likelihood, leave-one-out and conditional paths; gpmp.core.loo.loo of a column returns square arrays. Proved for vectors everywhere, and for columns in the zero-mean and restricted likelihoods and conditional paths. Exact arithmetic. |
| C210 | partial | A wrong number of observations is refused | False of the code: on torch the zero-mean likelihood is infinite for a wrong length; one observation is repeated when a mean is given and in conditional paths. Proved in the other cases. |
| C211 | partial | Shapes of squared norms and of the products with the inverse | False for the shapes: arrays with one axis on torch and for columns, vectors instead of columns in k_inverses. The values are proved. |
| C212 | partial | The PIT figure shows the empirical distribution function | False of the code: the corners use k/(n-1) instead of k/n. Proved what is drawn, and that it is at most 1/n above the distribution function. Exact arithmetic. |
| C213 | partial | Cross sections of criteria vary one parameter over its bounds | False of the code: bounds are looked up by the position of the panel, not of the parameter, and integer parameters are truncated. Proved for floating-point parameters, with bounds when all parameters are shown. Exact arithmetic. |
| C214 | partial | The map of a criterion shows the criterion at the parameters of its axes | False of the code where the criterion is NaN (shown as 0, possibly the best value) and, without the shift, where it is negative. Proved otherwise. Exact arithmetic. |
| C215 | partial | Prediction cross sections pass through the anchor and vary one coordinate | False for points stored as integers, which truncate the swept coordinate. Proved for floating-point points. Exact arithmetic. |
| C216 | partial | Coverage bands have the probability of their label | False for the default labels with other levels. Proved otherwise, for any inverse of the normal distribution function. Exact arithmetic. |
| C217 | proved | Leave-one-out bars have coverage 95% | Exact arithmetic; linear-algebra routines are parameters with a stated contract (shown satisfiable). |
| C218 | partial | Conversions give what their names say on both backends | False for to_np of a list, which is returned as it is (numpy) or refused (torch). The rest is proved. Rounding to single precision is an arbitrary function. |
| C219 | partial | copy and array return arrays of their own | False of array on torch, which shares the memory of a numpy array or tensor. Proved for copy on both and array on numpy. |
| C220 | partial | Names of element types mean the same on both backends | False: float, int and single are refused and uint64, longdouble become other types. Proved for the usual names. |
| C221 | partial | asint keeps integers | False on torch from 2^31 on. Proved within 32 bits. |
| C222 | partial | Only failures of linear algebra turn a criterion into infinity | False: exceptions are told apart by words in their message. Proved which ones are caught. |
| C223 | partial | The normal distribution functions of the backends agree | False for scale 0 (torch) and in the lower tail (torch logcdf is -inf from -9 on). Proved in exact arithmetic otherwise. |
| C224 | partial | norm and var mean the same on both backends | False for norms of matrices without axis and for var with ddof at least the size. Proved otherwise. |
| C225 | partial | cho_factor and cho_solve solve the system | False for vectors on torch, which are refused. Proved otherwise. Exact arithmetic; linear-algebra routines are parameters with a stated contract (shown satisfiable). |
| C226 | partial | Generated statistics are those of their names | False: the properties of a loader are bound methods, not values, and shards of integers before shards of floats raise. Proved for the methods of the data set, one column. |
| C227 | proved | The likelihood is the product of the one-step predictions | Exact arithmetic; linear-algebra routines are parameters with a stated contract (shown satisfiable). |
| C228 | proved | Predicting in two stages | Exact arithmetic; linear-algebra routines are parameters with a stated contract (shown satisfiable). |
| C229 | proved | The restricted likelihood is the integrated likelihood | Exact arithmetic; linear-algebra routines are parameters with a stated contract (shown satisfiable). |
| C230 | proved | The Fisher information is the covariance of the score | Exact arithmetic; the finite-difference step enters as exactness or as a limit. |
| C231 | proved | Resampling is unbiased, and residual resampling has the smaller variance | The multinomial sampler is the tally of independent draws. Exact arithmetic; linear-algebra routines are parameters with a stated contract (shown satisfiable). |
| C232 | partial | Reductions and array constructors are the same on both backends | False for means of integers, cumsum without an axis, linspace with the keyword num or without a number, full with an integer, meshgrid (transposed) and expand_dims with a tuple. Proved otherwise, for arrays with at least one axis where an axis is given. Exact arithmetic; linear-algebra routines are parameters with a stated contract (shown satisfiable). |
| C233 | partial | The log of a sequential Monte Carlo run is complete and in order | False: after an exception in a restart the iteration counter is not reset, so the next restart does not count from 1. Proved otherwise. |
| C234 | proved | The demonstration densities are normalised as stated | Exact arithmetic; linear-algebra routines are parameters with a stated contract (shown satisfiable). |
| C235 | proved | More observations give more Fisher information | Holds for any step of the finite differences. Exact arithmetic; linear-algebra routines are parameters with a stated contract (shown satisfiable). |
| C236 | proved | An unknown linear mean is predicted by generalised least squares | Uniqueness where the targets separate the coefficients. Exact arithmetic; linear-algebra routines are parameters with a stated contract (shown satisfiable). |
| C237 | proved | Predictions are functions of the target that return to the prior far from the data | Exact arithmetic; linear-algebra routines are parameters with a stated contract (shown satisfiable). |
| C238 | proved | The prediction is the completion of least norm, and the norm bounds it | Exact arithmetic; linear-algebra routines are parameters with a stated contract (shown satisfiable). |
| C239 | proved | Sample paths and likelihoods belong to the same normal law | The draws are assumed independent and standard normal. Exact arithmetic; linear-algebra routines are parameters with a stated contract (shown satisfiable). |
| C240 | proved | Predictions, conditioned paths and leave-one-out errors are calibrated | Coverage where the variance is positive; the quantile function is assumed to invert the distribution function. Exact arithmetic; linear-algebra routines are parameters with a stated contract (shown satisfiable). |
| C241 | proved | The kernel is the Matérn covariance of regularity p + 1/2 | Exact arithmetic; linear-algebra routines are parameters with a stated contract (shown satisfiable). |
| C242 | proved | The order of the kernel is its regularity | Exact arithmetic; linear-algebra routines are parameters with a stated contract (shown satisfiable). |
| C243 | proved | A NUTS transition keeps the target law up to the probability of a divergence | Real-valued potentials; step size and mass fixed (as after warmup). Exact arithmetic; linear-algebra routines are parameters with a stated contract (shown satisfiable). |
| C244 | proved | Metropolis-Hastings on a bounded domain converges, and so do its averages | Fixed proposal (no adaptation). Exact arithmetic; linear-algebra routines are parameters with a stated contract (shown satisfiable). |
| C245 | proved | Prediction errors are small near the data and converge as the design fills the domain | Exact arithmetic; linear-algebra routines are parameters with a stated contract (shown satisfiable). |
| C246 | partial | Origin, units, orientation and order of the input coordinates do not matter | False of the power-law prior, whose cut-offs are absolute (it is unchanged while all log length scales stay within them). Guesses: no constant coordinate. Exact arithmetic; linear-algebra routines are parameters with a stated contract (shown satisfiable). |
| C247 | proved | Criteria and predictions are smooth functions of the parameters | Exact arithmetic; linear-algebra routines are parameters with a stated contract (shown satisfiable). |
| C248 | partial | maximum, minimum, exp and its like, and sort do the same in both backends | False in single precision, where the types differ between the backends, for booleans under exp (half precision in numpy, outside the model), and for sort of lists, of 0-d arrays and with axis=None; proved otherwise. Broadcasting, promotion and the sort order are the libraries' (modelled as documented). No rounding. |
| C249 | proved | Weights and resampled particles estimate expectations under the next density | For independent particles at the stage considered. Exact arithmetic; linear-algebra routines are parameters with a stated contract (shown satisfiable). |
| C250 | partial | A move of the particles keeps the law they are meant to have | False of the program, which takes the covariance of the noise from the particles themselves: two particles on two distant intervals meet more often than the target law says. Proved for a covariance that does not depend on the particles. Exact arithmetic; linear-algebra routines are parameters with a stated contract (shown satisfiable). |
| C251 | proved | On average the likelihood criteria are smallest at the model that generated the data | Exact arithmetic; linear-algebra routines are parameters with a stated contract (shown satisfiable). |
| C252 | proved | The criteria tell covariance parameters apart | The theorems ending in _false are the two cases where parameters are not determined. Exact arithmetic; linear-algebra routines are parameters with a stated contract (shown satisfiable). |
| C253 | partial | Particles that already follow the target are left in place by a Stein step, on average | False with a box, where the kernel pushes particles to the sides (uniform density on [0,1]); proved without one. Fixed bandwidth. Exact arithmetic; linear-algebra routines are parameters with a stated contract (shown satisfiable). |
| C254 | proved | R-hat of long runs tells whether the chains have the same averages | rhat_scale_false is the case that the check does not see. Exact arithmetic; linear-algebra routines are parameters with a stated contract (shown satisfiable). |
| C255 | proved | Matérn models of high order approach the model with a Gaussian kernel | Exact arithmetic; linear-algebra routines are parameters with a stated contract (shown satisfiable). |
| C256 | partial | Over data drawn from the model, the guessed variance is right on average | False for a linear mean (too small by the factor (n-q)/n) and for a constant mean (the data are not centred: too large by the square of the mean times 1'K^-1 1/n); proved for a zero mean. Exact arithmetic; linear-algebra routines are parameters with a stated contract (shown satisfiable). |
| C257 | proved | Criteria over batches are smallest, on average, at models that agree with the generating one on every batch | batched_pairs_false is the case that the criterion does not see. Exact arithmetic; linear-algebra routines are parameters with a stated contract (shown satisfiable). |
| C258 | proved | Finite-difference gradients are wrong by at most a fourth power of the step plus the error of the values over the step | Errors of the values are arbitrary; the arithmetic of the formula itself is exact. |
| C259 | partial | The logger has the level that was asked for and writes each message once; caches are cleared by name | False in three cases: the words basic_format and _styles, which are attributes of logging, make the import fail; with a handler on the root logger every message is written twice; NOTSET, the lowest level, hides what INFO shows. Proved otherwise. |
| C260 | proved | A linear mean is the limit of vaguer and vaguer priors on its coefficients | Exact arithmetic; linear-algebra routines are parameters with a stated contract (shown satisfiable). |
| C261 | proved | Small errors of the linear-algebra routines cause small errors of the results | The triangular solves with the computed factor, the products and the sums are exact; the external factorisations, solves and inverses are not. |
| C262 | proved | Dual averaging drives the mean acceptance of the warm-up to target_accept | Real arithmetic; the transition is an arbitrary kernel. |
| C263 | proved | SMC with proposals fixed in advance has mean squared error of order one over the number of particles | The program takes the proposal covariance from the particles; see C264. Temperatures given. Exact arithmetic; linear-algebra routines are parameters with a stated contract (shown satisfiable). |
| C264 | proved | SMC with its usual adaptation is consistent | Temperatures given, multinomial resampling, covariance_method normal. Expectations are lower integrals if the factorisation of the normal generator is not a measurable function. Exact arithmetic; linear-algebra routines are parameters with a stated contract (shown satisfiable). |
| C265 | proved | A whole SMC run is consistent whatever temperatures its rule picks | Runs of at most k stages (see C266 for when that is all of them). covariance_method normal. Expectations are lower integrals if the factorisation of the normal generator or the root finder is not measurable. Exact arithmetic; linear-algebra routines are parameters with a stated contract (shown satisfiable). |
| C266 | proved | An SMC run ends after a number of temperatures that does not depend on the particles | The root finder is a parameter with the contract that its answers lie in the bracket and have a residual of at most the tolerance. Exact arithmetic; linear-algebra routines are parameters with a stated contract (shown satisfiable). |
| C267 | partial | Subset simulation estimates the probability of the last level | False of the code for boxes of volume other than one: the particles start uniformly in the box with logpx = 0, so the estimate tends to P/volume(box). Proved when log_px is given relative to the uniform law on the box. -1e100 is read as minus infinity, as in double precision its exponential is 0. Exact arithmetic; linear-algebra routines are parameters with a stated contract (shown satisfiable). |
| C268 | proved | With frozen adaptation, averages over the returned states converge to the target | sample_from_selection_criterion_mh does not freeze the adaptation. The draws are standard normal vectors and uniform numbers, independent. The factor of the covariance used by the normal generator is any matrix with the right square. Exact arithmetic; linear-algebra routines are parameters with a stated contract (shown satisfiable). |
| C269 | partial | A Metropolis-Hastings run started in the target law stays in it, even while the proposals are adapted | False of the code with freeze_adaptation=False (adaptive_sampling_false; adaptive_start shows that the starting law and draws exist). Proved with freeze_adaptation=True. The witness uses an interval of 1 between adaptations; sample_from_selection_criterion_mh fixes it to 50. Exact arithmetic; linear-algebra routines are parameters with a stated contract (shown satisfiable). |
| C270 | partial | Selecting covariance parameters by likelihood is a well-posed problem | False without bounds on the length scales (ml_attained_false: no best parameter; reml_unique_false: several), and for data in the span of the mean functions (reml_bounded_false). Proved: a best parameter exists for length scales in a bounded closed set and any variance, otherwise. Exact arithmetic; linear-algebra routines are parameters with a stated contract (shown satisfiable). |
| C271 | proved | With both priors, REMAP selection has a best parameter among all parameters | Exact arithmetic; linear-algebra routines are parameters with a stated contract (shown satisfiable). |
| C272 | proved | Leapfrog trajectories on normal targets do not drift below the stability limit and blow up above it | The mass matrix is diagonal, as in the code; the target is a normal density up to a constant. Exact arithmetic; linear-algebra routines are parameters with a stated contract (shown satisfiable). |
| C273 | proved | Shuffled batches, random splits and folds are simple random samples | The permutations of the backend's generator are assumed equally likely (Fair; permRng_fair is such a generator). k-fold on the numpy backend; C06 says when torch gives the same. Exact arithmetic; linear-algebra routines are parameters with a stated contract (shown satisfiable). |
| C274 | partial | Gradients of covariances computed by torch are the derivatives, also at coinciding points | False of the code for pairwise=True between equal rows of different arrays (pairwise_grad_false) and, for p = 0, with respect to a coinciding point (point_grad_false). Proved otherwise. The local rules of PyTorch's backward pass are part of the model; one entry of the matrix at a time. Exact arithmetic; linear-algebra routines are parameters with a stated contract (shown satisfiable). |
| C275 | partial | Scoring rules act entry by entry on arrays | False of the code for columns and matrices of predictions and for arrays of bounds (the _false theorems). Proved for vectors and numbers. scipy's bivariate distribution function is a parameter that drops axes of length one from its result. Exact arithmetic; linear-algebra routines are parameters with a stated contract (shown satisfiable). |
| C276 | partial | Regression with noisy observations: the kernels of the examples smooth optimally | False of example 07's posterior covariance (plain_cov_false) and of predictions at the very array of the observations (flagged_same_false). Proved otherwise. Exact arithmetic; linear-algebra routines are parameters with a stated contract (shown satisfiable). |
| C277 | partial | Which criteria define a posterior law that can be sampled | False without a prior on the ranges and a box (flat_proper_false) and, with the prior on the ranges alone, for data in the span of the mean functions (barrier_proper_false). Proved otherwise. Exact arithmetic; linear-algebra routines are parameters with a stated contract (shown satisfiable). |
| C278 | partial | Index arguments of conditional sample paths name the rows of the paths | False for xi_ind of conditional_sample_paths, which is converted to integers first: a mask of booleans is read as the row numbers zero and one (index_mask_false), and floating-point indices are cut to integers instead of refused (index_floats_cut). Proved otherwise. |
| C279 | proved | Gradients of the likelihood criteria computed by torch are the derivatives | The backward rules of the matrix operations are those of PyTorch's derivative formulas, written out in Core/Backward.lean. Exact arithmetic; linear-algebra routines are parameters with a stated contract (shown satisfiable). |
| C280 | proved | Gradients of the posterior criteria computed by torch: derivatives inside the support of the priors, numbers outside | The backward rules are those of PyTorch's derivative formulas, written out in Backend/Autograd.lean and Core/Backward.lean. Exact arithmetic; linear-algebra routines are parameters with a stated contract (shown satisfiable). |
| C281 | proved | Predictions from noisy observations are the penalised least-squares fit | Exact arithmetic; linear-algebra routines are parameters with a stated contract (shown satisfiable). |
| C282 | proved | The nugget of the Matern covariance changes predictions little, and by a known amount | Exact arithmetic; linear-algebra routines are parameters with a stated contract (shown satisfiable). |
| C283 | partial | fisher_information depends on the values of the parameters only | False for integer arrays (fisher_int_false, fisher_int_variance); proved for float arrays (fisher_float), and dCov_int says what is computed for integers. Steps with 2*epsilon < 1. Exact arithmetic; linear-algebra routines are parameters with a stated contract (shown satisfiable). |
| C284 | proved | The energy error of leapfrog trajectories is of second order in the step, so small steps do not diverge | Targets finite everywhere with globally Lipschitz gradient and second derivatives (structure Smooth); a box-truncated posterior is not of this kind. Exact arithmetic; linear-algebra routines are parameters with a stated contract (shown satisfiable). |
| C285 | proved | A Stein step goes uphill, in the steepest direction | The space of fields is the span of the kernel and its derivatives at the particles. First order in the step only: a finite step may overshoot. Exact arithmetic; linear-algebra routines are parameters with a stated contract (shown satisfiable). |
| C286 | proved | The guessed variance converges to the true one as observations accumulate | The ranges of the generating covariance are those guessed; exists_sequence shows that such data exist for every positive definite covariance. Exact arithmetic; linear-algebra routines are parameters with a stated contract (shown satisfiable). |
| C287 | proved | Predicting one after the other, errors are independent standard normal and bands are right in the long run | The mean is zero, parameterized with the true parameters, or a linear predictor. Exact arithmetic; linear-algebra routines are parameters with a stated contract (shown satisfiable). |
| C288 | proved | Predictions are conditional expectations and converge as observations accumulate | Exact arithmetic; linear-algebra routines are parameters with a stated contract (shown satisfiable). |
| C289 | proved | Averages over many conditional sample paths converge to predictions, covariances and probabilities | With the mean functions zero the path conditioned is that of conditional_sample_paths. Draws are a sequence of independent vectors; np is the number used so far. Exact arithmetic; linear-algebra routines are parameters with a stated contract (shown satisfiable). |
| C290 | proved | Parameters selected from repeated data sets converge to the generating ones | Minimisers are any exact minimisers over the set: the optimiser itself is not modelled as finding one. The number of data sets grows, at fixed points. Exact arithmetic; linear-algebra routines are parameters with a stated contract (shown satisfiable). |
| C291 | proved | No unbiased estimator of the covariance parameters beats the inverse of the Fisher information | Differentiability of the mean of the statistic is assumed; no conditions for exchanging derivative and integral are needed. For the restricted version statistics are Borel measurable. Exact arithmetic; linear-algebra routines are parameters with a stated contract (shown satisfiable). |
| C292 | proved | The guessed variance has the smallest variance of all unbiased estimators | The correlations of the data are those the guess assumes. In the linear case statistics are Borel measurable. Exact arithmetic; linear-algebra routines are parameters with a stated contract (shown satisfiable). |

### 4.2 Properties that are false of the code

For each of these the negation is proved with a concrete witness (theorems ending in
`_false`); what does hold is proved beside it.

* **C02** Negative dataset indices count from the end. False of the code with several shards: negation proved with a witness; exact behaviour of negative indices and the single-shard case proved.
  Witnesses: `Verif.Data.getItem_negative_false`.
* **C06** k-fold indices do not depend on the backend. False of the code for n=0, (k=2,n=1), (k=3, 3|n), where torch raises IndexError; equal to numpy otherwise.
  Witnesses: `Verif.Data.kFold_torch_false`.
* **C12** Scalers are invertible and scale to the advertised range. False of the code for a Normalizer or ObservationScaler fitted to one row with torch (or to no rows): the scale is NaN (normalizer_one_row_false). Proved otherwise (fitF_eq relates the NaN model to the exact one). Exact arithmetic; unit variance in the backend's own convention (numpy divides by n, torch by n-1).
  Witnesses: `Verif.Data.normalizer_one_row_false`.
* **C16** All fields of a Param keep equal length. False of the code: the values setter can change the length; negation proved with a witness; true for the other operations.
  Witnesses: `Verif.Param.fields_equal_length_false`.
* **C28** The null-space fallback of universal kriging gives the same predictor. False of the code: the fallback omits a term (not optimal on either backend) and on numpy solves a triangular system as symmetric (not unbiased). Negations proved with witnesses; on torch the weights are unbiased and optimal exactly when W'KQ1 beta = 0.
  Witnesses: `Verif.Core.nullspace_same_predictor_false`, `Verif.Core.nullspace_unbiased_false`.
* **C39** Power-law prior falls off beyond its cutoff. False of the code: the variance cutoff term has the wrong sign and rewards large variances.
  Witnesses: `Verif.Kernel.powerLaw_cutoff_false`.
* **C41** Selection returns the best value seen. False of the code when the optimiser's final value is NaN; holds otherwise. Optimisers are arbitrary terminating strategies.
  Witnesses: `Verif.Kernel.autoselect_best_false`.
* **C42** Numerical failures become +inf, other errors propagate. False of the code on the torch backend for batched criteria.
  Witnesses: `Verif.Data.evaluateTorch_failure_false`.
* **C43** Mean and covariance parameters are split back as they were joined. False of the code when meanparam_len differs from the length of meanparam0 (not checked); holds otherwise.
  Witnesses: `Verif.Kernel.update_split_false`.
* **C44** Automatic bounds contain the starting point. False of the code for starting points of absolute value above 500.
  Witnesses: `Verif.Kernel.autoBounds_false`.
* **C45** Metropolis-Hastings acceptance satisfies detailed balance. Exact detailed balance is false because the uniform draw is floored at 1e-300; it holds within 1e-300 in general and exactly when acceptance ratios exceed 1e-300.
  Witnesses: `Verif.MH.detailed_balance_false`.
* **C47** Diminishing adaptation decreases to its documented final fraction. False of the code: the schedule ends at base*(2*final_frac-1), negative for the default, so late adaptation is reversed; it does start at base and decrease.
  Witnesses: `Verif.MH.schedule_end_false`, `Verif.MH.rm_reversed_false`.
* **C48** Burn-in runs with one chain. False of the code: with one chain ValueError is raised exactly when the burn-in has at least 20 blocks; never with two or more chains.
  Witnesses: `Verif.MH.burnin_one_chain_false`.
* **C49** KS convergence check can succeed. False of the code with one or two chains and on torch; holds on numpy with three or more chains.
  Witnesses: `Verif.MH.ks_never_ok_false`, `Verif.MH.ks_torch_false`.
* **C53** Cached log-density of each particle is that of its position. Holds after every step that reweights; false of the code after set_logpdf followed by move, and for step_with_possible_restart when the restart begins at the target.
  Witnesses: `Verif.SMC.stepRestart_false`, `Verif.SMC.cached_after_set_false`.
* **C54** Subset simulation starts from the right density. False of the code for boxes of volume other than one: the estimate of a certain event is the constant density value.
  Witnesses: `Verif.SMC.subset_certain_false`.
* **C57** Warm-up windows tile the adaptation phase. Proved for base windows of at least one iteration; false of the code for a large-regime base window of 0, which yields an empty window.
  Witnesses: `Verif.Nuts.windows_base_zero_false`.
* **C59** Step-size search terminates within its bounds. Proved for scale bases above one; false of the code for base 1, which never ends.
  Witnesses: `Verif.Nuts.findStep_base_one_false`.
* **C60** SVGD particles stay in the box and the kernel matrix is a valid kernel. Exact arithmetic. Proved for ordered bounds, nonnegative jitter and at least one step, with positive definiteness of the kernel matrix; false for reversed bounds (not checked), negative jitter, and n_steps = 0.
  Witnesses: `Verif.SVGD.kernel_range_false`, `Verif.SVGD.step_in_box_false`, `Verif.SVGD.run_in_box_false`.
* **C61** SVGD repulsion is the kernel gradient and sums to zero. Exact arithmetic. Dead particles have no influence for a given bandwidth; false of the code with the median bandwidth, which is computed from dead particles too.
  Witnesses: `Verif.SVGD.dead_no_influence_false`.
* **C62** Annealing goes from t0 to t1. Proved for at least two steps; a single step starts at the final temperature.
  Witnesses: `Verif.SVGD.annealed_first_false`.
* **C63** Posterior samplers accept documented initial state shapes and box truncation. The log-density part and the accepted shapes are proved; false of the code for the documented (dim, n_chains) shape, and for a vector of one value for each chain, which is read as one point.
  Witnesses: `Verif.Posterior.setup_transposed_false`, `Verif.Posterior.setup_misread_false`.
* **C64** Selecting part of a DataFrame keeps row and column names. The selected data and the entries by name are proved; false of the code for the names of the result, which are exchanged (row names become column names).
  Witnesses: `Verif.DataFrame.get_names_false`, `Verif.DataFrame.get_lengths_false`.
* **C66** Approximate fill distance is a max-min distance. False of the code: it returns the smallest distance of all pairs. Proved: a lower bound of the fill distance, equal for one point.
  Witnesses: `Verif.Designs.filldist_false`.
* **C67** Maximin search returns the best design drawn. Exact arithmetic. Proved for the distances in the unit cube and for cubic boxes; false of the code for other boxes, because distances are compared before scaling.
  Witnesses: `Verif.Designs.maximin_box_false`.
* **C68** CRPS formulas behave as a scoring rule. Exact arithmetic, scalars. Proved for positive sigma, with the integral form; at sigma = 0 the result is NaN and for negative sigma it is negative.
  Witnesses: `Verif.Score.crps_zero_false`, `Verif.Score.crps_negative_false`.
* **C69** Performance metrics are consistent. Exact arithmetic. Proved for targets which are not all equal; for constant targets the scores are NaN or minus infinity.
  Witnesses: `Verif.Performance.score_constant_false`.
* **C70** Test function detpep8d is the published function. False of the code: only the last of the five logarithmic terms is added. Proved: the exact difference and where both agree.
  Witnesses: `Verif.TestFunctions.detpep8d_false`.
* **C72** Bounds given in log scale to make_anisotropic_param are checked in log scale. False of the code: check_bounds compares the variance, not its log.
  Witnesses: `Verif.Param.anisotropic_logbounds_false`.
* **C73** to_simple_dict agrees with get_by_name. False of the code with duplicate names; true with distinct names.
  Witnesses: `Verif.Param.simpleDict_false`.
* **C74** A failing set_from_unnormalized leaves the parameter object unchanged. False of the code: earlier keywords are written before a later one fails.
  Witnesses: `Verif.Param.setFromUnnormalized_atomic_false`.
* **C75** Only double-precision floating types are accepted as dtype. False of the code: 'int64' is accepted.
  Witnesses: `Verif.Config.dtype_only_float64_false`.
* **C76** Configuration and environment variable agree on the backend. False of the code: a failing update has already changed the environment.
  Witnesses: `Verif.Config.env_agrees_false`.
* **C82** A parameterised mean must come with its parameters. False of the code in the documented strength: a parameterised mean without parameters is accepted at construction and refused by predict.
  Witnesses: `Verif.Core.Validate.meanparam_required_false`.
* **C84** The range penalty is non-negative. False of the code; holds exactly when log(rho0/rho_min) <= e.
  Witnesses: `Verif.Kernel.neglogF1_nonneg_false`.
* **C85** Prior default hyperparameters always stay in range. False of the code: NaN is accepted for gamma, alpha and factor; holds when no NaN is passed.
  Witnesses: `Verif.Kernel.defaults_range_false`.
* **C86** Setting prior defaults is all or nothing. False of the code: arguments before the refused one are already stored.
  Witnesses: `Verif.Kernel.defaults_atomic_false`.
* **C88** The default REMAP prior is well defined. False of the code: two points on a line are refused.
  Witnesses: `Verif.Kernel.remap_default_false`, `Verif.Kernel.remap_flat_refused_false`.
* **C90** Empirical bounds contain the initial guess. False of the code with the default factors.
  Witnesses: `Verif.Kernel.bounds_contain_guess_false`.
* **C94** MAP criteria have a minimiser in the variance. False of the code for the power-law prior (unbounded below); proved for the Jeffreys prior. Exact arithmetic; linear-algebra routines are parameters with a stated contract (shown satisfiable).
  Witnesses: `Verif.Core.mapPowerLaw_unbounded_false`.
* **C96** The initial variance guess maximises the likelihood for fixed ranges. Proved for zero mean. False with an unknown mean: the guess divides by n instead of n - q, and the constant-mean guess depends on the constant. Exact arithmetic; linear-algebra routines are parameters with a stated contract (shown satisfiable).
  Witnesses: `Verif.Core.initSigma2_reml_false`, `Verif.Core.initConstantMean_sigma2_false`.
* **C97** The MH scheduler returns every state of the run. False of the code: the final state is not returned; the slice starting at the last burn-in state is returned instead.
  Witnesses: `Verif.MH.scheduler_drops_last_false`.
* **C102** Tempering parameter search ends with an admissible parameter. False of the code: the bisection never ends for indicator densities; it ends for probabilities continuous in the parameter.
  Witnesses: `Verif.SMC.nextP0_ends_false`.
* **C103** Reweighting in stages equals reweighting at once. Proved for finite log-densities; false when the first density vanishes at a particle (NaN weight).
  Witnesses: `Verif.SMC.reweight_telescope_false`.
* **C105** A covariance refused by the Gaussian sampler is repaired with jitter. False of the code: the repair loop uses a name that is not imported and raises NameError.
  Witnesses: `Verif.SMC.perturb_repair_false`.
* **C106** Unknown resampling schemes are refused with ValueError. False of the code: building the message raises AttributeError.
  Witnesses: `Verif.SMC.unknown_scheme_false`.
* **C107** Particle moves follow the Metropolis rule and never leave the support. False of the code for the level sets of subset simulation, where zero density is coded as exp(-1e100) and accepted on a draw of 0.
  Witnesses: `Verif.SMC.outside_rejected_false`.
* **C108** Mass adaptation equalises the coordinates. False of the code: the mass is set to the variance, which gives steps eps/sigma^2; only equal variances are equalised. The inverse variance would equalise.
  Witnesses: `Verif.Nuts.mass_adapt_false`.
* **C109** The NUTS transition satisfies detailed balance on leapfrog orbits. Proved when both points judge divergence alike; false of the code in general, because the divergence test uses the energy of the start.
  Witnesses: `Verif.Nuts.nuts_balance_false`.
* **C111** Keyword arguments override the NUTS options object. Proved for arguments that differ from their defaults; false of the code for an explicit argument equal to the default, which is ignored.
  Witnesses: `Verif.Nuts.resolve_reset_false`.
* **C113** The moving average stays within the range of its data. Proved for windows not longer than the series; false of the code otherwise.
  Witnesses: `Verif.Nuts.movingAverage_false`.
* **C114** SVGD scores are the derivative of the log-density up to the sides of the box. Exact arithmetic. Holds further than two difference steps from the sides (five-point difference, exact to degree four); false nearer: the score across the side is zero and a lone particle on a side never moves.
  Witnesses: `Verif.SVGD.boundary_score_false`.
* **C116** The median kernel does not depend on units. Proved when the bandwidth safeguards are inactive; false for clouds shrunk below the jitter.
  Witnesses: `Verif.SVGD.kernel_units_false`.
* **C121** Posterior MH sampling returns n_steps - burnin samples for each chain, in the box. Counts and containment proved for chains starting inside; false of the code: a single chain fails with the defaults, a chain started outside returns outside points, and get_log_target_values has one column too many.
  Witnesses: `Verif.Posterior.mh_single_chain_false`, `Verif.Posterior.mh_in_box_false`, `Verif.Posterior.logTargetValues_shape_false`.
* **C122** Posterior NUTS sampling returns num_samples points for each chain, in the box. Exact arithmetic. Proved for chains starting inside; false of the code for a chain started outside, which stays there.
  Witnesses: `Verif.Posterior.nuts_outside_false`.
* **C123** A NUTS chain started in the box can move. False of the code with the numpy backend: within two difference steps of a side the gradient is not finite and the chain never moves. What is proved is exactly this behaviour.
  Witnesses: `Verif.NutsEdge.nuts_edge_false`.
* **C124** Posterior SMC sampling has the tempered posterior as target. The target is proved for criteria that do not raise; false of the code: a criterion raising at one particle ends the run, a scalar init_box raises TypeError, and the dimension is that of init_box[0].
  Witnesses: `Verif.Posterior.smc_raises_false`, `Verif.Posterior.smc_scalar_box_false`.
* **C125** Posterior SVGD sampling starts from the announced cloud and stays in the box. Exact arithmetic. Containment proved without an options object; false of the code when options is given without the box, and for a random cloud with n_steps = 0.
  Witnesses: `Verif.Posterior.svgd_no_step_false`, `Verif.Posterior.svgd_options_false`.
* **C126** ftos shows a number to the announced precision. Exact arithmetic. The precision is proved; the coefficient can be shown as 10.
  Witnesses: `Verif.DataFrame.ftos_mantissa_false`.
* **C127** DataFrame assignment changes the named entries and nothing else. Proved for entries and rows by name; false of the code for a column sharing its name with a row.
  Witnesses: `Verif.DataFrame.set_column_false`.
* **C128** Growing a DataFrame keeps the old entries and does not touch other frames. Old entries and names proved for vectors; false of the code for a column given as a one-column matrix, for several rows with one name, and because results share name lists with the frames they come from.
  Witnesses: `Verif.DataFrame.append_row_false`, `Verif.DataFrame.append_col_false`, `Verif.DataFrame.concat_shared_false`, `Verif.DataFrame.get_shared_false`.
* **C129** DataFrames are displayed as aligned tables. Alignment and totality proved for matrices of finite entries; NaN entries and rows or columns taken by name cannot be displayed.
  Witnesses: `Verif.DataFrame.repr_nan_false`, `Verif.DataFrame.repr_row_false`.
* **C133** The truncated CRPS is the integral over the interval. Exact arithmetic, scalars, exact bivariate distribution function. Proved for ordered bounds; exchanged bounds are accepted and give negative scores.
  Witnesses: `Verif.Score.tcrps_bounds_false`, `Verif.Score.tcrps_exchanged_false`.
* **C138** compute_performance uses the results given and refuses those of the wrong size; perf prints its results. Proved which results are used and when the table is printed; false of the code: sizes of leave-one-out results are not compared, a single prediction is broadcast, and perf raises for constant targets predicted exactly.
  Witnesses: `Verif.Performance.test_broadcast_false`, `Verif.Performance.loo_length_false`.
* **C139** PIT values are predictive distribution functions at the targets. Exact arithmetic. Proved for targets of one axis and positive variances; targets given as a column give an n-by-n array, zero variances give NaN.
  Witnesses: `Verif.Performance.pit_zero_false`, `Verif.Performance.pit_column_false`.
* **C141** wave and twobumps compute their documented formulas. twobumps proved; false for wave, which uses 3 x2 in place of 3 x1.
  Witnesses: `Verif.TestFunctions.wave_false`.
* **C142** The Hartmann functions are as documented. hartmann6 proved; false for hartmann4, whose value at the documented minimiser is above -3.4.
  Witnesses: `Verif.TestFunctions.hartmann4_false`.
* **C145** Covariance estimates are covariance matrices. Exact arithmetic; hnswlib by its contract. Proved when the rows are at least as many as the neighbours asked for; fewer rows raise, because only the number of random points is cut.
  Witnesses: `Verif.KnnCov.knn_small_false`.
* **C148** Grid statistics depend on one parameter at a time and not on constants. Proved for floating point references; false for integer references, where the value is truncated.
  Witnesses: `Verif.ParamStats.single_ints_false`.
* **C151** Statistics by integration do not depend on a constant added to the criterion. Proved when the values stay between -745 and 709; false otherwise: a criterion above 745 everywhere raises, while the grid statistics are returned.
  Witnesses: `Verif.Un1d.large_criterion_false`.
* **C152** pdf and cdf are a density and its distribution function. quad by its contract. False: pdf is not zero outside the bounds. Values of log_pdf below -745 have density zero.
  Witnesses: `Verif.Un1d.pdf_outside_false`.
* **C158** modeldiagnosis_init projects the bounds on the covariance entries. The projection is proved; check_bounds of the result is false of the code: the stored bounds are logarithmic, the compared values are not.
  Witnesses: `Verif.Report.init_scale_false`.
* **C159** pretty_print_dictionary aligns all entries. Proved for dictionaries without NaN; any NaN raises ValueError.
  Witnesses: `Verif.Report.pretty_false`.
* **C160** The data table of the report normalises widths by the scales of the model. Proved for the inputs; false for the observations, whose width is divided by the variance.
  Witnesses: `Verif.Report.over_sigma_false`.
* **C164** REMAP works with a constant coordinate. False of the code: with a constant coordinate every value is NaN and the optimiser's own answer is stored. Without a constant coordinate the criterion is finite as in C161.
  Witnesses: `Verif.Kernel.remap_constant_false`, `Verif.Kernel.remap_constant_answer_false`.
* **C166** Keyword arguments set the prior defaults and leave the dictionary. False of one claim: a call that raises keeps the values stored before and has removed keys. The rest is proved.
  Witnesses: `Verif.Kernel.setFromKwargs_atomic_false`.
* **C167** With a loader the REMAP criterion is the posterior of the batches. False of the code: the size-weighted mean of the batches counts the prior in full against a mean of likelihoods. Proved: the exact value of the criterion.
  Witnesses: `Verif.Kernel.remap_batches_false`.
* **C169** A numerical failure at a trial point does not stop the selection. False on torch: the gradient at a failing point raises RuntimeError, which the optimiser does not catch; and evaluate_no_grad raises on numpy where torch gives +inf. Proved for optimisers that ask for gradients only where the value was computed.
  Witnesses: `Verif.Backend.runG_failure_false`, `Verif.Backend.noGrad_backends_false`.
* **C170** The batched gradient is the derivative of the batched value. False: gradient(q) ignores q, also after a failed evaluation; and requires_grad of a tensor argument is changed. The rest is proved.
  Witnesses: `Verif.Backend.batch_gradient_stale_false`, `Verif.Backend.prepareParam_mutates_false`.
* **C171** A Hessian is symmetric and belongs to the last point evaluated. False for affine functions, where RuntimeError is raised. Autograd by its contract.
  Witnesses: `Verif.Backend.hessian_affine_false`.
* **C172** The Hessian-based Fisher information is the Fisher information. False of the code: half the Hessian of the log determinant is returned, which is minus the information for a variance and zero for a log variance. Proved: the value returned and the errors.
  Witnesses: `Verif.Core.fisherTorch_scale_false`, `Verif.Core.fisherTorch_variance_false`.
* **C173** The reference prior is finite exactly for identifiable parameters. False of one claim: numpy's logdet accepts matrices with positive determinant that are not positive definite.
  Witnesses: `Verif.Core.logdet_negative_definite_false`.
* **C174** asarray converts floats to float64, nothing else, and copies only then. False for Python numbers, whose shapes differ between backends. Without the dtype argument.
  Witnesses: `Verif.Backend.asarray_number_false`.
* **C175** min, max, clip and inftobigf do the same on both backends. False: the default axis differs on matrices, torch truncates bounds for integer tensors, -inf becomes a positive number.
  Witnesses: `Verif.Backend.reduce_default_axis_false`, `Verif.Backend.clip_integer_false`, `Verif.Backend.infToBig_negative_false`.
* **C176** choice without replacement returns that many different positions. False on torch when more entries are asked for than there are. Without weights, except the normalisation.
  Witnesses: `Verif.Backend.choice_short_false`.
* **C177** normal.pdf and normal.logpdf are the normal density. False of pdf for scales other than one: the factor 1/scale is missing.
  Witnesses: `Verif.Backend.pdfTorch_integral_false`.
* **C178** Numerical gradients are exact on polynomials and harmless at infinite values. False for integer vectors, where perturbations are truncated.
  Witnesses: `Verif.Backend.gradNumpy_integer_false`.
* **C179** multivariate_normal checks and shapes agree between backends. False for a single draw (shape) and for means with one entry. Shapes only.
  Witnesses: `Verif.Backend.rvs_single_false`, `Verif.Backend.mean_one_entry_false`.
* **C180** prepare_data accepts exactly one source of data. Proved which source is chosen; false: one array beside a loader is accepted and ignored.
  Witnesses: `Verif.Core.prepareData_half_false`.
* **C181** Initial guesses with a loader. Exact arithmetic. Proved what is guessed from the batches; false: the guess depends on the batches, and the constant-mean guess raises for observations given as a column. Batches of fewer points than mean functions are not represented.
  Witnesses: `Verif.Core.initZeroLoader_batches_false`, `Verif.Core.initConstantLoader_column_false`, `Verif.Core.initLoader_empty_false`.
* **C182** Approximate quantiles of a data set. Proved for samples which contain every shard; false otherwise: all shards have the same share, and more shards than sampled points raise.
  Witnesses: `Verif.Core.quantileApprox_shards_false`, `Verif.Core.quantileApprox_share_false`.
* **C183** Updates never make the criterion worse. False when the criterion takes the value NaN. Proved for criteria without NaN and optimisers that evaluate their start and report a value they evaluated.
  Witnesses: `Verif.Kernel.update_nan_false`.
* **C184** Parameter objects behave as values. False when an array is handed over: objects made from one array share it. Proved for programs that give lists of floats; indexing and concatenation always copy.
  Witnesses: `Verif.Param.alias_false`.
* **C185** Views of a Param are attached to it. False across an assignment to denormalized_values (or values), which detaches earlier views. The rest is proved.
  Witnesses: `Verif.Param.view_detached_false`.
* **C186** A value that is set is read back. False for lists of integers: the array keeps integers and truncates what is assigned. Proved for floats.
  Witnesses: `Verif.Param.setFromUnnormalized_integer_false`.
* **C188** The printed table of a Param is aligned. False with NaN, where repr raises ValueError; without entries the table is empty. How numbers are written is a parameter.
  Witnesses: `Verif.Param.repr_nan_false`.
* **C189** The backends compute the same covariance matrices. False for vectors with rowvar=False (torch takes each entry for a variable) and, before numpy 2.2, for single rows. Proved otherwise; symmetry, diagonal and positive semidefiniteness always. Exact arithmetic, without weights.
  Witnesses: `Verif.Backend.cov_vector_false`.
* **C190** The backends solve the same triangular systems. False with trans=1: torch applies lower to the transposed matrix. Proved without transposition, and for scipy with it.
  Witnesses: `Verif.Backend.solveTri_trans_false`.
* **C191** Percentiles, isscalar and nan_to_num agree between backends. False for lists of levels, arrays with one entry, and copy=False. Proved otherwise.
  Witnesses: `Verif.Backend.percentile_list_false`, `Verif.Backend.isscalar_false`, `Verif.Backend.nanToNum_copy_false`.
* **C192** Log-densities have the same shape with both backends. False for axes of length one; refusals agree. Shapes only.
  Witnesses: `Verif.Backend.logpdf_shape_false`.
* **C193** Asymmetric proposals are corrected. False of the code: the correction always uses the symmetric Gaussian density, so it is zero for every prop_rnd. Proved: steps with symmetric=False and True coincide. Exact arithmetic.
  Witnesses: `Verif.MH.asymmetric_false`.
* **C194** Default proposals, initial proposal parameters and modes. False for the shapes: three axes are not checked against the dimension, and one diagonal per chain is read as a covariance when chains and coordinates are as many. The rest is proved.
  Witnesses: `Verif.MH.initParams_shape_false`.
* **C196** No uninitialised memory is read by the sampler. Proved for the run and its result; false for statistics of whole chains after a burn-in that stopped early, proved when all steps were made.
  Witnesses: `Verif.MH.whole_chain_memory_false`.
* **C197** set_seed makes random results reproducible. False of the code: multivariate_normal.rvs (hence Metropolis-Hastings), designs and SMC draw from generators that set_seed does not reach. Proved for programs that use rand, randn, choice and permutation, among them splits, folds, loaders, sample paths and NUTS.
  Witnesses: `Verif.Random.seed_reproducible_false`, `Verif.Random.callers_reproducible_false`.
* **C198** A seed given to a split, a fold or a loader concerns that call only. False of the code: the seed is given to the generator of the whole process. Proved what happens instead, and the property without a seed.
  Witnesses: `Verif.Random.seed_local_false`.
* **C199** SMC objects draw independently of each other and of gpmp.num. False for objects made without rng, which share the default argument. Proved for objects with a generator of their own.
  Witnesses: `Verif.Random.smc_independent_false`.
* **C200** The backend in use is the configured one. False: the package imports gpmp.num before set_backend can be called, and a failed choice is remembered. Proved that the choice never changes, and that the environment variable works.
  Witnesses: `Verif.Config.setBackend_effect_false`, `Verif.Config.import_retry_false`.
* **C201** get_dtype returns the element type in use. False after set_dtype or update(dtype=...), which forget the type for good. Proved without such calls.
  Witnesses: `Verif.Config.getDtype_false`.
* **C202** One version number. False for an empty VERSION file.
  Witnesses: `Verif.Config.version_false`.
* **C203** Attributes imported on first access. False for dir(gpmp.modeldiagnosis), which leaves out bound attributes; the rest is proved.
  Witnesses: `Verif.Config.dir_complete_false`.
* **C204** Predicting at the observation points returns the data. False of the code: when asarray has to convert, the two arguments become different objects and the nugget is left out, so that data are not returned (torch with numpy arrays). Proved exactly when it holds, zero mean.
  Witnesses: `Verif.Core.Obj.predict_at_data_false`.
* **C209** Observations may be a vector or a column. False of the code: with a given mean, columns of two or more raise in the likelihood, leave-one-out and conditional paths; gpmp.core.loo.loo of a column returns square arrays. Proved for vectors everywhere, and for columns in the zero-mean and restricted likelihoods and conditional paths. Exact arithmetic.
  Witnesses: `Verif.Core.Sh.nllMean_col_false`, `Verif.Core.Sh.looZero_col_false`, `Verif.Core.Sh.looMean_col_false`, `Verif.Core.Sh.condPathsMean_col_false`.
* **C210** A wrong number of observations is refused. False of the code: on torch the zero-mean likelihood is infinite for a wrong length; one observation is repeated when a mean is given and in conditional paths. Proved in the other cases.
  Witnesses: `Verif.Core.Sh.length_torch_false`, `Verif.Core.Sh.condPaths_single_false`.
* **C211** Shapes of squared norms and of the products with the inverse. False for the shapes: arrays with one axis on torch and for columns, vectors instead of columns in k_inverses. The values are proved.
  Witnesses: `Verif.Core.Sh.normZero_shape_false`.
* **C212** The PIT figure shows the empirical distribution function. False of the code: the corners use k/(n-1) instead of k/n. Proved what is drawn, and that it is at most 1/n above the distribution function. Exact arithmetic.
  Witnesses: `Verif.Plot.pit_ecdf_false`.
* **C213** Cross sections of criteria vary one parameter over its bounds. False of the code: bounds are looked up by the position of the panel, not of the parameter, and integer parameters are truncated. Proved for floating-point parameters, with bounds when all parameters are shown. Exact arithmetic.
  Witnesses: `Verif.Plot.cross_bounds_false`, `Verif.Plot.cross_integer_false`.
* **C214** The map of a criterion shows the criterion at the parameters of its axes. False of the code where the criterion is NaN (shown as 0, possibly the best value) and, without the shift, where it is negative. Proved otherwise. Exact arithmetic.
  Witnesses: `Verif.Plot.map_nan_false`, `Verif.Plot.map_unshifted_false`.
* **C215** Prediction cross sections pass through the anchor and vary one coordinate. False for points stored as integers, which truncate the swept coordinate. Proved for floating-point points. Exact arithmetic.
  Witnesses: `Verif.Plot.sections_integer_false`.
* **C216** Coverage bands have the probability of their label. False for the default labels with other levels. Proved otherwise, for any inverse of the normal distribution function. Exact arithmetic.
  Witnesses: `Verif.Plot.bands_labels_false`.
* **C218** Conversions give what their names say on both backends. False for to_np of a list, which is returned as it is (numpy) or refused (torch). The rest is proved. Rounding to single precision is an arbitrary function.
  Witnesses: `Verif.Backend.Conv.toNp_list_false`.
* **C219** copy and array return arrays of their own. False of array on torch, which shares the memory of a numpy array or tensor. Proved for copy on both and array on numpy.
  Witnesses: `Verif.Backend.Conv.array_copy_false`.
* **C220** Names of element types mean the same on both backends. False: float, int and single are refused and uint64, longdouble become other types. Proved for the usual names.
  Witnesses: `Verif.Backend.Conv.resolve_false`.
* **C221** asint keeps integers. False on torch from 2^31 on. Proved within 32 bits.
  Witnesses: `Verif.Backend.Conv.asint_range_false`.
* **C222** Only failures of linear algebra turn a criterion into infinity. False: exceptions are told apart by words in their message. Proved which ones are caught.
  Witnesses: `Verif.Backend.Err.linalg_only_false`.
* **C223** The normal distribution functions of the backends agree. False for scale 0 (torch) and in the lower tail (torch logcdf is -inf from -9 on). Proved in exact arithmetic otherwise.
  Witnesses: `Verif.Backend.Err.cdf_zero_scale_false`, `Verif.Backend.Err.logcdf_tail_false`.
* **C224** norm and var mean the same on both backends. False for norms of matrices without axis and for var with ddof at least the size. Proved otherwise.
  Witnesses: `Verif.Backend.Err.norm_matrix_false`, `Verif.Backend.Err.var_ddof_false`.
* **C225** cho_factor and cho_solve solve the system. False for vectors on torch, which are refused. Proved otherwise. Exact arithmetic; linear-algebra routines are parameters with a stated contract (shown satisfiable).
  Witnesses: `Verif.Backend.Err.cho_solve_vector_false`.
* **C226** Generated statistics are those of their names. False: the properties of a loader are bound methods, not values, and shards of integers before shards of floats raise. Proved for the methods of the data set, one column.
  Witnesses: `Verif.Data.Gen.quantile_approx_false`, `Verif.Data.Gen.property_value_false`, `Verif.Data.Gen.mean_order_false`.
* **C232** Reductions and array constructors are the same on both backends. False for means of integers, cumsum without an axis, linspace with the keyword num or without a number, full with an integer, meshgrid (transposed) and expand_dims with a tuple. Proved otherwise, for arrays with at least one axis where an axis is given. Exact arithmetic; linear-algebra routines are parameters with a stated contract (shown satisfiable).
  Witnesses: `Verif.Backend.Red.mean_integers_false`, `Verif.Backend.Red.cumsum_flat_false`, `Verif.Backend.Red.linspace_keyword_false`, `Verif.Backend.Red.meshgrid_transposed_false`, `Verif.Backend.Red.expandDims_tuple_false`.
* **C233** The log of a sequential Monte Carlo run is complete and in order. False: after an exception in a restart the iteration counter is not reset, so the next restart does not count from 1. Proved otherwise.
  Witnesses: `Verif.SMC.Log.restart_counter_false`.
* **C246** Origin, units, orientation and order of the input coordinates do not matter. False of the power-law prior, whose cut-offs are absolute (it is unchanged while all log length scales stay within them). Guesses: no constant coordinate. Exact arithmetic; linear-algebra routines are parameters with a stated contract (shown satisfiable).
  Witnesses: `Verif.Kernel.powerLaw_units_false`.
* **C248** maximum, minimum, exp and its like, and sort do the same in both backends. False in single precision, where the types differ between the backends, for booleans under exp (half precision in numpy, outside the model), and for sort of lists, of 0-d arrays and with axis=None; proved otherwise. Broadcasting, promotion and the sort order are the libraries' (modelled as documented). No rounding.
  Witnesses: `Verif.Backend.Elem.binary_single_false`, `Verif.Backend.Elem.unary_single_false`, `Verif.Backend.Elem.sort_false`.
* **C250** A move of the particles keeps the law they are meant to have. False of the program, which takes the covariance of the noise from the particles themselves: two particles on two distant intervals meet more often than the target law says. Proved for a covariance that does not depend on the particles. Exact arithmetic; linear-algebra routines are parameters with a stated contract (shown satisfiable).
  Witnesses: `Verif.SMC.move_adaptive_false`.
* **C252** The criteria tell covariance parameters apart. The theorems ending in _false are the two cases where parameters are not determined. Exact arithmetic; linear-algebra routines are parameters with a stated contract (shown satisfiable).
  Witnesses: `Verif.Core.nll_diagonal_false`, `Verif.Core.reml_two_points_false`.
* **C253** Particles that already follow the target are left in place by a Stein step, on average. False with a box, where the kernel pushes particles to the sides (uniform density on [0,1]); proved without one. Fixed bandwidth. Exact arithmetic; linear-algebra routines are parameters with a stated contract (shown satisfiable).
  Witnesses: `Verif.SVGD.svgd_box_false`.
* **C254** R-hat of long runs tells whether the chains have the same averages. rhat_scale_false is the case that the check does not see. Exact arithmetic; linear-algebra routines are parameters with a stated contract (shown satisfiable).
  Witnesses: `Verif.MH.rhat_scale_false`.
* **C256** Over data drawn from the model, the guessed variance is right on average. False for a linear mean (too small by the factor (n-q)/n) and for a constant mean (the data are not centred: too large by the square of the mean times 1'K^-1 1/n); proved for a zero mean. Exact arithmetic; linear-algebra routines are parameters with a stated contract (shown satisfiable).
  Witnesses: `Verif.Core.init_linear_false`, `Verif.Core.init_constant_false`.
* **C257** Criteria over batches are smallest, on average, at models that agree with the generating one on every batch. batched_pairs_false is the case that the criterion does not see. Exact arithmetic; linear-algebra routines are parameters with a stated contract (shown satisfiable).
  Witnesses: `Verif.Core.batched_pairs_false`.
* **C259** The logger has the level that was asked for and writes each message once; caches are cleared by name. False in three cases: the words basic_format and _styles, which are attributes of logging, make the import fail; with a handler on the root logger every message is written twice; NOTSET, the lowest level, hides what INFO shows. Proved otherwise.
  Witnesses: `Verif.Config.Log.level_env_false`, `Verif.Config.Log.written_once_false`, `Verif.Config.Log.lower_shows_more_false`.
* **C261** Small errors of the linear-algebra routines cause small errors of the results. The triangular solves with the computed factor, the products and the sums are exact; the external factorisations, solves and inverses are not.
  Witnesses: `Verif.Core.near_uniform_false`.
* **C262** Dual averaging drives the mean acceptance of the warm-up to target_accept. Real arithmetic; the transition is an arbitrary kernel.
  Witnesses: `Verif.Nuts.warm_mean_accept_false`.
* **C267** Subset simulation estimates the probability of the last level. False of the code for boxes of volume other than one: the particles start uniformly in the box with logpx = 0, so the estimate tends to P/volume(box). Proved when log_px is given relative to the uniform law on the box. -1e100 is read as minus infinity, as in double precision its exponential is 0. Exact arithmetic; linear-algebra routines are parameters with a stated contract (shown satisfiable).
  Witnesses: `Verif.SMC.subset_estimate_false`.
* **C269** A Metropolis-Hastings run started in the target law stays in it, even while the proposals are adapted. False of the code with freeze_adaptation=False (adaptive_sampling_false; adaptive_start shows that the starting law and draws exist). Proved with freeze_adaptation=True. The witness uses an interval of 1 between adaptations; sample_from_selection_criterion_mh fixes it to 50. Exact arithmetic; linear-algebra routines are parameters with a stated contract (shown satisfiable).
  Witnesses: `Verif.MH.adaptive_sampling_false`.
* **C270** Selecting covariance parameters by likelihood is a well-posed problem. False without bounds on the length scales (ml_attained_false: no best parameter; reml_unique_false: several), and for data in the span of the mean functions (reml_bounded_false). Proved: a best parameter exists for length scales in a bounded closed set and any variance, otherwise. Exact arithmetic; linear-algebra routines are parameters with a stated contract (shown satisfiable).
  Witnesses: `Verif.Core.ml_attained_false`, `Verif.Core.reml_unique_false`, `Verif.Core.reml_bounded_false`.
* **C271** With both priors, REMAP selection has a best parameter among all parameters. Exact arithmetic; linear-algebra routines are parameters with a stated contract (shown satisfiable).
  Witnesses: `Verif.Core.remap_variance_prior_false`.
* **C274** Gradients of covariances computed by torch are the derivatives, also at coinciding points. False of the code for pairwise=True between equal rows of different arrays (pairwise_grad_false) and, for p = 0, with respect to a coinciding point (point_grad_false). Proved otherwise. The local rules of PyTorch's backward pass are part of the model; one entry of the matrix at a time. Exact arithmetic; linear-algebra routines are parameters with a stated contract (shown satisfiable).
  Witnesses: `Verif.Torch.pairwise_grad_false`, `Verif.Torch.point_grad_false`.
* **C275** Scoring rules act entry by entry on arrays. False of the code for columns and matrices of predictions and for arrays of bounds (the _false theorems). Proved for vectors and numbers. scipy's bivariate distribution function is a parameter that drops axes of length one from its result. Exact arithmetic; linear-algebra routines are parameters with a stated contract (shown satisfiable).
  Witnesses: `Verif.Score.ei2A_column_false`, `Verif.Score.ei2A_matrix_false`, `Verif.Score.tcrpsA_bounds_false`.
* **C276** Regression with noisy observations: the kernels of the examples smooth optimally. False of example 07's posterior covariance (plain_cov_false) and of predictions at the very array of the observations (flagged_same_false). Proved otherwise. Exact arithmetic; linear-algebra routines are parameters with a stated contract (shown satisfiable).
  Witnesses: `Verif.Core.Noisy.plain_cov_false`, `Verif.Core.Noisy.flagged_same_false`.
* **C277** Which criteria define a posterior law that can be sampled. False without a prior on the ranges and a box (flat_proper_false) and, with the prior on the ranges alone, for data in the span of the mean functions (barrier_proper_false). Proved otherwise. Exact arithmetic; linear-algebra routines are parameters with a stated contract (shown satisfiable).
  Witnesses: `Verif.Core.flat_proper_false`, `Verif.Core.barrier_proper_false`.
* **C278** Index arguments of conditional sample paths name the rows of the paths. False for xi_ind of conditional_sample_paths, which is converted to integers first: a mask of booleans is read as the row numbers zero and one (index_mask_false), and floating-point indices are cut to integers instead of refused (index_floats_cut). Proved otherwise.
  Witnesses: `Verif.Core.Sh.index_mask_false`.
* **C283** fisher_information depends on the values of the parameters only. False for integer arrays (fisher_int_false, fisher_int_variance); proved for float arrays (fisher_float), and dCov_int says what is computed for integers. Steps with 2*epsilon < 1. Exact arithmetic; linear-algebra routines are parameters with a stated contract (shown satisfiable).
  Witnesses: `Verif.Core.Obj.fisher_int_false`.

### 4.3 What is and is not modelled

Modelled, function by function (section 4.4 has the list computed from the comments):

* `dataloader.py`: datasets with shards, indexing, subsets, splits, folds, statistics,
  scalers, loaders, collation.  Arrays are lists of rows; a permutation routine is an
  arbitrary permutation.
* `parameter/param.py`: values, normalisation, bounds, selection, concatenation, the
  heap of shared arrays, and the printed and exported listings.
* `config.py`, `__init__.py`, `num/shared.py`, `mcmc/__init__.py`,
  `modeldiagnosis/__init__.py`: configuration and the import of the package; the
  environment, the importable backends and the loaded modules are part of the state.
* `kernel/*`: Matérn and exponential kernels, covariance functions, priors, prior
  defaults and helpers, bounds, initial guesses, criteria, selection.  Optimisers are
  arbitrary terminating strategies that evaluate the criterion.
* `core/*`: kriging (three predictors and the null-space fallback), likelihoods,
  leave-one-out, Fisher information, norms, contrasts, sample paths, input validation.
  The kernels of examples 05, 06, 07 and 11 (noisy observations) are modelled too.
  Index arguments of conditional sample paths: integers, floats or masks with one axis.
  The methods of `Model` are modelled again on array objects with an identity (the
  covariance functions test `y is x`), and the functions that take observations on
  arrays with a shape (broadcasting, `einsum`).  Cholesky, QR, SVD, solvers and inverses are parameters with stated
  contracts, each shown to be satisfiable.
* `mcmc/*`: Metropolis–Hastings (steps, adaptation, schedule, diagnostics), SMC and
  subset simulation with the log of the run, NUTS (leapfrog, trees, adaptation, sampling),
  SVGD, posterior sampling drivers, covariance estimates, the demonstration densities.  Random draws are arbitrary functions; which
  generator each draw comes from, and what seeds it, is modelled separately.
* `misc/*`: data frames, number formatting, designs, scoring rules (scalars), test
  functions.
* `num/*`: the criterion objects with their gradients, second derivatives, batched
  evaluation, distances, `asarray`, `split`, `choice`, reductions, clipping, the normal
  density, finite differences, shapes in `multivariate_normal`.  Autograd is a contract:
  it finds the gradient of a value computed from the tensor asked about, and none
  otherwise.  Triangular and symmetric solvers, `cov`, `percentile`, log-densities and
  sampling functions of the two backends are compared.  Conversions are modelled on a
  memory of typed cells, so that sharing is visible.  Exceptions caught by the guards of
  the criteria carry a message.
* `modeldiagnosis/*`: performance tables, statistics of criteria on grids and by
  integration, unnormalised distributions, descriptions and the report.
* `modeldiagnosis/plotting.py`, `plot/plotutils.py`: figures up to the data handed to
  matplotlib (curves, panels, labels, colours of a map as numbers).

Simplifications that hold everywhere: no rounding; integers unbounded; shapes other than
those stated are not represented (each definition says which); time, warnings, logging
(other than the log of `SMC`) and progress display are ignored; `torch` and `numpy` variants are modelled separately
only where they differ in a way that a property can see.

Not modelled: drawing itself (matplotlib), the plotting functions of `mcmc` (other than the
data shown by `SMC.plot_state`), the methods
of `Figure` that only forward to matplotlib, automatic differentiation (other than the backward pass
of covariance entries, `Backend/Autograd.lean`, and of the likelihood criteria, `Core/Backward.lean`) and everything else inside `torch`, the thin wrappers of the backends that only rename or cast, loggers, and the
self-tests at the end of the `mcmc` modules.

### 4.4 Coverage by source file

Computed from the source citations in the comments of the Lean definitions, against
the functions and methods of `/repo/gpmp`: a function is *modelled* when at least 60%
of its statements are cited, *in part* when fewer are.

* `gpmp/__init__.py`: 3 of 3.
  Modelled: `_read_version`, `__getattr__`, `__dir__`.
* `gpmp/config.py`: 13 of 17.
  Modelled: `_normalize_dtype_spec`, `_normalize_backend_spec`, `_GPMPConfig.__init__`, `_GPMPConfig.update`, `_GPMPConfig.clear_caches`, `_detect_backend`, `init_backend`, `set_backend`, `get_backend`, `set_dtype`, `clear_caches`, `get_logger`, `set_log_level`.
  Covered by the definition of what they call or return, without a citation of their own: `get_config`.
  Not modelled: `_GPMPConfig.__str__`, `_GPMPConfig.__repr__`, `set_device`.
* `gpmp/core/fisher.py`: 3 of 3.
  Modelled: `fisher_information`, `fisher_information_cpd`, `fisher_information_torch`.
* `gpmp/core/kriging.py`: 5 of 5.
  Modelled: `kriging_predictor_with_zero_mean`, `kriging_predictor`, `select_predictor`, `_compute_posterior_variance`, `_kriging_predictor_nullspace`.
* `gpmp/core/likelihood.py`: 3 of 3.
  Modelled: `negative_log_likelihood_zero_mean`, `negative_log_likelihood`, `negative_log_restricted_likelihood`.
* `gpmp/core/linalg.py`: 7 of 7.
  Modelled: `diag_Kinv_from_chol`, `compute_contrast_matrix`, `compute_contrast_covariance`, `qr_nullspace`, `norm_k_sqrd_with_zero_mean`, `k_inverses`, `norm_k_sqrd`.
* `gpmp/core/loo.py`: 5 of 5.
  Modelled: `loo`, `_loo_with_zero_mean`, `_loo_with_parameterized_mean`, `_loo_with_linear_predictor_mean_cpd`, `_loo_with_linear_predictor_mean_spd`.
* `gpmp/core/model.py`: 14 of 21.
  Modelled: `Model.__init__`, `Model.kriging_predictor_with_zero_mean`, `Model.kriging_predictor`, `Model.predict`, `Model.loo`, `Model.negative_log_likelihood_zero_mean`, `Model.negative_log_likelihood`, `Model.negative_log_restricted_likelihood`, `Model.norm_k_sqrd_with_zero_mean`, `Model.k_inverses`, `Model.norm_k_sqrd`, `Model.fisher_information`, `Model.fisher_information_cpd`, `Model.sample_paths`.
  Covered by the definition of what they call or return, without a citation of their own: `Model.fisher_information_torch`, `Model.conditional_sample_paths`, `Model.conditional_sample_paths_parameterized_mean`, `Model._ensure_shapes_and_type`, `Model._validate_model_mean`.
  Not modelled: `Model.__repr__`, `Model.__str__`.
* `gpmp/core/sample_paths.py`: 3 of 3.
  Modelled: `sample_paths`, `conditional_sample_paths`, `conditional_sample_paths_parameterized_mean`.
* `gpmp/core/utils.py`: 2 of 2.
  Modelled: `ensure_shapes_and_type`, `validate_model_mean`.
* `gpmp/dataloader.py`: 42 of 44.
  Modelled: `Dataset.__init__`, `Dataset._compute_shard_bounds`, `Dataset.__len__`, `Dataset.__getitem__`, `Dataset.subset`, `Dataset.split`, `Dataset.k_fold_indices`, `Dataset.repeated_k_fold_indices`, `Dataset._reduce_min`, `Dataset._reduce_max`, `Dataset._reduce_mean`, `Dataset._reduce_var`, `Dataset._reduce_std`, `Dataset._reduce_quantile`, `Dataset._reduce_quantile_approx`, `Dataset._reduce_median`, `make_method`, `DataLoader.__init__`, `DataLoader.set_epoch`, `DataLoader.__iter__`, `DataLoader._fetch_batch`, `DataLoader.__len__`, `DataLoader.__getitem__`, `DataLoader.reduce_mean`, `make_property`, `Normalizer.__init__`, `Normalizer.transform`, `Normalizer.inverse_transform`, `Normalizer.fit`, `RobustScaler.__init__`, `RobustScaler.transform`, `RobustScaler.inverse_transform`, `RobustScaler.fit`, `MinMaxScaler.__init__`, `MinMaxScaler.transform`, `MinMaxScaler.inverse_transform`, `MinMaxScaler.fit`, `ObservationScaler.__init__`, `ObservationScaler.transform`, `ObservationScaler.inverse_transform`, `ObservationScaler.fit`, `collate_batches`.
  Not modelled: `Dataset.__repr__`, `DataLoader.__repr__`.
* `gpmp/kernel/bounds.py`: 2 of 2.
  Modelled: `_minimum_nonzero_gap_distance_1d`.
  In part: `empirical_bounds_factory`.
* `gpmp/kernel/exponential.py`: 1 of 1.
  Modelled: `exponential_kernel`.
* `gpmp/kernel/init.py`: 5 of 5.
  Modelled: `_dataloader_x_delta`, `_covparam_from_sigma2_and_rho`, `anisotropic_parameters_initial_guess_zero_mean`, `anisotropic_parameters_initial_guess_constant_mean`, `anisotropic_parameters_initial_guess`.
* `gpmp/kernel/matern.py`: 5 of 5.
  Modelled: `matern32_kernel`, `maternp_kernel`, `maternp_covariance_ii_or_tt`, `maternp_covariance_it`, `maternp_covariance`.
* `gpmp/kernel/parameter_selection.py`: 16 of 19.
  Modelled: `make_selection_criterion_with_gradient`, `autoselect_parameters`, `select_parameters_with_criterion`, `update_parameters_with_criterion`, `select_parameters_with_ml_constant_mean`, `update_parameters_with_ml_constant_mean`, `select_parameters_with_reml`, `update_parameters_with_reml`, `select_parameters_with_remap`, `update_parameters_with_remap`, `select_parameters_with_remap_with_power_laws_prior`, `update_parameters_with_remap_with_power_laws_prior`, `select_parameters_with_remap_gaussian_logsigma2`, `update_parameters_with_remap_gaussian_logsigma2`, `select_parameters_with_remap_gaussian_logsigma2_and_logrho_prior`, `update_parameters_with_remap_gaussian_logsigma2_and_logrho_prior`.
  Covered by the definition of what they call or return, without a citation of their own: `negative_log_likelihood_zero_mean`, `negative_log_likelihood`, `negative_log_restricted_likelihood`.
* `gpmp/kernel/prior_defaults.py`: 5 of 5.
  Modelled: `_validate_xi_shape`, `get_default_prior_hyperparameters`, `set_default_prior_hyperparameters`, `set_default_prior_hyperparameters_from_kwargs`, `resolve_prior_defaults_for_selection`.
* `gpmp/kernel/prior_helpers.py`: 6 of 6.
  Modelled: `_minimum_nonzero_gap_distance_1d`, `_componentwise_logrho_min_from_xi`, `compute_logrho_min_from_xi`, `resolve_covparam0_prior_and_init`, `resolve_covparam0_roles_for_update`, `resolve_logsigma2_logrho_prior_args`.
* `gpmp/kernel/priors.py`: 12 of 13.
  Modelled: `log_prior_jeffreys_variance`, `log_prior_power_law`, `log_prior_reference`, `_logsigma2_prior_std`, `log_prior_gaussian_logsigma2`, `neglog_f_logrho`, `log_prior_logrho_barrier_linear`, `neg_log_restricted_posterior_with_jeffreys_prior`, `neg_log_restricted_posterior_power_laws_prior`, `neg_log_restricted_posterior_logsigma2_prior`, `neg_log_restricted_posterior_with_logrho_prior`, `neg_log_restricted_posterior_logsigma2_and_logrho_prior`.
  Covered by the definition of what they call or return, without a citation of their own: `_resolve_prior_defaults`.
* `gpmp/kernel/utils.py`: 2 of 2.
  Modelled: `check_xi_zi_or_loader`, `prepare_data`.
* `gpmp/mcmc/__init__.py`: 2 of 2.
  Modelled: `__getattr__`, `__dir__`.
* `gpmp/mcmc/knn_cov.py`: 2 of 2.
  Modelled: `estimate_cov_matrix`, `estimate_cov_matrix_knn`.
* `gpmp/mcmc/mh.py`: 28 of 34.
  Modelled: `sample_multivariate_normal_with_jitter`, `MHOptions.__post_init__`, `MetropolisHastings.__init__`, `MetropolisHastings._log_prop`, `MetropolisHastings._get_cov_parameter`, `MetropolisHastings._initialize_proposal_distribution_params`, `MetropolisHastings._get_pooled_samples`, `MetropolisHastings._diminishing_adaptation_schedule`, `MetropolisHastings._validate_scheduler_args`, `MetropolisHastings.set_mode`, `MetropolisHastings.default_prop_rnd`, `MetropolisHastings.update_proposal_covariance_from_samples`, `MetropolisHastings.mhstep`, `MetropolisHastings.run_samples`, `MetropolisHastings.run_adaptive_RM`, `MetropolisHastings.run_adaptive_Haario`, `MetropolisHastings.run_adaptive`, `MetropolisHastings.run_burnin`, `MetropolisHastings.scheduler`, `MetropolisHastings.check_acceptance_rates`, `MetropolisHastings.compute_gelman_rubin_rhat`, `MetropolisHastings.check_convergence_gelman_rubin`, `MetropolisHastings.ks_statistics`, `MetropolisHastings.check_convergence_ks`, `MetropolisHastings.recompute_all_chains_full_covariance`, `MetropolisHastings.compute_empirical_covariance_whole_chain`.
  In part: `MetropolisHastings._compute_covariances_for_block`, `MetropolisHastings.compute_sliding_rates`.
  Not modelled: `MetropolisHastings._print_progress`, `MetropolisHastings._print_final_time`, `MetropolisHastings.plot_chains`, `MetropolisHastings.plot_empirical_distributions`, `test_linear_regression`, `test_chi2`.
* `gpmp/mcmc/nuts.py`: 19 of 26.
  Modelled: `_resolve_nuts_options`, `DualAveragingState.update`, `DualAveragingState.final`, `RunningDiagVar.__init__`, `RunningDiagVar.update_one`, `RunningDiagVar.update_batch`, `RunningDiagVar.var`, `make_warmup_windows`, `potential_and_grad`, `kinetic`, `leapfrog`, `is_uturn`, `find_reasonable_step_size`, `build_tree`, `nuts_transition`, `moving_average`, `rosenbrock_U`, `gaussian_2d_log_prob`.
  In part: `nuts_sample`.
  Not modelled: `SimpleLogger.__init__`, `SimpleLogger.log`, `describe_windows`, `plot_nuts_diagnostics`, `plot_rosenbrock_samples`, `log_prob`, `log_prob`.
* `gpmp/mcmc/param_posterior.py`: 12 of 12.
  Modelled: `_resolve_selection_criterion`, `_infer_dim`, `_normalize_bounds`, `_normalize_initial_states`, `_random_initial_states`, `_make_log_prob_mh`, `_make_log_prob_nuts`, `get_log_target_values`, `sample_from_selection_criterion_mh`, `sample_from_selection_criterion_nuts`, `sample_from_selection_criterion_smc`, `sample_from_selection_criterion_svgd`.
* `gpmp/mcmc/smc.py`: 30 of 34.
  Modelled: `ParticlesSetError.__init__`, `ParticlesSet.__init__`, `ParticlesSet.particles_init`, `ParticlesSet.set_logpdf`, `ParticlesSet.set_logpdf_with_parameter`, `ParticlesSet.reweight`, `ParticlesSet.ess`, `ParticlesSet.resample`, `ParticlesSet.multinomial_resample`, `ParticlesSet.residual_resample`, `ParticlesSet.perturb`, `ParticlesSet.move`, `ParticlesSet.rand`, `ParticlesSet.multinomial_rvs`, `ParticlesSet.multivariate_normal_rvs`, `ParticlesSet.randunif`, `SMC.__init__`, `SMC.update_log`, `SMC.log_snapshot`, `SMC.step`, `SMC.step_with_possible_restart`, `SMC.restart`, `SMC.move_with_controlled_acceptation_rate`, `SMC.compute_next_logpdf_param_ess`, `SMC.compute_p_value`, `SMC.compute_next_logpdf_param_p0`, `run_smc_sampling`, `log_indicator_density`, `run_subset_simulation`.
  In part: `SMC.plot_state`.
  Not modelled: `SMC.plot_particles`, `SMC.plot_empirical_distributions`, `test_run_smc_sampling_gaussian_mixture`, `test_subset_sampling_gaussian_icdf`.
* `gpmp/mcmc/svgd.py`: 12 of 17.
  Modelled: `_normalize_bounds`, `_project_to_box`, `_annealed_temperature`, `_resolve_preconditioner`, `_safe_eval_log_prob`, `_safe_value_and_grad`, `rbf_kernel_matrix`, `svgd_step`, `svgd_sample`, `rosenbrock_U`, `gaussian_2d_log_prob`, `gaussian_mixture_2d_log_prob`.
  Not modelled: `_to_float`, `plot_svgd_empirical_distributions`, `plot_svgd_particles`, `log_prob`, `log_prob`.
* `gpmp/misc/dataframe.py`: 8 of 8.
  Modelled: `ftos`, `DataFrame.__init__`, `DataFrame.__getitem__`, `DataFrame.__setitem__`, `DataFrame.__repr__`, `DataFrame.append_row`, `DataFrame.append_col`, `DataFrame.concat`.
* `gpmp/misc/designs.py`: 9 of 10.
  Modelled: `maxdist`, `mindist`, `filldist_approx`, `scale`, `regulargrid`, `randunif`, `ldrandunif`, `maximinlhs`, `maximinldlhs`.
  Not modelled: `discrepancy`.
* `gpmp/misc/scoringrules.py`: 6 of 6.
  Modelled: `crps_gaussian`, `h1`, `ei1_up`, `ei2_up`, `h1`, `tcrps_gaussian`.
* `gpmp/misc/testfunctions.py`: 8 of 8.
  Modelled: `twobumps`, `wave`, `braninhoo`, `hartmann4`, `hartmann6`, `borehole`, `detpep8d`, `ishigami`.
* `gpmp/modeldiagnosis/__init__.py`: 2 of 2.
  Modelled: `__getattr__`, `__dir__`.
* `gpmp/modeldiagnosis/param_stats.py`: 4 of 5.
  Modelled: `fast_univariate_stats`, `make_single_param_criterion_function`, `selection_criterion_statistics_fast`, `selection_criterion_statistics`.
  Not modelled: `_to_float`.
* `gpmp/modeldiagnosis/performance.py`: 4 of 4.
  Modelled: `_as_1d`, `compute_performance`, `_section_dataframe`, `perf`.
* `gpmp/modeldiagnosis/plotting.py`: 4 of 4.
  Modelled: `plot_selection_criterion_crosssections`, `plot_selection_criterion_2d`, `plot_selection_criterion_sigma_rho`.
  In part: `plot_pit_ecdf`.
* `gpmp/modeldiagnosis/report.py`: 2 of 3.
  Modelled: `modeldiagnosis_init`, `model_diagnosis_disp`.
  Not modelled: `diag`.
* `gpmp/modeldiagnosis/un1ddist.py`: 9 of 9.
  Modelled: `Unnormalized1DDistribution.__init__`, `Unnormalized1DDistribution._safe_exp`, `Unnormalized1DDistribution._f_scalar`, `Unnormalized1DDistribution.f`, `Unnormalized1DDistribution.pdf`, `Unnormalized1DDistribution.cdf`, `Unnormalized1DDistribution.mean`, `Unnormalized1DDistribution.var`, `Unnormalized1DDistribution.quantile`.
* `gpmp/modeldiagnosis/utils.py`: 3 of 4.
  Modelled: `sigma_rho_from_covparam`, `describe_array`, `pretty_print_dictionary`.
  Not modelled: `pretty_print_dictionnary`.
* `gpmp/num/numpy_backend.py`: 36 of 46.
  Modelled: `_is_linalg_exception`, `array`, `asarray`, `full`, `linspace`, `asdouble`, `asint`, `to_np`, `to_scalar`, `isarray`, `inftobigf`, `grad`, `value_and_grad`, `DifferentiableSelectionCriterion.evaluate`, `DifferentiableSelectionCriterion.evaluate_no_grad`, `DifferentiableSelectionCriterion.evaluate_pre_grad`, `BatchDifferentiableSelectionCriterion.__init__`, `BatchDifferentiableSelectionCriterion._batches`, `BatchDifferentiableSelectionCriterion.evaluate`, `BatchDifferentiableSelectionCriterion.evaluate_pre_grad`, `BatchDifferentiableSelectionCriterion.evaluate_no_grad`, `scaled_distance`, `scaled_distance_elementwise`, `logdet`, `cholesky_inv`, `cholesky_solve`, `set_seed`, `rand`, `randn`, `choice`, `permutation`, `multivariate_normal._mean_array`, `multivariate_normal.rvs`, `multivariate_normal.logpdf`, `multivariate_normal.cdf`.
  In part: `logspace`.
  Covered by the definition of what they call or return, without a citation of their own: `safe_inf`, `DifferentiableSelectionCriterion.__init__`, `DifferentiableSelectionCriterion.__call__`, `BatchDifferentiableSelectionCriterion.__call__`.
  Not modelled: `safe_neginf`, `empty`, `zeros`, `ones`, `eye`, `transpose`.
* `gpmp/num/shared.py`: 3 of 4.
  Modelled: `get_dtype`, `compute_gammaln`, `derivative_finite_diff`.
  Not modelled: `try_with_postmortem`.
* `gpmp/num/torch_backend.py`: 72 of 78.
  Modelled: `safe_inf`, `nan_to_num`, `_is_linalg_exception`, `copy`, `expand_dims`, `array`, `_resolve_torch_dtype`, `asarray`, `asdouble`, `asint`, `to_np`, `to_scalar`, `isarray`, `isscalar`, `scalar_safe`, `_sizes_from_bounds`, `split`, `transpose`, `axis_to_dim`, `std`, `var`, `cov`, `percentile`, `norm`, `min`, `max`, `maximum`, `minimum`, `clip`, `sort`, `inftobigf`, `grad`, `value_and_grad`, `DifferentiableSelectionCriterion.__init__`, `DifferentiableSelectionCriterion.__call__`, `DifferentiableSelectionCriterion.evaluate`, `DifferentiableSelectionCriterion.evaluate_no_grad`, `DifferentiableSelectionCriterion.evaluate_pre_grad`, `DifferentiableSelectionCriterion.gradient`, `BatchDifferentiableSelectionCriterion.__init__`, `BatchDifferentiableSelectionCriterion._prepare_param`, `BatchDifferentiableSelectionCriterion._batches`, `BatchDifferentiableSelectionCriterion.evaluate`, `BatchDifferentiableSelectionCriterion.evaluate_no_grad`, `BatchDifferentiableSelectionCriterion.evaluate_pre_grad`, `BatchDifferentiableSelectionCriterion.gradient`, `SecondOrderDifferentiableFunction.__init__`, `SecondOrderDifferentiableFunction.evaluate`, `SecondOrderDifferentiableFunction.gradient`, `SecondOrderDifferentiableFunction.hessian`, `custom_sqrt`, `cdist`, `scaled_distance`, `scaled_distance_elementwise`, `solve`, `solve_triangular`, `cho_factor`, `cho_solve`, `cholesky_solve`, `cholesky_inv`, `set_seed`, `rand`, `randn`, `choice`, `permutation`, `normal.cdf`, `normal.logcdf`, `normal.pdf`, `normal.logpdf`, `multivariate_normal._mean_vector`, `multivariate_normal.rvs`, `multivariate_normal.logpdf`.
  Not modelled: `safe_neginf`, `gammaln`, `array_equal`, `svd`, `multivariate_normal._as_torch_float`, `multivariate_normal.cdf`.
* `gpmp/parameter/param.py`: 27 of 28.
  Modelled: `Param.__init__`, `Param._parse_normalizations`, `Param._check_consistency`, `Param.values`, `Param.denormalized_values`, `Param.denormalized_values`, `Param._normalize`, `Param._denormalize`, `Param.get_paths`, `Param.select_by_path_prefix`, `Param.indices_by_path_prefix`, `Param.names_by_path_prefix`, `Param.get_by_name`, `Param.set_by_name`, `Param.get_by_path`, `Param.set_by_path`, `Param.set_from_unnormalized`, `Param.check_bounds`, `Param.__getitem__`, `Param.__add__`, `Param.concat`, `Param.to_dict`, `Param.to_simple_dict`, `Param.__repr__`, `make_anisotropic_param`, `param_from_covparam_anisotropic`, `param_from_covparam_anisotropic_noisy`.
  Covered by the definition of what they call or return, without a citation of their own: `Param.values`.
* `gpmp/plot/plotutils.py`: 4 of 19.
  Modelled: `Figure.subplot`, `Figure.plotgp`, `crosssections`, `plot_loo`.
  Not modelled: `Figure.__init__`, `Figure.set_boxoff`, `Figure.show`, `Figure.plot`, `Figure.plotdata`, `Figure.xlabel`, `Figure.ylabel`, `Figure.xylabels`, `Figure.title`, `Figure.legend`, `Figure.grid`, `Figure.xlim`, `Figure.ylim`, `Figure.axhline`, `Figure.axvline`.

### 4.5 Wrong programs

`seeded/LOG.jsonl` records 1503 edits of the model.  1388 made the build fail; 115 survived
at first, of which 105 led to stronger theorems; the others change nothing that a
property claims (the log says why).

## 5. Axioms of each theorem

From `#print axioms`.  P = `propext`, C = `Classical.choice`, Q = `Quot.sound`.

| theorem | axioms |
|---|---|
| `Verif.Data.getItem_eq_concat_row` | P, C, Q |
| `Verif.Data.len_eq_rows` | P, C, Q |
| `Verif.Data.mkDataset_fails_iff` | P, C, Q |
| `Verif.Data.getItem_negative_false` | P, C, Q |
| `Verif.Data.getItem_negative_partial` | P, C, Q |
| `Verif.Data.getItem_negative` | P, C, Q |
| `Verif.Data.subset_rows` | P, C, Q |
| `Verif.Data.split_partition` | P, C, Q |
| `Verif.Data.split_negative_overlap` | P, C, Q |
| `Verif.Data.kFold_numpy` | P, C, Q |
| `Verif.Data.kFold_degenerate` | P, C, Q |
| `Verif.Data.repeatedKFold_numpy` | P, C, Q |
| `Verif.Data.kFold_torch_false` | P, C, Q |
| `Verif.Data.kFold_torch_partial` | P, C, Q |
| `Verif.Data.kFold_torch_exact` | P, C, Q |
| `Verif.Data.split_no_bounds` | P |
| `Verif.Data.onePass_isEpoch` | P, C, Q |
| `Verif.Data.mkLoader_fails_iff` | P, Q |
| `Verif.Data.onePass_deterministic` | P |
| `Verif.Data.iter_finite` | P |
| `Verif.Data.iter_infinite` | P, C, Q |
| `Verif.Data.fetch_rows` | P, C, Q |
| `Verif.Data.fetch_rows_sorted` | P, C, Q |
| `Verif.Data.fetch_empty` | P, C, Q |
| `Verif.Data.getItem_eq_batch` | P, C, Q |
| `Verif.Data.getItem_errors` | P, Q |
| `Verif.Data.slice_eq` | P, C, Q |
| `Verif.Data.slice_list` | P, C, Q |
| `Verif.Data.slice_errors` | P |
| `Verif.Data.getSlice_eq` | P, C, Q |
| `Verif.Data.reduceMin_spec` | P, C, Q |
| `Verif.Data.reduceMax_spec` | P, C, Q |
| `Verif.Data.reduceMin_empty_shard` | P, C, Q |
| `Verif.Data.reduceMean_spec` | P, C, Q |
| `Verif.Data.reduceVar_spec` | P, C, Q |
| `Verif.Data.reduceVar_single` | P, C, Q |
| `Verif.Data.reduceStd_spec` | P, C, Q |
| `Verif.Data.stats_shard_invariant` | P, C, Q |
| `Verif.Data.reduceMean_cases` | P, C, Q |
| `Verif.Data.loaderMean_weighted` | P, C, Q |
| `Verif.Data.loaderMean_rows` | P, C, Q |
| `Verif.Data.loaderMean_no_batch` | P, C, Q |
| `Verif.Data.scaler_roundtrip` | P, C, Q |
| `Verif.Data.minMax_range` | P, C, Q |
| `Verif.Data.normalizer_standardises` | P, C, Q |
| `Verif.Data.fitF_eq` | P, C, Q |
| `Verif.Data.normalizer_one_row_false` | P, C, Q |
| `Verif.Data.normalizer_no_rows` | P, C, Q |
| `Verif.Data.normalizer_backends` | P, C, Q |
| `Verif.Data.collate_epoch` | P, Q |
| `Verif.Data.collate_empty` | none |
| `Verif.Data.evals_stream` | P, C, Q |
| `Verif.Data.epochs_const` | P, C, Q |
| `Verif.Data.evaluate_full_pass` | P, C, Q |
| `Verif.Data.evaluate_empty` | P, C, Q |
| `Verif.Backend.batchInit_spec` | P, C, Q |
| `Verif.Param.normalize_roundtrip` | P, C, Q |
| `Verif.Param.setDenormalized_get` | P, C, Q |
| `Verif.Param.setFromUnnormalized_get` | P, C, Q |
| `Verif.Param.mkParam_wf` | P, C, Q |
| `Verif.Param.fields_equal_length_false` | P, C, Q |
| `Verif.Param.fields_equal_length_partial` | P, C, Q |
| `Verif.Param.parseNorm_spec` | P, C, Q |
| `Verif.Param.setByPath_spec` | P, C, Q |
| `Verif.Param.concat_slices` | P, C, Q |
| `Verif.Param.slices_concat` | P, C, Q |
| `Verif.Param.byName_spec` | P, C, Q |
| `Verif.Param.getInt_spec` | P, C, Q |
| `Verif.Param.getSlice_spec` | P, C, Q |
| `Verif.Param.checkBounds_spec` | P, C, Q |
| `Verif.Config.run_inv` | P |
| `Verif.Config.init_inv` | P |
| `Verif.Config.setDtype_rejects_float32` | P |
| `Verif.Config.set_failures` | P |
| `Verif.Config.setDtype_writes` | P |
| `Verif.Config.update_none` | P |
| `Verif.Config.detect_spec` | P |
| `Verif.Config.getBackend_stable` | P |
| `Verif.Config.setBackend_get` | P |
| `Verif.Kernel.computeGammaln_spec` | P, C, Q |
| `Verif.Kernel.maternp_stores` | P, C, Q |
| `Verif.Kernel.maternp_formula` | P, C, Q |
| `Verif.Kernel.maternp_inf` | P, C, Q |
| `Verif.Kernel.maternFormula_shape_props` | P, C, Q |
| `Verif.Kernel.matern_zero` | P, C, Q |
| `Verif.Kernel.matern_one` | P, C, Q |
| `Verif.Kernel.matern_two` | P, C, Q |
| `Verif.Kernel.cov_self` | P, C, Q |
| `Verif.Kernel.cov_copy` | P, C, Q |
| `Verif.Kernel.covIT_transpose` | P, C, Q |
| `Verif.Kernel.cov_pairwise` | P, C, Q |
| `Verif.Core.zeroMean_blup` | P, C, Q |
| `Verif.Core.zeroMean_var_bounds` | P, C, Q |
| `Verif.Core.zeroMean_var_monotone` | P, C, Q |
| `Verif.Core.zeroMean_cov` | P, C, Q |
| `Verif.Core.universal_blue` | P, C, Q |
| `Verif.Core.universal_var_ge_zeroMean` | P, C, Q |
| `Verif.Core.nullspace_same_predictor_false` | P, C, Q |
| `Verif.Core.nullspace_unbiased_false` | P, C, Q |
| `Verif.Core.nullspace_partial` | P, C, Q |
| `Verif.Core.symSystem_spec` | P, C, Q |
| `Verif.Core.predict_interpolates` | P, C, Q |
| `Verif.Core.matern_interpolates` | P, C, Q |
| `Verif.Core.predict_nonneg` | P, C, Q |
| `Verif.Core.predict_refuses` | P, C, Q |
| `Verif.Core.loo_zeroMean_refit` | P, C, Q |
| `Verif.Core.loo_parameterized_refit` | P, C, Q |
| `Verif.Core.loo_linear_refit` | P, C, Q |
| `Verif.Core.loo_variants_agree` | P, C, Q |
| `Verif.Core.nll_eq` | P, C, Q |
| `Verif.Core.nll_failure` | P, C, Q |
| `Verif.Core.nll_mono` | P, C, Q |
| `Verif.Core.gaussDensity_integral` | P, C, Q |
| `Verif.Core.reml_eq` | P, C, Q |
| `Verif.Core.reml_invariant` | P, C, Q |
| `Verif.Core.reml_failure` | P, C, Q |
| `Verif.Core.predict_equivariant` | P, C, Q |
| `Verif.Core.loo_equivariant` | P, C, Q |
| `Verif.Core.fisher_psd` | P, C, Q |
| `Verif.Core.fisher_error` | P, C, Q |
| `Verif.Core.fisherCpd_psd` | P, C, Q |
| `Verif.Core.dCov_exact` | P, C, Q |
| `Verif.Core.dCov_tendsto` | P, C, Q |
| `Verif.Core.fisher_scale` | P, C, Q |
| `Verif.Core.finiteDiff_exact` | P, C, Q |
| `Verif.Core.finiteDiff_degree_five` | P, C, Q |
| `Verif.Core.finiteDiff_entry` | P, C, Q |
| `Verif.Core.finiteDiff_tendsto` | P, C, Q |
| `Verif.Core.condPaths_data` | P, C, Q |
| `Verif.Core.condPathsMean_data` | P, C, Q |
| `Verif.Core.condPathsMean_eq` | P, C, Q |
| `Verif.Core.condPaths_affine` | P, C, Q |
| `Verif.Core.condOp_cov` | P, C, Q |
| `Verif.Core.condPaths_posterior` | P, C, Q |
| `Verif.Kernel.powerLaw_cutoff_false` | P, C, Q |
| `Verif.Kernel.powerLaw_partial` | P, C, Q |
| `Verif.Kernel.powerLaw_default` | P, C, Q |
| `Verif.Kernel.neglogF_refuses` | P, C, Q |
| `Verif.Kernel.neglogF1_inf_iff` | P, C, Q |
| `Verif.Kernel.neglogF1_min` | P, C, Q |
| `Verif.Kernel.neglogF1_convex` | P, C, Q |
| `Verif.Kernel.autoselect_best_false` | P, C, Q |
| `Verif.Kernel.autoselect_best_partial` | P, C, Q |
| `Verif.Kernel.autoselect_feasible` | P, C, Q |
| `Verif.Kernel.autoselect_error` | P, C, Q |
| `Verif.Kernel.autoselect_no_linalg` | P, C, Q |
| `Verif.Data.evaluateNumpy_failure` | P, C, Q |
| `Verif.Data.evaluateTorch_failure_false` | P, C, Q |
| `Verif.Data.evaluate_backends_agree` | P, C, Q |
| `Verif.Kernel.update_split_false` | P, C, Q |
| `Verif.Kernel.selectWith_split_partial` | P, C, Q |
| `Verif.Kernel.selectWith_cov_only` | P, C, Q |
| `Verif.Kernel.autoBounds_false` | P, C, Q |
| `Verif.Kernel.autoBounds_partial` | P, C, Q |
| `Verif.MH.mhStep_accept_iff` | P, C, Q |
| `Verif.MH.mhStep_rejects_bad` | P, C, Q |
| `Verif.MH.mhStep_nan_stuck` | P, C, Q |
| `Verif.MH.acceptSet_volume` | P, C, Q |
| `Verif.MH.mh_reversible_partial` | P, C, Q |
| `Verif.MH.mh_nearly_reversible` | P, C, Q |
| `Verif.MH.mh_invariant_partial` | P, C, Q |
| `Verif.MH.detailed_balance_false` | P, C, Q |
| `Verif.MH.mhStep_accept_asym` | P, C, Q |
| `Verif.MH.runs_bookkeeping` | P, C, Q |
| `Verif.MH.scheduler_bookkeeping` | P, C, Q |
| `Verif.MH.scheduler_steps` | P, C, Q |
| `Verif.MH.schedulerRun_ok` | P, C, Q |
| `Verif.MH.initStates_spec` | P, C, Q |
| `Verif.MH.schedule_partial` | P, C, Q |
| `Verif.MH.schedule_end_false` | P, C, Q |
| `Verif.MH.rm_reversed_false` | P, C, Q |
| `Verif.MH.burnin_one_chain_false` | P, C, Q |
| `Verif.MH.burnin_partial` | P, C, Q |
| `Verif.MH.ks_never_ok_false` | P, C, Q |
| `Verif.MH.ks_torch_false` | P, C, Q |
| `Verif.MH.ks_ok_partial` | P, C, Q |
| `Verif.MH.rhat_affine` | P, C, Q |
| `Verif.MH.rhat_lower` | P, C, Q |
| `Verif.MH.rhat_constant` | P, C, Q |
| `Verif.MH.rhat_ok` | P, C, Q |
| `Verif.SMC.ess_bounds` | P, C, Q |
| `Verif.SMC.ess_scale` | P, C, Q |
| `Verif.SMC.ess_degenerate` | P, C, Q |
| `Verif.SMC.multinomial_resample` | P, C, Q |
| `Verif.SMC.residual_resample` | P, C, Q |
| `Verif.SMC.probs_fin` | P, C, Q |
| `Verif.SMC.probs_zero` | P, C, Q |
| `Verif.SMC.cached_history` | P, C, Q |
| `Verif.SMC.step_cached` | P, C, Q |
| `Verif.SMC.step_cached_residual` | P, C, Q |
| `Verif.SMC.stepRestart_partial` | P, C, Q |
| `Verif.SMC.stepRestart_same` | P, C, Q |
| `Verif.SMC.stepRestart_false` | P, C, Q |
| `Verif.SMC.cached_after_set_false` | P, C, Q |
| `Verif.SMC.subset_certain` | P, C, Q |
| `Verif.SMC.subset_certain_false` | P, C, Q |
| `Verif.SMC.subset_certain_partial` | P, C, Q |
| `Verif.Nuts.leapfrog_reverse` | P, C, Q |
| `Verif.Nuts.leapfrog_flip` | P, C, Q |
| `Verif.Nuts.energy_flip` | P, C, Q |
| `Verif.Nuts.uturn_reverse` | P, C, Q |
| `Verif.Nuts.leapfrog_volume` | P, C, Q |
| `Verif.Nuts.kinetic_deriv` | P, C, Q |
| `Verif.Nuts.leapfrog_hamilton` | P, C, Q |
| `Verif.Nuts.kinetic_momentum` | P, C, Q |
| `Verif.Nuts.tree_bounds` | P, C, Q |
| `Verif.Nuts.tree_orbit` | P, C, Q |
| `Verif.Nuts.tree_proposal` | P, C, Q |
| `Verif.Nuts.transition_spec` | P, C, Q |
| `Verif.Nuts.windows_tile` | P, C, Q |
| `Verif.Nuts.windows_default` | P, C, Q |
| `Verif.Nuts.tiles_unique` | P, Q |
| `Verif.Nuts.tiles_bounds` | P, C, Q |
| `Verif.Nuts.windows_base_zero_false` | P, Q |
| `Verif.Nuts.runVar_spec` | P, C, Q |
| `Verif.Nuts.runVar_batches` | P, C, Q |
| `Verif.Nuts.findStep_ends` | P, C, Q |
| `Verif.Nuts.findStep_bounds` | P, C, Q |
| `Verif.Nuts.findStep_base_one_false` | P, C, Q |
| `Verif.Nuts.clampStep_bounds` | P, C, Q |
| `Verif.Nuts.clampStep_inside` | P, C, Q |
| `Verif.Nuts.epsBounds_ok` | P, C, Q |
| `Verif.Nuts.stepAlpha_spec` | P, C, Q |
| `Verif.Nuts.stepAlpha_top` | P, C, Q |
| `Verif.SVGD.project_mem` | P, C, Q |
| `Verif.SVGD.project_id` | P, C, Q |
| `Verif.SVGD.project_idem` | P, C, Q |
| `Verif.SVGD.project_nearest2` | P, C, Q |
| `Verif.SVGD.project_inverted` | P, C, Q |
| `Verif.SVGD.normBounds_spec` | P, C, Q |
| `Verif.SVGD.precond_spec` | P, C, Q |
| `Verif.SVGD.precond_refuses` | P, C, Q |
| `Verif.SVGD.rbf_ok` | P, C, Q |
| `Verif.SVGD.bandwidth_pos` | P, C, Q |
| `Verif.SVGD.kernel_spec` | P, C, Q |
| `Verif.SVGD.kernel_posDef` | P, C, Q |
| `Verif.SVGD.kernel_range_false` | P, C, Q |
| `Verif.SVGD.step_succeeds` | P, C, Q |
| `Verif.SVGD.step_in_box` | P, C, Q |
| `Verif.SVGD.step_in_box_false` | P, C, Q |
| `Verif.SVGD.run_in_box` | P, C, Q |
| `Verif.SVGD.run_in_box_false` | P, C, Q |
| `Verif.SVGD.step_alive` | P, C, Q |
| `Verif.SVGD.step_stein` | P, C, Q |
| `Verif.SVGD.step_moves` | P, C, Q |
| `Verif.SVGD.dead_stays` | P, C, Q |
| `Verif.SVGD.failing_stays` | P, C, Q |
| `Verif.SVGD.failing_neighbour_stays` | P, C, Q |
| `Verif.SVGD.repulsion_sum_zero` | P, C, Q |
| `Verif.SVGD.velocity_total` | P, C, Q |
| `Verif.SVGD.lone_particle` | P, C, Q |
| `Verif.SVGD.dead_no_influence` | P, C, Q |
| `Verif.SVGD.dead_no_influence_fixed` | P, C, Q |
| `Verif.SVGD.dead_no_influence_false` | P, C, Q |
| `Verif.SVGD.annealed_first` | P, C, Q |
| `Verif.SVGD.annealed_last` | P, C, Q |
| `Verif.SVGD.annealed_bounds` | P, C, Q |
| `Verif.SVGD.annealed_mono` | P, C, Q |
| `Verif.SVGD.annealed_even` | P, C, Q |
| `Verif.SVGD.annealed_refuses` | P, C, Q |
| `Verif.SVGD.run_temperatures` | P, C, Q |
| `Verif.SVGD.annealed_first_false` | P, C, Q |
| `Verif.Posterior.resolve_iff` | P, C, Q |
| `Verif.Posterior.logProb_spec` | P, C, Q |
| `Verif.Posterior.logProb_proper` | P, C, Q |
| `Verif.Posterior.setup_iff` | P, C, Q |
| `Verif.Posterior.setup_accepts` | P, C, Q |
| `Verif.Posterior.setup_info` | P, C, Q |
| `Verif.Posterior.setup_reads` | P, C, Q |
| `Verif.Posterior.setup_random` | P, C, Q |
| `Verif.Posterior.setup_transposed_false` | P, C, Q |
| `Verif.Posterior.setup_misread_false` | P, C, Q |
| `Verif.Posterior.normStates_scalar` | P, C, Q |
| `Verif.DataFrame.get_block` | P, C, Q |
| `Verif.DataFrame.get_part` | P, C, Q |
| `Verif.DataFrame.get_entry` | P, C, Q |
| `Verif.DataFrame.get_entry_total` | P, C, Q |
| `Verif.DataFrame.get_string` | P, C, Q |
| `Verif.DataFrame.get_names_false` | P |
| `Verif.DataFrame.get_lengths_false` | P |
| `Verif.DataFrame.slice_range` | P, C, Q |
| `Verif.DataFrame.slice_valid` | P, C, Q |
| `Verif.DataFrame.other_refused` | P, Q |
| `Verif.DataFrame.column_beyond` | P, C, Q |
| `Verif.Designs.regulargrid_spec` | P, C, Q |
| `Verif.Designs.regulargrid_in_box` | P, C, Q |
| `Verif.Designs.regulargrid_nodup` | P, C, Q |
| `Verif.Designs.node_ends` | P, C, Q |
| `Verif.Designs.regulargrid_int` | P, C, Q |
| `Verif.Designs.regulargrid_refuses` | P, C, Q |
| `Verif.Designs.regulargrid_superfluous` | P, C, Q |
| `Verif.Designs.filldist_is_min` | P, C, Q |
| `Verif.Designs.filldist_le_partial` | P, C, Q |
| `Verif.Designs.filldist_false` | P, C, Q |
| `Verif.Designs.filldist_empty` | P, C, Q |
| `Verif.Designs.maximin_best` | P, C, Q |
| `Verif.Designs.maximin_raises` | P, C, Q |
| `Verif.Designs.maximin_cube` | P, C, Q |
| `Verif.Designs.maximinlhs_zero` | P, C, Q |
| `Verif.Designs.maximinlhs_best` | P, C, Q |
| `Verif.Designs.scale_latin` | P, C, Q |
| `Verif.Designs.maximin_latin` | P, C, Q |
| `Verif.Designs.maximin_box_false` | P, C, Q |
| `Verif.Score.crps_integral` | P, C, Q |
| `Verif.Score.crps_translate` | P, C, Q |
| `Verif.Score.crps_scale` | P, C, Q |
| `Verif.Score.crps_symm` | P, C, Q |
| `Verif.Score.crps_mono` | P, C, Q |
| `Verif.Score.crps_zero_false` | P, C, Q |
| `Verif.Score.crps_negative_false` | P, C, Q |
| `Verif.Performance.loo_values` | P, C, Q |
| `Verif.Performance.test_values` | P, C, Q |
| `Verif.Performance.score_laws` | P, C, Q |
| `Verif.Performance.score_constant_false` | P, C, Q |
| `Verif.TestFunctions.detpep8d_missing` | P, C, Q |
| `Verif.TestFunctions.detpep8d_agrees` | P, C, Q |
| `Verif.TestFunctions.detpep8d_false` | P, C, Q |
| `Verif.Data.reduceQuantile_refuses` | P, C, Q |
| `Verif.Data.reduceQuantile_spec` | P, C, Q |
| `Verif.Data.robust_standardises` | P, C, Q |
| `Verif.Data.reduceQuantile_interp` | P, C, Q |
| `Verif.Param.anisotropic_logbounds_false` | P, C, Q |
| `Verif.Param.anisotropic_partial` | P, C, Q |
| `Verif.Param.anisotropic_default` | P, C, Q |
| `Verif.Param.simpleDict_false` | P, C, Q |
| `Verif.Param.simpleDict_partial` | P, C, Q |
| `Verif.Param.setFromUnnormalized_atomic_false` | P, C, Q |
| `Verif.Param.setFromUnnormalized_atomic_partial` | P, C, Q |
| `Verif.Config.dtype_only_float64_false` | P |
| `Verif.Config.dtype_only_float64_partial` | P |
| `Verif.Config.dtype_refusal` | P |
| `Verif.Config.env_agrees_false` | P |
| `Verif.Config.env_agrees_partial` | P |
| `Verif.Config.setBackend_none` | P |
| `Verif.Kernel.scaledDistance_backends` | P, C, Q |
| `Verif.Kernel.scaledDistance_eq_zero` | P, C, Q |
| `Verif.Core.reml_explicit` | P, C, Q |
| `Verif.Core.predict_copy` | P, C, Q |
| `Verif.Core.matern_copy` | P, C, Q |
| `Verif.Core.norms_zero` | P, C, Q |
| `Verif.Core.normKSqrd_gls` | P, C, Q |
| `Verif.Core.Obj.inverses_value` | P, C, Q |
| `Verif.Core.samplePathsChol_spec` | P, C, Q |
| `Verif.Core.samplePathsSvd_spec` | P, C, Q |
| `Verif.Core.samplePathsSvd_indefinite` | P, C, Q |
| `Verif.Core.Validate.mkModel_spec` | P, C, Q |
| `Verif.Core.Validate.meanparam_required_false` | none |
| `Verif.Core.Validate.meanparam_required_partial` | P, C, Q |
| `Verif.Core.Validate.ensureShapes_spec` | P, C, Q |
| `Verif.Kernel.neglogF1_nonneg_false` | P, C, Q |
| `Verif.Kernel.neglogF1_nonneg_partial` | P, C, Q |
| `Verif.Kernel.defaults_range_false` | P, C, Q |
| `Verif.Kernel.defaults_range_partial` | P, C, Q |
| `Verif.Kernel.defaults_atomic_false` | P, C, Q |
| `Verif.Kernel.defaults_atomic_partial` | P, C, Q |
| `Verif.Kernel.minGap_spec` | P, C, Q |
| `Verif.Kernel.remap_default_false` | P, C, Q |
| `Verif.Kernel.remap_default_partial` | P, C, Q |
| `Verif.Kernel.remap_default_partial_half` | P, C, Q |
| `Verif.Kernel.remap_flat_refused_false` | P, C, Q |
| `Verif.Kernel.resolvePriorInit_spec` | P |
| `Verif.Kernel.resolveRoles_spec` | P |
| `Verif.Kernel.bounds_contain_guess_false` | P, C, Q |
| `Verif.Kernel.bounds_partial` | P, C, Q |
| `Verif.Data.onePass_seeded` | P |
| `Verif.Data.onePass_shift` | P, Q |
| `Verif.Data.first_pass_seed` | P |
| `Verif.Kernel.logsigma2Std_calibrated` | P, C, Q |
| `Verif.Kernel.logPriorGaussian_density` | P, C, Q |
| `Verif.Kernel.logPriorGaussian_refuses` | P, C, Q |
| `Verif.Kernel.exists_invCdf` | P, C, Q |
| `Verif.Kernel.checkSource_spec` | P, Q |
| `Verif.Core.mapJeffreys_min` | P, C, Q |
| `Verif.Core.mapPowerLaw_unbounded_false` | P, C, Q |
| `Verif.Core.matern_scale` | P, C, Q |
| `Verif.Kernel.selectMlConstant_spec` | P, C, Q |
| `Verif.Kernel.selectMlConstant_refuses` | P, C, Q |
| `Verif.Core.initSigma2Zero_min` | P, C, Q |
| `Verif.Core.initSigma2_reml_false` | P, C, Q |
| `Verif.Core.initSigma2_partial` | P, C, Q |
| `Verif.Core.initConstantMean_mean` | P, C, Q |
| `Verif.Core.initConstantMean_sigma2_false` | P, C, Q |
| `Verif.Core.guessZeroMean_min` | P, C, Q |
| `Verif.Core.guessConstantMean_value` | P, C, Q |
| `Verif.Core.guessLinear_value` | P, C, Q |
| `Verif.MH.scheduler_drops_last_false` | P, C, Q |
| `Verif.MH.scheduler_returns_partial` | P, C, Q |
| `Verif.MH.proposal_posDef` | P, C, Q |
| `Verif.MH.haario_one_sample` | P, C, Q |
| `Verif.MH.slidingRate_spec` | P, C, Q |
| `Verif.MH.sampleJitter_spec` | P, C, Q |
| `Verif.SMC.level_fraction` | P, C, Q |
| `Verif.SMC.subsetLevel_spec` | P, C, Q |
| `Verif.SMC.nextP0_spec` | P, C, Q |
| `Verif.SMC.nextP0_ends_partial` | P, C, Q |
| `Verif.SMC.nextP0_ends_false` | P, C, Q |
| `Verif.SMC.nextEss_between` | P, C, Q |
| `Verif.SMC.restart_monotone` | P, C, Q |
| `Verif.SMC.reweight_telescope` | P, C, Q |
| `Verif.SMC.reweight_telescope_false` | P, C, Q |
| `Verif.SMC.controlledMove_spec` | P, C, Q |
| `Verif.SMC.perturb_bounds` | P, C, Q |
| `Verif.SMC.controlledMove_rejects` | P, C, Q |
| `Verif.SMC.controlledMove_returns` | P, C, Q |
| `Verif.SMC.controlledMove_rejects_default` | P, C, Q |
| `Verif.SMC.perturb_repair_false` | P, C, Q |
| `Verif.SMC.perturb_partial` | P, C, Q |
| `Verif.SMC.unknown_scheme_false` | P, C, Q |
| `Verif.SMC.unknown_scheme_partial` | P, C, Q |
| `Verif.SMC.bot_rejected` | P, C, Q |
| `Verif.SMC.accepts_fin` | P, C, Q |
| `Verif.SMC.outside_rejected_false` | P, C, Q |
| `Verif.Nuts.leapfrog_gauss` | P, C, Q |
| `Verif.Nuts.mass_is_variance` | P, C, Q |
| `Verif.Nuts.mass_adapt_false` | P, C, Q |
| `Verif.Nuts.mass_inverse_partial` | P, C, Q |
| `Verif.Nuts.window_mass` | P, C, Q |
| `Verif.Nuts.window_mass_var` | P, C, Q |
| `Verif.Nuts.warmStep_outside` | P, C, Q |
| `Verif.Nuts.tree_count` | P, C, Q |
| `Verif.Nuts.tree_uniform` | P, C, Q |
| `Verif.Nuts.transition_weight` | P, C, Q |
| `Verif.Nuts.weight_prob` | P, C, Q |
| `Verif.Nuts.weight_symm` | P, C, Q |
| `Verif.Nuts.nuts_balance_partial` | P, C, Q |
| `Verif.Nuts.nuts_balance_false` | P, C, Q |
| `Verif.Nuts.nutsSample_spec` | P, C, Q |
| `Verif.Nuts.warmLoop_adm` | P, C, Q |
| `Verif.Nuts.resolve_spec` | P, C, Q |
| `Verif.Nuts.resolve_reset_false` | P, C, Q |
| `Verif.Nuts.da_closed` | P, C, Q |
| `Verif.Nuts.da_monotone` | P, C, Q |
| `Verif.Nuts.da_average` | P, C, Q |
| `Verif.Nuts.da_final_average` | P, C, Q |
| `Verif.Nuts.da_final_first` | P, C, Q |
| `Verif.Nuts.movingAverage_partial` | P, C, Q |
| `Verif.Nuts.movingAverage_false` | P, C, Q |
| `Verif.SVGD.interior_score` | P, C, Q |
| `Verif.SVGD.interior_score_exact` | P, C, Q |
| `Verif.SVGD.boundary_score_zero` | P, C, Q |
| `Verif.SVGD.boundary_stuck` | P, C, Q |
| `Verif.SVGD.run_boundary_stuck` | P, C, Q |
| `Verif.SVGD.boundary_score_false` | P, C, Q |
| `Verif.SVGD.step_perm` | P, C, Q |
| `Verif.SVGD.kernel_units` | P, C, Q |
| `Verif.SVGD.kernel_units_false` | P, C, Q |
| `Verif.SVGD.run_spec` | P, C, Q |
| `Verif.SVGD.sample_ok` | P, C, Q |
| `Verif.SVGD.sample_negative` | P, C, Q |
| `Verif.SVGD.initCloud_given` | P, C, Q |
| `Verif.SVGD.initCloud_sizes` | P, C, Q |
| `Verif.SVGD.initCloud_box` | P, C, Q |
| `Verif.SVGD.step_meanNorm` | P, C, Q |
| `Verif.SVGD.run_meanNorm` | P, C, Q |
| `Verif.Kernel.matern_posSemidef` | P, C, Q |
| `Verif.Kernel.matern_posDef` | P, C, Q |
| `Verif.Kernel.cov_posDef` | P, C, Q |
| `Verif.Kernel.cov_posDef_nugget` | P, C, Q |
| `Verif.Kernel.cov_repeated_singular` | P, C, Q |
| `Verif.Kernel.cov_joint` | P, C, Q |
| `Verif.PD.shape_mixture` | P, C, Q |
| `Verif.PD.shape_quad_pos` | P, C, Q |
| `Verif.PD.gauss_quad_pos` | P, C, Q |
| `Verif.Core.matern_predict_zero` | P, C, Q |
| `Verif.Core.matern_var_at_obs` | P, C, Q |
| `Verif.Core.matern_universal` | P, C, Q |
| `Verif.Core.matern_posterior_cov` | P, C, Q |
| `Verif.Core.matern_interpolates_all` | P, C, Q |
| `Verif.Core.matern_criteria` | P, C, Q |
| `Verif.Core.matern_repeated_fails` | P, C, Q |
| `Verif.MH.scheduler_iff` | P, C, Q |
| `Verif.MH.runBurnin_iff` | P, C, Q |
| `Verif.MH.runAdaptive_iff` | P, C, Q |
| `Verif.MH.runPhase_total` | P, C, Q |
| `Verif.Posterior.mh_samples` | P, C, Q |
| `Verif.Posterior.mh_in_box` | P, C, Q |
| `Verif.Posterior.mh_succeeds_iff` | P, C, Q |
| `Verif.Posterior.mh_defaults` | P, C, Q |
| `Verif.Posterior.mh_single_chain_false` | P, C, Q |
| `Verif.Posterior.mh_in_box_false` | P, C, Q |
| `Verif.Posterior.logTargetValues_aligned` | P, C, Q |
| `Verif.Posterior.logTargetValues_shape_false` | P, C, Q |
| `Verif.Posterior.logTargetValues_raises` | P, C, Q |
| `Verif.Posterior.nuts_raises_iff` | P, C, Q |
| `Verif.Posterior.nuts_samples` | P, C, Q |
| `Verif.Posterior.nuts_outside_false` | P, C, Q |
| `Verif.NutsEdge.edge_stuck` | P, C, Q |
| `Verif.NutsEdge.edge_chain` | P, C, Q |
| `Verif.NutsEdge.nuts_edge` | P, C, Q |
| `Verif.NutsEdge.nuts_edge_false` | P, C, Q |
| `Verif.Posterior.smcTarget_spec` | P, C, Q |
| `Verif.Posterior.smcTarget_raises` | P, C, Q |
| `Verif.Posterior.smc_raises` | P, C, Q |
| `Verif.Posterior.smc_raises_false` | P, C, Q |
| `Verif.Posterior.smc_scalar_box_false` | P, C, Q |
| `Verif.Posterior.smc_dimension` | P, C, Q |
| `Verif.Posterior.svgd_initial_vector` | P, C, Q |
| `Verif.Posterior.svgd_initial_info` | P, C, Q |
| `Verif.Posterior.svgd_initial_rows` | P, C, Q |
| `Verif.Posterior.svgd_initial_random` | P, C, Q |
| `Verif.Posterior.svgd_in_box` | P, C, Q |
| `Verif.Posterior.svgd_succeeds_iff` | P, C, Q |
| `Verif.Posterior.svgd_no_step_false` | P, C, Q |
| `Verif.Posterior.svgd_options_false` | P, C, Q |
| `Verif.SVGD.run_succeeds` | P, C, Q |
| `Verif.DataFrame.ftos_accuracy` | P, C, Q |
| `Verif.DataFrame.ftos_mantissa` | P, C, Q |
| `Verif.DataFrame.ftos_mantissa_false` | P, C, Q |
| `Verif.DataFrame.ftos_nonfinite` | P, C, Q |
| `Verif.DataFrame.ftos_half_unit` | P, C, Q |
| `Verif.DataFrame.set_entry` | P, C, Q |
| `Verif.DataFrame.set_row` | P, C, Q |
| `Verif.DataFrame.set_column_false` | P, Q |
| `Verif.DataFrame.append_row` | P |
| `Verif.DataFrame.append_row_refuses` | P |
| `Verif.DataFrame.append_col` | P, Q |
| `Verif.DataFrame.concat_rows` | P, Q |
| `Verif.DataFrame.concat_refuses` | P |
| `Verif.DataFrame.append_row_false` | none |
| `Verif.DataFrame.append_col_false` | P |
| `Verif.DataFrame.concat_shared_false` | P, C, Q |
| `Verif.DataFrame.get_shared_false` | P |
| `Verif.DataFrame.concat_cols` | P, Q |
| `Verif.DataFrame.repr_aligned` | P, C, Q |
| `Verif.DataFrame.repr_total` | P, C, Q |
| `Verif.DataFrame.repr_nan_false` | P, C, Q |
| `Verif.DataFrame.repr_row_false` | P, C, Q |
| `Verif.Designs.mindist_iff` | P, C, Q |
| `Verif.Designs.maxdist_iff` | P, C, Q |
| `Verif.Designs.mindist_total` | P, C, Q |
| `Verif.Designs.maxdist_total` | P, C, Q |
| `Verif.Designs.triangle` | P, C, Q |
| `Verif.Designs.scale_iff` | P, C, Q |
| `Verif.Designs.scale_coord` | P, C, Q |
| `Verif.Designs.scale_in_box` | P, C, Q |
| `Verif.Designs.randunif_in_box` | P, C, Q |
| `Verif.Designs.scale_mindist` | P, C, Q |
| `Verif.Designs.ldrandunif_best` | P, C, Q |
| `Verif.Designs.ldrandunif_unbound` | P, C, Q |
| `Verif.Score.tcrps_upper` | P, C, Q |
| `Verif.Score.tcrps_both` | P, C, Q |
| `Verif.Score.tcrps_lower` | P, C, Q |
| `Verif.Score.tcrps_none` | P, C, Q |
| `Verif.Score.tcrps_additive` | P, C, Q |
| `Verif.Score.tcrps_bounds_false` | P, C, Q |
| `Verif.Score.tcrps_exchanged_false` | P, C, Q |
| `Verif.Score.exists_bvn` | P, C, Q |
| `Verif.Score.ei1_expectation` | P, C, Q |
| `Verif.Score.ei2_expectation` | P, C, Q |
| `Verif.Score.crps_proper` | P, C, Q |
| `Verif.Score.crps_divergence` | P, C, Q |
| `Verif.Performance.test_constant` | P, C, Q |
| `Verif.Performance.loo_mean` | P, C, Q |
| `Verif.Performance.test_units` | P, C, Q |
| `Verif.Performance.compute_blocks` | P, C, Q |
| `Verif.Performance.test_accepts` | P, C, Q |
| `Verif.Performance.test_broadcast_false` | P, C, Q |
| `Verif.Performance.loo_length_false` | P, C, Q |
| `Verif.Performance.perf_prints` | P, C, Q |
| `Verif.Performance.perf_tables` | P, C, Q |
| `Verif.Performance.pit_values` | P, C, Q |
| `Verif.Performance.pit_zero_false` | P, C, Q |
| `Verif.Performance.pit_column_false` | P, C, Q |
| `Verif.TestFunctions.braninhoo_min` | P, C, Q |
| `Verif.TestFunctions.braninhoo_minimisers` | P, C, Q |
| `Verif.TestFunctions.twobumps_doc` | P, C, Q |
| `Verif.TestFunctions.wave_doc` | P, C, Q |
| `Verif.TestFunctions.wave_false` | P, C, Q |
| `Verif.TestFunctions.hartmann6_doc` | P, C, Q |
| `Verif.TestFunctions.hartmann6_coefficients` | P, C, Q |
| `Verif.TestFunctions.hartmann4_coefficients` | P, C, Q |
| `Verif.TestFunctions.hartmann6_bounds` | P, C, Q |
| `Verif.TestFunctions.hartmann4_false` | P, C, Q |
| `Verif.TestFunctions.borehole_series` | P, C, Q |
| `Verif.TestFunctions.borehole_monotone` | P, C, Q |
| `Verif.TestFunctions.ishigami_range` | P, C, Q |
| `Verif.TestFunctions.ishigami_attained` | P, C, Q |
| `Verif.TestFunctions.ishigami_symm` | P, C, Q |
| `Verif.KnnCov.knn_psd` | P, C, Q |
| `Verif.KnnCov.knn_all` | P, C, Q |
| `Verif.KnnCov.knn_fallback` | P, C, Q |
| `Verif.KnnCov.knn_small_false` | P, C, Q |
| `Verif.KnnCov.classical_shift` | P, C, Q |
| `Verif.KnnCov.exists_env` | P, C, Q |
| `Verif.ParamStats.fast_values` | P, C, Q |
| `Verif.ParamStats.fast_bounds` | P, C, Q |
| `Verif.ParamStats.fast_accepts` | P, C, Q |
| `Verif.ParamStats.fast_shift` | P, C, Q |
| `Verif.ParamStats.single_floats` | P, C, Q |
| `Verif.ParamStats.single_ints_false` | P, C, Q |
| `Verif.ParamStats.resolve_spec` | P, C, Q |
| `Verif.ParamStats.tableFast_spec` | P, C, Q |
| `Verif.ParamStats.tableFast_delta` | P, C, Q |
| `Verif.Un1d.table_spec` | P, C, Q |
| `Verif.Un1d.init_spec` | P, C, Q |
| `Verif.Un1d.valid_of_measurable` | P, C, Q |
| `Verif.Un1d.exists_scipy` | P, C, Q |
| `Verif.Un1d.shift_same` | P, C, Q |
| `Verif.Un1d.init_underflow` | P, C, Q |
| `Verif.Un1d.large_criterion_false` | P, C, Q |
| `Verif.Un1d.pdf_spec` | P, C, Q |
| `Verif.Un1d.cdf_eq` | P, C, Q |
| `Verif.Un1d.cdf_laws` | P, C, Q |
| `Verif.Un1d.pdf_outside_false` | P, C, Q |
| `Verif.Un1d.moments` | P, C, Q |
| `Verif.Un1d.moments_bounds` | P, C, Q |
| `Verif.Un1d.quantile_spec` | P, C, Q |
| `Verif.Un1d.stats_ok` | P, C, Q |
| `Verif.Report.Descr.unique` | P, C, Q |
| `Verif.Report.Descr.bounds` | P, C, Q |
| `Verif.Report.describeCol_spec` | P, C, Q |
| `Verif.Report.columns_spec` | P, C, Q |
| `Verif.Report.describe_spec` | P, C, Q |
| `Verif.Report.describe_scalar` | P, C, Q |
| `Verif.Report.sigmaRho_spec` | P, C, Q |
| `Verif.Report.applyBounds_spec` | P, C, Q |
| `Verif.Report.init_spec` | P, C, Q |
| `Verif.Report.build_spec` | P, C, Q |
| `Verif.Report.build_noisy_spec` | P, C, Q |
| `Verif.Report.init_scale_false` | P, C, Q |
| `Verif.Report.pretty_spec` | P, C, Q |
| `Verif.Report.pretty_false` | P, C, Q |
| `Verif.Report.dataPart_spec` | P, C, Q |
| `Verif.Report.over_sigma_false` | P, C, Q |
| `Verif.Kernel.postBoth_value` | P, C, Q |
| `Verif.Kernel.remap_prior_min` | P, C, Q |
| `Verif.Kernel.logPriorBarrier_broadcast` | P, C, Q |
| `Verif.Kernel.logPriorBarrier_lengths` | P, C, Q |
| `Verif.Kernel.selectRemap_spec` | P, C, Q |
| `Verif.Kernel.selectRemap_defaults` | P, C, Q |
| `Verif.Kernel.resolvePriorArgs_loader` | P, C, Q |
| `Verif.Kernel.concatX_spec` | P, C, Q |
| `Verif.Kernel.selectReml_spec` | P, C, Q |
| `Verif.Kernel.remap_ranges` | P, C, Q |
| `Verif.Kernel.remap_constant_false` | P, C, Q |
| `Verif.Kernel.remap_constant_answer_false` | P, C, Q |
| `Verif.Kernel.updateRemap_spec` | P, C, Q |
| `Verif.Kernel.updateRemap_recentres` | P, C, Q |
| `Verif.Kernel.updateGauss_spec` | P, C, Q |
| `Verif.Kernel.setFromKwargs_ok` | P, C, Q |
| `Verif.Kernel.setFromKwargs_error` | P, C, Q |
| `Verif.Kernel.setFromKwargs_atomic_false` | P, C, Q |
| `Verif.Kernel.setFromKwargs_run` | P, C, Q |
| `Verif.Kernel.getDefaults_spec` | P, C, Q |
| `Verif.Kernel.remap_batches` | P, C, Q |
| `Verif.Kernel.remap_batches_false` | P, C, Q |
| `Verif.Backend.gradient_sound` | P, C, Q |
| `Verif.Backend.gradient_after_value` | P, C, Q |
| `Verif.Backend.gradient_other_point` | P, C, Q |
| `Verif.Backend.gradient_again` | P, C, Q |
| `Verif.Backend.preGrad_values` | P, C, Q |
| `Verif.Backend.gradient_after_failure` | P, C, Q |
| `Verif.Backend.runG_polite_partial` | P, C, Q |
| `Verif.Backend.runG_failure_false` | P, C, Q |
| `Verif.Backend.noGrad_backends_false` | P, C, Q |
| `Verif.Backend.batch_preGrad_spec` | P, C, Q |
| `Verif.Backend.batch_gradient_derivative` | P, C, Q |
| `Verif.Backend.batch_gradient_stale_false` | P, C, Q |
| `Verif.Backend.prepareParam_mutates_false` | none |
| `Verif.Backend.hessian_sound` | P, C, Q |
| `Verif.Backend.hessian_protocol` | P, C, Q |
| `Verif.Backend.hessian_order` | P, C, Q |
| `Verif.Backend.hessian_affine_false` | P, C, Q |
| `Verif.Core.fisherTorch_value` | P, C, Q |
| `Verif.Core.fisherTorch_scale_false` | P, C, Q |
| `Verif.Core.fisherTorch_variance_false` | P, C, Q |
| `Verif.Core.logPriorReference_spec` | P, C, Q |
| `Verif.Core.logdet_spec` | P, C, Q |
| `Verif.Core.cholInv_spec` | P, C, Q |
| `Verif.Core.logdet_negative_definite_false` | P, C, Q |
| `Verif.Backend.asarray_spec` | P |
| `Verif.Backend.asarray_number_false` | P |
| `Verif.Backend.reduce_min_spec` | P, C, Q |
| `Verif.Backend.reduce_max_spec` | P, C, Q |
| `Verif.Backend.reduce_column` | P, C, Q |
| `Verif.Backend.clip_spec` | P, C, Q |
| `Verif.Backend.clip_one_sided` | P, C, Q |
| `Verif.Backend.infToBig_spec` | P, C, Q |
| `Verif.Backend.reduce_default_axis_false` | P, C, Q |
| `Verif.Backend.clip_integer_false` | P, C, Q |
| `Verif.Backend.infToBig_negative_false` | P, C, Q |
| `Verif.Backend.reduce_empty` | P, C, Q |
| `Verif.Backend.choice_noReplace` | P, C, Q |
| `Verif.Backend.choice_replace` | P, Q |
| `Verif.Backend.choiceWeights_spec` | P, C, Q |
| `Verif.Backend.choice_short_false` | P |
| `Verif.Backend.choice_default` | P, C, Q |
| `Verif.Backend.logpdfTorch_spec` | P, C, Q |
| `Verif.Backend.pdfTorch_value` | P, C, Q |
| `Verif.Backend.pdfTorch_unit_partial` | P, C, Q |
| `Verif.Backend.pdfTorch_integral_false` | P, C, Q |
| `Verif.Backend.gradNumpy_exact` | P, C, Q |
| `Verif.Backend.gradNumpy_integer_false` | P, C, Q |
| `Verif.Backend.valueAndGradTorch_spec` | P, C, Q |
| `Verif.Backend.rvs_shape_partial` | P, Q |
| `Verif.Backend.rvs_bad_cov` | P |
| `Verif.Backend.mean_spec` | P, Q |
| `Verif.Backend.rvs_single_false` | P |
| `Verif.Backend.mean_one_entry_false` | P, Q |
| `Verif.Backend.rvs_one` | P, Q |
| `Verif.Core.prepareData_spec` | P, Q |
| `Verif.Core.prepareData_check` | P |
| `Verif.Core.prepareData_half_false` | none |
| `Verif.Core.loaderDelta_spec` | P, C, Q |
| `Verif.Core.initZeroLoader_min` | P, C, Q |
| `Verif.Core.initZeroLoader_single` | P, C, Q |
| `Verif.Core.initZeroLoader_batches_false` | P, C, Q |
| `Verif.Core.initConstantLoader_spec` | P, C, Q |
| `Verif.Core.initConstantLoader_range` | P, C, Q |
| `Verif.Core.initConstantLoader_column_false` | P, C, Q |
| `Verif.Core.initLoader_empty_false` | P, C, Q |
| `Verif.Core.initLinearLoader_spec` | P, C, Q |
| `Verif.Core.covparamOf_finite` | P, C, Q |
| `Verif.Core.quantileApprox_exact` | P, C, Q |
| `Verif.Core.quantileApprox_shards_false` | P, C, Q |
| `Verif.Core.quantileApprox_share_false` | P, C, Q |
| `Verif.Kernel.updatePowerLaw_chain` | P, C, Q |
| `Verif.Kernel.updateMlConstant_chain` | P, C, Q |
| `Verif.Kernel.update_unset` | P, C, Q |
| `Verif.Kernel.update_nan_false` | P, C, Q |
| `Verif.Param.run_refines_partial` | P, C, Q |
| `Verif.Param.pick_copies` | P, C, Q |
| `Verif.Param.add_copies` | P, C, Q |
| `Verif.Param.alias_false` | P, C, Q |
| `Verif.Param.viewByName_write` | P, C, Q |
| `Verif.Param.viewByPath_spec` | P, C, Q |
| `Verif.Param.view_attached_partial` | P, C, Q |
| `Verif.Param.view_detached_false` | P, C, Q |
| `Verif.Param.setByName_float_partial` | P, C, Q |
| `Verif.Param.setFromUnnormalized_integer_false` | P, C, Q |
| `Verif.Param.setByName_integer` | P, C, Q |
| `Verif.Param.add_type` | P, C, Q |
| `Verif.Param.byPrefix_spec` | P, C, Q |
| `Verif.Param.dictLookup_last` | P, C, Q |
| `Verif.Param.toDict_spec` | P, C, Q |
| `Verif.Param.getPaths_spec` | P, C, Q |
| `Verif.Param.repr_outcome` | P, C, Q |
| `Verif.Param.table_aligned` | P, C, Q |
| `Verif.Param.table_empty` | P |
| `Verif.Param.repr_nan_false` | P, C, Q |
| `Verif.Param.cells_content` | P, C, Q |
| `Verif.Backend.cov_agree_partial` | P, C, Q |
| `Verif.Backend.cov_vector_false` | P, C, Q |
| `Verif.Backend.cov_entries` | P, C, Q |
| `Verif.Backend.cov_psd` | P, C, Q |
| `Verif.Backend.cov_second` | P, C, Q |
| `Verif.Backend.solveTri_partial` | P, C, Q |
| `Verif.Backend.solveTri_trans` | P, C, Q |
| `Verif.Backend.solveTri_trans_false` | P, C, Q |
| `Verif.Backend.solveTri_other` | P, C, Q |
| `Verif.Backend.percentile_partial` | P, C, Q |
| `Verif.Backend.percentile_list_false` | P, C, Q |
| `Verif.Backend.isscalar_partial` | P, Q |
| `Verif.Backend.isscalar_false` | none |
| `Verif.Backend.nanToNum_spec` | P, C, Q |
| `Verif.Backend.nanToNum_copy_false` | P, C, Q |
| `Verif.Backend.percentile_weights` | P, C, Q |
| `Verif.Backend.logpdf_shape_partial` | P, Q |
| `Verif.Backend.logpdf_refuse` | P, Q |
| `Verif.Backend.logpdf_shape_false` | none |
| `Verif.Backend.logpdf_shape_one` | P, C, Q |
| `Verif.MH.gaussLogProp_symm` | P, C, Q |
| `Verif.MH.asymmetric_same` | P, C, Q |
| `Verif.MH.asymmetric_false` | P, C, Q |
| `Verif.MH.defaultProp_spec` | P, C, Q |
| `Verif.MH.initParams_spec` | P, C, Q |
| `Verif.MH.initParams_shape_false` | P, C, Q |
| `Verif.MH.setMode_spec` | P, C, Q |
| `Verif.MH.validateSteps_spec` | P |
| `Verif.MH.initParams_cov` | P, C, Q |
| `Verif.MH.pooledSamples_spec` | P, C, Q |
| `Verif.MH.wholeCov_spec` | P, C, Q |
| `Verif.MH.recompute_spec` | P, C, Q |
| `Verif.MH.ksBlocks_spec` | P, C, Q |
| `Verif.MH.ksMatrix_symm` | P, C, Q |
| `Verif.MH.scheduler_memory` | P, C, Q |
| `Verif.MH.whole_chain_memory_partial` | P, C, Q |
| `Verif.MH.whole_chain_memory_false` | P, C, Q |
| `Verif.Random.seed_reproducible_partial` | P, Q |
| `Verif.Random.callers_within` | none |
| `Verif.Random.seed_reproducible_false` | P, C, Q |
| `Verif.Random.callers_reproducible_false` | P, C, Q |
| `Verif.Random.documented_reproducible` | P, Q |
| `Verif.Random.seeded_call_resets` | P, Q |
| `Verif.Random.seed_local_false` | P, C, Q |
| `Verif.Random.unseeded_call_advances` | none |
| `Verif.Random.repeated_folds_shift` | P |
| `Verif.Random.run_independent` | P, Q |
| `Verif.Random.smc_independent_partial` | P, Q |
| `Verif.Random.smc_independent_false` | P, C, Q |
| `Verif.Config.num_backend_fixed` | P, Q |
| `Verif.Config.setBackend_no_effect` | P |
| `Verif.Config.setBackend_effect_false` | P |
| `Verif.Config.import_env_partial` | P, Q |
| `Verif.Config.import_retry_false` | P |
| `Verif.Config.getDtype_partial` | P, Q |
| `Verif.Config.getDtype_lost` | P, Q |
| `Verif.Config.getDtype_false` | P |
| `Verif.Config.getDtype_set` | P, Q |
| `Verif.Config.version_partial` | none |
| `Verif.Config.version_nonempty` | none |
| `Verif.Config.version_false` | none |
| `Verif.Config.version_stripped` | P |
| `Verif.Config.version_default` | none |
| `Verif.Config.getAttr_stable` | P |
| `Verif.Config.getAttr_fails` | P |
| `Verif.Config.dir_complete` | P, Q |
| `Verif.Config.dir_complete_false` | P |
| `Verif.Config.mcmc_exports` | none |
| `Verif.Config.dirDiag_lists` | P |
| `Verif.Core.Obj.predict_at_data_iff` | P, C, Q |
| `Verif.Core.Obj.predict_at_data_false` | P, C, Q |
| `Verif.Core.Obj.sameKept_iff` | P |
| `Verif.Core.Obj.loo_refit` | P, C, Q |
| `Verif.Core.Obj.matern_loo_refit` | P, C, Q |
| `Verif.Core.Obj.criteria_read_arguments` | P, C, Q |
| `Verif.Core.Obj.column_accepted` | P, C, Q |
| `Verif.Core.Obj.predict_refusals` | P, C, Q |
| `Verif.Core.Obj.mean_refusals` | P, C, Q |
| `Verif.Core.Obj.loo_unknown` | P, C, Q |
| `Verif.Core.Obj.predictor_kind` | P, C, Q |
| `Verif.Core.Obj.matern_paths` | P, C, Q |
| `Verif.Core.predict_moved` | P, C, Q |
| `Verif.Core.Obj.predict_units` | P, C, Q |
| `Verif.Core.Obj.predict_select` | P, C, Q |
| `Verif.Core.Obj.matern_units` | P, C, Q |
| `Verif.Core.criteria_moved` | P, C, Q |
| `Verif.Core.Sh.nllZero_obs` | P, C, Q |
| `Verif.Core.Sh.nlrl_obs` | P, C, Q |
| `Verif.Core.Sh.nllMean_vec` | P, C, Q |
| `Verif.Core.Sh.nllMean_col_false` | P, C, Q |
| `Verif.Core.Sh.nllMean_col_one` | P, C, Q |
| `Verif.Core.Sh.looZero_vec` | P, C, Q |
| `Verif.Core.Sh.looZero_col_false` | P, C, Q |
| `Verif.Core.Sh.looMean_col_false` | P, C, Q |
| `Verif.Core.Sh.looLin_obs` | P, C, Q |
| `Verif.Core.Sh.condPaths_obs` | P, C, Q |
| `Verif.Core.Sh.condPathsMean_vec` | P, C, Q |
| `Verif.Core.Sh.condPathsMean_col_false` | P, C, Q |
| `Verif.Core.Sh.looMean_vec` | P, C, Q |
| `Verif.Core.Sh.length_refused` | P, C, Q |
| `Verif.Core.Sh.length_torch_false` | P, C, Q |
| `Verif.Core.Sh.length_mean` | P, C, Q |
| `Verif.Core.Sh.columns_refused` | P, C, Q |
| `Verif.Core.Sh.condPaths_single_false` | P, C, Q |
| `Verif.Core.Sh.condPaths_refused` | P, C, Q |
| `Verif.Core.Sh.normZero_obs` | P, C, Q |
| `Verif.Core.Sh.normZero_shape_false` | P, C, Q |
| `Verif.Core.Sh.norm_obs` | P, C, Q |
| `Verif.Core.Sh.kInverses_obs` | P, C, Q |
| `Verif.Core.Sh.kInverses_square` | P, C, Q |
| `Verif.Plot.pit_drawn` | P, C, Q |
| `Verif.Plot.pit_ecdf_partial` | P, C, Q |
| `Verif.Plot.pit_ecdf_false` | P, C, Q |
| `Verif.Plot.cross_sections_shown` | P, C, Q |
| `Verif.Plot.cross_names` | P, C, Q |
| `Verif.Plot.cross_refusals` | P, C, Q |
| `Verif.Plot.cross_default_range` | P, C, Q |
| `Verif.Plot.cross_bounds_partial` | P, C, Q |
| `Verif.Plot.cross_bounds_false` | P, C, Q |
| `Verif.Plot.cross_integer_false` | P, C, Q |
| `Verif.Plot.map_points` | P, C, Q |
| `Verif.Plot.map_range` | P, C, Q |
| `Verif.Plot.map_centre` | P, C, Q |
| `Verif.Plot.map_colours` | P, C, Q |
| `Verif.Plot.map_colours_order` | P, C, Q |
| `Verif.Plot.map_refusals` | P, C, Q |
| `Verif.Plot.map_nan_false` | P, C, Q |
| `Verif.Plot.map_unshifted_false` | P, C, Q |
| `Verif.Plot.sections_shown` | P, C, Q |
| `Verif.Plot.sections_panels` | P, C, Q |
| `Verif.Plot.section_facts` | P, C, Q |
| `Verif.Plot.sections_refusals` | P, C, Q |
| `Verif.Plot.sections_integer_false` | P, C, Q |
| `Verif.Plot.bands_default` | P, C, Q |
| `Verif.Plot.bands_single` | P, C, Q |
| `Verif.Plot.bands_nested` | P, C, Q |
| `Verif.Plot.bands_labels` | P, C, Q |
| `Verif.Plot.bands_labels_false` | P, C, Q |
| `Verif.Plot.bands_refusals` | P, C, Q |
| `Verif.Plot.documented_quantiles` | P, C, Q |
| `Verif.Plot.exists_inverts` | P, C, Q |
| `Verif.Plot.bands_hidden` | P, C, Q |
| `Verif.Plot.loo_bars` | P, C, Q |
| `Verif.Backend.Conv.conversions_spec` | P, C, Q |
| `Verif.Backend.Conv.conversions_total` | P, C, Q |
| `Verif.Backend.Conv.arrays_spec` | P, C, Q |
| `Verif.Backend.Conv.toNp_list_false` | P, C, Q |
| `Verif.Backend.Conv.asarray_types` | P, C, Q |
| `Verif.Backend.Conv.store_becomes` | P, C, Q |
| `Verif.Backend.Conv.dtype_becomes` | P, C, Q |
| `Verif.Backend.Conv.write_becomes` | P, C, Q |
| `Verif.Backend.Conv.isarray_own` | P, C, Q |
| `Verif.Backend.Conv.copy_independent` | P, C, Q |
| `Verif.Backend.Conv.asarray_shares` | P, C, Q |
| `Verif.Backend.Conv.array_copy_false` | P, C, Q |
| `Verif.Backend.Conv.resolve_partial` | P, C, Q |
| `Verif.Backend.Conv.resolve_refuses` | P, C, Q |
| `Verif.Backend.Conv.resolve_false` | P, C, Q |
| `Verif.Backend.Conv.resolve_first` | P, C, Q |
| `Verif.Backend.Conv.asint_partial` | P, C, Q |
| `Verif.Backend.Conv.asint_range_false` | P, C, Q |
| `Verif.Backend.Err.isLinalg_iff` | P, C, Q |
| `Verif.Backend.Err.guarded_spec` | P, C, Q |
| `Verif.Backend.Err.runSolver_erase` | P, C, Q |
| `Verif.Backend.Err.linalg_only_false` | P, C, Q |
| `Verif.Backend.Err.isLinalg_words` | P, C, Q |
| `Verif.Backend.Err.cdf_agree_partial` | P, C, Q |
| `Verif.Backend.Err.cdf_zero_scale_false` | P, C, Q |
| `Verif.Backend.Err.logcdf_tail_false` | P, C, Q |
| `Verif.Backend.Err.norm_agree_partial` | P, C, Q |
| `Verif.Backend.Err.norm_matrix_false` | P, C, Q |
| `Verif.Backend.Err.var_agree_partial` | P, C, Q |
| `Verif.Backend.Err.var_ddof_false` | P, C, Q |
| `Verif.Backend.Err.cho_solve_factor` | P, C, Q |
| `Verif.Backend.Err.cho_factor_fails` | P, C, Q |
| `Verif.Backend.Err.cho_solve_vector_false` | P, C, Q |
| `Verif.Data.Gen.names_spec` | P, Q |
| `Verif.Data.Gen.stats_spec` | P, C, Q |
| `Verif.Data.Gen.stats_own_field` | P, C, Q |
| `Verif.Data.Gen.mean_same_type` | P, C, Q |
| `Verif.Data.Gen.quantile_approx_false` | P |
| `Verif.Data.Gen.property_value_false` | P, C, Q |
| `Verif.Data.Gen.mean_order_false` | P, C, Q |
| `Verif.Data.Gen.mean_fails_iff` | P, C, Q |
| `Verif.Core.gaussDensity_chain` | P, C, Q |
| `Verif.Core.nll_chain` | P, C, Q |
| `Verif.Core.predict_chain` | P, C, Q |
| `Verif.Core.nll_prequential` | P, C, Q |
| `Verif.Core.reml_chain` | P, C, Q |
| `Verif.Core.predict_chain_linear` | P, C, Q |
| `Verif.Core.update_zero` | P, C, Q |
| `Verif.Core.update_universal` | P, C, Q |
| `Verif.Core.reml_integrated` | P, C, Q |
| `Verif.Core.fisher_score` | P, C, Q |
| `Verif.Core.fisherCpd_score` | P, C, Q |
| `Verif.SMC.multinomial_law` | P, C, Q |
| `Verif.SMC.residual_law` | P, C, Q |
| `Verif.Backend.Red.reduce_agree` | P, C, Q |
| `Verif.Backend.Red.mean_agree` | P, C, Q |
| `Verif.Backend.Red.run_agree` | P, C, Q |
| `Verif.Backend.Red.position_ok_iff` | P, C, Q |
| `Verif.Backend.Red.sum_axis_total` | P, C, Q |
| `Verif.Backend.Red.prod_axis_total` | P, C, Q |
| `Verif.Backend.Red.mean_axis_total` | P, C, Q |
| `Verif.Backend.Red.diff_cumsum` | P, C, Q |
| `Verif.Backend.Red.linspace_agree` | P, C, Q |
| `Verif.Backend.Red.full_agree_iff` | P, C, Q |
| `Verif.Backend.Red.expandDims_agree` | P, C, Q |
| `Verif.Backend.Red.transpose_agree` | P, C, Q |
| `Verif.Backend.Red.npMeshgrid_values` | P, C, Q |
| `Verif.Backend.Red.mean_integers_false` | P, C, Q |
| `Verif.Backend.Red.cumsum_flat_false` | P, C, Q |
| `Verif.Backend.Red.linspace_keyword_false` | P, C, Q |
| `Verif.Backend.Red.meshgrid_transposed_false` | P, C, Q |
| `Verif.Backend.Red.expandDims_tuple_false` | P, C, Q |
| `Verif.Backend.Red.all_values` | P, C, Q |
| `Verif.SMC.Log.stepRestart_complete` | P, C, Q |
| `Verif.SMC.Log.stepRestart_stage` | P, C, Q |
| `Verif.SMC.Log.stepRestart_erase` | P, C, Q |
| `Verif.SMC.Log.step_done` | P, C, Q |
| `Verif.SMC.Log.restart_counts` | P, C, Q |
| `Verif.SMC.Log.restart_interrupted` | P, C, Q |
| `Verif.SMC.Log.callAll_log` | P, C, Q |
| `Verif.SMC.Log.columns_spec` | P, C, Q |
| `Verif.SMC.Log.columns_rates` | P, C, Q |
| `Verif.SMC.Log.stairs_spec` | P, Q |
| `Verif.SMC.Log.restart_counter_false` | P, C, Q |
| `Verif.Demo.gaussian2d_eq` | P, C, Q |
| `Verif.Demo.gaussian2d_mass` | P, C, Q |
| `Verif.Demo.mixture2d_density` | P, C, Q |
| `Verif.Demo.mixture2d_empty` | P, C, Q |
| `Verif.Demo.mixture2d_stable` | P, C, Q |
| `Verif.Demo.rosenbrock_min` | P, C, Q |
| `Verif.Demo.rosenbrock_mass` | P, C, Q |
| `Verif.Core.fisher_more_data` | P, C, Q |
| `Verif.Core.fisher_trend` | P, C, Q |
| `Verif.Core.fisherCpd_more_data` | P, C, Q |
| `Verif.Core.fisher_independent` | P, C, Q |
| `Verif.Core.predict_gls` | P, C, Q |
| `Verif.Core.predict_gls_unique` | P, C, Q |
| `Verif.Core.target_known` | P, C, Q |
| `Verif.Core.target_zero` | P, C, Q |
| `Verif.Core.target_linear` | P, C, Q |
| `Verif.Core.norm_least` | P, C, Q |
| `Verif.Core.norm_least_linear` | P, C, Q |
| `Verif.Core.norm_bounds` | P, C, Q |
| `Verif.Core.sample_law` | P, C, Q |
| `Verif.Core.sample_law_svd` | P, C, Q |
| `Verif.Core.nll_law` | P, C, Q |
| `Verif.Core.reml_law` | P, C, Q |
| `Verif.Core.density_whiten` | P, C, Q |
| `Verif.Core.predict_law` | P, C, Q |
| `Verif.Core.predict_linear_law` | P, C, Q |
| `Verif.Core.predict_coverage` | P, C, Q |
| `Verif.Core.predict_linear_coverage` | P, C, Q |
| `Verif.Core.conditional_law` | P, C, Q |
| `Verif.Core.conditional_law_mean` | P, C, Q |
| `Verif.Core.loo_law` | P, C, Q |
| `Verif.Core.loo_linear_law` | P, C, Q |
| `Verif.Core.norm_law` | P, C, Q |
| `Verif.Core.chiSquare_mean` | P, C, Q |
| `Verif.Kernel.maternp_bessel` | P, C, Q |
| `Verif.Kernel.matern32_bessel` | P, C, Q |
| `Verif.Kernel.maternBessel_zero` | P, C, Q |
| `Verif.Kernel.besselK_rec` | P, C, Q |
| `Verif.Kernel.besselK_half` | P, C, Q |
| `Verif.Kernel.matern_regularity` | P, C, Q |
| `Verif.Nuts.nuts_keeps_target` | P, C, Q |
| `Verif.Nuts.nuts_chain` | P, C, Q |
| `Verif.Nuts.nuts_error_vanishes` | P, C, Q |
| `Verif.Nuts.nuts_exact` | P, C, Q |
| `Verif.MH.mh_converges` | P, C, Q |
| `Verif.MH.mh_averages` | P, C, Q |
| `Verif.MH.mh_averages_prob` | P, C, Q |
| `Verif.MH.mh_box_converges` | P, C, Q |
| `Verif.Core.fill_zero` | P, C, Q |
| `Verif.Core.fill_linear` | P, C, Q |
| `Verif.Core.fill_rate` | P, C, Q |
| `Verif.Core.fill_converges` | P, C, Q |
| `Verif.Core.fill_converges_constant` | P, C, Q |
| `Verif.Kernel.matern_gap` | P, C, Q |
| `Verif.Core.coords_cov` | P, C, Q |
| `Verif.Core.coords_arrays` | P, C, Q |
| `Verif.Core.coords_invariant` | P, C, Q |
| `Verif.Core.coords_guess` | P, C, Q |
| `Verif.Kernel.logrhoMin_units` | P, C, Q |
| `Verif.Kernel.barrier_units` | P, C, Q |
| `Verif.Kernel.powerLaw_units_false` | P, C, Q |
| `Verif.Core.cov_smooth` | P, C, Q |
| `Verif.Core.criteria_smooth` | P, C, Q |
| `Verif.Core.criteria_min` | P, C, Q |
| `Verif.Core.predict_smooth` | P, C, Q |
| `Verif.Backend.Elem.broadcast_spec` | P, C, Q |
| `Verif.Backend.Elem.binary_entries` | P, C, Q |
| `Verif.Backend.Elem.maximum_entries` | P, C, Q |
| `Verif.Backend.Elem.minimum_entries` | P, C, Q |
| `Verif.Backend.Elem.binary_agree` | P, C, Q |
| `Verif.Backend.Elem.binary_single_false` | P, C, Q |
| `Verif.Backend.Elem.unary_agree` | P, C, Q |
| `Verif.Backend.Elem.unary_single_false` | P, C, Q |
| `Verif.Backend.Elem.sort_agree` | P, C, Q |
| `Verif.Backend.Elem.sort_flat` | P, C, Q |
| `Verif.Backend.Elem.sort_false` | P, C, Q |
| `Verif.Backend.Elem.ordered_unique` | P, C, Q |
| `Verif.Backend.Elem.binary_single_types` | P, C, Q |
| `Verif.SMC.reweight_consistent` | P, C, Q |
| `Verif.SMC.resample_consistent` | P, C, Q |
| `Verif.SMC.toBox_map` | P, C, Q |
| `Verif.SMC.init_sample` | P, C, Q |
| `Verif.SMC.moved_law` | P, C, Q |
| `Verif.SMC.normal_symm` | P, C, Q |
| `Verif.SMC.move_eq` | P, C, Q |
| `Verif.SMC.move_law` | P, C, Q |
| `Verif.SMC.move_adaptive_false` | P, C, Q |
| `Verif.Core.nll_proper` | P, C, Q |
| `Verif.Core.reml_proper` | P, C, Q |
| `Verif.Core.cov_same_iff` | P, C, Q |
| `Verif.Core.cov_identified_iff` | P, C, Q |
| `Verif.Core.nll_identified` | P, C, Q |
| `Verif.Core.nll_diagonal_false` | P, C, Q |
| `Verif.Core.contrasts_variogram` | P, C, Q |
| `Verif.Core.reml_increments` | P, C, Q |
| `Verif.Core.reml_two_points_false` | P, C, Q |
| `Verif.SVGD.stein_zero` | P, C, Q |
| `Verif.SVGD.svgd_mean` | P, C, Q |
| `Verif.SVGD.svgd_limit` | P, C, Q |
| `Verif.SVGD.svgd_box_false` | P, C, Q |
| `Verif.MH.rlim_one` | P, C, Q |
| `Verif.MH.rhat_limit` | P, C, Q |
| `Verif.MH.check_limit` | P, C, Q |
| `Verif.MH.rhat_draws` | P, C, Q |
| `Verif.MH.rhat_scale_false` | P, C, Q |
| `Verif.Kernel.matern_gauss` | P, C, Q |
| `Verif.Kernel.maternp_gauss` | P, C, Q |
| `Verif.Kernel.cov_gauss` | P, C, Q |
| `Verif.Core.gauss_Kii` | P, C, Q |
| `Verif.Core.predict_gauss` | P, C, Q |
| `Verif.Core.criteria_gauss` | P, C, Q |
| `Verif.Core.init_zero_mean` | P, C, Q |
| `Verif.Core.init_zero_loader` | P, C, Q |
| `Verif.Core.init_linear_mean` | P, C, Q |
| `Verif.Core.init_constant_mean` | P, C, Q |
| `Verif.Core.init_linear_false` | P, C, Q |
| `Verif.Core.init_constant_false` | P, C, Q |
| `Verif.Core.batched_proper` | P, C, Q |
| `Verif.Core.batched_single` | P, C, Q |
| `Verif.Core.batched_pairs_false` | P, C, Q |
| `Verif.Core.fd_error` | P, C, Q |
| `Verif.Core.fd_sharp` | P, C, Q |
| `Verif.Core.fd_matern` | P, C, Q |
| `Verif.Core.fd_criteria` | P, C, Q |
| `Verif.Config.Log.level_env` | P, C, Q |
| `Verif.Config.Log.level_names` | P, C, Q |
| `Verif.Config.Log.level_default` | P, C, Q |
| `Verif.Config.Log.level_unknown` | P, C, Q |
| `Verif.Config.Log.level_env_false` | P, C, Q |
| `Verif.Config.Log.set_level` | P, C, Q |
| `Verif.Config.Log.one_handler` | P, C, Q |
| `Verif.Config.Log.written_once` | P, C, Q |
| `Verif.Config.Log.last_resort` | P |
| `Verif.Config.Log.written_once_false` | P, C, Q |
| `Verif.Config.Log.lower_shows_more` | P, Q |
| `Verif.Config.Log.lower_shows_more_false` | P, C, Q |
| `Verif.Config.Log.level_kept` | P, C, Q |
| `Verif.Config.Log.caches_cleared` | P, Q |
| `Verif.Config.Log.cache_stored` | P, C, Q |
| `Verif.Core.vague_posDef` | P, C, Q |
| `Verif.Core.predict_vague` | P, C, Q |
| `Verif.Core.reml_vague` | P, C, Q |
| `Verif.Core.predict_near_zero` | P, C, Q |
| `Verif.Core.predict_near_linear` | P, C, Q |
| `Verif.Core.nll_near` | P, C, Q |
| `Verif.Core.reml_near` | P, C, Q |
| `Verif.Core.looZeroMean_near` | P, C, Q |
| `Verif.Core.looCpd_near` | P, C, Q |
| `Verif.Core.fisher_near` | P, C, Q |
| `Verif.Core.jitter_near` | P, C, Q |
| `Verif.Core.near_uniform_false` | P, C, Q |
| `Verif.Nuts.da_deficit` | P, C, Q |
| `Verif.Nuts.da_mean_accept` | P, C, Q |
| `Verif.Nuts.warmLoop_da` | P, C, Q |
| `Verif.Nuts.warm_mean_accept` | P, C, Q |
| `Verif.Nuts.warm_mean_accept_false` | P, C, Q |
| `Verif.Nuts.da_mean_accept_random` | P, C, Q |
| `Verif.SMC.run_consistent` | P, C, Q |
| `Verif.SMC.run_probability` | P, C, Q |
| `Verif.SMC.adaptive_consistent` | P, C, Q |
| `Verif.SMC.adaptive_total` | P, C, Q |
| `Verif.SMC.adaptive_probability` | P, C, Q |
| `Verif.SMC.search_consistent` | P, C, Q |
| `Verif.SMC.search_total` | P, C, Q |
| `Verif.SMC.search_probability` | P, C, Q |
| `Verif.SMC.posterior_consistent` | P, C, Q |
| `Verif.SMC.smcTarget_temper` | P, C, Q |
| `Verif.SMC.search_all` | P, C, Q |
| `Verif.SMC.posterior_finishes` | P, C, Q |
| `Verif.SMC.nextEss_progress` | P, C, Q |
| `Verif.SMC.subset_limit` | P, C, Q |
| `Verif.SMC.subset_relative` | P, C, Q |
| `Verif.SMC.subset_biased` | P, C, Q |
| `Verif.SMC.subset_estimate_false` | P, C, Q |
| `Verif.SMC.levels_tendsto` | P, C, Q |
| `Verif.MH.scheduler_frozen_converges` | P, C, Q |
| `Verif.MH.scheduler_frozen` | P, C, Q |
| `Verif.MH.walk_ergodic` | P, C, Q |
| `Verif.MH.walk_averages` | P, C, Q |
| `Verif.MH.runBurnin_sim` | P, C, Q |
| `Verif.MH.frozen_stationary` | P, C, Q |
| `Verif.MH.walk_stationary` | P, C, Q |
| `Verif.MH.hop_invariant` | P, C, Q |
| `Verif.MH.adaptive_sampling_false` | P, C, Q |
| `Verif.MH.adaptive_start` | P, C, Q |
| `Verif.MH.adaptive_run` | P, C, Q |
| `Verif.MH.frozen_flat` | P, C, Q |
| `Verif.Core.selection_min` | P, C, Q |
| `Verif.Core.ml_attained_false` | P, C, Q |
| `Verif.Core.reml_unique_false` | P, C, Q |
| `Verif.Core.reml_bounded_false` | P, C, Q |
| `Verif.Core.remap_attained` | P, C, Q |
| `Verif.Core.remap_attained_two` | P, C, Q |
| `Verif.Core.reml_lower` | P, C, Q |
| `Verif.Core.remap_variance_prior_false` | P, C, Q |
| `Verif.Nuts.leapfrog_no_drift` | P, C, Q |
| `Verif.Nuts.transition_normal` | P, C, Q |
| `Verif.Nuts.leapfrog_unstable` | P, C, Q |
| `Verif.Nuts.shadow_iterate` | P, C, Q |
| `Verif.Nuts.shadow_bounds` | P, C, Q |
| `Verif.Nuts.stable_diagonal` | P, C, Q |
| `Verif.Nuts.normalTarget_grad` | P, C, Q |
| `Verif.Data.batch_sample` | P, C, Q |
| `Verif.Data.batch_mean_unbiased` | P, C, Q |
| `Verif.Data.criterion_average` | P, C, Q |
| `Verif.Data.split_sample` | P, C, Q |
| `Verif.Data.kfold_sample` | P, C, Q |
| `Verif.Data.fair_chunk` | P, C, Q |
| `Verif.Data.fair_variance` | P, C, Q |
| `Verif.Data.permRng_fair` | P, C, Q |
| `Verif.Torch.back_sound` | P, C, Q |
| `Verif.Torch.grad_eq` | P, C, Q |
| `Verif.Torch.cov_grad` | P, C, Q |
| `Verif.Torch.cov_grad_same` | P, C, Q |
| `Verif.Torch.point_grad` | P, C, Q |
| `Verif.Torch.pairwise_grad_false` | P, C, Q |
| `Verif.Torch.point_grad_false` | P, C, Q |
| `Verif.Torch.custom_sqrt_value` | P, C, Q |
| `Verif.Score.crpsA_vec` | P, C, Q |
| `Verif.Score.ei1A_vec` | P, C, Q |
| `Verif.Score.ei2A_vec` | P, C, Q |
| `Verif.Score.tcrpsA_vec` | P, C, Q |
| `Verif.Score.ei2A_number` | P, C, Q |
| `Verif.Score.ei2A_column_false` | P, C, Q |
| `Verif.Score.ei2A_matrix_false` | P, C, Q |
| `Verif.Score.tcrpsA_bounds_false` | P, C, Q |
| `Verif.Score.scores_lengths` | P, C, Q |
| `Verif.Core.Noisy.flagged_noisy` | P, C, Q |
| `Verif.Core.Noisy.plain_noisy` | P, C, Q |
| `Verif.Core.Noisy.hetero_noisy` | P, C, Q |
| `Verif.Core.Noisy.custom_noisy` | P, C, Q |
| `Verif.Core.Noisy.noisy_predict` | P, C, Q |
| `Verif.Core.Noisy.noisy_target` | P, C, Q |
| `Verif.Core.Noisy.flagged_target` | P, C, Q |
| `Verif.Core.Noisy.noisy_repeated` | P, C, Q |
| `Verif.Core.Noisy.hetero_repeated` | P, C, Q |
| `Verif.Core.Noisy.noisy_cov_diag` | P, C, Q |
| `Verif.Core.Noisy.stacked` | P, C, Q |
| `Verif.Core.Noisy.noisy_paths` | P, C, Q |
| `Verif.Core.Noisy.plain_cov_false` | P, C, Q |
| `Verif.Core.Noisy.flagged_same_false` | P, C, Q |
| `Verif.Core.remap_proper` | P, C, Q |
| `Verif.Core.barrier_proper` | P, C, Q |
| `Verif.Core.box_proper` | P, C, Q |
| `Verif.Core.weight_logProb` | P, C, Q |
| `Verif.Core.reml_envelope` | P, C, Q |
| `Verif.Core.postBarrier_value` | P, C, Q |
| `Verif.Core.flat_proper_false` | P, C, Q |
| `Verif.Core.barrier_proper_false` | P, C, Q |
| `Verif.Core.Sh.index_paths` | P, C, Q |
| `Verif.Core.Sh.index_paths_mean` | P, C, Q |
| `Verif.Core.Sh.index_range` | P, C, Q |
| `Verif.Core.Sh.index_range_target` | P, C, Q |
| `Verif.Core.Sh.index_mask` | P, C, Q |
| `Verif.Core.Sh.index_mask_mean` | P, C, Q |
| `Verif.Core.Sh.index_floats` | P, C, Q |
| `Verif.Core.Sh.index_floats_cut` | P, C, Q |
| `Verif.Core.Sh.index_mask_false` | P, C, Q |
| `Verif.Core.Rev.nll_grad` | P, C, Q |
| `Verif.Core.Rev.reml_grad` | P, C, Q |
| `Verif.Core.Rev.nllBack_eq` | P, C, Q |
| `Verif.Core.Rev.nllBack_err` | P, C, Q |
| `Verif.Core.Rev.recorded_back` | P, C, Q |
| `Verif.Core.Rev.forward_recorded` | P, C, Q |
| `Verif.Core.Rev.cholSolveBack_eq` | P, C, Q |
| `Verif.Core.Rev.leaf_eq` | P, C, Q |
| `Verif.Core.Rev.post_grad` | P, C, Q |
| `Verif.Core.Rev.jeffreys_grad` | P, C, Q |
| `Verif.Core.Rev.powerLaw_grad` | P, C, Q |
| `Verif.Core.Rev.powerLaw_kink` | P, C, Q |
| `Verif.Core.Rev.gauss_grad` | P, C, Q |
| `Verif.Core.Rev.barrier_grad` | P, C, Q |
| `Verif.Core.Rev.val_barrierE` | P, C, Q |
| `Verif.Core.Rev.back_barrierE` | P, C, Q |
| `Verif.Core.Rev.ev_barrierE` | P, C, Q |
| `Verif.Core.Rev.ev_powerLawE` | P, C, Q |
| `Verif.Core.Rev.ev_gaussE` | P, C, Q |
| `Verif.Core.Noisy.noisy_ridge` | P, C, Q |
| `Verif.Core.Noisy.noisy_residuals` | P, C, Q |
| `Verif.Core.Noisy.noise_monotone` | P, C, Q |
| `Verif.Core.Noisy.cost_least` | P, C, Q |
| `Verif.Core.Noisy.energy_diff` | P, C, Q |
| `Verif.Core.Noisy.matern_noisy` | P, C, Q |
| `Verif.Core.Noisy.nugget_error` | P, C, Q |
| `Verif.Core.Noisy.nugget_limit` | P, C, Q |
| `Verif.Core.Noisy.nugget_abs` | P, C, Q |
| `Verif.Core.Noisy.nugget_bound` | P, C, Q |
| `Verif.Core.Noisy.predict_fit` | P, C, Q |
| `Verif.Core.Noisy.predict_posDef` | P, C, Q |
| `Verif.Core.Obj.fisher_argument` | P, C, Q |
| `Verif.Core.Obj.fisher_float` | P, C, Q |
| `Verif.Core.Obj.dCov_int` | P, C, Q |
| `Verif.Core.Obj.fisher_int_zero` | P, C, Q |
| `Verif.Core.Obj.fisher_int_false` | P, C, Q |
| `Verif.Core.Obj.fisher_int_variance` | P, C, Q |
| `Verif.Nuts.leapfrog_energy_change` | P, C, Q |
| `Verif.Nuts.trajectory_energy` | P, C, Q |
| `Verif.Nuts.stepAlpha_small` | P, C, Q |
| `Verif.Nuts.findStep_lower` | P, C, Q |
| `Verif.Nuts.transition_small` | P, C, Q |
| `Verif.Nuts.wavy_smooth` | P, C, Q |
| `Verif.SVGD.svgd_uphill` | P, C, Q |
| `Verif.SVGD.steepest` | P, C, Q |
| `Verif.SVGD.gain_deriv` | P, C, Q |
| `Verif.SVGD.blin_nonneg` | P, C, Q |
| `Verif.Core.guess_zero_limit` | P, C, Q |
| `Verif.Core.guess_linear_limit` | P, C, Q |
| `Verif.Core.guess_constant_limit` | P, C, Q |
| `Verif.Core.guess_constant_white` | P, C, Q |
| `Verif.Core.guess_limit` | P, C, Q |
| `Verif.Core.ranges_const` | P, C, Q |
| `Verif.Core.exists_sequence` | P, C, Q |
| `Verif.Core.innovations` | P, C, Q |
| `Verif.Core.sequential_calibration` | P, C, Q |
| `Verif.Core.long_run` | P, C, Q |
| `Verif.Core.recursive_residuals` | P, C, Q |
| `Verif.Core.recursive_calibration` | P, C, Q |
| `Verif.Core.predictions_converge` | P, C, Q |
| `Verif.Core.matern_predictions_converge` | P, C, Q |
| `Verif.Core.matern_noisy_predictions_converge` | P, C, Q |
| `Verif.Core.linear_predictions_converge` | P, C, Q |
| `Verif.Core.matern_linear_predictions_converge` | P, C, Q |
| `Verif.Core.matern_noisy_linear_predictions_converge` | P, C, Q |
| `Verif.Core.path_averages` | P, C, Q |
| `Verif.Core.selection_consistent` | P, C, Q |
| `Verif.Core.matern_selection_consistent` | P, C, Q |
| `Verif.Core.reml_selection_consistent` | P, C, Q |
| `Verif.Core.reml_variance_consistent` | P, C, Q |
| `Verif.Core.cramer_rao` | P, C, Q |
| `Verif.Core.cramer_rao_reml` | P, C, Q |
| `Verif.Core.log_variance_bound` | P, C, Q |
| `Verif.Core.chapman_robbins` | P, C, Q |
| `Verif.Core.guess_efficient` | P, C, Q |
| `Verif.Core.guess_linear_efficient` | P, C, Q |
| `Verif.Core.variance_bound` | P, C, Q |
