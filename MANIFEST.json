{
 "claims": [
  {
   "property": "C01",
   "status": "proved",
   "theorems": [
    "Verif.Data.getItem_eq_concat_row",
    "Verif.Data.len_eq_rows",
    "Verif.Data.mkDataset_fails_iff"
   ],
   "note": ""
  },
  {
   "property": "C02",
   "status": "partial",
   "theorems": [
    "Verif.Data.getItem_negative_false",
    "Verif.Data.getItem_negative_partial",
    "Verif.Data.getItem_negative"
   ],
   "note": "False of the code with several shards: negation proved with a witness; exact behaviour of negative indices and the single-shard case proved."
  },
  {
   "property": "C03",
   "status": "proved",
   "theorems": [
    "Verif.Data.subset_rows"
   ],
   "note": ""
  },
  {
   "property": "C04",
   "status": "proved",
   "theorems": [
    "Verif.Data.split_partition",
    "Verif.Data.split_negative_overlap"
   ],
   "note": ""
  },
  {
   "property": "C05",
   "status": "proved",
   "theorems": [
    "Verif.Data.kFold_numpy",
    "Verif.Data.kFold_degenerate",
    "Verif.Data.repeatedKFold_numpy"
   ],
   "note": ""
  },
  {
   "property": "C06",
   "status": "partial",
   "theorems": [
    "Verif.Data.kFold_torch_false",
    "Verif.Data.kFold_torch_partial",
    "Verif.Data.kFold_torch_exact",
    "Verif.Data.split_no_bounds"
   ],
   "note": "False of the code for n=0, (k=2,n=1), (k=3, 3|n), where torch raises IndexError; equal to numpy otherwise."
  },
  {
   "property": "C07",
   "status": "proved",
   "theorems": [
    "Verif.Data.onePass_isEpoch",
    "Verif.Data.mkLoader_fails_iff",
    "Verif.Data.onePass_deterministic",
    "Verif.Data.iter_finite",
    "Verif.Data.iter_infinite"
   ],
   "note": ""
  },
  {
   "property": "C08",
   "status": "proved",
   "theorems": [
    "Verif.Data.fetch_rows",
    "Verif.Data.fetch_rows_sorted",
    "Verif.Data.fetch_empty"
   ],
   "note": ""
  },
  {
   "property": "C09",
   "status": "proved",
   "theorems": [
    "Verif.Data.getItem_eq_batch",
    "Verif.Data.getItem_errors",
    "Verif.Data.slice_eq",
    "Verif.Data.slice_list",
    "Verif.Data.slice_errors",
    "Verif.Data.getSlice_eq"
   ],
   "note": ""
  },
  {
   "property": "C10",
   "status": "proved",
   "theorems": [
    "Verif.Data.reduceMin_spec",
    "Verif.Data.reduceMax_spec",
    "Verif.Data.reduceMin_empty_shard",
    "Verif.Data.reduceMean_spec",
    "Verif.Data.reduceVar_spec",
    "Verif.Data.reduceVar_single",
    "Verif.Data.reduceStd_spec",
    "Verif.Data.stats_shard_invariant",
    "Verif.Data.reduceMean_cases"
   ],
   "note": "Exact arithmetic."
  },
  {
   "property": "C11",
   "status": "proved",
   "theorems": [
    "Verif.Data.loaderMean_weighted",
    "Verif.Data.loaderMean_rows",
    "Verif.Data.loaderMean_no_batch"
   ],
   "note": "Exact arithmetic."
  },
  {
   "property": "C12",
   "status": "partial",
   "theorems": [
    "Verif.Data.scaler_roundtrip",
    "Verif.Data.minMax_range",
    "Verif.Data.normalizer_standardises",
    "Verif.Data.fitF_eq",
    "Verif.Data.normalizer_one_row_false",
    "Verif.Data.normalizer_no_rows",
    "Verif.Data.normalizer_backends"
   ],
   "note": "False of the code for a Normalizer or ObservationScaler fitted to one row with torch (or to no rows): the scale is NaN (normalizer_one_row_false). Proved otherwise (fitF_eq relates the NaN model to the exact one). Exact arithmetic; unit variance in the backend's own convention (numpy divides by n, torch by n-1)."
  },
  {
   "property": "C13",
   "status": "proved",
   "theorems": [
    "Verif.Data.collate_epoch",
    "Verif.Data.collate_empty"
   ],
   "note": ""
  },
  {
   "property": "C14",
   "status": "proved",
   "theorems": [
    "Verif.Data.evals_stream",
    "Verif.Data.epochs_const",
    "Verif.Data.evaluate_full_pass",
    "Verif.Data.evaluate_empty",
    "Verif.Backend.batchInit_spec"
   ],
   "note": ""
  },
  {
   "property": "C15",
   "status": "proved",
   "theorems": [
    "Verif.Param.normalize_roundtrip",
    "Verif.Param.setDenormalized_get",
    "Verif.Param.setFromUnnormalized_get"
   ],
   "note": "Exact arithmetic."
  },
  {
   "property": "C16",
   "status": "partial",
   "theorems": [
    "Verif.Param.mkParam_wf",
    "Verif.Param.fields_equal_length_false",
    "Verif.Param.fields_equal_length_partial",
    "Verif.Param.parseNorm_spec"
   ],
   "note": "False of the code: the values setter can change the length; negation proved with a witness; true for the other operations."
  },
  {
   "property": "C17",
   "status": "proved",
   "theorems": [
    "Verif.Param.setByPath_spec"
   ],
   "note": ""
  },
  {
   "property": "C18",
   "status": "proved",
   "theorems": [
    "Verif.Param.concat_slices",
    "Verif.Param.slices_concat",
    "Verif.Param.byName_spec",
    "Verif.Param.getInt_spec",
    "Verif.Param.getSlice_spec"
   ],
   "note": ""
  },
  {
   "property": "C19",
   "status": "proved",
   "theorems": [
    "Verif.Param.checkBounds_spec"
   ],
   "note": ""
  },
  {
   "property": "C20",
   "status": "proved",
   "theorems": [
    "Verif.Config.run_inv",
    "Verif.Config.init_inv",
    "Verif.Config.setDtype_rejects_float32",
    "Verif.Config.set_failures",
    "Verif.Config.setDtype_writes",
    "Verif.Config.update_none"
   ],
   "note": ""
  },
  {
   "property": "C21",
   "status": "proved",
   "theorems": [
    "Verif.Config.detect_spec",
    "Verif.Config.getBackend_stable",
    "Verif.Config.setBackend_get"
   ],
   "note": ""
  },
  {
   "property": "C22",
   "status": "proved",
   "theorems": [
    "Verif.Kernel.computeGammaln_spec",
    "Verif.Kernel.maternp_stores"
   ],
   "note": "The caller's size choice is covered by maternp_formula."
  },
  {
   "property": "C23",
   "status": "proved",
   "theorems": [
    "Verif.Kernel.maternp_formula",
    "Verif.Kernel.maternp_inf",
    "Verif.Kernel.maternFormula_shape_props"
   ],
   "note": "Exact arithmetic."
  },
  {
   "property": "C24",
   "status": "proved",
   "theorems": [
    "Verif.Kernel.matern_zero",
    "Verif.Kernel.matern_one",
    "Verif.Kernel.matern_two"
   ],
   "note": "Exact arithmetic."
  },
  {
   "property": "C25",
   "status": "proved",
   "theorems": [
    "Verif.Kernel.cov_self",
    "Verif.Kernel.cov_copy",
    "Verif.Kernel.covIT_transpose",
    "Verif.Kernel.cov_pairwise"
   ],
   "note": "Exact arithmetic."
  },
  {
   "property": "C26",
   "status": "proved",
   "theorems": [
    "Verif.Core.zeroMean_blup",
    "Verif.Core.zeroMean_var_bounds",
    "Verif.Core.zeroMean_var_monotone",
    "Verif.Core.zeroMean_cov"
   ],
   "note": "Exact arithmetic; linear-algebra routines are parameters with a stated contract (shown satisfiable)."
  },
  {
   "property": "C27",
   "status": "proved",
   "theorems": [
    "Verif.Core.universal_blue",
    "Verif.Core.universal_var_ge_zeroMean"
   ],
   "note": "Exact arithmetic; linear-algebra routines are parameters with a stated contract (shown satisfiable)."
  },
  {
   "property": "C28",
   "status": "partial",
   "theorems": [
    "Verif.Core.nullspace_same_predictor_false",
    "Verif.Core.nullspace_unbiased_false",
    "Verif.Core.nullspace_partial",
    "Verif.Core.symSystem_spec"
   ],
   "note": "False of the code: the fallback omits a term (not optimal on either backend) and on numpy solves a triangular system as symmetric (not unbiased). Negations proved with witnesses; on torch the weights are unbiased and optimal exactly when W'KQ1 beta = 0."
  },
  {
   "property": "C29",
   "status": "proved",
   "theorems": [
    "Verif.Core.predict_interpolates",
    "Verif.Core.matern_interpolates"
   ],
   "note": "Exact arithmetic; linear-algebra routines are parameters with a stated contract (shown satisfiable)."
  },
  {
   "property": "C30",
   "status": "proved",
   "theorems": [
    "Verif.Core.predict_nonneg",
    "Verif.Core.predict_refuses"
   ],
   "note": ""
  },
  {
   "property": "C31",
   "status": "proved",
   "theorems": [
    "Verif.Core.loo_zeroMean_refit",
    "Verif.Core.loo_parameterized_refit"
   ],
   "note": "Exact arithmetic; linear-algebra routines are parameters with a stated contract (shown satisfiable). predict uses the target variance without nugget; the difference K_ii - v is explicit in the statement."
  },
  {
   "property": "C32",
   "status": "proved",
   "theorems": [
    "Verif.Core.loo_linear_refit",
    "Verif.Core.loo_variants_agree"
   ],
   "note": "Exact arithmetic; linear-algebra routines are parameters with a stated contract (shown satisfiable)."
  },
  {
   "property": "C33",
   "status": "proved",
   "theorems": [
    "Verif.Core.nll_eq",
    "Verif.Core.nll_failure",
    "Verif.Core.nll_mono",
    "Verif.Core.gaussDensity_integral"
   ],
   "note": "Exact arithmetic; linear-algebra routines are parameters with a stated contract (shown satisfiable)."
  },
  {
   "property": "C34",
   "status": "proved",
   "theorems": [
    "Verif.Core.reml_eq",
    "Verif.Core.reml_invariant",
    "Verif.Core.reml_failure"
   ],
   "note": "Exact arithmetic; linear-algebra routines are parameters with a stated contract (shown satisfiable)."
  },
  {
   "property": "C35",
   "status": "proved",
   "theorems": [
    "Verif.Core.predict_equivariant",
    "Verif.Core.loo_equivariant"
   ],
   "note": "Exact arithmetic; linear-algebra routines are parameters with a stated contract (shown satisfiable)."
  },
  {
   "property": "C36",
   "status": "proved",
   "theorems": [
    "Verif.Core.fisher_psd",
    "Verif.Core.fisher_error",
    "Verif.Core.fisherCpd_psd",
    "Verif.Core.dCov_exact",
    "Verif.Core.dCov_tendsto",
    "Verif.Core.fisher_scale"
   ],
   "note": "Exact arithmetic; linear-algebra routines are parameters with a stated contract (shown satisfiable)."
  },
  {
   "property": "C37",
   "status": "proved",
   "theorems": [
    "Verif.Core.finiteDiff_exact",
    "Verif.Core.finiteDiff_degree_five",
    "Verif.Core.finiteDiff_entry",
    "Verif.Core.finiteDiff_tendsto"
   ],
   "note": "Exact arithmetic."
  },
  {
   "property": "C38",
   "status": "proved",
   "theorems": [
    "Verif.Core.condPaths_data",
    "Verif.Core.condPathsMean_data",
    "Verif.Core.condPathsMean_eq",
    "Verif.Core.condPaths_affine",
    "Verif.Core.condOp_cov",
    "Verif.Core.condPaths_posterior"
   ],
   "note": "Exact arithmetic; linear-algebra routines are parameters with a stated contract (shown satisfiable)."
  },
  {
   "property": "C39",
   "status": "partial",
   "theorems": [
    "Verif.Kernel.powerLaw_cutoff_false",
    "Verif.Kernel.powerLaw_partial",
    "Verif.Kernel.powerLaw_default"
   ],
   "note": "False of the code: the variance cutoff term has the wrong sign and rewards large variances."
  },
  {
   "property": "C40",
   "status": "proved",
   "theorems": [
    "Verif.Kernel.neglogF_refuses",
    "Verif.Kernel.neglogF1_inf_iff",
    "Verif.Kernel.neglogF1_min",
    "Verif.Kernel.neglogF1_convex"
   ],
   "note": "Exact arithmetic."
  },
  {
   "property": "C41",
   "status": "partial",
   "theorems": [
    "Verif.Kernel.autoselect_best_false",
    "Verif.Kernel.autoselect_best_partial",
    "Verif.Kernel.autoselect_feasible"
   ],
   "note": "False of the code when the optimiser's final value is NaN; holds otherwise. Optimisers are arbitrary terminating strategies."
  },
  {
   "property": "C42",
   "status": "partial",
   "theorems": [
    "Verif.Kernel.autoselect_error",
    "Verif.Kernel.autoselect_no_linalg",
    "Verif.Data.evaluateNumpy_failure",
    "Verif.Data.evaluateTorch_failure_false",
    "Verif.Data.evaluate_backends_agree"
   ],
   "note": "False of the code on the torch backend for batched criteria."
  },
  {
   "property": "C43",
   "status": "partial",
   "theorems": [
    "Verif.Kernel.update_split_false",
    "Verif.Kernel.selectWith_split_partial",
    "Verif.Kernel.selectWith_cov_only"
   ],
   "note": "False of the code when meanparam_len differs from the length of meanparam0 (not checked); holds otherwise."
  },
  {
   "property": "C44",
   "status": "partial",
   "theorems": [
    "Verif.Kernel.autoBounds_false",
    "Verif.Kernel.autoBounds_partial"
   ],
   "note": "False of the code for starting points of absolute value above 500."
  },
  {
   "property": "C45",
   "status": "partial",
   "theorems": [
    "Verif.MH.mhStep_accept_iff",
    "Verif.MH.mhStep_rejects_bad",
    "Verif.MH.mhStep_nan_stuck",
    "Verif.MH.acceptSet_volume",
    "Verif.MH.mh_reversible_partial",
    "Verif.MH.mh_nearly_reversible",
    "Verif.MH.mh_invariant_partial",
    "Verif.MH.detailed_balance_false",
    "Verif.MH.mhStep_accept_asym"
   ],
   "note": "Exact detailed balance is false because the uniform draw is floored at 1e-300; it holds within 1e-300 in general and exactly when acceptance ratios exceed 1e-300."
  },
  {
   "property": "C46",
   "status": "proved",
   "theorems": [
    "Verif.MH.runs_bookkeeping",
    "Verif.MH.scheduler_bookkeeping",
    "Verif.MH.scheduler_steps",
    "Verif.MH.schedulerRun_ok",
    "Verif.MH.initStates_spec"
   ],
   "note": "External target, proposal and draws are arbitrary."
  },
  {
   "property": "C47",
   "status": "partial",
   "theorems": [
    "Verif.MH.schedule_partial",
    "Verif.MH.schedule_end_false",
    "Verif.MH.rm_reversed_false"
   ],
   "note": "False of the code: the schedule ends at base*(2*final_frac-1), negative for the default, so late adaptation is reversed; it does start at base and decrease."
  },
  {
   "property": "C48",
   "status": "partial",
   "theorems": [
    "Verif.MH.burnin_one_chain_false",
    "Verif.MH.burnin_partial"
   ],
   "note": "False of the code: with one chain ValueError is raised exactly when the burn-in has at least 20 blocks; never with two or more chains."
  },
  {
   "property": "C49",
   "status": "partial",
   "theorems": [
    "Verif.MH.ks_never_ok_false",
    "Verif.MH.ks_torch_false",
    "Verif.MH.ks_ok_partial"
   ],
   "note": "False of the code with one or two chains and on torch; holds on numpy with three or more chains."
  },
  {
   "property": "C50",
   "status": "proved",
   "theorems": [
    "Verif.MH.rhat_affine",
    "Verif.MH.rhat_lower",
    "Verif.MH.rhat_constant",
    "Verif.MH.rhat_ok"
   ],
   "note": "Exact arithmetic."
  },
  {
   "property": "C51",
   "status": "proved",
   "theorems": [
    "Verif.SMC.ess_bounds",
    "Verif.SMC.ess_scale",
    "Verif.SMC.ess_degenerate"
   ],
   "note": "Exact arithmetic."
  },
  {
   "property": "C52",
   "status": "proved",
   "theorems": [
    "Verif.SMC.multinomial_resample",
    "Verif.SMC.residual_resample",
    "Verif.SMC.probs_fin",
    "Verif.SMC.probs_zero"
   ],
   "note": "The multinomial sampler is external: its counts sum to the number of draws."
  },
  {
   "property": "C53",
   "status": "partial",
   "theorems": [
    "Verif.SMC.cached_history",
    "Verif.SMC.step_cached",
    "Verif.SMC.step_cached_residual",
    "Verif.SMC.stepRestart_partial",
    "Verif.SMC.stepRestart_same",
    "Verif.SMC.stepRestart_false",
    "Verif.SMC.cached_after_set_false"
   ],
   "note": "Holds after every step that reweights; false of the code after set_logpdf followed by move, and for step_with_possible_restart when the restart begins at the target."
  },
  {
   "property": "C54",
   "status": "partial",
   "theorems": [
    "Verif.SMC.subset_certain",
    "Verif.SMC.subset_certain_false",
    "Verif.SMC.subset_certain_partial"
   ],
   "note": "False of the code for boxes of volume other than one: the estimate of a certain event is the constant density value."
  },
  {
   "property": "C55",
   "status": "proved",
   "theorems": [
    "Verif.Nuts.leapfrog_reverse",
    "Verif.Nuts.leapfrog_flip",
    "Verif.Nuts.energy_flip",
    "Verif.Nuts.uturn_reverse",
    "Verif.Nuts.leapfrog_volume",
    "Verif.Nuts.kinetic_deriv",
    "Verif.Nuts.leapfrog_hamilton",
    "Verif.Nuts.kinetic_momentum"
   ],
   "note": "Exact arithmetic; also volume preservation, Hamilton's equations and the law of the momenta."
  },
  {
   "property": "C56",
   "status": "proved",
   "theorems": [
    "Verif.Nuts.tree_bounds",
    "Verif.Nuts.tree_orbit",
    "Verif.Nuts.tree_proposal",
    "Verif.Nuts.transition_spec"
   ],
   "note": "Exact arithmetic; random draws arbitrary in [0,1)."
  },
  {
   "property": "C57",
   "status": "partial",
   "theorems": [
    "Verif.Nuts.windows_tile",
    "Verif.Nuts.windows_default",
    "Verif.Nuts.tiles_unique",
    "Verif.Nuts.tiles_bounds",
    "Verif.Nuts.windows_base_zero_false"
   ],
   "note": "Proved for base windows of at least one iteration; false of the code for a large-regime base window of 0, which yields an empty window."
  },
  {
   "property": "C58",
   "status": "proved",
   "theorems": [
    "Verif.Nuts.runVar_spec",
    "Verif.Nuts.runVar_batches"
   ],
   "note": "Exact arithmetic."
  },
  {
   "property": "C59",
   "status": "partial",
   "theorems": [
    "Verif.Nuts.findStep_ends",
    "Verif.Nuts.findStep_bounds",
    "Verif.Nuts.findStep_base_one_false",
    "Verif.Nuts.clampStep_bounds",
    "Verif.Nuts.clampStep_inside",
    "Verif.Nuts.epsBounds_ok",
    "Verif.Nuts.stepAlpha_spec",
    "Verif.Nuts.stepAlpha_top"
   ],
   "note": "Proved for scale bases above one; false of the code for base 1, which never ends."
  },
  {
   "property": "C60",
   "status": "partial",
   "theorems": [
    "Verif.SVGD.project_mem",
    "Verif.SVGD.project_id",
    "Verif.SVGD.project_idem",
    "Verif.SVGD.project_nearest2",
    "Verif.SVGD.project_inverted",
    "Verif.SVGD.normBounds_spec",
    "Verif.SVGD.precond_spec",
    "Verif.SVGD.precond_refuses",
    "Verif.SVGD.rbf_ok",
    "Verif.SVGD.bandwidth_pos",
    "Verif.SVGD.kernel_spec",
    "Verif.SVGD.kernel_posDef",
    "Verif.SVGD.kernel_range_false",
    "Verif.SVGD.step_succeeds",
    "Verif.SVGD.step_in_box",
    "Verif.SVGD.step_in_box_false",
    "Verif.SVGD.run_in_box",
    "Verif.SVGD.run_in_box_false"
   ],
   "note": "Exact arithmetic. Proved for ordered bounds, nonnegative jitter and at least one step, with positive definiteness of the kernel matrix; false for reversed bounds (not checked), negative jitter, and n_steps = 0."
  },
  {
   "property": "C61",
   "status": "partial",
   "theorems": [
    "Verif.SVGD.step_alive",
    "Verif.SVGD.step_stein",
    "Verif.SVGD.step_moves",
    "Verif.SVGD.dead_stays",
    "Verif.SVGD.failing_stays",
    "Verif.SVGD.failing_neighbour_stays",
    "Verif.SVGD.repulsion_sum_zero",
    "Verif.SVGD.velocity_total",
    "Verif.SVGD.lone_particle",
    "Verif.SVGD.dead_no_influence",
    "Verif.SVGD.dead_no_influence_fixed",
    "Verif.SVGD.dead_no_influence_false"
   ],
   "note": "Exact arithmetic. Dead particles have no influence for a given bandwidth; false of the code with the median bandwidth, which is computed from dead particles too."
  },
  {
   "property": "C62",
   "status": "partial",
   "theorems": [
    "Verif.SVGD.annealed_first",
    "Verif.SVGD.annealed_last",
    "Verif.SVGD.annealed_bounds",
    "Verif.SVGD.annealed_mono",
    "Verif.SVGD.annealed_even",
    "Verif.SVGD.annealed_refuses",
    "Verif.SVGD.run_temperatures",
    "Verif.SVGD.annealed_first_false"
   ],
   "note": "Proved for at least two steps; a single step starts at the final temperature."
  },
  {
   "property": "C63",
   "status": "partial",
   "theorems": [
    "Verif.Posterior.resolve_iff",
    "Verif.Posterior.logProb_spec",
    "Verif.Posterior.logProb_proper",
    "Verif.Posterior.setup_iff",
    "Verif.Posterior.setup_accepts",
    "Verif.Posterior.setup_info",
    "Verif.Posterior.setup_reads",
    "Verif.Posterior.setup_random",
    "Verif.Posterior.setup_transposed_false",
    "Verif.Posterior.setup_misread_false",
    "Verif.Posterior.normStates_scalar"
   ],
   "note": "The log-density part and the accepted shapes are proved; false of the code for the documented (dim, n_chains) shape, and for a vector of one value for each chain, which is read as one point."
  },
  {
   "property": "C64",
   "status": "partial",
   "theorems": [
    "Verif.DataFrame.get_block",
    "Verif.DataFrame.get_part",
    "Verif.DataFrame.get_entry",
    "Verif.DataFrame.get_entry_total",
    "Verif.DataFrame.get_string",
    "Verif.DataFrame.get_names_false",
    "Verif.DataFrame.get_lengths_false",
    "Verif.DataFrame.slice_range",
    "Verif.DataFrame.slice_valid",
    "Verif.DataFrame.other_refused",
    "Verif.DataFrame.column_beyond"
   ],
   "note": "The selected data and the entries by name are proved; false of the code for the names of the result, which are exchanged (row names become column names)."
  },
  {
   "property": "C65",
   "status": "proved",
   "theorems": [
    "Verif.Designs.regulargrid_spec",
    "Verif.Designs.regulargrid_in_box",
    "Verif.Designs.regulargrid_nodup",
    "Verif.Designs.node_ends",
    "Verif.Designs.regulargrid_int",
    "Verif.Designs.regulargrid_refuses",
    "Verif.Designs.regulargrid_superfluous"
   ],
   "note": "Exact arithmetic; dimension zero and too short arguments raise."
  },
  {
   "property": "C66",
   "status": "partial",
   "theorems": [
    "Verif.Designs.filldist_is_min",
    "Verif.Designs.filldist_le_partial",
    "Verif.Designs.filldist_false",
    "Verif.Designs.filldist_empty"
   ],
   "note": "False of the code: it returns the smallest distance of all pairs. Proved: a lower bound of the fill distance, equal for one point."
  },
  {
   "property": "C67",
   "status": "partial",
   "theorems": [
    "Verif.Designs.maximin_best",
    "Verif.Designs.maximin_raises",
    "Verif.Designs.maximin_cube",
    "Verif.Designs.maximinlhs_zero",
    "Verif.Designs.maximinlhs_best",
    "Verif.Designs.scale_latin",
    "Verif.Designs.maximin_latin",
    "Verif.Designs.maximin_box_false"
   ],
   "note": "Exact arithmetic. Proved for the distances in the unit cube and for cubic boxes; false of the code for other boxes, because distances are compared before scaling."
  },
  {
   "property": "C68",
   "status": "partial",
   "theorems": [
    "Verif.Score.crps_integral",
    "Verif.Score.crps_translate",
    "Verif.Score.crps_scale",
    "Verif.Score.crps_symm",
    "Verif.Score.crps_mono",
    "Verif.Score.crps_zero_false",
    "Verif.Score.crps_negative_false"
   ],
   "note": "Exact arithmetic, scalars. Proved for positive sigma, with the integral form; at sigma = 0 the result is NaN and for negative sigma it is negative."
  },
  {
   "property": "C69",
   "status": "partial",
   "theorems": [
    "Verif.Performance.loo_values",
    "Verif.Performance.test_values",
    "Verif.Performance.score_laws",
    "Verif.Performance.score_constant_false"
   ],
   "note": "Exact arithmetic. Proved for targets which are not all equal; for constant targets the scores are NaN or minus infinity."
  },
  {
   "property": "C70",
   "status": "partial",
   "theorems": [
    "Verif.TestFunctions.detpep8d_missing",
    "Verif.TestFunctions.detpep8d_agrees",
    "Verif.TestFunctions.detpep8d_false"
   ],
   "note": "False of the code: only the last of the five logarithmic terms is added. Proved: the exact difference and where both agree."
  },
  {
   "property": "C71",
   "status": "proved",
   "theorems": [
    "Verif.Data.reduceQuantile_refuses",
    "Verif.Data.reduceQuantile_spec",
    "Verif.Data.robust_standardises",
    "Verif.Data.reduceQuantile_interp"
   ],
   "note": "Exact arithmetic."
  },
  {
   "property": "C72",
   "status": "partial",
   "theorems": [
    "Verif.Param.anisotropic_logbounds_false",
    "Verif.Param.anisotropic_partial",
    "Verif.Param.anisotropic_default"
   ],
   "note": "False of the code: check_bounds compares the variance, not its log."
  },
  {
   "property": "C73",
   "status": "partial",
   "theorems": [
    "Verif.Param.simpleDict_false",
    "Verif.Param.simpleDict_partial"
   ],
   "note": "False of the code with duplicate names; true with distinct names."
  },
  {
   "property": "C74",
   "status": "partial",
   "theorems": [
    "Verif.Param.setFromUnnormalized_atomic_false",
    "Verif.Param.setFromUnnormalized_atomic_partial"
   ],
   "note": "False of the code: earlier keywords are written before a later one fails."
  },
  {
   "property": "C75",
   "status": "partial",
   "theorems": [
    "Verif.Config.dtype_only_float64_false",
    "Verif.Config.dtype_only_float64_partial",
    "Verif.Config.dtype_refusal"
   ],
   "note": "False of the code: 'int64' is accepted."
  },
  {
   "property": "C76",
   "status": "partial",
   "theorems": [
    "Verif.Config.env_agrees_false",
    "Verif.Config.env_agrees_partial",
    "Verif.Config.setBackend_none"
   ],
   "note": "False of the code: a failing update has already changed the environment."
  },
  {
   "property": "C77",
   "status": "proved",
   "theorems": [
    "Verif.Kernel.scaledDistance_backends",
    "Verif.Kernel.scaledDistance_eq_zero"
   ],
   "note": "Exact arithmetic."
  },
  {
   "property": "C78",
   "status": "proved",
   "theorems": [
    "Verif.Core.reml_explicit"
   ],
   "note": "Exact arithmetic; linear-algebra routines are parameters with a stated contract (shown satisfiable)."
  },
  {
   "property": "C79",
   "status": "proved",
   "theorems": [
    "Verif.Core.predict_copy",
    "Verif.Core.matern_copy"
   ],
   "note": "Exact arithmetic; linear-algebra routines are parameters with a stated contract (shown satisfiable)."
  },
  {
   "property": "C80",
   "status": "proved",
   "theorems": [
    "Verif.Core.norms_zero",
    "Verif.Core.normKSqrd_gls",
    "Verif.Core.Obj.inverses_value"
   ],
   "note": "Exact arithmetic; linear-algebra routines are parameters with a stated contract (shown satisfiable)."
  },
  {
   "property": "C81",
   "status": "proved",
   "theorems": [
    "Verif.Core.samplePathsChol_spec",
    "Verif.Core.samplePathsSvd_spec",
    "Verif.Core.samplePathsSvd_indefinite"
   ],
   "note": "Exact arithmetic; linear-algebra routines are parameters with a stated contract (shown satisfiable)."
  },
  {
   "property": "C82",
   "status": "partial",
   "theorems": [
    "Verif.Core.Validate.mkModel_spec",
    "Verif.Core.Validate.meanparam_required_false",
    "Verif.Core.Validate.meanparam_required_partial"
   ],
   "note": "False of the code in the documented strength: a parameterised mean without parameters is accepted at construction and refused by predict."
  },
  {
   "property": "C83",
   "status": "proved",
   "theorems": [
    "Verif.Core.Validate.ensureShapes_spec"
   ],
   "note": ""
  },
  {
   "property": "C84",
   "status": "partial",
   "theorems": [
    "Verif.Kernel.neglogF1_nonneg_false",
    "Verif.Kernel.neglogF1_nonneg_partial"
   ],
   "note": "False of the code; holds exactly when log(rho0/rho_min) <= e."
  },
  {
   "property": "C85",
   "status": "partial",
   "theorems": [
    "Verif.Kernel.defaults_range_false",
    "Verif.Kernel.defaults_range_partial"
   ],
   "note": "False of the code: NaN is accepted for gamma, alpha and factor; holds when no NaN is passed."
  },
  {
   "property": "C86",
   "status": "partial",
   "theorems": [
    "Verif.Kernel.defaults_atomic_false",
    "Verif.Kernel.defaults_atomic_partial"
   ],
   "note": "False of the code: arguments before the refused one are already stored."
  },
  {
   "property": "C87",
   "status": "proved",
   "theorems": [
    "Verif.Kernel.minGap_spec"
   ],
   "note": "Exact arithmetic."
  },
  {
   "property": "C88",
   "status": "partial",
   "theorems": [
    "Verif.Kernel.remap_default_false",
    "Verif.Kernel.remap_default_partial",
    "Verif.Kernel.remap_default_partial_half",
    "Verif.Kernel.remap_flat_refused_false"
   ],
   "note": "False of the code: two points on a line are refused."
  },
  {
   "property": "C89",
   "status": "proved",
   "theorems": [
    "Verif.Kernel.resolvePriorInit_spec",
    "Verif.Kernel.resolveRoles_spec"
   ],
   "note": ""
  },
  {
   "property": "C90",
   "status": "partial",
   "theorems": [
    "Verif.Kernel.bounds_contain_guess_false",
    "Verif.Kernel.bounds_partial"
   ],
   "note": "False of the code with the default factors."
  },
  {
   "property": "C91",
   "status": "proved",
   "theorems": [
    "Verif.Data.onePass_seeded",
    "Verif.Data.onePass_shift",
    "Verif.Data.first_pass_seed"
   ],
   "note": ""
  },
  {
   "property": "C92",
   "status": "proved",
   "theorems": [
    "Verif.Kernel.logsigma2Std_calibrated",
    "Verif.Kernel.logPriorGaussian_density",
    "Verif.Kernel.logPriorGaussian_refuses",
    "Verif.Kernel.exists_invCdf"
   ],
   "note": "Exact arithmetic; inv_cdf is a parameter with a stated contract, shown satisfiable."
  },
  {
   "property": "C93",
   "status": "proved",
   "theorems": [
    "Verif.Kernel.checkSource_spec"
   ],
   "note": ""
  },
  {
   "property": "C94",
   "status": "partial",
   "theorems": [
    "Verif.Core.mapJeffreys_min",
    "Verif.Core.mapPowerLaw_unbounded_false",
    "Verif.Core.matern_scale"
   ],
   "note": "False of the code for the power-law prior (unbounded below); proved for the Jeffreys prior. Exact arithmetic; linear-algebra routines are parameters with a stated contract (shown satisfiable)."
  },
  {
   "property": "C95",
   "status": "proved",
   "theorems": [
    "Verif.Kernel.selectMlConstant_spec",
    "Verif.Kernel.selectMlConstant_refuses"
   ],
   "note": ""
  },
  {
   "property": "C96",
   "status": "partial",
   "theorems": [
    "Verif.Core.initSigma2Zero_min",
    "Verif.Core.initSigma2_reml_false",
    "Verif.Core.initSigma2_partial",
    "Verif.Core.initConstantMean_mean",
    "Verif.Core.initConstantMean_sigma2_false",
    "Verif.Core.guessZeroMean_min",
    "Verif.Core.guessConstantMean_value",
    "Verif.Core.guessLinear_value"
   ],
   "note": "Proved for zero mean. False with an unknown mean: the guess divides by n instead of n - q, and the constant-mean guess depends on the constant. Exact arithmetic; linear-algebra routines are parameters with a stated contract (shown satisfiable)."
  },
  {
   "property": "C97",
   "status": "partial",
   "theorems": [
    "Verif.MH.scheduler_drops_last_false",
    "Verif.MH.scheduler_returns_partial"
   ],
   "note": "False of the code: the final state is not returned; the slice starting at the last burn-in state is returned instead."
  },
  {
   "property": "C98",
   "status": "proved",
   "theorems": [
    "Verif.MH.proposal_posDef",
    "Verif.MH.haario_one_sample"
   ],
   "note": "Exact arithmetic."
  },
  {
   "property": "C99",
   "status": "proved",
   "theorems": [
    "Verif.MH.slidingRate_spec"
   ],
   "note": "Exact arithmetic."
  },
  {
   "property": "C100",
   "status": "proved",
   "theorems": [
    "Verif.MH.sampleJitter_spec"
   ],
   "note": "Exact arithmetic."
  },
  {
   "property": "C101",
   "status": "proved",
   "theorems": [
    "Verif.SMC.level_fraction",
    "Verif.SMC.subsetLevel_spec"
   ],
   "note": "Exact arithmetic."
  },
  {
   "property": "C102",
   "status": "partial",
   "theorems": [
    "Verif.SMC.nextP0_spec",
    "Verif.SMC.nextP0_ends_partial",
    "Verif.SMC.nextP0_ends_false",
    "Verif.SMC.nextEss_between",
    "Verif.SMC.restart_monotone"
   ],
   "note": "False of the code: the bisection never ends for indicator densities; it ends for probabilities continuous in the parameter."
  },
  {
   "property": "C103",
   "status": "partial",
   "theorems": [
    "Verif.SMC.reweight_telescope",
    "Verif.SMC.reweight_telescope_false"
   ],
   "note": "Proved for finite log-densities; false when the first density vanishes at a particle (NaN weight)."
  },
  {
   "property": "C104",
   "status": "proved",
   "theorems": [
    "Verif.SMC.controlledMove_spec",
    "Verif.SMC.perturb_bounds",
    "Verif.SMC.controlledMove_rejects",
    "Verif.SMC.controlledMove_returns",
    "Verif.SMC.controlledMove_rejects_default"
   ],
   "note": "Exact arithmetic."
  },
  {
   "property": "C105",
   "status": "partial",
   "theorems": [
    "Verif.SMC.perturb_repair_false",
    "Verif.SMC.perturb_partial"
   ],
   "note": "False of the code: the repair loop uses a name that is not imported and raises NameError."
  },
  {
   "property": "C106",
   "status": "partial",
   "theorems": [
    "Verif.SMC.unknown_scheme_false",
    "Verif.SMC.unknown_scheme_partial"
   ],
   "note": "False of the code: building the message raises AttributeError."
  },
  {
   "property": "C107",
   "status": "partial",
   "theorems": [
    "Verif.SMC.bot_rejected",
    "Verif.SMC.accepts_fin",
    "Verif.SMC.outside_rejected_false"
   ],
   "note": "False of the code for the level sets of subset simulation, where zero density is coded as exp(-1e100) and accepted on a draw of 0."
  },
  {
   "property": "C108",
   "status": "partial",
   "theorems": [
    "Verif.Nuts.leapfrog_gauss",
    "Verif.Nuts.mass_is_variance",
    "Verif.Nuts.mass_adapt_false",
    "Verif.Nuts.mass_inverse_partial",
    "Verif.Nuts.window_mass",
    "Verif.Nuts.window_mass_var",
    "Verif.Nuts.warmStep_outside"
   ],
   "note": "False of the code: the mass is set to the variance, which gives steps eps/sigma^2; only equal variances are equalised. The inverse variance would equalise."
  },
  {
   "property": "C109",
   "status": "partial",
   "theorems": [
    "Verif.Nuts.tree_count",
    "Verif.Nuts.tree_uniform",
    "Verif.Nuts.transition_weight",
    "Verif.Nuts.weight_prob",
    "Verif.Nuts.weight_symm",
    "Verif.Nuts.nuts_balance_partial",
    "Verif.Nuts.nuts_balance_false"
   ],
   "note": "Proved when both points judge divergence alike; false of the code in general, because the divergence test uses the energy of the start."
  },
  {
   "property": "C110",
   "status": "proved",
   "theorems": [
    "Verif.Nuts.nutsSample_spec",
    "Verif.Nuts.warmLoop_adm"
   ],
   "note": "The transition kernel is an arbitrary function of iteration, chain, position, step and mass; positive jitter for positive masses."
  },
  {
   "property": "C111",
   "status": "partial",
   "theorems": [
    "Verif.Nuts.resolve_spec",
    "Verif.Nuts.resolve_reset_false"
   ],
   "note": "Proved for arguments that differ from their defaults; false of the code for an explicit argument equal to the default, which is ignored."
  },
  {
   "property": "C112",
   "status": "proved",
   "theorems": [
    "Verif.Nuts.da_closed",
    "Verif.Nuts.da_monotone",
    "Verif.Nuts.da_average",
    "Verif.Nuts.da_final_average",
    "Verif.Nuts.da_final_first"
   ],
   "note": "Exact arithmetic."
  },
  {
   "property": "C113",
   "status": "partial",
   "theorems": [
    "Verif.Nuts.movingAverage_partial",
    "Verif.Nuts.movingAverage_false"
   ],
   "note": "Proved for windows not longer than the series; false of the code otherwise."
  },
  {
   "property": "C114",
   "status": "partial",
   "theorems": [
    "Verif.SVGD.interior_score",
    "Verif.SVGD.interior_score_exact",
    "Verif.SVGD.boundary_score_zero",
    "Verif.SVGD.boundary_stuck",
    "Verif.SVGD.run_boundary_stuck",
    "Verif.SVGD.boundary_score_false"
   ],
   "note": "Exact arithmetic. Holds further than two difference steps from the sides (five-point difference, exact to degree four); false nearer: the score across the side is zero and a lone particle on a side never moves."
  },
  {
   "property": "C115",
   "status": "proved",
   "theorems": [
    "Verif.SVGD.step_perm"
   ],
   "note": "Exact arithmetic."
  },
  {
   "property": "C116",
   "status": "partial",
   "theorems": [
    "Verif.SVGD.kernel_units",
    "Verif.SVGD.kernel_units_false"
   ],
   "note": "Proved when the bandwidth safeguards are inactive; false for clouds shrunk below the jitter."
  },
  {
   "property": "C117",
   "status": "proved",
   "theorems": [
    "Verif.SVGD.run_spec",
    "Verif.SVGD.sample_ok",
    "Verif.SVGD.sample_negative",
    "Verif.SVGD.initCloud_given",
    "Verif.SVGD.initCloud_sizes",
    "Verif.SVGD.initCloud_box",
    "Verif.SVGD.step_meanNorm",
    "Verif.SVGD.run_meanNorm"
   ],
   "note": "Exact arithmetic."
  },
  {
   "property": "C118",
   "status": "proved",
   "theorems": [
    "Verif.Kernel.matern_posSemidef",
    "Verif.Kernel.matern_posDef",
    "Verif.Kernel.cov_posDef",
    "Verif.Kernel.cov_posDef_nugget",
    "Verif.Kernel.cov_repeated_singular",
    "Verif.Kernel.cov_joint",
    "Verif.PD.shape_mixture",
    "Verif.PD.shape_quad_pos",
    "Verif.PD.gauss_quad_pos"
   ],
   "note": "Exact arithmetic; the kernel is shown to be a mixture of Gaussian kernels."
  },
  {
   "property": "C119",
   "status": "proved",
   "theorems": [
    "Verif.Core.matern_predict_zero",
    "Verif.Core.matern_var_at_obs",
    "Verif.Core.matern_universal",
    "Verif.Core.matern_posterior_cov",
    "Verif.Core.matern_interpolates_all",
    "Verif.Core.matern_criteria",
    "Verif.Core.matern_repeated_fails"
   ],
   "note": "Exact arithmetic; linear-algebra routines are parameters with a stated contract (shown satisfiable)."
  },
  {
   "property": "C120",
   "status": "proved",
   "theorems": [
    "Verif.MH.scheduler_iff",
    "Verif.MH.runBurnin_iff",
    "Verif.MH.runAdaptive_iff",
    "Verif.MH.runPhase_total"
   ],
   "note": "Options as used by the posterior samplers (Haario adaptation, no freezing); proposals always return."
  },
  {
   "property": "C121",
   "status": "partial",
   "theorems": [
    "Verif.Posterior.mh_samples",
    "Verif.Posterior.mh_in_box",
    "Verif.Posterior.mh_succeeds_iff",
    "Verif.Posterior.mh_defaults",
    "Verif.Posterior.mh_single_chain_false",
    "Verif.Posterior.mh_in_box_false",
    "Verif.Posterior.logTargetValues_aligned",
    "Verif.Posterior.logTargetValues_shape_false",
    "Verif.Posterior.logTargetValues_raises"
   ],
   "note": "Counts and containment proved for chains starting inside; false of the code: a single chain fails with the defaults, a chain started outside returns outside points, and get_log_target_values has one column too many."
  },
  {
   "property": "C122",
   "status": "partial",
   "theorems": [
    "Verif.Posterior.nuts_raises_iff",
    "Verif.Posterior.nuts_samples",
    "Verif.Posterior.nuts_outside_false"
   ],
   "note": "Exact arithmetic. Proved for chains starting inside; false of the code for a chain started outside, which stays there."
  },
  {
   "property": "C123",
   "status": "partial",
   "theorems": [
    "Verif.NutsEdge.edge_stuck",
    "Verif.NutsEdge.edge_chain",
    "Verif.NutsEdge.nuts_edge",
    "Verif.NutsEdge.nuts_edge_false"
   ],
   "note": "False of the code with the numpy backend: within two difference steps of a side the gradient is not finite and the chain never moves. What is proved is exactly this behaviour."
  },
  {
   "property": "C124",
   "status": "partial",
   "theorems": [
    "Verif.Posterior.smcTarget_spec",
    "Verif.Posterior.smcTarget_raises",
    "Verif.Posterior.smc_raises",
    "Verif.Posterior.smc_raises_false",
    "Verif.Posterior.smc_scalar_box_false",
    "Verif.Posterior.smc_dimension"
   ],
   "note": "The target is proved for criteria that do not raise; false of the code: a criterion raising at one particle ends the run, a scalar init_box raises TypeError, and the dimension is that of init_box[0]."
  },
  {
   "property": "C125",
   "status": "partial",
   "theorems": [
    "Verif.Posterior.svgd_initial_vector",
    "Verif.Posterior.svgd_initial_info",
    "Verif.Posterior.svgd_initial_rows",
    "Verif.Posterior.svgd_initial_random",
    "Verif.Posterior.svgd_in_box",
    "Verif.Posterior.svgd_succeeds_iff",
    "Verif.Posterior.svgd_no_step_false",
    "Verif.Posterior.svgd_options_false",
    "Verif.SVGD.run_succeeds"
   ],
   "note": "Exact arithmetic. Containment proved without an options object; false of the code when options is given without the box, and for a random cloud with n_steps = 0."
  },
  {
   "property": "C126",
   "status": "partial",
   "theorems": [
    "Verif.DataFrame.ftos_accuracy",
    "Verif.DataFrame.ftos_mantissa",
    "Verif.DataFrame.ftos_mantissa_false",
    "Verif.DataFrame.ftos_nonfinite",
    "Verif.DataFrame.ftos_half_unit"
   ],
   "note": "Exact arithmetic. The precision is proved; the coefficient can be shown as 10."
  },
  {
   "property": "C127",
   "status": "partial",
   "theorems": [
    "Verif.DataFrame.set_entry",
    "Verif.DataFrame.set_row",
    "Verif.DataFrame.set_column_false"
   ],
   "note": "Proved for entries and rows by name; false of the code for a column sharing its name with a row."
  },
  {
   "property": "C128",
   "status": "partial",
   "theorems": [
    "Verif.DataFrame.append_row",
    "Verif.DataFrame.append_row_refuses",
    "Verif.DataFrame.append_col",
    "Verif.DataFrame.concat_rows",
    "Verif.DataFrame.concat_refuses",
    "Verif.DataFrame.append_row_false",
    "Verif.DataFrame.append_col_false",
    "Verif.DataFrame.concat_shared_false",
    "Verif.DataFrame.get_shared_false",
    "Verif.DataFrame.concat_cols"
   ],
   "note": "Old entries and names proved for vectors; false of the code for a column given as a one-column matrix, for several rows with one name, and because results share name lists with the frames they come from."
  },
  {
   "property": "C129",
   "status": "partial",
   "theorems": [
    "Verif.DataFrame.repr_aligned",
    "Verif.DataFrame.repr_total",
    "Verif.DataFrame.repr_nan_false",
    "Verif.DataFrame.repr_row_false"
   ],
   "note": "Alignment and totality proved for matrices of finite entries; NaN entries and rows or columns taken by name cannot be displayed."
  },
  {
   "property": "C130",
   "status": "proved",
   "theorems": [
    "Verif.Designs.mindist_iff",
    "Verif.Designs.maxdist_iff",
    "Verif.Designs.mindist_total",
    "Verif.Designs.maxdist_total",
    "Verif.Designs.triangle"
   ],
   "note": "Exact arithmetic."
  },
  {
   "property": "C131",
   "status": "proved",
   "theorems": [
    "Verif.Designs.scale_iff",
    "Verif.Designs.scale_coord",
    "Verif.Designs.scale_in_box",
    "Verif.Designs.randunif_in_box",
    "Verif.Designs.scale_mindist"
   ],
   "note": "Exact arithmetic; scipy's qmc.scale modelled from its documentation; bounds given as lists."
  },
  {
   "property": "C132",
   "status": "proved",
   "theorems": [
    "Verif.Designs.ldrandunif_best",
    "Verif.Designs.ldrandunif_unbound"
   ],
   "note": "The discrepancy is an arbitrary real function."
  },
  {
   "property": "C133",
   "status": "partial",
   "theorems": [
    "Verif.Score.tcrps_upper",
    "Verif.Score.tcrps_both",
    "Verif.Score.tcrps_lower",
    "Verif.Score.tcrps_none",
    "Verif.Score.tcrps_additive",
    "Verif.Score.tcrps_bounds_false",
    "Verif.Score.tcrps_exchanged_false",
    "Verif.Score.exists_bvn"
   ],
   "note": "Exact arithmetic, scalars, exact bivariate distribution function. Proved for ordered bounds; exchanged bounds are accepted and give negative scores."
  },
  {
   "property": "C134",
   "status": "proved",
   "theorems": [
    "Verif.Score.ei1_expectation",
    "Verif.Score.ei2_expectation"
   ],
   "note": "Exact arithmetic, scalars, positive sigma."
  },
  {
   "property": "C135",
   "status": "proved",
   "theorems": [
    "Verif.Score.crps_proper",
    "Verif.Score.crps_divergence"
   ],
   "note": "Exact arithmetic, scalars, positive sigma."
  },
  {
   "property": "C136",
   "status": "proved",
   "theorems": [
    "Verif.Performance.test_constant",
    "Verif.Performance.loo_mean"
   ],
   "note": "Exact arithmetic."
  },
  {
   "property": "C137",
   "status": "proved",
   "theorems": [
    "Verif.Performance.test_units"
   ],
   "note": "Exact arithmetic; one prediction for each target."
  },
  {
   "property": "C138",
   "status": "partial",
   "theorems": [
    "Verif.Performance.compute_blocks",
    "Verif.Performance.test_accepts",
    "Verif.Performance.test_broadcast_false",
    "Verif.Performance.loo_length_false",
    "Verif.Performance.perf_prints",
    "Verif.Performance.perf_tables"
   ],
   "note": "Proved which results are used and when the table is printed; false of the code: sizes of leave-one-out results are not compared, a single prediction is broadcast, and perf raises for constant targets predicted exactly."
  },
  {
   "property": "C139",
   "status": "partial",
   "theorems": [
    "Verif.Performance.pit_values",
    "Verif.Performance.pit_zero_false",
    "Verif.Performance.pit_column_false"
   ],
   "note": "Exact arithmetic. Proved for targets of one axis and positive variances; targets given as a column give an n-by-n array, zero variances give NaN."
  },
  {
   "property": "C140",
   "status": "proved",
   "theorems": [
    "Verif.TestFunctions.braninhoo_min",
    "Verif.TestFunctions.braninhoo_minimisers"
   ],
   "note": "Exact arithmetic."
  },
  {
   "property": "C141",
   "status": "partial",
   "theorems": [
    "Verif.TestFunctions.twobumps_doc",
    "Verif.TestFunctions.wave_doc",
    "Verif.TestFunctions.wave_false"
   ],
   "note": "twobumps proved; false for wave, which uses 3 x2 in place of 3 x1."
  },
  {
   "property": "C142",
   "status": "partial",
   "theorems": [
    "Verif.TestFunctions.hartmann6_doc",
    "Verif.TestFunctions.hartmann6_coefficients",
    "Verif.TestFunctions.hartmann4_coefficients",
    "Verif.TestFunctions.hartmann6_bounds",
    "Verif.TestFunctions.hartmann4_false"
   ],
   "note": "hartmann6 proved; false for hartmann4, whose value at the documented minimiser is above -3.4."
  },
  {
   "property": "C143",
   "status": "proved",
   "theorems": [
    "Verif.TestFunctions.borehole_series",
    "Verif.TestFunctions.borehole_monotone"
   ],
   "note": "Exact arithmetic."
  },
  {
   "property": "C144",
   "status": "proved",
   "theorems": [
    "Verif.TestFunctions.ishigami_range",
    "Verif.TestFunctions.ishigami_attained",
    "Verif.TestFunctions.ishigami_symm"
   ],
   "note": "Exact arithmetic."
  },
  {
   "property": "C145",
   "status": "partial",
   "theorems": [
    "Verif.KnnCov.knn_psd",
    "Verif.KnnCov.knn_all",
    "Verif.KnnCov.knn_fallback",
    "Verif.KnnCov.knn_small_false",
    "Verif.KnnCov.classical_shift",
    "Verif.KnnCov.exists_env"
   ],
   "note": "Exact arithmetic; hnswlib by its contract. Proved when the rows are at least as many as the neighbours asked for; fewer rows raise, because only the number of random points is cut."
  },
  {
   "property": "C146",
   "status": "proved",
   "theorems": [
    "Verif.ParamStats.fast_values",
    "Verif.ParamStats.fast_bounds"
   ],
   "note": "Exact arithmetic with explicit infinities; finite bounds."
  },
  {
   "property": "C147",
   "status": "proved",
   "theorems": [
    "Verif.ParamStats.fast_accepts"
   ],
   "note": "Exact arithmetic with explicit infinities and NaN; criterion that does not raise."
  },
  {
   "property": "C148",
   "status": "partial",
   "theorems": [
    "Verif.ParamStats.fast_shift",
    "Verif.ParamStats.single_floats",
    "Verif.ParamStats.single_ints_false"
   ],
   "note": "Proved for floating point references; false for integer references, where the value is truncated."
  },
  {
   "property": "C149",
   "status": "proved",
   "theorems": [
    "Verif.ParamStats.resolve_spec",
    "Verif.ParamStats.tableFast_spec",
    "Verif.ParamStats.tableFast_delta",
    "Verif.Un1d.table_spec"
   ],
   "note": "References of floating point numbers."
  },
  {
   "property": "C150",
   "status": "proved",
   "theorems": [
    "Verif.Un1d.init_spec",
    "Verif.Un1d.valid_of_measurable",
    "Verif.Un1d.exists_scipy"
   ],
   "note": "scipy quad by its contract, as an exact integral; integrands that reach infinity are outside the contract."
  },
  {
   "property": "C151",
   "status": "partial",
   "theorems": [
    "Verif.Un1d.shift_same",
    "Verif.Un1d.init_underflow",
    "Verif.Un1d.large_criterion_false"
   ],
   "note": "Proved when the values stay between -745 and 709; false otherwise: a criterion above 745 everywhere raises, while the grid statistics are returned."
  },
  {
   "property": "C152",
   "status": "partial",
   "theorems": [
    "Verif.Un1d.pdf_spec",
    "Verif.Un1d.cdf_eq",
    "Verif.Un1d.cdf_laws",
    "Verif.Un1d.pdf_outside_false"
   ],
   "note": "quad by its contract. False: pdf is not zero outside the bounds. Values of log_pdf below -745 have density zero."
  },
  {
   "property": "C153",
   "status": "proved",
   "theorems": [
    "Verif.Un1d.moments",
    "Verif.Un1d.moments_bounds"
   ],
   "note": "quad by its contract."
  },
  {
   "property": "C154",
   "status": "proved",
   "theorems": [
    "Verif.Un1d.quantile_spec"
   ],
   "note": "quad and brentq by their contracts; sums and differences of the bounds are exact."
  },
  {
   "property": "C155",
   "status": "proved",
   "theorems": [
    "Verif.Un1d.stats_ok"
   ],
   "note": "quad, brentq and minimize_scalar by their contracts; the mode is only shown to be between the bounds. Criteria at least -709 whose density does not vanish."
  },
  {
   "property": "C156",
   "status": "proved",
   "theorems": [
    "Verif.Report.Descr.unique",
    "Verif.Report.Descr.bounds",
    "Verif.Report.describeCol_spec",
    "Verif.Report.columns_spec",
    "Verif.Report.describe_spec",
    "Verif.Report.describe_scalar"
   ],
   "note": ""
  },
  {
   "property": "C157",
   "status": "proved",
   "theorems": [
    "Verif.Report.sigmaRho_spec"
   ],
   "note": ""
  },
  {
   "property": "C158",
   "status": "partial",
   "theorems": [
    "Verif.Report.applyBounds_spec",
    "Verif.Report.init_spec",
    "Verif.Report.build_spec",
    "Verif.Report.build_noisy_spec",
    "Verif.Report.init_scale_false"
   ],
   "note": "The projection is proved; check_bounds of the result is false of the code: the stored bounds are logarithmic, the compared values are not."
  },
  {
   "property": "C159",
   "status": "partial",
   "theorems": [
    "Verif.Report.pretty_spec",
    "Verif.Report.pretty_false"
   ],
   "note": "Proved for dictionaries without NaN; any NaN raises ValueError."
  },
  {
   "property": "C160",
   "status": "partial",
   "theorems": [
    "Verif.Report.dataPart_spec",
    "Verif.Report.over_sigma_false"
   ],
   "note": "Proved for the inputs; false for the observations, whose width is divided by the variance."
  },
  {
   "property": "C161",
   "status": "proved",
   "theorems": [
    "Verif.Kernel.postBoth_value",
    "Verif.Kernel.remap_prior_min",
    "Verif.Kernel.logPriorBarrier_broadcast",
    "Verif.Kernel.logPriorBarrier_lengths"
   ],
   "note": "Exact arithmetic; the quantile function is any function positive at the level."
  },
  {
   "property": "C162",
   "status": "proved",
   "theorems": [
    "Verif.Kernel.selectRemap_spec",
    "Verif.Kernel.selectRemap_defaults",
    "Verif.Kernel.resolvePriorArgs_loader",
    "Verif.Kernel.concatX_spec",
    "Verif.Kernel.selectReml_spec"
   ],
   "note": "Optimiser is any strategy of evaluations; the likelihood any function."
  },
  {
   "property": "C163",
   "status": "proved",
   "theorems": [
    "Verif.Kernel.remap_ranges"
   ],
   "note": "Optimisers that report a value they evaluated; arrays, not loaders."
  },
  {
   "property": "C164",
   "status": "partial",
   "theorems": [
    "Verif.Kernel.remap_constant_false",
    "Verif.Kernel.remap_constant_answer_false",
    "Verif.Kernel.postBoth_value"
   ],
   "note": "False of the code: with a constant coordinate every value is NaN and the optimiser's own answer is stored. Without a constant coordinate the criterion is finite as in C161."
  },
  {
   "property": "C165",
   "status": "proved",
   "theorems": [
    "Verif.Kernel.updateRemap_spec",
    "Verif.Kernel.updateRemap_recentres",
    "Verif.Kernel.updateGauss_spec"
   ],
   "note": "Optimiser is any strategy of evaluations."
  },
  {
   "property": "C166",
   "status": "partial",
   "theorems": [
    "Verif.Kernel.setFromKwargs_ok",
    "Verif.Kernel.setFromKwargs_error",
    "Verif.Kernel.setFromKwargs_atomic_false",
    "Verif.Kernel.setFromKwargs_run",
    "Verif.Kernel.getDefaults_spec"
   ],
   "note": "False of one claim: a call that raises keeps the values stored before and has removed keys. The rest is proved."
  },
  {
   "property": "C167",
   "status": "partial",
   "theorems": [
    "Verif.Kernel.remap_batches",
    "Verif.Kernel.remap_batches_false"
   ],
   "note": "False of the code: the size-weighted mean of the batches counts the prior in full against a mean of likelihoods. Proved: the exact value of the criterion."
  },
  {
   "property": "C168",
   "status": "proved",
   "theorems": [
    "Verif.Backend.gradient_sound",
    "Verif.Backend.gradient_after_value",
    "Verif.Backend.gradient_other_point",
    "Verif.Backend.gradient_again"
   ],
   "note": "Autograd by its contract: it finds the gradient of a value computed from the tensor asked about, and none otherwise. Points without NaN."
  },
  {
   "property": "C169",
   "status": "partial",
   "theorems": [
    "Verif.Backend.preGrad_values",
    "Verif.Backend.gradient_after_failure",
    "Verif.Backend.runG_polite_partial",
    "Verif.Backend.runG_failure_false",
    "Verif.Backend.noGrad_backends_false"
   ],
   "note": "False on torch: the gradient at a failing point raises RuntimeError, which the optimiser does not catch; and evaluate_no_grad raises on numpy where torch gives +inf. Proved for optimisers that ask for gradients only where the value was computed."
  },
  {
   "property": "C170",
   "status": "partial",
   "theorems": [
    "Verif.Backend.batch_preGrad_spec",
    "Verif.Backend.batch_gradient_derivative",
    "Verif.Backend.batchInit_spec",
    "Verif.Backend.batch_gradient_stale_false",
    "Verif.Backend.prepareParam_mutates_false"
   ],
   "note": "False: gradient(q) ignores q, also after a failed evaluation; and requires_grad of a tensor argument is changed. The rest is proved."
  },
  {
   "property": "C171",
   "status": "partial",
   "theorems": [
    "Verif.Backend.hessian_sound",
    "Verif.Backend.hessian_protocol",
    "Verif.Backend.hessian_order",
    "Verif.Backend.hessian_affine_false"
   ],
   "note": "False for affine functions, where RuntimeError is raised. Autograd by its contract."
  },
  {
   "property": "C172",
   "status": "partial",
   "theorems": [
    "Verif.Core.fisherTorch_value",
    "Verif.Core.fisherTorch_scale_false",
    "Verif.Core.fisherTorch_variance_false"
   ],
   "note": "False of the code: half the Hessian of the log determinant is returned, which is minus the information for a variance and zero for a log variance. Proved: the value returned and the errors."
  },
  {
   "property": "C173",
   "status": "partial",
   "theorems": [
    "Verif.Core.logPriorReference_spec",
    "Verif.Core.logdet_spec",
    "Verif.Core.cholInv_spec",
    "Verif.Core.logdet_negative_definite_false"
   ],
   "note": "False of one claim: numpy's logdet accepts matrices with positive determinant that are not positive definite."
  },
  {
   "property": "C174",
   "status": "partial",
   "theorems": [
    "Verif.Backend.asarray_spec",
    "Verif.Backend.asarray_number_false"
   ],
   "note": "False for Python numbers, whose shapes differ between backends. Without the dtype argument."
  },
  {
   "property": "C175",
   "status": "partial",
   "theorems": [
    "Verif.Backend.reduce_min_spec",
    "Verif.Backend.reduce_max_spec",
    "Verif.Backend.reduce_column",
    "Verif.Backend.clip_spec",
    "Verif.Backend.clip_one_sided",
    "Verif.Backend.infToBig_spec",
    "Verif.Backend.reduce_default_axis_false",
    "Verif.Backend.clip_integer_false",
    "Verif.Backend.infToBig_negative_false",
    "Verif.Backend.reduce_empty"
   ],
   "note": "False: the default axis differs on matrices, torch truncates bounds for integer tensors, -inf becomes a positive number."
  },
  {
   "property": "C176",
   "status": "partial",
   "theorems": [
    "Verif.Backend.choice_noReplace",
    "Verif.Backend.choice_replace",
    "Verif.Backend.choiceWeights_spec",
    "Verif.Backend.choice_short_false",
    "Verif.Backend.choice_default"
   ],
   "note": "False on torch when more entries are asked for than there are. Without weights, except the normalisation."
  },
  {
   "property": "C177",
   "status": "partial",
   "theorems": [
    "Verif.Backend.logpdfTorch_spec",
    "Verif.Backend.pdfTorch_value",
    "Verif.Backend.pdfTorch_unit_partial",
    "Verif.Backend.pdfTorch_integral_false"
   ],
   "note": "False of pdf for scales other than one: the factor 1/scale is missing."
  },
  {
   "property": "C178",
   "status": "partial",
   "theorems": [
    "Verif.Backend.gradNumpy_exact",
    "Verif.Backend.gradNumpy_integer_false",
    "Verif.Backend.valueAndGradTorch_spec"
   ],
   "note": "False for integer vectors, where perturbations are truncated."
  },
  {
   "property": "C179",
   "status": "partial",
   "theorems": [
    "Verif.Backend.rvs_shape_partial",
    "Verif.Backend.rvs_bad_cov",
    "Verif.Backend.mean_spec",
    "Verif.Backend.rvs_single_false",
    "Verif.Backend.mean_one_entry_false",
    "Verif.Backend.rvs_one"
   ],
   "note": "False for a single draw (shape) and for means with one entry. Shapes only."
  },
  {
   "property": "C180",
   "status": "partial",
   "theorems": [
    "Verif.Core.prepareData_spec",
    "Verif.Core.prepareData_check",
    "Verif.Core.prepareData_half_false"
   ],
   "note": "Proved which source is chosen; false: one array beside a loader is accepted and ignored."
  },
  {
   "property": "C181",
   "status": "partial",
   "theorems": [
    "Verif.Core.loaderDelta_spec",
    "Verif.Core.initZeroLoader_min",
    "Verif.Core.initZeroLoader_single",
    "Verif.Core.initZeroLoader_batches_false",
    "Verif.Core.initConstantLoader_spec",
    "Verif.Core.initConstantLoader_range",
    "Verif.Core.initConstantLoader_column_false",
    "Verif.Core.initLoader_empty_false",
    "Verif.Core.initLinearLoader_spec",
    "Verif.Core.covparamOf_finite"
   ],
   "note": "Exact arithmetic. Proved what is guessed from the batches; false: the guess depends on the batches, and the constant-mean guess raises for observations given as a column. Batches of fewer points than mean functions are not represented."
  },
  {
   "property": "C182",
   "status": "partial",
   "theorems": [
    "Verif.Core.quantileApprox_exact",
    "Verif.Core.quantileApprox_shards_false",
    "Verif.Core.quantileApprox_share_false"
   ],
   "note": "Proved for samples which contain every shard; false otherwise: all shards have the same share, and more shards than sampled points raise."
  },
  {
   "property": "C183",
   "status": "partial",
   "theorems": [
    "Verif.Kernel.updatePowerLaw_chain",
    "Verif.Kernel.updateMlConstant_chain",
    "Verif.Kernel.update_unset",
    "Verif.Kernel.update_nan_false"
   ],
   "note": "False when the criterion takes the value NaN. Proved for criteria without NaN and optimisers that evaluate their start and report a value they evaluated."
  },
  {
   "property": "C184",
   "status": "partial",
   "theorems": [
    "Verif.Param.run_refines_partial",
    "Verif.Param.pick_copies",
    "Verif.Param.add_copies",
    "Verif.Param.alias_false"
   ],
   "note": "False when an array is handed over: objects made from one array share it. Proved for programs that give lists of floats; indexing and concatenation always copy."
  },
  {
   "property": "C185",
   "status": "partial",
   "theorems": [
    "Verif.Param.viewByName_write",
    "Verif.Param.viewByPath_spec",
    "Verif.Param.view_attached_partial",
    "Verif.Param.view_detached_false"
   ],
   "note": "False across an assignment to denormalized_values (or values), which detaches earlier views. The rest is proved."
  },
  {
   "property": "C186",
   "status": "partial",
   "theorems": [
    "Verif.Param.setByName_float_partial",
    "Verif.Param.setFromUnnormalized_integer_false",
    "Verif.Param.setByName_integer",
    "Verif.Param.add_type"
   ],
   "note": "False for lists of integers: the array keeps integers and truncates what is assigned. Proved for floats."
  },
  {
   "property": "C187",
   "status": "proved",
   "theorems": [
    "Verif.Param.byPrefix_spec",
    "Verif.Param.dictLookup_last",
    "Verif.Param.toDict_spec",
    "Verif.Param.getPaths_spec"
   ],
   "note": ""
  },
  {
   "property": "C188",
   "status": "partial",
   "theorems": [
    "Verif.Param.repr_outcome",
    "Verif.Param.table_aligned",
    "Verif.Param.table_empty",
    "Verif.Param.repr_nan_false",
    "Verif.Param.cells_content"
   ],
   "note": "False with NaN, where repr raises ValueError; without entries the table is empty. How numbers are written is a parameter."
  },
  {
   "property": "C189",
   "status": "partial",
   "theorems": [
    "Verif.Backend.cov_agree_partial",
    "Verif.Backend.cov_vector_false",
    "Verif.Backend.cov_entries",
    "Verif.Backend.cov_psd",
    "Verif.Backend.cov_second"
   ],
   "note": "False for vectors with rowvar=False (torch takes each entry for a variable) and, before numpy 2.2, for single rows. Proved otherwise; symmetry, diagonal and positive semidefiniteness always. Exact arithmetic, without weights."
  },
  {
   "property": "C190",
   "status": "partial",
   "theorems": [
    "Verif.Backend.solveTri_partial",
    "Verif.Backend.solveTri_trans",
    "Verif.Backend.solveTri_trans_false",
    "Verif.Backend.solveTri_other"
   ],
   "note": "False with trans=1: torch applies lower to the transposed matrix. Proved without transposition, and for scipy with it."
  },
  {
   "property": "C191",
   "status": "partial",
   "theorems": [
    "Verif.Backend.percentile_partial",
    "Verif.Backend.percentile_list_false",
    "Verif.Backend.isscalar_partial",
    "Verif.Backend.isscalar_false",
    "Verif.Backend.nanToNum_spec",
    "Verif.Backend.nanToNum_copy_false",
    "Verif.Backend.percentile_weights"
   ],
   "note": "False for lists of levels, arrays with one entry, and copy=False. Proved otherwise."
  },
  {
   "property": "C192",
   "status": "partial",
   "theorems": [
    "Verif.Backend.logpdf_shape_partial",
    "Verif.Backend.logpdf_refuse",
    "Verif.Backend.logpdf_shape_false",
    "Verif.Backend.logpdf_shape_one"
   ],
   "note": "False for axes of length one; refusals agree. Shapes only."
  },
  {
   "property": "C193",
   "status": "partial",
   "theorems": [
    "Verif.MH.gaussLogProp_symm",
    "Verif.MH.asymmetric_same",
    "Verif.MH.asymmetric_false"
   ],
   "note": "False of the code: the correction always uses the symmetric Gaussian density, so it is zero for every prop_rnd. Proved: steps with symmetric=False and True coincide. Exact arithmetic."
  },
  {
   "property": "C194",
   "status": "partial",
   "theorems": [
    "Verif.MH.defaultProp_spec",
    "Verif.MH.initParams_spec",
    "Verif.MH.initParams_shape_false",
    "Verif.MH.setMode_spec",
    "Verif.MH.validateSteps_spec",
    "Verif.MH.initParams_cov"
   ],
   "note": "False for the shapes: three axes are not checked against the dimension, and one diagonal per chain is read as a covariance when chains and coordinates are as many. The rest is proved."
  },
  {
   "property": "C195",
   "status": "proved",
   "theorems": [
    "Verif.MH.pooledSamples_spec",
    "Verif.MH.wholeCov_spec",
    "Verif.MH.recompute_spec",
    "Verif.MH.ksBlocks_spec",
    "Verif.MH.ksMatrix_symm"
   ],
   "note": "Exact arithmetic. Rows are all allocated rows, see C196."
  },
  {
   "property": "C196",
   "status": "partial",
   "theorems": [
    "Verif.MH.scheduler_memory",
    "Verif.MH.whole_chain_memory_partial",
    "Verif.MH.whole_chain_memory_false"
   ],
   "note": "Proved for the run and its result; false for statistics of whole chains after a burn-in that stopped early, proved when all steps were made."
  },
  {
   "property": "C197",
   "status": "partial",
   "theorems": [
    "Verif.Random.seed_reproducible_partial",
    "Verif.Random.callers_within",
    "Verif.Random.seed_reproducible_false",
    "Verif.Random.callers_reproducible_false",
    "Verif.Random.documented_reproducible"
   ],
   "note": "False of the code: multivariate_normal.rvs (hence Metropolis-Hastings), designs and SMC draw from generators that set_seed does not reach. Proved for programs that use rand, randn, choice and permutation, among them splits, folds, loaders, sample paths and NUTS."
  },
  {
   "property": "C198",
   "status": "partial",
   "theorems": [
    "Verif.Random.seeded_call_resets",
    "Verif.Random.seed_local_false",
    "Verif.Random.unseeded_call_advances",
    "Verif.Random.repeated_folds_shift"
   ],
   "note": "False of the code: the seed is given to the generator of the whole process. Proved what happens instead, and the property without a seed."
  },
  {
   "property": "C199",
   "status": "partial",
   "theorems": [
    "Verif.Random.run_independent",
    "Verif.Random.smc_independent_partial",
    "Verif.Random.smc_independent_false"
   ],
   "note": "False for objects made without rng, which share the default argument. Proved for objects with a generator of their own."
  },
  {
   "property": "C200",
   "status": "partial",
   "theorems": [
    "Verif.Config.num_backend_fixed",
    "Verif.Config.setBackend_no_effect",
    "Verif.Config.setBackend_effect_false",
    "Verif.Config.import_env_partial",
    "Verif.Config.import_retry_false"
   ],
   "note": "False: the package imports gpmp.num before set_backend can be called, and a failed choice is remembered. Proved that the choice never changes, and that the environment variable works."
  },
  {
   "property": "C201",
   "status": "partial",
   "theorems": [
    "Verif.Config.getDtype_partial",
    "Verif.Config.getDtype_lost",
    "Verif.Config.getDtype_false",
    "Verif.Config.getDtype_set"
   ],
   "note": "False after set_dtype or update(dtype=...), which forget the type for good. Proved without such calls."
  },
  {
   "property": "C202",
   "status": "partial",
   "theorems": [
    "Verif.Config.version_partial",
    "Verif.Config.version_nonempty",
    "Verif.Config.version_false",
    "Verif.Config.version_stripped",
    "Verif.Config.version_default"
   ],
   "note": "False for an empty VERSION file."
  },
  {
   "property": "C203",
   "status": "partial",
   "theorems": [
    "Verif.Config.getAttr_stable",
    "Verif.Config.getAttr_fails",
    "Verif.Config.dir_complete",
    "Verif.Config.dir_complete_false",
    "Verif.Config.mcmc_exports",
    "Verif.Config.dirDiag_lists"
   ],
   "note": "False for dir(gpmp.modeldiagnosis), which leaves out bound attributes; the rest is proved."
  },
  {
   "property": "C204",
   "status": "partial",
   "theorems": [
    "Verif.Core.Obj.predict_at_data_iff",
    "Verif.Core.Obj.predict_at_data_false",
    "Verif.Core.Obj.sameKept_iff"
   ],
   "note": "False of the code: when asarray has to convert, the two arguments become different objects and the nugget is left out, so that data are not returned (torch with numpy arrays). Proved exactly when it holds, zero mean."
  },
  {
   "property": "C205",
   "status": "proved",
   "theorems": [
    "Verif.Core.Obj.loo_refit",
    "Verif.Core.Obj.matern_loo_refit"
   ],
   "note": "Exact arithmetic; linear-algebra routines are parameters with a stated contract (shown satisfiable)."
  },
  {
   "property": "C206",
   "status": "proved",
   "theorems": [
    "Verif.Core.Obj.criteria_read_arguments",
    "Verif.Core.Obj.column_accepted",
    "Verif.Core.Obj.predict_refusals",
    "Verif.Core.Obj.mean_refusals",
    "Verif.Core.Obj.loo_unknown",
    "Verif.Core.Obj.predictor_kind",
    "Verif.Core.Obj.matern_paths"
   ],
   "note": ""
  },
  {
   "property": "C207",
   "status": "proved",
   "theorems": [
    "Verif.Core.predict_moved",
    "Verif.Core.Obj.predict_units",
    "Verif.Core.Obj.predict_select",
    "Verif.Core.Obj.matern_units"
   ],
   "note": "Exact arithmetic; linear-algebra routines are parameters with a stated contract (shown satisfiable)."
  },
  {
   "property": "C208",
   "status": "proved",
   "theorems": [
    "Verif.Core.criteria_moved"
   ],
   "note": "Exact arithmetic; linear-algebra routines are parameters with a stated contract (shown satisfiable)."
  },
  {
   "property": "C209",
   "status": "partial",
   "theorems": [
    "Verif.Core.Sh.nllZero_obs",
    "Verif.Core.Sh.nlrl_obs",
    "Verif.Core.Sh.nllMean_vec",
    "Verif.Core.Sh.nllMean_col_false",
    "Verif.Core.Sh.nllMean_col_one",
    "Verif.Core.Sh.looZero_vec",
    "Verif.Core.Sh.looZero_col_false",
    "Verif.Core.Sh.looMean_col_false",
    "Verif.Core.Sh.looLin_obs",
    "Verif.Core.Sh.condPaths_obs",
    "Verif.Core.Sh.condPathsMean_vec",
    "Verif.Core.Sh.condPathsMean_col_false",
    "Verif.Core.Sh.looMean_vec"
   ],
   "note": "False of the code: with a given mean, columns of two or more raise in the likelihood, leave-one-out and conditional paths; gpmp.core.loo.loo of a column returns square arrays. Proved for vectors everywhere, and for columns in the zero-mean and restricted likelihoods and conditional paths. Exact arithmetic."
  },
  {
   "property": "C210",
   "status": "partial",
   "theorems": [
    "Verif.Core.Sh.length_refused",
    "Verif.Core.Sh.length_torch_false",
    "Verif.Core.Sh.length_mean",
    "Verif.Core.Sh.columns_refused",
    "Verif.Core.Sh.condPaths_single_false",
    "Verif.Core.Sh.condPaths_refused"
   ],
   "note": "False of the code: on torch the zero-mean likelihood is infinite for a wrong length; one observation is repeated when a mean is given and in conditional paths. Proved in the other cases."
  },
  {
   "property": "C211",
   "status": "partial",
   "theorems": [
    "Verif.Core.Sh.normZero_obs",
    "Verif.Core.Sh.normZero_shape_false",
    "Verif.Core.Sh.norm_obs",
    "Verif.Core.Sh.kInverses_obs",
    "Verif.Core.Sh.kInverses_square"
   ],
   "note": "False for the shapes: arrays with one axis on torch and for columns, vectors instead of columns in k_inverses. The values are proved."
  },
  {
   "property": "C212",
   "status": "partial",
   "theorems": [
    "Verif.Plot.pit_drawn",
    "Verif.Plot.pit_ecdf_partial",
    "Verif.Plot.pit_ecdf_false"
   ],
   "note": "False of the code: the corners use k/(n-1) instead of k/n. Proved what is drawn, and that it is at most 1/n above the distribution function. Exact arithmetic."
  },
  {
   "property": "C213",
   "status": "partial",
   "theorems": [
    "Verif.Plot.cross_sections_shown",
    "Verif.Plot.cross_names",
    "Verif.Plot.cross_refusals",
    "Verif.Plot.cross_default_range",
    "Verif.Plot.cross_bounds_partial",
    "Verif.Plot.cross_bounds_false",
    "Verif.Plot.cross_integer_false"
   ],
   "note": "False of the code: bounds are looked up by the position of the panel, not of the parameter, and integer parameters are truncated. Proved for floating-point parameters, with bounds when all parameters are shown. Exact arithmetic."
  },
  {
   "property": "C214",
   "status": "partial",
   "theorems": [
    "Verif.Plot.map_points",
    "Verif.Plot.map_range",
    "Verif.Plot.map_centre",
    "Verif.Plot.map_colours",
    "Verif.Plot.map_colours_order",
    "Verif.Plot.map_refusals",
    "Verif.Plot.map_nan_false",
    "Verif.Plot.map_unshifted_false"
   ],
   "note": "False of the code where the criterion is NaN (shown as 0, possibly the best value) and, without the shift, where it is negative. Proved otherwise. Exact arithmetic."
  },
  {
   "property": "C215",
   "status": "partial",
   "theorems": [
    "Verif.Plot.sections_shown",
    "Verif.Plot.sections_panels",
    "Verif.Plot.section_facts",
    "Verif.Plot.sections_refusals",
    "Verif.Plot.sections_integer_false"
   ],
   "note": "False for points stored as integers, which truncate the swept coordinate. Proved for floating-point points. Exact arithmetic."
  },
  {
   "property": "C216",
   "status": "partial",
   "theorems": [
    "Verif.Plot.bands_default",
    "Verif.Plot.bands_single",
    "Verif.Plot.bands_nested",
    "Verif.Plot.bands_labels",
    "Verif.Plot.bands_labels_false",
    "Verif.Plot.bands_refusals",
    "Verif.Plot.documented_quantiles",
    "Verif.Plot.exists_inverts",
    "Verif.Plot.bands_hidden"
   ],
   "note": "False for the default labels with other levels. Proved otherwise, for any inverse of the normal distribution function. Exact arithmetic."
  },
  {
   "property": "C217",
   "status": "proved",
   "theorems": [
    "Verif.Plot.loo_bars"
   ],
   "note": "Exact arithmetic; linear-algebra routines are parameters with a stated contract (shown satisfiable)."
  },
  {
   "property": "C218",
   "status": "partial",
   "theorems": [
    "Verif.Backend.Conv.conversions_spec",
    "Verif.Backend.Conv.conversions_total",
    "Verif.Backend.Conv.arrays_spec",
    "Verif.Backend.Conv.toNp_list_false",
    "Verif.Backend.Conv.asarray_types",
    "Verif.Backend.Conv.store_becomes",
    "Verif.Backend.Conv.dtype_becomes",
    "Verif.Backend.Conv.write_becomes",
    "Verif.Backend.Conv.isarray_own"
   ],
   "note": "False for to_np of a list, which is returned as it is (numpy) or refused (torch). The rest is proved. Rounding to single precision is an arbitrary function."
  },
  {
   "property": "C219",
   "status": "partial",
   "theorems": [
    "Verif.Backend.Conv.copy_independent",
    "Verif.Backend.Conv.asarray_shares",
    "Verif.Backend.Conv.array_copy_false"
   ],
   "note": "False of array on torch, which shares the memory of a numpy array or tensor. Proved for copy on both and array on numpy."
  },
  {
   "property": "C220",
   "status": "partial",
   "theorems": [
    "Verif.Backend.Conv.resolve_partial",
    "Verif.Backend.Conv.resolve_refuses",
    "Verif.Backend.Conv.resolve_false",
    "Verif.Backend.Conv.resolve_first"
   ],
   "note": "False: float, int and single are refused and uint64, longdouble become other types. Proved for the usual names."
  },
  {
   "property": "C221",
   "status": "partial",
   "theorems": [
    "Verif.Backend.Conv.asint_partial",
    "Verif.Backend.Conv.asint_range_false"
   ],
   "note": "False on torch from 2^31 on. Proved within 32 bits."
  },
  {
   "property": "C222",
   "status": "partial",
   "theorems": [
    "Verif.Backend.Err.isLinalg_iff",
    "Verif.Backend.Err.guarded_spec",
    "Verif.Backend.Err.runSolver_erase",
    "Verif.Backend.Err.linalg_only_false",
    "Verif.Backend.Err.isLinalg_words"
   ],
   "note": "False: exceptions are told apart by words in their message. Proved which ones are caught."
  },
  {
   "property": "C223",
   "status": "partial",
   "theorems": [
    "Verif.Backend.Err.cdf_agree_partial",
    "Verif.Backend.Err.cdf_zero_scale_false",
    "Verif.Backend.Err.logcdf_tail_false"
   ],
   "note": "False for scale 0 (torch) and in the lower tail (torch logcdf is -inf from -9 on). Proved in exact arithmetic otherwise."
  },
  {
   "property": "C224",
   "status": "partial",
   "theorems": [
    "Verif.Backend.Err.norm_agree_partial",
    "Verif.Backend.Err.norm_matrix_false",
    "Verif.Backend.Err.var_agree_partial",
    "Verif.Backend.Err.var_ddof_false"
   ],
   "note": "False for norms of matrices without axis and for var with ddof at least the size. Proved otherwise."
  },
  {
   "property": "C225",
   "status": "partial",
   "theorems": [
    "Verif.Backend.Err.cho_solve_factor",
    "Verif.Backend.Err.cho_factor_fails",
    "Verif.Backend.Err.cho_solve_vector_false"
   ],
   "note": "False for vectors on torch, which are refused. Proved otherwise. Exact arithmetic; linear-algebra routines are parameters with a stated contract (shown satisfiable)."
  },
  {
   "property": "C226",
   "status": "partial",
   "theorems": [
    "Verif.Data.Gen.names_spec",
    "Verif.Data.Gen.stats_spec",
    "Verif.Data.Gen.stats_own_field",
    "Verif.Data.Gen.mean_same_type",
    "Verif.Data.Gen.quantile_approx_false",
    "Verif.Data.Gen.property_value_false",
    "Verif.Data.Gen.mean_order_false",
    "Verif.Data.Gen.mean_fails_iff"
   ],
   "note": "False: the properties of a loader are bound methods, not values, and shards of integers before shards of floats raise. Proved for the methods of the data set, one column."
  },
  {
   "property": "C227",
   "status": "proved",
   "theorems": [
    "Verif.Core.gaussDensity_chain",
    "Verif.Core.nll_chain",
    "Verif.Core.predict_chain",
    "Verif.Core.nll_prequential",
    "Verif.Core.reml_chain",
    "Verif.Core.predict_chain_linear"
   ],
   "note": "Exact arithmetic; linear-algebra routines are parameters with a stated contract (shown satisfiable)."
  },
  {
   "property": "C228",
   "status": "proved",
   "theorems": [
    "Verif.Core.update_zero",
    "Verif.Core.update_universal"
   ],
   "note": "Exact arithmetic; linear-algebra routines are parameters with a stated contract (shown satisfiable)."
  },
  {
   "property": "C229",
   "status": "proved",
   "theorems": [
    "Verif.Core.reml_integrated"
   ],
   "note": "Exact arithmetic; linear-algebra routines are parameters with a stated contract (shown satisfiable)."
  },
  {
   "property": "C230",
   "status": "proved",
   "theorems": [
    "Verif.Core.fisher_score",
    "Verif.Core.fisherCpd_score"
   ],
   "note": "Exact arithmetic; the finite-difference step enters as exactness or as a limit."
  },
  {
   "property": "C231",
   "status": "proved",
   "theorems": [
    "Verif.SMC.multinomial_law",
    "Verif.SMC.residual_law"
   ],
   "note": "The multinomial sampler is the tally of independent draws. Exact arithmetic; linear-algebra routines are parameters with a stated contract (shown satisfiable)."
  },
  {
   "property": "C232",
   "status": "partial",
   "theorems": [
    "Verif.Backend.Red.reduce_agree",
    "Verif.Backend.Red.mean_agree",
    "Verif.Backend.Red.run_agree",
    "Verif.Backend.Red.position_ok_iff",
    "Verif.Backend.Red.sum_axis_total",
    "Verif.Backend.Red.prod_axis_total",
    "Verif.Backend.Red.mean_axis_total",
    "Verif.Backend.Red.diff_cumsum",
    "Verif.Backend.Red.linspace_agree",
    "Verif.Backend.Red.full_agree_iff",
    "Verif.Backend.Red.expandDims_agree",
    "Verif.Backend.Red.transpose_agree",
    "Verif.Backend.Red.npMeshgrid_values",
    "Verif.Backend.Red.mean_integers_false",
    "Verif.Backend.Red.cumsum_flat_false",
    "Verif.Backend.Red.linspace_keyword_false",
    "Verif.Backend.Red.meshgrid_transposed_false",
    "Verif.Backend.Red.expandDims_tuple_false",
    "Verif.Backend.Red.all_values"
   ],
   "note": "False for means of integers, cumsum without an axis, linspace with the keyword num or without a number, full with an integer, meshgrid (transposed) and expand_dims with a tuple. Proved otherwise, for arrays with at least one axis where an axis is given. Exact arithmetic; linear-algebra routines are parameters with a stated contract (shown satisfiable)."
  },
  {
   "property": "C233",
   "status": "partial",
   "theorems": [
    "Verif.SMC.Log.stepRestart_complete",
    "Verif.SMC.Log.stepRestart_stage",
    "Verif.SMC.Log.stepRestart_erase",
    "Verif.SMC.Log.step_done",
    "Verif.SMC.Log.restart_counts",
    "Verif.SMC.Log.restart_interrupted",
    "Verif.SMC.Log.callAll_log",
    "Verif.SMC.Log.columns_spec",
    "Verif.SMC.Log.columns_rates",
    "Verif.SMC.Log.stairs_spec",
    "Verif.SMC.Log.restart_counter_false"
   ],
   "note": "False: after an exception in a restart the iteration counter is not reset, so the next restart does not count from 1. Proved otherwise."
  },
  {
   "property": "C234",
   "status": "proved",
   "theorems": [
    "Verif.Demo.gaussian2d_eq",
    "Verif.Demo.gaussian2d_mass",
    "Verif.Demo.mixture2d_density",
    "Verif.Demo.mixture2d_empty",
    "Verif.Demo.mixture2d_stable",
    "Verif.Demo.rosenbrock_min",
    "Verif.Demo.rosenbrock_mass"
   ],
   "note": "Exact arithmetic; linear-algebra routines are parameters with a stated contract (shown satisfiable)."
  },
  {
   "property": "C235",
   "status": "proved",
   "theorems": [
    "Verif.Core.fisher_more_data",
    "Verif.Core.fisher_trend",
    "Verif.Core.fisherCpd_more_data",
    "Verif.Core.fisher_independent"
   ],
   "note": "Holds for any step of the finite differences. Exact arithmetic; linear-algebra routines are parameters with a stated contract (shown satisfiable)."
  },
  {
   "property": "C236",
   "status": "proved",
   "theorems": [
    "Verif.Core.predict_gls",
    "Verif.Core.predict_gls_unique"
   ],
   "note": "Uniqueness where the targets separate the coefficients. Exact arithmetic; linear-algebra routines are parameters with a stated contract (shown satisfiable)."
  },
  {
   "property": "C237",
   "status": "proved",
   "theorems": [
    "Verif.Core.target_known",
    "Verif.Core.target_zero",
    "Verif.Core.target_linear"
   ],
   "note": "Exact arithmetic; linear-algebra routines are parameters with a stated contract (shown satisfiable)."
  },
  {
   "property": "C238",
   "status": "proved",
   "theorems": [
    "Verif.Core.norm_least",
    "Verif.Core.norm_least_linear",
    "Verif.Core.norm_bounds"
   ],
   "note": "Exact arithmetic; linear-algebra routines are parameters with a stated contract (shown satisfiable)."
  },
  {
   "property": "C239",
   "status": "proved",
   "theorems": [
    "Verif.Core.sample_law",
    "Verif.Core.sample_law_svd",
    "Verif.Core.nll_law",
    "Verif.Core.reml_law",
    "Verif.Core.density_whiten"
   ],
   "note": "The draws are assumed independent and standard normal. Exact arithmetic; linear-algebra routines are parameters with a stated contract (shown satisfiable)."
  },
  {
   "property": "C240",
   "status": "proved",
   "theorems": [
    "Verif.Core.predict_law",
    "Verif.Core.predict_linear_law",
    "Verif.Core.predict_coverage",
    "Verif.Core.predict_linear_coverage",
    "Verif.Core.conditional_law",
    "Verif.Core.conditional_law_mean",
    "Verif.Core.loo_law",
    "Verif.Core.loo_linear_law",
    "Verif.Core.norm_law",
    "Verif.Core.chiSquare_mean"
   ],
   "note": "Coverage where the variance is positive; the quantile function is assumed to invert the distribution function. Exact arithmetic; linear-algebra routines are parameters with a stated contract (shown satisfiable)."
  },
  {
   "property": "C241",
   "status": "proved",
   "theorems": [
    "Verif.Kernel.maternp_bessel",
    "Verif.Kernel.matern32_bessel",
    "Verif.Kernel.maternBessel_zero",
    "Verif.Kernel.besselK_rec",
    "Verif.Kernel.besselK_half"
   ],
   "note": "Exact arithmetic; linear-algebra routines are parameters with a stated contract (shown satisfiable)."
  },
  {
   "property": "C242",
   "status": "proved",
   "theorems": [
    "Verif.Kernel.matern_regularity"
   ],
   "note": "Exact arithmetic; linear-algebra routines are parameters with a stated contract (shown satisfiable)."
  },
  {
   "property": "C243",
   "status": "proved",
   "theorems": [
    "Verif.Nuts.nuts_keeps_target",
    "Verif.Nuts.nuts_chain",
    "Verif.Nuts.nuts_error_vanishes",
    "Verif.Nuts.nuts_exact"
   ],
   "note": "Real-valued potentials; step size and mass fixed (as after warmup). Exact arithmetic; linear-algebra routines are parameters with a stated contract (shown satisfiable)."
  },
  {
   "property": "C244",
   "status": "proved",
   "theorems": [
    "Verif.MH.mh_converges",
    "Verif.MH.mh_averages",
    "Verif.MH.mh_averages_prob",
    "Verif.MH.mh_box_converges"
   ],
   "note": "Fixed proposal (no adaptation). Exact arithmetic; linear-algebra routines are parameters with a stated contract (shown satisfiable)."
  },
  {
   "property": "C245",
   "status": "proved",
   "theorems": [
    "Verif.Core.fill_zero",
    "Verif.Core.fill_linear",
    "Verif.Core.fill_rate",
    "Verif.Core.fill_converges",
    "Verif.Core.fill_converges_constant",
    "Verif.Kernel.matern_gap"
   ],
   "note": "Exact arithmetic; linear-algebra routines are parameters with a stated contract (shown satisfiable)."
  },
  {
   "property": "C246",
   "status": "partial",
   "theorems": [
    "Verif.Core.coords_cov",
    "Verif.Core.coords_arrays",
    "Verif.Core.coords_invariant",
    "Verif.Core.coords_guess",
    "Verif.Kernel.logrhoMin_units",
    "Verif.Kernel.barrier_units",
    "Verif.Kernel.powerLaw_units_false"
   ],
   "note": "False of the power-law prior, whose cut-offs are absolute (it is unchanged while all log length scales stay within them). Guesses: no constant coordinate. Exact arithmetic; linear-algebra routines are parameters with a stated contract (shown satisfiable)."
  },
  {
   "property": "C247",
   "status": "proved",
   "theorems": [
    "Verif.Core.cov_smooth",
    "Verif.Core.criteria_smooth",
    "Verif.Core.criteria_min",
    "Verif.Core.predict_smooth"
   ],
   "note": "Exact arithmetic; linear-algebra routines are parameters with a stated contract (shown satisfiable)."
  },
  {
   "property": "C248",
   "status": "partial",
   "theorems": [
    "Verif.Backend.Elem.broadcast_spec",
    "Verif.Backend.Elem.binary_entries",
    "Verif.Backend.Elem.maximum_entries",
    "Verif.Backend.Elem.minimum_entries",
    "Verif.Backend.Elem.binary_agree",
    "Verif.Backend.Elem.binary_single_false",
    "Verif.Backend.Elem.unary_agree",
    "Verif.Backend.Elem.unary_single_false",
    "Verif.Backend.Elem.sort_agree",
    "Verif.Backend.Elem.sort_flat",
    "Verif.Backend.Elem.sort_false",
    "Verif.Backend.Elem.ordered_unique",
    "Verif.Backend.Elem.binary_single_types"
   ],
   "note": "False in single precision, where the types differ between the backends, for booleans under exp (half precision in numpy, outside the model), and for sort of lists, of 0-d arrays and with axis=None; proved otherwise. Broadcasting, promotion and the sort order are the libraries' (modelled as documented). No rounding."
  },
  {
   "property": "C249",
   "status": "proved",
   "theorems": [
    "Verif.SMC.reweight_consistent",
    "Verif.SMC.resample_consistent",
    "Verif.SMC.toBox_map",
    "Verif.SMC.init_sample"
   ],
   "note": "For independent particles at the stage considered. Exact arithmetic; linear-algebra routines are parameters with a stated contract (shown satisfiable)."
  },
  {
   "property": "C250",
   "status": "partial",
   "theorems": [
    "Verif.SMC.moved_law",
    "Verif.SMC.normal_symm",
    "Verif.SMC.move_eq",
    "Verif.SMC.move_law",
    "Verif.SMC.move_adaptive_false"
   ],
   "note": "False of the program, which takes the covariance of the noise from the particles themselves: two particles on two distant intervals meet more often than the target law says. Proved for a covariance that does not depend on the particles. Exact arithmetic; linear-algebra routines are parameters with a stated contract (shown satisfiable)."
  },
  {
   "property": "C251",
   "status": "proved",
   "theorems": [
    "Verif.Core.nll_proper",
    "Verif.Core.reml_proper"
   ],
   "note": "Exact arithmetic; linear-algebra routines are parameters with a stated contract (shown satisfiable)."
  },
  {
   "property": "C252",
   "status": "proved",
   "theorems": [
    "Verif.Core.cov_same_iff",
    "Verif.Core.cov_identified_iff",
    "Verif.Core.nll_identified",
    "Verif.Core.nll_diagonal_false",
    "Verif.Core.contrasts_variogram",
    "Verif.Core.reml_increments",
    "Verif.Core.reml_two_points_false"
   ],
   "note": "The theorems ending in _false are the two cases where parameters are not determined. Exact arithmetic; linear-algebra routines are parameters with a stated contract (shown satisfiable)."
  },
  {
   "property": "C253",
   "status": "partial",
   "theorems": [
    "Verif.SVGD.stein_zero",
    "Verif.SVGD.svgd_mean",
    "Verif.SVGD.svgd_limit",
    "Verif.SVGD.svgd_box_false"
   ],
   "note": "False with a box, where the kernel pushes particles to the sides (uniform density on [0,1]); proved without one. Fixed bandwidth. Exact arithmetic; linear-algebra routines are parameters with a stated contract (shown satisfiable)."
  },
  {
   "property": "C254",
   "status": "proved",
   "theorems": [
    "Verif.MH.rlim_one",
    "Verif.MH.rhat_limit",
    "Verif.MH.check_limit",
    "Verif.MH.rhat_draws",
    "Verif.MH.rhat_scale_false"
   ],
   "note": "rhat_scale_false is the case that the check does not see. Exact arithmetic; linear-algebra routines are parameters with a stated contract (shown satisfiable)."
  },
  {
   "property": "C255",
   "status": "proved",
   "theorems": [
    "Verif.Kernel.matern_gauss",
    "Verif.Kernel.maternp_gauss",
    "Verif.Kernel.cov_gauss",
    "Verif.Core.gauss_Kii",
    "Verif.Core.predict_gauss",
    "Verif.Core.criteria_gauss"
   ],
   "note": "Exact arithmetic; linear-algebra routines are parameters with a stated contract (shown satisfiable)."
  },
  {
   "property": "C256",
   "status": "partial",
   "theorems": [
    "Verif.Core.init_zero_mean",
    "Verif.Core.init_zero_loader",
    "Verif.Core.init_linear_mean",
    "Verif.Core.init_constant_mean",
    "Verif.Core.init_linear_false",
    "Verif.Core.init_constant_false"
   ],
   "note": "False for a linear mean (too small by the factor (n-q)/n) and for a constant mean (the data are not centred: too large by the square of the mean times 1'K^-1 1/n); proved for a zero mean. Exact arithmetic; linear-algebra routines are parameters with a stated contract (shown satisfiable)."
  },
  {
   "property": "C257",
   "status": "proved",
   "theorems": [
    "Verif.Core.batched_proper",
    "Verif.Core.batched_single",
    "Verif.Core.batched_pairs_false"
   ],
   "note": "batched_pairs_false is the case that the criterion does not see. Exact arithmetic; linear-algebra routines are parameters with a stated contract (shown satisfiable)."
  },
  {
   "property": "C258",
   "status": "proved",
   "theorems": [
    "Verif.Core.fd_error",
    "Verif.Core.fd_sharp",
    "Verif.Core.fd_matern",
    "Verif.Core.fd_criteria"
   ],
   "note": "Errors of the values are arbitrary; the arithmetic of the formula itself is exact."
  },
  {
   "property": "C259",
   "status": "partial",
   "theorems": [
    "Verif.Config.Log.level_env",
    "Verif.Config.Log.level_names",
    "Verif.Config.Log.level_default",
    "Verif.Config.Log.level_unknown",
    "Verif.Config.Log.level_env_false",
    "Verif.Config.Log.set_level",
    "Verif.Config.Log.one_handler",
    "Verif.Config.Log.written_once",
    "Verif.Config.Log.last_resort",
    "Verif.Config.Log.written_once_false",
    "Verif.Config.Log.lower_shows_more",
    "Verif.Config.Log.lower_shows_more_false",
    "Verif.Config.Log.level_kept",
    "Verif.Config.Log.caches_cleared",
    "Verif.Config.Log.cache_stored"
   ],
   "note": "False in three cases: the words basic_format and _styles, which are attributes of logging, make the import fail; with a handler on the root logger every message is written twice; NOTSET, the lowest level, hides what INFO shows. Proved otherwise."
  },
  {
   "property": "C260",
   "status": "proved",
   "theorems": [
    "Verif.Core.vague_posDef",
    "Verif.Core.predict_vague",
    "Verif.Core.reml_vague"
   ],
   "note": "Exact arithmetic; linear-algebra routines are parameters with a stated contract (shown satisfiable)."
  },
  {
   "property": "C261",
   "status": "proved",
   "theorems": [
    "Verif.Core.predict_near_zero",
    "Verif.Core.predict_near_linear",
    "Verif.Core.nll_near",
    "Verif.Core.reml_near",
    "Verif.Core.looZeroMean_near",
    "Verif.Core.looCpd_near",
    "Verif.Core.fisher_near",
    "Verif.Core.jitter_near",
    "Verif.Core.near_uniform_false"
   ],
   "note": "The triangular solves with the computed factor, the products and the sums are exact; the external factorisations, solves and inverses are not."
  },
  {
   "property": "C262",
   "status": "proved",
   "theorems": [
    "Verif.Nuts.da_deficit",
    "Verif.Nuts.da_mean_accept",
    "Verif.Nuts.warmLoop_da",
    "Verif.Nuts.warm_mean_accept",
    "Verif.Nuts.warm_mean_accept_false",
    "Verif.Nuts.da_mean_accept_random"
   ],
   "note": "Real arithmetic; the transition is an arbitrary kernel."
  },
  {
   "property": "C263",
   "status": "proved",
   "theorems": [
    "Verif.SMC.run_consistent",
    "Verif.SMC.run_probability"
   ],
   "note": "The program takes the proposal covariance from the particles; see C264. Temperatures given. Exact arithmetic; linear-algebra routines are parameters with a stated contract (shown satisfiable)."
  },
  {
   "property": "C264",
   "status": "proved",
   "theorems": [
    "Verif.SMC.adaptive_consistent",
    "Verif.SMC.adaptive_total",
    "Verif.SMC.adaptive_probability"
   ],
   "note": "Temperatures given, multinomial resampling, covariance_method normal. Expectations are lower integrals if the factorisation of the normal generator is not a measurable function. Exact arithmetic; linear-algebra routines are parameters with a stated contract (shown satisfiable)."
  },
  {
   "property": "C265",
   "status": "proved",
   "theorems": [
    "Verif.SMC.search_consistent",
    "Verif.SMC.search_total",
    "Verif.SMC.search_probability",
    "Verif.SMC.posterior_consistent",
    "Verif.SMC.smcTarget_temper"
   ],
   "note": "Runs of at most k stages (see C266 for when that is all of them). covariance_method normal. Expectations are lower integrals if the factorisation of the normal generator or the root finder is not measurable. Exact arithmetic; linear-algebra routines are parameters with a stated contract (shown satisfiable)."
  },
  {
   "property": "C266",
   "status": "proved",
   "theorems": [
    "Verif.SMC.search_all",
    "Verif.SMC.posterior_finishes",
    "Verif.SMC.nextEss_progress"
   ],
   "note": "The root finder is a parameter with the contract that its answers lie in the bracket and have a residual of at most the tolerance. Exact arithmetic; linear-algebra routines are parameters with a stated contract (shown satisfiable)."
  },
  {
   "property": "C267",
   "status": "partial",
   "theorems": [
    "Verif.SMC.subset_limit",
    "Verif.SMC.subset_relative",
    "Verif.SMC.subset_biased",
    "Verif.SMC.subset_estimate_false",
    "Verif.SMC.levels_tendsto"
   ],
   "note": "False of the code for boxes of volume other than one: the particles start uniformly in the box with logpx = 0, so the estimate tends to P/volume(box). Proved when log_px is given relative to the uniform law on the box. -1e100 is read as minus infinity, as in double precision its exponential is 0. Exact arithmetic; linear-algebra routines are parameters with a stated contract (shown satisfiable)."
  },
  {
   "property": "C268",
   "status": "proved",
   "theorems": [
    "Verif.MH.scheduler_frozen_converges",
    "Verif.MH.scheduler_frozen",
    "Verif.MH.walk_ergodic",
    "Verif.MH.walk_averages",
    "Verif.MH.runBurnin_sim"
   ],
   "note": "sample_from_selection_criterion_mh does not freeze the adaptation. The draws are standard normal vectors and uniform numbers, independent. The factor of the covariance used by the normal generator is any matrix with the right square. Exact arithmetic; linear-algebra routines are parameters with a stated contract (shown satisfiable)."
  },
  {
   "property": "C269",
   "status": "partial",
   "theorems": [
    "Verif.MH.frozen_stationary",
    "Verif.MH.walk_stationary",
    "Verif.MH.hop_invariant",
    "Verif.MH.adaptive_sampling_false",
    "Verif.MH.adaptive_start",
    "Verif.MH.adaptive_run",
    "Verif.MH.frozen_flat"
   ],
   "note": "False of the code with freeze_adaptation=False (adaptive_sampling_false; adaptive_start shows that the starting law and draws exist). Proved with freeze_adaptation=True. The witness uses an interval of 1 between adaptations; sample_from_selection_criterion_mh fixes it to 50. Exact arithmetic; linear-algebra routines are parameters with a stated contract (shown satisfiable)."
  },
  {
   "property": "C270",
   "status": "partial",
   "theorems": [
    "Verif.Core.selection_min",
    "Verif.Core.ml_attained_false",
    "Verif.Core.reml_unique_false",
    "Verif.Core.reml_bounded_false"
   ],
   "note": "False without bounds on the length scales (ml_attained_false: no best parameter; reml_unique_false: several), and for data in the span of the mean functions (reml_bounded_false). Proved: a best parameter exists for length scales in a bounded closed set and any variance, otherwise. Exact arithmetic; linear-algebra routines are parameters with a stated contract (shown satisfiable)."
  },
  {
   "property": "C271",
   "status": "proved",
   "theorems": [
    "Verif.Core.remap_attained",
    "Verif.Core.remap_attained_two",
    "Verif.Core.reml_lower",
    "Verif.Core.remap_variance_prior_false"
   ],
   "note": "Exact arithmetic; linear-algebra routines are parameters with a stated contract (shown satisfiable)."
  },
  {
   "property": "C272",
   "status": "proved",
   "theorems": [
    "Verif.Nuts.leapfrog_no_drift",
    "Verif.Nuts.transition_normal",
    "Verif.Nuts.leapfrog_unstable",
    "Verif.Nuts.shadow_iterate",
    "Verif.Nuts.shadow_bounds",
    "Verif.Nuts.stable_diagonal",
    "Verif.Nuts.normalTarget_grad"
   ],
   "note": "The mass matrix is diagonal, as in the code; the target is a normal density up to a constant. Exact arithmetic; linear-algebra routines are parameters with a stated contract (shown satisfiable)."
  },
  {
   "property": "C273",
   "status": "proved",
   "theorems": [
    "Verif.Data.batch_sample",
    "Verif.Data.batch_mean_unbiased",
    "Verif.Data.criterion_average",
    "Verif.Data.split_sample",
    "Verif.Data.kfold_sample",
    "Verif.Data.fair_chunk",
    "Verif.Data.fair_variance",
    "Verif.Data.permRng_fair"
   ],
   "note": "The permutations of the backend's generator are assumed equally likely (Fair; permRng_fair is such a generator). k-fold on the numpy backend; C06 says when torch gives the same. Exact arithmetic; linear-algebra routines are parameters with a stated contract (shown satisfiable)."
  },
  {
   "property": "C274",
   "status": "partial",
   "theorems": [
    "Verif.Torch.back_sound",
    "Verif.Torch.grad_eq",
    "Verif.Torch.cov_grad",
    "Verif.Torch.cov_grad_same",
    "Verif.Torch.point_grad",
    "Verif.Torch.pairwise_grad_false",
    "Verif.Torch.point_grad_false",
    "Verif.Torch.custom_sqrt_value"
   ],
   "note": "False of the code for pairwise=True between equal rows of different arrays (pairwise_grad_false) and, for p = 0, with respect to a coinciding point (point_grad_false). Proved otherwise. The local rules of PyTorch's backward pass are part of the model; one entry of the matrix at a time. Exact arithmetic; linear-algebra routines are parameters with a stated contract (shown satisfiable)."
  },
  {
   "property": "C275",
   "status": "partial",
   "theorems": [
    "Verif.Score.crpsA_vec",
    "Verif.Score.ei1A_vec",
    "Verif.Score.ei2A_vec",
    "Verif.Score.tcrpsA_vec",
    "Verif.Score.ei2A_number",
    "Verif.Score.ei2A_column_false",
    "Verif.Score.ei2A_matrix_false",
    "Verif.Score.tcrpsA_bounds_false",
    "Verif.Score.scores_lengths"
   ],
   "note": "False of the code for columns and matrices of predictions and for arrays of bounds (the _false theorems). Proved for vectors and numbers. scipy's bivariate distribution function is a parameter that drops axes of length one from its result. Exact arithmetic; linear-algebra routines are parameters with a stated contract (shown satisfiable)."
  },
  {
   "property": "C276",
   "status": "partial",
   "theorems": [
    "Verif.Core.Noisy.flagged_noisy",
    "Verif.Core.Noisy.plain_noisy",
    "Verif.Core.Noisy.hetero_noisy",
    "Verif.Core.Noisy.custom_noisy",
    "Verif.Core.Noisy.noisy_predict",
    "Verif.Core.Noisy.noisy_target",
    "Verif.Core.Noisy.flagged_target",
    "Verif.Core.Noisy.noisy_repeated",
    "Verif.Core.Noisy.hetero_repeated",
    "Verif.Core.Noisy.noisy_cov_diag",
    "Verif.Core.Noisy.stacked",
    "Verif.Core.Noisy.noisy_paths",
    "Verif.Core.Noisy.plain_cov_false",
    "Verif.Core.Noisy.flagged_same_false"
   ],
   "note": "False of example 07's posterior covariance (plain_cov_false) and of predictions at the very array of the observations (flagged_same_false). Proved otherwise. Exact arithmetic; linear-algebra routines are parameters with a stated contract (shown satisfiable)."
  },
  {
   "property": "C277",
   "status": "partial",
   "theorems": [
    "Verif.Core.remap_proper",
    "Verif.Core.barrier_proper",
    "Verif.Core.box_proper",
    "Verif.Core.weight_logProb",
    "Verif.Core.reml_envelope",
    "Verif.Core.postBarrier_value",
    "Verif.Core.flat_proper_false",
    "Verif.Core.barrier_proper_false"
   ],
   "note": "False without a prior on the ranges and a box (flat_proper_false) and, with the prior on the ranges alone, for data in the span of the mean functions (barrier_proper_false). Proved otherwise. Exact arithmetic; linear-algebra routines are parameters with a stated contract (shown satisfiable)."
  },
  {
   "property": "C278",
   "status": "partial",
   "theorems": [
    "Verif.Core.Sh.index_paths",
    "Verif.Core.Sh.index_paths_mean",
    "Verif.Core.Sh.index_range",
    "Verif.Core.Sh.index_range_target",
    "Verif.Core.Sh.index_mask",
    "Verif.Core.Sh.index_mask_mean",
    "Verif.Core.Sh.index_floats",
    "Verif.Core.Sh.index_floats_cut",
    "Verif.Core.Sh.index_mask_false"
   ],
   "note": "False for xi_ind of conditional_sample_paths, which is converted to integers first: a mask of booleans is read as the row numbers zero and one (index_mask_false), and floating-point indices are cut to integers instead of refused (index_floats_cut). Proved otherwise."
  },
  {
   "property": "C279",
   "status": "proved",
   "theorems": [
    "Verif.Core.Rev.nll_grad",
    "Verif.Core.Rev.reml_grad",
    "Verif.Core.Rev.nllBack_eq",
    "Verif.Core.Rev.nllBack_err",
    "Verif.Core.Rev.recorded_back",
    "Verif.Core.Rev.forward_recorded",
    "Verif.Core.Rev.cholSolveBack_eq",
    "Verif.Core.Rev.leaf_eq"
   ],
   "note": "The backward rules of the matrix operations are those of PyTorch's derivative formulas, written out in Core/Backward.lean. Exact arithmetic; linear-algebra routines are parameters with a stated contract (shown satisfiable)."
  },
  {
   "property": "C280",
   "status": "proved",
   "theorems": [
    "Verif.Core.Rev.post_grad",
    "Verif.Core.Rev.jeffreys_grad",
    "Verif.Core.Rev.powerLaw_grad",
    "Verif.Core.Rev.powerLaw_kink",
    "Verif.Core.Rev.gauss_grad",
    "Verif.Core.Rev.barrier_grad",
    "Verif.Core.Rev.val_barrierE",
    "Verif.Core.Rev.back_barrierE",
    "Verif.Core.Rev.ev_barrierE",
    "Verif.Core.Rev.ev_powerLawE",
    "Verif.Core.Rev.ev_gaussE"
   ],
   "note": "The backward rules are those of PyTorch's derivative formulas, written out in Backend/Autograd.lean and Core/Backward.lean. Exact arithmetic; linear-algebra routines are parameters with a stated contract (shown satisfiable)."
  },
  {
   "property": "C281",
   "status": "proved",
   "theorems": [
    "Verif.Core.Noisy.noisy_ridge",
    "Verif.Core.Noisy.noisy_residuals",
    "Verif.Core.Noisy.noise_monotone",
    "Verif.Core.Noisy.cost_least",
    "Verif.Core.Noisy.energy_diff"
   ],
   "note": "Exact arithmetic; linear-algebra routines are parameters with a stated contract (shown satisfiable)."
  },
  {
   "property": "C282",
   "status": "proved",
   "theorems": [
    "Verif.Core.Noisy.matern_noisy",
    "Verif.Core.Noisy.nugget_error",
    "Verif.Core.Noisy.nugget_limit",
    "Verif.Core.Noisy.nugget_abs",
    "Verif.Core.Noisy.nugget_bound",
    "Verif.Core.Noisy.predict_fit",
    "Verif.Core.Noisy.predict_posDef"
   ],
   "note": "Exact arithmetic; linear-algebra routines are parameters with a stated contract (shown satisfiable)."
  },
  {
   "property": "C283",
   "status": "partial",
   "theorems": [
    "Verif.Core.Obj.fisher_argument",
    "Verif.Core.Obj.fisher_float",
    "Verif.Core.Obj.dCov_int",
    "Verif.Core.Obj.fisher_int_zero",
    "Verif.Core.Obj.fisher_int_false",
    "Verif.Core.Obj.fisher_int_variance"
   ],
   "note": "False for integer arrays (fisher_int_false, fisher_int_variance); proved for float arrays (fisher_float), and dCov_int says what is computed for integers. Steps with 2*epsilon < 1. Exact arithmetic; linear-algebra routines are parameters with a stated contract (shown satisfiable)."
  },
  {
   "property": "C284",
   "status": "proved",
   "theorems": [
    "Verif.Nuts.leapfrog_energy_change",
    "Verif.Nuts.trajectory_energy",
    "Verif.Nuts.stepAlpha_small",
    "Verif.Nuts.findStep_lower",
    "Verif.Nuts.transition_small",
    "Verif.Nuts.wavy_smooth"
   ],
   "note": "Targets finite everywhere with globally Lipschitz gradient and second derivatives (structure Smooth); a box-truncated posterior is not of this kind. Exact arithmetic; linear-algebra routines are parameters with a stated contract (shown satisfiable)."
  },
  {
   "property": "C285",
   "status": "proved",
   "theorems": [
    "Verif.SVGD.svgd_uphill",
    "Verif.SVGD.steepest",
    "Verif.SVGD.gain_deriv",
    "Verif.SVGD.blin_nonneg"
   ],
   "note": "The space of fields is the span of the kernel and its derivatives at the particles. First order in the step only: a finite step may overshoot. Exact arithmetic; linear-algebra routines are parameters with a stated contract (shown satisfiable)."
  },
  {
   "property": "C286",
   "status": "proved",
   "theorems": [
    "Verif.Core.guess_zero_limit",
    "Verif.Core.guess_linear_limit",
    "Verif.Core.guess_constant_limit",
    "Verif.Core.guess_constant_white",
    "Verif.Core.guess_limit",
    "Verif.Core.ranges_const",
    "Verif.Core.exists_sequence"
   ],
   "note": "The ranges of the generating covariance are those guessed; exists_sequence shows that such data exist for every positive definite covariance. Exact arithmetic; linear-algebra routines are parameters with a stated contract (shown satisfiable)."
  },
  {
   "property": "C287",
   "status": "proved",
   "theorems": [
    "Verif.Core.innovations",
    "Verif.Core.sequential_calibration",
    "Verif.Core.long_run",
    "Verif.Core.recursive_residuals",
    "Verif.Core.recursive_calibration"
   ],
   "note": "The mean is zero, parameterized with the true parameters, or a linear predictor. Exact arithmetic; linear-algebra routines are parameters with a stated contract (shown satisfiable)."
  },
  {
   "property": "C288",
   "status": "proved",
   "theorems": [
    "Verif.Core.predictions_converge",
    "Verif.Core.matern_predictions_converge",
    "Verif.Core.matern_noisy_predictions_converge",
    "Verif.Core.linear_predictions_converge",
    "Verif.Core.matern_linear_predictions_converge",
    "Verif.Core.matern_noisy_linear_predictions_converge"
   ],
   "note": "Exact arithmetic; linear-algebra routines are parameters with a stated contract (shown satisfiable)."
  },
  {
   "property": "C289",
   "status": "proved",
   "theorems": [
    "Verif.Core.path_averages"
   ],
   "note": "With the mean functions zero the path conditioned is that of conditional_sample_paths. Draws are a sequence of independent vectors; np is the number used so far. Exact arithmetic; linear-algebra routines are parameters with a stated contract (shown satisfiable)."
  },
  {
   "property": "C290",
   "status": "proved",
   "theorems": [
    "Verif.Core.selection_consistent",
    "Verif.Core.matern_selection_consistent",
    "Verif.Core.reml_selection_consistent",
    "Verif.Core.reml_variance_consistent"
   ],
   "note": "Minimisers are any exact minimisers over the set: the optimiser itself is not modelled as finding one. The number of data sets grows, at fixed points. Exact arithmetic; linear-algebra routines are parameters with a stated contract (shown satisfiable)."
  },
  {
   "property": "C291",
   "status": "proved",
   "theorems": [
    "Verif.Core.cramer_rao",
    "Verif.Core.cramer_rao_reml",
    "Verif.Core.log_variance_bound",
    "Verif.Core.chapman_robbins"
   ],
   "note": "Differentiability of the mean of the statistic is assumed; no conditions for exchanging derivative and integral are needed. For the restricted version statistics are Borel measurable. Exact arithmetic; linear-algebra routines are parameters with a stated contract (shown satisfiable)."
  },
  {
   "property": "C292",
   "status": "proved",
   "theorems": [
    "Verif.Core.guess_efficient",
    "Verif.Core.guess_linear_efficient",
    "Verif.Core.variance_bound"
   ],
   "note": "The correlations of the data are those the guess assumes. In the linear case statistics are Borel measurable. Exact arithmetic; linear-algebra routines are parameters with a stated contract (shown satisfiable)."
  }
 ]
}